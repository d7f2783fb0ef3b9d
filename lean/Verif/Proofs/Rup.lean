import Verif.SpecRup
import Verif.Proofs.CentralityRun

/-! Unit propagation on clause lists, and the clauses learnt from conflicts. -/

namespace Candy

/-! ### Monotonicity -/

/-- Every clause of `S` is subsumed by a clause of `S'`. -/
def Subsumed (S S' : CNF) : Prop := ∀ c ∈ S, ∃ d ∈ S', d ⊆ c

theorem Subsumed.refl (S : CNF) : Subsumed S S := fun c hc => ⟨c, hc, fun _ h => h⟩

theorem Subsumed.trans {S S' S'' : CNF} (h : Subsumed S S') (h' : Subsumed S' S'') : Subsumed S S'' := by
  intro c hc
  obtain ⟨d, hd, h1⟩ := h c hc
  obtain ⟨e, he, h2⟩ := h' d hd
  exact ⟨e, he, fun x hx => h1 (h2 hx)⟩

theorem Subsumed.append {S S' R R' : CNF} (h : Subsumed S S') (h' : Subsumed R R') : Subsumed (S ++ R) (S' ++ R') := by
  intro c hc
  rcases List.mem_append.1 hc with hc | hc
  · obtain ⟨d, hd, h1⟩ := h c hc
    exact ⟨d, List.mem_append_left _ hd, h1⟩
  · obtain ⟨d, hd, h1⟩ := h' c hc
    exact ⟨d, List.mem_append_right _ hd, h1⟩

theorem Subsumed.ofSubset {S S' : CNF} (h : S ⊆ S') : Subsumed S S' := fun c hc => ⟨c, h hc, fun _ h => h⟩

theorem Derives.mono {S S' : CNF} (h : Subsumed S S') {l : Lit} (hd : Derives S l) : Derives S' l ∨ UPConflict S' := by
  induction hd with
  | unit c hc l hl _ ih =>
    apply Classical.byContradiction
    intro hn
    rw [not_or] at hn
    obtain ⟨d, hd, hs⟩ := h c hc
    have hm : ∀ m ∈ d, m ≠ l → Derives S' m.neg := fun m hm hne => (ih m (hs hm) hne).resolve_right hn.2
    by_cases hld : l ∈ d
    · exact hn.1 (.unit d hd l hld hm)
    · exact hn.2 ⟨d, hd, fun m hmd => hm m hmd fun e => hld (e ▸ hmd)⟩

theorem UPConflict.mono {S S' : CNF} (h : Subsumed S S') (hc : UPConflict S) : UPConflict S' := by
  obtain ⟨c, hc, hm⟩ := hc
  apply Classical.byContradiction
  intro hn
  obtain ⟨d, hd, hs⟩ := h c hc
  exact hn ⟨d, hd, fun m hmd => ((hm m (hs hmd)).mono h).resolve_right hn⟩

theorem RUP.mono {S S' : CNF} {C : Clause} (h : Subsumed S S') (hc : RUP S C) : RUP S' C :=
  UPConflict.mono (h.append (.refl _)) hc

theorem UPConflict.rup {S : CNF} (h : UPConflict S) (C : Clause) : RUP S C :=
  h.mono (.ofSubset fun _ hc => List.mem_append_left _ hc)

/-- A clause that is present can be added again. -/
theorem RUP.ofMem {S : CNF} {C d : Clause} (hd : d ∈ S) (hs : d ⊆ C) : RUP S C := by
  refine ⟨d, List.mem_append_left _ hd, fun m hm => ?_⟩
  refine .unit [m.neg] (List.mem_append_right _ (List.mem_map.2 ⟨m, hs hm, rfl⟩)) _ (by simp) ?_
  intro x hx hne
  exact (hne (List.mem_singleton.1 hx)).elim

/-- Adding a derived literal. -/
theorem RUP.ofDerives {S : CNF} {l : Lit} (h : Derives S l ∨ UPConflict S) : RUP S [l] := by
  have hs : Subsumed S (S ++ [l].map fun l => [l.neg]) := .ofSubset fun _ hc => List.mem_append_left _ hc
  rcases h with h | h
  · rcases h.mono hs with h | h
    · exact ⟨[l.neg], by simp, fun m hm => by rw [List.mem_singleton.1 hm, Lit.neg_neg]; exact h⟩
    · exact h
  · exact h.mono hs

/-! ### Counting clauses up to the order of their literals -/

/-- Every clause occurs in `S'` at least as often as in `S`, up to the order of literals. -/
def CLe (S S' : CNF) : Prop := ∀ k : Clause, S.countP (fun d => d.isPerm k) ≤ S'.countP (fun d => d.isPerm k)

theorem CLe.refl (S : CNF) : CLe S S := fun _ => Nat.le_refl _
theorem CLe.trans {S S' S'' : CNF} (h : CLe S S') (h' : CLe S' S'') : CLe S S'' :=
  fun k => Nat.le_trans (h k) (h' k)

theorem CLe.append {S S' R R' : CNF} (h : CLe S S') (h' : CLe R R') : CLe (S ++ R) (S' ++ R') := by
  intro k
  rw [List.countP_append, List.countP_append]
  exact Nat.add_le_add (h k) (h' k)

theorem CLe.ofPerm {S S' : CNF} (h : S.Perm S') : CLe S S' := fun _ => Nat.le_of_eq (h.countP_eq _)

theorem CLe.left (S R : CNF) : CLe S (S ++ R) := by
  intro k; rw [List.countP_append]; omega

theorem CLe.mem {S S' : CNF} (h : CLe S S') {c : Clause} (hc : c ∈ S) : ∃ d ∈ S', d.Perm c := by
  have h1 : 0 < S.countP (fun d => d.isPerm c) :=
    List.countP_pos_iff.2 ⟨c, hc, List.isPerm_iff.2 (List.Perm.refl _)⟩
  obtain ⟨d, hd, hp⟩ := List.countP_pos_iff.1 (Nat.lt_of_lt_of_le h1 (h c))
  exact ⟨d, hd, List.isPerm_iff.1 hp⟩

theorem CLe.subsumed {S S' : CNF} (h : CLe S S') : Subsumed S S' := by
  intro c hc
  obtain ⟨d, hd, hp⟩ := h.mem hc
  exact ⟨d, hd, fun x hx => hp.mem_iff.1 hx⟩

theorem countP_eraseP_perm (k c : Clause) : ∀ S : CNF, (∃ d ∈ S, d.Perm c) →
    (S.eraseP fun d => d.isPerm c).countP (fun d => d.isPerm k) + (if c.isPerm k then 1 else 0) =
      S.countP fun d => d.isPerm k
  | [], h => by obtain ⟨d, hd, -⟩ := h; cases hd
  | d :: S, h => by
    by_cases hp : d.isPerm c = true
    · rw [List.eraseP_cons_of_pos (p := fun d : Clause => d.isPerm c) hp, List.countP_cons]
      have : d.isPerm k = c.isPerm k := by
        rw [Bool.eq_iff_iff, List.isPerm_iff, List.isPerm_iff]
        have := List.isPerm_iff.1 hp
        exact ⟨fun h => this.symm.trans h, fun h => this.trans h⟩
      rw [this]
    · rw [List.eraseP_cons_of_neg (p := fun d : Clause => d.isPerm c) hp, List.countP_cons, List.countP_cons]
      have ih := countP_eraseP_perm k c S (by
        obtain ⟨e, he, hpe⟩ := h
        rcases List.mem_cons.1 he with rfl | he
        · exact (hp (List.isPerm_iff.2 hpe)).elim
        · exact ⟨e, he, hpe⟩)
      omega

theorem CLe.erase {S S' : CNF} (h : CLe S S') {c : Clause} (hc : ∃ d ∈ S, d.Perm c) :
    CLe (S.eraseP fun d => d.isPerm c) (S'.eraseP fun d => d.isPerm c) := by
  intro k
  have h1 := countP_eraseP_perm k c S hc
  have h2 := countP_eraseP_perm k c S' (by
    obtain ⟨d, hd, hp⟩ := hc
    obtain ⟨e, he, hp'⟩ := h.mem hd
    exact ⟨e, he, hp'.trans hp⟩)
  have := h k
  omega

/-- Removing a clause on the left, up to order. -/
theorem CLe.eraseR {S S' : CNF} {c : Clause} (h : CLe (c :: S) S') : CLe S (S'.eraseP fun d => d.isPerm c) := by
  have := h.erase (c := c) ⟨c, by simp, .refl _⟩
  rwa [List.eraseP_cons_of_pos (p := fun d : Clause => d.isPerm c) (List.isPerm_iff.2 (.refl c))] at this

theorem Checks.mono : ∀ {log : List ProofLine} {S S' : CNF}, CLe S S' → Checks S log →
    Checks S' log ∧ CLe (present S log) (present S' log)
  | [], _, _, h, _ => ⟨trivial, h⟩
  | .add c :: log, S, S', h, hc => by
    obtain ⟨h1, h2⟩ := Checks.mono (h.append (.refl [c])) hc.2
    exact ⟨⟨hc.1.mono h.subsumed, h1⟩, h2⟩
  | .empty :: log, S, S', h, hc => by
    obtain ⟨h1, h2⟩ := Checks.mono (h.append (.refl [[]])) hc.2
    exact ⟨⟨hc.1.mono h.subsumed, h1⟩, h2⟩
  | .del c :: log, S, S', h, hc => by
    obtain ⟨h1, h2⟩ := Checks.mono (h.erase hc.1) hc.2
    refine ⟨⟨?_, h1⟩, h2⟩
    obtain ⟨d, hd, hp⟩ := hc.1
    obtain ⟨e, he, hp'⟩ := h.mem hd
    exact ⟨e, he, hp'.trans hp⟩

/-- New clauses of the caller stay present. -/
theorem Checks.grow : ∀ {log : List ProofLine} {S S' G : CNF}, CLe (S ++ G) S' → Checks S log →
    Checks S' log ∧ CLe (present S log ++ G) (present S' log)
  | [], _, _, _, h, _ => ⟨trivial, h⟩
  | .add c :: log, S, S', G, h, hc => by
    obtain ⟨h1, h2⟩ := Checks.grow (S := S ++ [c]) (S' := S' ++ [c]) (G := G) (by
      refine CLe.trans ?_ (h.append (.refl [c]))
      refine CLe.ofPerm ?_
      rw [List.append_assoc, List.append_assoc]
      exact List.Perm.append_left S List.perm_append_comm) hc.2
    exact ⟨⟨hc.1.mono ((CLe.left S G).trans h).subsumed, h1⟩, h2⟩
  | .empty :: log, S, S', G, h, hc => by
    obtain ⟨h1, h2⟩ := Checks.grow (S := S ++ [[]]) (S' := S' ++ [[]]) (G := G) (by
      refine CLe.trans ?_ (h.append (.refl [[]]))
      refine CLe.ofPerm ?_
      rw [List.append_assoc, List.append_assoc]
      exact List.Perm.append_left S List.perm_append_comm) hc.2
    exact ⟨⟨hc.1.mono ((CLe.left S G).trans h).subsumed, h1⟩, h2⟩
  | .del c :: log, S, S', G, h, hc => by
    obtain ⟨d, hd, hp⟩ := hc.1
    have he : (S ++ G).eraseP (fun d => d.isPerm c) = S.eraseP (fun d => d.isPerm c) ++ G :=
      List.eraseP_append_left (p := fun d : Clause => d.isPerm c) (List.isPerm_iff.2 hp) _ hd
    have h1 := h.erase (c := c) ⟨d, List.mem_append_left _ hd, hp⟩
    rw [he] at h1
    obtain ⟨h2, h3⟩ := Checks.grow h1 hc.2
    refine ⟨⟨?_, h2⟩, h3⟩
    obtain ⟨e, he, hp'⟩ := ((CLe.left S G).trans h).mem hd
    exact ⟨e, he, hp'.trans hp⟩

theorem Checks_append : ∀ {log log' : List ProofLine} {S : CNF},
    Checks S (log ++ log') ↔ Checks S log ∧ Checks (present S log) log'
  | [], _, _ => by simp [Checks, present]
  | .add c :: log, log', S => by
    show RUP S c ∧ Checks _ (log ++ log') ↔ (RUP S c ∧ Checks _ log) ∧ Checks (present (S ++ [c]) log) log'
    rw [Checks_append, and_assoc]
  | .empty :: log, log', S => by
    show RUP S [] ∧ Checks _ (log ++ log') ↔ (RUP S [] ∧ Checks _ log) ∧ Checks (present (S ++ [[]]) log) log'
    rw [Checks_append, and_assoc]
  | .del c :: log, log', S => by
    show _ ∧ Checks _ (log ++ log') ↔ (_ ∧ Checks _ log) ∧ Checks (present (S.eraseP _) log) log'
    rw [Checks_append, and_assoc]

theorem present_append : ∀ {log log' : List ProofLine} {S : CNF},
    present S (log ++ log') = present (present S log) log'
  | [], _, _ => rfl
  | .add _ :: log, _, _ => present_append (log := log)
  | .empty :: log, _, _ => present_append (log := log)
  | .del _ :: log, _, _ => present_append (log := log)

/-! ### Conflict analysis looks only at reasons and the conflict -/

section Congr
variable {store store' : Nat → Cls} {T : Trail} {A : Nat → Prop}

/-- The clauses at reasons of variables in `A` agree, and have their variables in `A`. -/
def SameReasons (A : Nat → Prop) (T : Trail) (store store' : Nat → Cls) : Prop :=
  ∀ v c, A v → T.reason v = some c → store' c = store c ∧ ClsIn A store c

theorem analyzeLoop_congr (hA : SameReasons A T store store') :
    ∀ (fuel confl : Nat) (a : Option Lit) (R : List Lit) (st : AS), store' confl = store confl → ClsIn A store confl →
      (∀ l ∈ R, A l.var) → (∀ l ∈ st.learnt, A l.var) →
      analyzeLoop store' T fuel confl a R st = analyzeLoop store T fuel confl a R st ∧
      ∀ p st', analyzeLoop store T fuel confl a R st = some (p, st') → ∀ l ∈ st'.learnt, A l.var
  | 0, _, _, _, _, _, _, _, _ => ⟨rfl, by intro p st' h; cases h⟩
  | fuel + 1, confl, a, R, st, hc, hcA, hR, hl => by
    rw [analyzeLoop, analyzeLoop, hc]
    dsimp only
    obtain ⟨l1, -⟩ := scanClause_learnt (T := T) a (store confl).lits { st with involved := st.involved ++ [confl] }
    generalize scanClause T a (store confl).lits { st with involved := st.involved ++ [confl] } = st1 at l1 ⊢
    have k2 : ∀ l ∈ st1.learnt, A l.var := by
      intro l hl'
      rcases l1 l hl' with h | h
      · exact hl l h
      · exact hcA l h
    cases hd : R.dropWhile (fun l => !st1.stamp l.var) with
    | nil => exact ⟨rfl, by intro p st' h; cases h⟩
    | cons p R' =>
      dsimp only
      have hsub : ∀ l ∈ p :: R', A l.var := fun l hl' =>
        hR l ((List.dropWhile_sublist (l := R) fun l => !st1.stamp l.var).subset (hd ▸ hl'))
      split
      · cases hr : T.reason p.var with
        | none => exact ⟨rfl, by intro p st' h; cases h⟩
        | some c =>
          dsimp only
          obtain ⟨e1, e2⟩ := hA _ c (hsub p (by simp)) hr
          exact analyzeLoop_congr hA fuel c _ _ _ e1 e2 hsub k2
      · refine ⟨rfl, ?_⟩
        intro q st' h
        cases h
        exact k2

theorem redScan_in (absl : Nat) : ∀ (ls : List Lit) (r r' : RS), (∀ l ∈ ls, A l.var) → (∀ v ∈ r.stack, A v) →
    redScan T absl ls r = (r', true) → ∀ v ∈ r'.stack, A v
  | [], r, r', _, h, he => by
    rw [redScan] at he; cases he; exact h
  | l :: ls, r, r', hl, h, he => by
    rw [redScan] at he
    split at he
    · split at he
      · refine redScan_in absl ls _ r' (fun x hx => hl x (by simp [hx])) ?_ he
        intro v hv
        rcases List.mem_cons.1 hv with rfl | hv
        · exact hl l (by simp)
        · exact h v hv
      · cases he
    · exact redScan_in absl ls _ r' (fun x hx => hl x (by simp [hx])) h he

theorem litRedundantLoop_congr (hA : SameReasons A T store store') (absl : Nat) : ∀ (fuel : Nat) (r : RS),
    (∀ v ∈ r.stack, A v) → litRedundantLoop store' T absl fuel r = litRedundantLoop store T absl fuel r
  | 0, _, _ => rfl
  | fuel + 1, r, h => by
    rw [litRedundantLoop, litRedundantLoop]
    cases hs : r.stack with
    | nil => rfl
    | cons v rest =>
      dsimp only
      rw [hs] at h
      cases hr : T.reason v with
      | none => rfl
      | some c =>
        dsimp only
        obtain ⟨e1, e2⟩ := hA v c (h v (by simp)) hr
        rw [e1]
        cases hd : redScan T absl (store c).lits { r with stack := rest } with
        | mk r' b =>
          cases b with
          | false => rfl
          | true =>
            exact litRedundantLoop_congr hA absl fuel r'
              (redScan_in absl _ _ r' e2 (fun v hv => h v (by simp [show v ∈ rest from hv])) hd)

theorem minimizeLoop_congr (hA : SameReasons A T store store') (absl : Nat) : ∀ (ls out : List Lit) (stamp : Nat → Bool),
    (∀ l ∈ ls, A l.var) → minimizeLoop store' T absl ls out stamp = minimizeLoop store T absl ls out stamp
  | [], _, _, _ => rfl
  | l :: ls, out, stamp, h => by
    have hls : ∀ x ∈ ls, A x.var := fun x hx => h x (by simp [hx])
    rw [minimizeLoop, minimizeLoop]
    cases hr : T.reason l.var with
    | none => exact minimizeLoop_congr hA absl ls _ _ hls
    | some c =>
      dsimp only
      rw [litRedundantLoop_congr hA absl _ _ (by intro v hv; rw [List.mem_singleton.1 hv]; exact h l (by simp))]
      cases hd : litRedundantLoop store T absl (T.stack.length + 2) ⟨stamp, [l.var], []⟩ with
      | none => rfl
      | some x =>
        obtain ⟨s', b⟩ := x
        cases b with
        | false => exact minimizeLoop_congr hA absl ls _ _ hls
        | true => exact minimizeLoop_congr hA absl ls _ _ hls

theorem stampFold_filter (T : Trail) (P : Watcher → Bool) : ∀ (ws : List Watcher) (s : Nat → Bool),
    (∀ w ∈ ws, T.satisfies w.blocker = true → P w = true) →
    (ws.filter P).foldl (fun s w => if T.satisfies w.blocker then upd s w.blocker.var true else s) s =
      ws.foldl (fun s w => if T.satisfies w.blocker then upd s w.blocker.var true else s) s
  | [], _, _ => rfl
  | w :: ws, s, h => by
    have ih := fun s => stampFold_filter T P ws s (fun x hx => h x (by simp [hx]))
    rw [List.foldl_cons]
    cases hP : P w with
    | true => rw [List.filter_cons_of_pos hP, List.foldl_cons]; exact ih _
    | false =>
      rw [List.filter_cons_of_neg (by simp [hP]), ih]
      have : T.satisfies w.blocker = false := by
        cases hs : T.satisfies w.blocker with
        | false => rfl
        | true => rw [h w (by simp) hs] at hP; cases hP
      rw [this]; rfl

theorem analyzeLoop_mem : ∀ (fuel confl : Nat) (a : Option Lit) (R : List Lit) (st : AS) (p : Lit) (st' : AS),
    analyzeLoop store T fuel confl a R st = some (p, st') → p ∈ R
  | 0, _, _, _, _, _, _, he => by cases he
  | fuel + 1, confl, a, R, st, p, st', he => by
    rw [analyzeLoop] at he
    dsimp only at he
    generalize scanClause T a (store confl).lits { st with involved := st.involved ++ [confl] } = st1 at he
    split at he
    · cases he
    · next q R' hd =>
      have hsub : ∀ l ∈ q :: R', l ∈ R := fun l hl' =>
        (List.dropWhile_sublist (l := R) fun l => !st1.stamp l.var).subset (hd ▸ hl')
      split at he
      · split at he
        · cases he
        · exact hsub _ (analyzeLoop_mem fuel _ _ _ _ _ _ he)
      · cases he; exact hsub _ (by simp)

/-- Conflict analysis with other clauses and without the watchers that do not matter. -/
theorem handleConflict_congr (hA : SameReasons A T store store') {confl : Nat} (hc : store' confl = store confl)
    (hcA : ClsIn A store confl) (hR : ∀ l ∈ T.stack, A l.var) {bin : Lit → List Watcher} {P : Watcher → Bool}
    (hP : ∀ p ∈ T.stack, ∀ w ∈ bin p, T.satisfies w.blocker = true → P w = true) {r : AnalysisResult}
    (he : handleConflict store bin T confl = some r) :
    handleConflict store' (fun p => (bin p).filter P) T confl = some r := by
  obtain ⟨c1, c2⟩ := analyzeLoop_congr hA (T.stack.length + 1) confl none T.stack.reverse ⟨fun _ => false, 0, [], []⟩ hc hcA
    (fun l hl => hR l (List.mem_reverse.1 hl)) (by simp)
  rw [← he]
  unfold handleConflict analyze
  rw [c1]
  cases hd : analyzeLoop store T (T.stack.length + 1) confl none T.stack.reverse ⟨fun _ => false, 0, [], []⟩ with
  | none => rfl
  | some x =>
    obtain ⟨p, st⟩ := x
    dsimp only
    unfold minimization
    rw [minimizeLoop_congr hA _ _ _ _ (c2 p st hd)]
    cases minimizeLoop store T (st.learnt.foldl (fun a l => a ||| abstractLevel T l.var) 0) st.learnt [] st.stamp with
    | none => rfl
    | some ls =>
      dsimp only
      have hm : minimizeBinary (fun p => (bin p).filter P) T p.neg ls = minimizeBinary bin T p.neg ls := by
        unfold minimizeBinary
        dsimp only
        rw [Lit.neg_neg, stampFold_filter T P _ _ (hP p (List.mem_reverse.1 (analyzeLoop_mem _ _ _ _ _ _ _ hd)))]
      rw [hm]

end Congr

/-! ### Learnt clauses -/

/-- The clauses learnt from conflicts follow by unit propagation. -/
theorem handleConflict_rup {F S : CNF} {nV next : Nat} {bin : Lit → List Watcher} {store : Nat → Cls} {T : Trail}
    {confl : Nat} {r : AnalysisResult} (h : Core F nV next bin store T) (hdl : 0 < T.decisionLevel)
    (hc : Conflict next store T confl) (hs : ∀ c < next, ∃ d ∈ S, d ⊆ (store c).lits)
    (h0 : ∀ l ∈ T.stack, T.level l.var = 0 → T.reason l.var = none → Derives S l ∨ UPConflict S)
    (he : handleConflict store bin T confl = some r) : RUP S r.learnt := by
  apply Classical.byContradiction
  intro hn
  -- the literals derived after assuming that the clause is false
  have hsub : Subsumed S (S ++ r.learnt.map fun l => [l.neg]) := .ofSubset fun _ hc => List.mem_append_left _ hc
  have hclosed : ∀ c < next, ∀ p, (∀ m ∈ (store c).lits, m ≠ p → Derives (S ++ r.learnt.map fun l => [l.neg]) m.neg) →
      p ∈ (store c).lits → Derives (S ++ r.learnt.map fun l => [l.neg]) p := by
    intro c hc p hm _
    obtain ⟨d, hd, hds⟩ := hs c hc
    by_cases hp : p ∈ d
    · exact .unit d (List.mem_append_left _ hd) p hp fun m hmd hne => hm m (hds hmd) hne
    · exact (hn ⟨d, List.mem_append_left _ hd, fun m hmd => hm m (hds hmd) fun e => hp (e ▸ hmd)⟩).elim
  have hopen : ∀ c < next, ∃ m ∈ (store c).lits, ¬ Derives (S ++ r.learnt.map fun l => [l.neg]) m.neg := by
    intro c hc
    apply Classical.byContradiction
    intro hno
    obtain ⟨d, hd, hds⟩ := hs c hc
    refine hn ⟨d, List.mem_append_left _ hd, fun m hmd => ?_⟩
    apply Classical.byContradiction
    intro hx
    exact hno ⟨m, hds hmd, hx⟩
  have hneg : ∀ l ∈ r.learnt, Derives (S ++ r.learnt.map fun l => [l.neg]) l.neg := by
    intro l hl
    refine .unit [l.neg] (List.mem_append_right _ (List.mem_map.2 ⟨l, hl, rfl⟩)) _ (by simp) ?_
    intro x hx hne
    exact (hne (List.mem_singleton.1 hx)).elim
  have h00 : ∀ l ∈ T.stack, T.level l.var = 0 → T.reason l.var = none →
      Derives (S ++ r.learnt.map fun l => [l.neg]) l := by
    intro l hl h1 h2
    rcases h0 l hl h1 h2 with h | h
    · exact (h.mono hsub).resolve_right hn
    · exact (hn (h.mono hsub)).elim
  generalize hD : Derives (S ++ r.learnt.map fun l => [l.neg]) = D at hclosed hopen hneg h00
  classical
  -- an assignment that makes exactly the derived literals of the trail true
  let x : Assign := fun v => match T.assigns v with
    | some b => if D ⟨v, !b⟩ then b else !b
    | none => true
  have hx : ∀ l ∈ T.stack, (l.holds x ↔ D l) := by
    intro l hl
    have hv := (h.tinv.val l).2 hl
    have ha : T.assigns l.var = some (!l.sign) := by
      unfold Trail.value at hv
      cases hb : T.assigns l.var with
      | none => rw [hb] at hv; cases hv
      | some b =>
        rw [hb] at hv
        dsimp only at hv
        cases b <;> cases hsg : l.sign <;> simp [hsg] at hv ⊢
    unfold Lit.holds
    simp only [x, ha, Bool.not_not]
    have el : (⟨l.var, l.sign⟩ : Lit) = l := rfl
    rw [el]
    split
    · next hd => simp [hd]
    · next hd => simp [hd]
  have hxn : ∀ l : Lit, l.neg ∈ T.stack → ¬ D l.neg → l.holds x := by
    intro l hl hd
    have : ¬ l.neg.holds x := fun hh => hd ((hx _ hl).1 hh)
    rwa [Lit.holds_neg, Classical.not_not] at this
  have hconf : SatClause x (store confl).lits := by
    obtain ⟨m, hm, hd⟩ := hopen confl hc.lt
    exact ⟨m, hm, hxn m (hc.allFalse m hm) hd⟩
  have hreason : ∀ pre p post c, T.stack = pre ++ p :: post → T.reason p.var = some c →
      SatClause x (store c).lits := by
    intro pre p post c e1 e2
    obtain ⟨k1, k2, k3⟩ := h.rsome pre p post c e1 e2
    by_cases hall : ∀ m ∈ (store c).lits, m ≠ p → D m.neg
    · exact ⟨p, k2, (hx p (by rw [e1]; simp)).2 (hclosed c k1 p hall k2)⟩
    · simp only [Classical.not_forall] at hall
      obtain ⟨m, hm, hne, hd⟩ := hall
      exact ⟨m, hm, hxn m (by rw [e1]; exact List.mem_append_left _ (k3 m hm hne)) hd⟩
  let store' : Nat → Cls := fun c => if SatClause x (store c).lits then store c else store confl
  have hst : ∀ c, SatClause x (store c).lits → store' c = store c := fun c h => if_pos h
  have hst2 : ∀ c, store' c = store c ∨ store' c = store confl := by
    intro c
    simp only [store']
    split
    · exact .inl rfl
    · exact .inr rfl
  have hst3 : ∀ c, SatClause x (store' c).lits := by
    intro c
    simp only [store']
    split
    · next h => exact h
    · exact hconf
  let P : Watcher → Bool := fun w => decide (SatClause x (store w.cref).lits)
  let F' : CNF := (List.range next).map (fun c => (store' c).lits) ++
    (T.stack.filter fun l => decide (T.level l.var = 0 ∧ T.reason l.var = none)).map fun l => [l]
  have hF' : Sat x F' := by
    intro c hc
    rcases List.mem_append.1 hc with hc | hc
    · obtain ⟨i, -, rfl⟩ := List.mem_map.1 hc
      exact hst3 i
    · obtain ⟨l, hl, rfl⟩ := List.mem_map.1 hc
      obtain ⟨h1, h2⟩ := List.mem_filter.1 hl
      have h2 := of_decide_eq_true h2
      exact ⟨l, by simp, (hx l h1).2 (h00 l h1 h2.1 h2.2)⟩
  have hcore : Core F' nV next (fun p => (bin p).filter P) store' T := {
    tinv := h.tinv
    nv := h.nv
    wf := by
      intro c hlt l hl
      rcases hst2 c with e | e <;> rw [e] at hl
      · exact h.wf c hlt l hl
      · exact h.wf confl hc.lt l hl
    nd := by
      intro c hlt
      rcases hst2 c with e | e <;> rw [e]
      · exact h.nd c hlt
      · exact h.nd confl hc.lt
    ent := by
      intro c hlt a ha
      exact ha _ (List.mem_append_left _ (List.mem_map.2 ⟨c, List.mem_range.2 hlt, rfl⟩))
    rsome := by
      intro pre p post c e1 e2
      rw [hst c (hreason pre p post c e1 e2)]
      exact h.rsome pre p post c e1 e2
    rnone := by
      intro pre p post e1 e2
      rcases h.rnone pre p post e1 e2 with ⟨k1, -⟩ | k
      · left
        refine ⟨k1, fun a ha => ?_⟩
        refine ha _ (List.mem_append_right _ (List.mem_map.2 ⟨p, List.mem_filter.2 ⟨by rw [e1]; simp, ?_⟩, rfl⟩))
        exact decide_eq_true ⟨by omega, e2⟩
      · exact .inr k
    binInv := by
      intro p w hw
      obtain ⟨h1, h2⟩ := List.mem_filter.1 hw
      rw [hst w.cref (of_decide_eq_true h2)]
      exact h.binInv p w h1 }
  have hc' : Conflict next store' T confl := by
    have e := hst confl hconf
    exact ⟨hc.lt, by rw [e]; exact hc.allFalse, by rw [e]; exact hc.top⟩
  have hA : SameReasons (fun v => ∃ l ∈ T.stack, l.var = v) T store store' := by
    rintro v c ⟨p, hp, rfl⟩ hr
    obtain ⟨pre, post, e1⟩ := List.append_of_mem hp
    refine ⟨hst c (hreason pre p post c e1 hr), ?_⟩
    intro l hl
    obtain ⟨-, -, k3⟩ := h.rsome pre p post c e1 hr
    by_cases e : l = p
    · exact ⟨p, hp, by rw [e]⟩
    · exact ⟨l.neg, by rw [e1]; exact List.mem_append_left _ (k3 l hl e), Lit.var_neg l⟩
  have he' := handleConflict_congr hA (hst confl hconf)
    (fun l hl => ⟨l.neg, hc.allFalse l hl, Lit.var_neg l⟩) (fun l hl => ⟨l, hl, rfl⟩) (bin := bin) (P := P) (by
      intro p hp w hw hb
      refine decide_eq_true ?_
      obtain ⟨k1, k2⟩ := h.binInv p w hw
      have hb : w.blocker ∈ T.stack := by
        rw [← h.tinv.val]; simpa [Trail.satisfies] using hb
      have hmem : ∀ m, m ∈ (store w.cref).lits ↔ m = p.neg ∨ m = w.blocker := by
        intro m
        rcases k2 with e | e <;> rw [e] <;> simp [or_comm]
      by_cases hd : D p
      · refine ⟨w.blocker, (hmem _).2 (.inr rfl), (hx _ hb).2 ?_⟩
        refine hclosed w.cref k1 _ ?_ ((hmem _).2 (.inr rfl))
        intro m hm hne
        rcases (hmem m).1 hm with rfl | rfl
        · rw [Lit.neg_neg]; exact hd
        · exact (hne rfl).elim
      · exact ⟨p.neg, (hmem _).2 (.inl rfl), hxn _ (by rw [Lit.neg_neg]; exact hp) (by rw [Lit.neg_neg]; exact hd)⟩) he
  obtain ⟨r', h1, h2⟩ := handleConflict_spec hcore hdl hc'
  rw [he'] at h1
  cases h1
  obtain ⟨l, hl, hh⟩ := h2.ent x hF'
  obtain ⟨first, rest, e1, e2, -, e3, -⟩ := h2.shape
  have hlt : l.neg ∈ T.stack := by
    rw [e1] at hl
    rcases List.mem_cons.1 hl with rfl | hl
    · exact e2
    · exact (e3 l hl).1
  exact Lit.holds_neg.1 ((hx _ hlt).2 (hneg l hl)) hh

end Candy
