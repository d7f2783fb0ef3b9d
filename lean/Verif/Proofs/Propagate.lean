import Verif.Proofs.Trail

/-! Invariants of the clause store, trail and watch lists, and the propagation theorem. -/

namespace Candy

/-- Invariant that makes propagation and conflict analysis sound. Literals without reason up to
level `base` are entailed; above, they are the first literal of their level. -/
structure CoreB (base : Nat) (F : CNF) (nV next : Nat) (bin : Lit → List Watcher) (store : Nat → Cls)
    (T : Trail) : Prop where
  tinv : T.Inv
  nv : T.nVars = nV
  wf : ∀ c < next, ∀ l ∈ (store c).lits, l.var < nV
  nd : ∀ c < next, ((store c).lits.map Lit.var).Nodup
  ent : ∀ c < next, Entails F (store c).lits
  rsome : ∀ pre p post c, T.stack = pre ++ p :: post → T.reason p.var = some c →
    c < next ∧ p ∈ (store c).lits ∧ ∀ q ∈ (store c).lits, q ≠ p → q.neg ∈ pre
  rnone : ∀ pre p post, T.stack = pre ++ p :: post → T.reason p.var = none →
    (T.level p.var ≤ base ∧ Entails F [p]) ∨
      (base < T.level p.var ∧ T.lim[T.level p.var - 1]? = some pre.length)
  binInv : ∀ p w, w ∈ bin p → w.cref < next ∧
    ((store w.cref).lits = [p.neg, w.blocker] ∨ (store w.cref).lits = [w.blocker, p.neg])

/-- The invariant of search: decisions are made on separate levels. -/
abbrev Core := CoreB 0

/-- Well-formedness of the watch lists. -/
structure WatchInv (next : Nat) (store : Nat → Cls) (watch : Lit → List Watcher) : Prop where
  wmem : ∀ p w, w ∈ watch p → w.cref < next ∧ w.blocker ∈ (store w.cref).lits ∧
    ∃ x y r, (store w.cref).lits = x :: y :: r ∧ r ≠ [] ∧ (x = p.neg ∨ y = p.neg)
  wnd : ∀ p, ((watch p).map Watcher.cref).Nodup

/-- A watched literal that is false and has been propagated is compensated by a true literal of
a level not above it. -/
def SatW (T : Trail) (ls : List Lit) (w : Lit) : Prop :=
  w.neg ∈ T.stack.take T.qhead → ∃ l ∈ ls, l ∈ T.stack ∧ T.level l.var ≤ T.level w.var

/-- Completeness invariant for the clauses in `A`, except for the pairs in `ex`. -/
structure CInv (A : Nat → Prop) (store : Nat → Cls) (watch bin : Lit → List Watcher) (T : Trail)
    (ex : Nat → Lit → Prop) : Prop where
  w1 : ∀ c, A c → ∀ x y r, (store c).lits = x :: y :: r → r ≠ [] →
    (∃ w ∈ watch x.neg, w.cref = c) ∧ (∃ w ∈ watch y.neg, w.cref = c)
  b1 : ∀ c, A c → ∀ x y, (store c).lits = [x, y] →
    (⟨c, y⟩ : Watcher) ∈ bin x.neg ∧ (⟨c, x⟩ : Watcher) ∈ bin y.neg
  w4 : ∀ c, A c → ∀ x y r, (store c).lits = x :: y :: r → ∀ w, (w = x ∨ w = y) →
    ex c w ∨ SatW T (store c).lits w

/-- `T'` extends `T` by propagated literals on the current level. -/
structure TExt (T T' : Trail) : Prop where
  stack : ∃ suf, T'.stack = T.stack ++ suf
  lim : T'.lim = T.lim
  qhead : T.qhead ≤ T'.qhead
  nVars : T'.nVars = T.nVars
  assumptions : T'.assumptions = T.assumptions
  decision : T'.decision = T.decision
  level : ∀ l ∈ T.stack, T'.level l.var = T.level l.var
  reason : ∀ l ∈ T.stack, T'.reason l.var = T.reason l.var
  new : ∀ l ∈ T'.stack, l ∉ T.stack → T'.reason l.var ≠ none

theorem TExt.refl (T : Trail) : TExt T T :=
  ⟨⟨[], by simp⟩, rfl, Nat.le_refl _, rfl, rfl, rfl, fun _ _ => rfl, fun _ _ => rfl,
    fun _ h h' => (h' h).elim⟩

theorem TExt.mem {T T' : Trail} (h : TExt T T') {l : Lit} (hl : l ∈ T.stack) : l ∈ T'.stack := by
  obtain ⟨s, hs⟩ := h.stack; rw [hs]; simp [hl]

theorem TExt.trans {T T' T'' : Trail} (h : TExt T T') (h' : TExt T' T'') : TExt T T'' where
  stack := by
    obtain ⟨s, hs⟩ := h.stack; obtain ⟨s', hs'⟩ := h'.stack
    exact ⟨s ++ s', by rw [hs', hs]; simp⟩
  lim := h'.lim.trans h.lim
  qhead := Nat.le_trans h.qhead h'.qhead
  nVars := h'.nVars.trans h.nVars
  assumptions := h'.assumptions.trans h.assumptions
  decision := h'.decision.trans h.decision
  level l hl := (h'.level l (h.mem hl)).trans (h.level l hl)
  reason l hl := (h'.reason l (h.mem hl)).trans (h.reason l hl)
  new l hl hn := by
    by_cases hm : l ∈ T'.stack
    · rw [h'.reason l hm]; exact h.new l hm hn
    · exact h'.new l hl hm

theorem TExt.decisionLevel {T T' : Trail} (h : TExt T T') : T'.decisionLevel = T.decisionLevel := by
  simp [Trail.decisionLevel, h.lim]

theorem ne_var_of_mem {T : Trail} (h : T.Inv) {p l : Lit} (hp : T.value p = none)
    (hl : l ∈ T.stack) : l.var ≠ p.var := by
  intro hv
  have h2 := (h.assigned_iff l.var).2 ⟨l, hl, rfl⟩
  rw [hv] at h2
  exact h2 ((Trail.value_none_iff T p).1 hp)

theorem TExt.push {T : Trail} (h : T.Inv) {p : Lit} {c : Nat} (hp : T.value p = none) :
    TExt T (T.push p (some c)) where
  stack := ⟨[p], rfl⟩
  lim := rfl
  qhead := Nat.le_refl _
  nVars := rfl
  assumptions := rfl
  decision := rfl
  level l hl := by simp [Trail.push, upd_ne _ _ (ne_var_of_mem h hp hl)]
  reason l hl := by simp [Trail.push, upd_ne _ _ (ne_var_of_mem h hp hl)]
  new l hl hn := by
    simp only [Trail.push, Trail.setValue, List.mem_append, List.mem_singleton] at hl
    rcases hl with hl | rfl
    · exact (hn hl).elim
    · simp [Trail.push]

/-- Only the order of the literals inside clauses has changed. -/
def StoreExt (s s' : Nat → Cls) : Prop :=
  ∀ c, (s' c).lits.Perm (s c).lits ∧ (s' c).weight = (s c).weight

theorem StoreExt.refl (s : Nat → Cls) : StoreExt s s := fun _ => ⟨List.Perm.refl _, rfl⟩
theorem StoreExt.trans {s s' s'' : Nat → Cls} (h : StoreExt s s') (h' : StoreExt s' s'') :
    StoreExt s s'' := fun c => ⟨(h' c).1.trans (h c).1, (h' c).2.trans (h c).2⟩
theorem StoreExt.setLits (s : Nat → Cls) (c : Nat) (ls : List Lit) (h : ls.Perm (s c).lits) :
    StoreExt s (setLits s c ls) := by
  intro d
  by_cases hd : d = c
  · subst hd; simp [Candy.setLits, h]
  · simp [Candy.setLits, hd]

theorem setLits_same (s : Nat → Cls) (c : Nat) (ls : List Lit) : (setLits s c ls c).lits = ls := by
  simp [setLits]
theorem setLits_ne (s : Nat → Cls) {c d : Nat} (ls : List Lit) (h : d ≠ c) :
    setLits s c ls d = s d := by
  simp [setLits, h]

theorem perm_pair {a b : Lit} {l : List Lit} (h : l.Perm [a, b]) : l = [a, b] ∨ l = [b, a] := by
  have hl := h.length_eq
  match l, hl with
  | [x, y], _ =>
    have hx : x ∈ [a, b] := h.subset (by simp)
    have h2 := h
    simp at hx
    rcases hx with rfl | rfl
    · left
      have := (List.perm_cons x).1 h2
      have := this.eq_singleton
      simp at this; subst this; rfl
    · right
      have h3 := h2.trans (List.Perm.swap x a [])
      have := (List.perm_cons x).1 h3
      have := this.eq_singleton
      simp at this; subst this; rfl

variable {base : Nat} {F : CNF} {nV next : Nat} {bin : Lit → List Watcher} {store store' : Nat → Cls} {T : Trail}

theorem CoreB.perm (h : CoreB base F nV next bin store T) (hs : StoreExt store store') :
    CoreB base F nV next bin store' T where
  tinv := h.tinv
  nv := h.nv
  wf c hc l hl := h.wf c hc l ((hs c).1.mem_iff.1 hl)
  nd c hc := ((hs c).1.map _).nodup_iff.2 (h.nd c hc)
  ent c hc := (h.ent c hc).mono fun l hl => (hs c).1.mem_iff.2 hl
  rsome pre p post c h1 h2 := by
    obtain ⟨a, b, d⟩ := h.rsome pre p post c h1 h2
    exact ⟨a, (hs c).1.mem_iff.2 b, fun q hq => d q ((hs c).1.mem_iff.1 hq)⟩
  rnone := h.rnone
  binInv p w hw := by
    obtain ⟨a, b⟩ := h.binInv p w hw
    refine ⟨a, ?_⟩
    have hp := (hs w.cref).1
    rcases b with b | b <;> rw [b] at hp
    · exact perm_pair hp
    · exact (perm_pair hp).symm

theorem CoreB.push (h : CoreB base F nV next bin store T) {p : Lit} {c : Nat} (hp : T.value p = none)
    (hc : c < next) (hm : p ∈ (store c).lits)
    (hf : ∀ q ∈ (store c).lits, q ≠ p → T.value q = some false) :
    CoreB base F nV next bin store (T.push p (some c)) where
  tinv := Trail.push_inv h.tinv hp (by rw [h.nv]; exact h.wf c hc p hm)
  nv := h.nv
  wf := h.wf
  nd := h.nd
  ent := h.ent
  rsome pre q post d hs hr := by
    rcases append_singleton_split hs with ⟨_, rfl, rfl⟩ | ⟨post', _, hs'⟩
    · simp [Trail.push] at hr
      subst hr
      exact ⟨hc, hm, fun x hx hne => (h.tinv.valFalse x).1 (hf x hx hne)⟩
    · have hq : q ∈ T.stack := by rw [hs']; simp
      simp only [Trail.push, upd_ne _ _ (ne_var_of_mem h.tinv hp hq)] at hr
      exact h.rsome pre q post' d hs' hr
  rnone pre q post hs hr := by
    rcases append_singleton_split hs with ⟨_, rfl, rfl⟩ | ⟨post', _, hs'⟩
    · simp [Trail.push] at hr
    · have hq : q ∈ T.stack := by rw [hs']; simp
      have hne := ne_var_of_mem h.tinv hp hq
      simp only [Trail.push, upd_ne _ _ hne] at hr ⊢
      exact h.rnone pre q post' hs' hr
  binInv := h.binInv

theorem SatW.push {ls : List Lit} {w p : Lit} {r : Option Nat} (ht : T.Inv) (hp : T.value p = none)
    (h : SatW T ls w) : SatW (T.push p r) ls w := by
  intro hw
  have htake : (T.push p r).stack.take (T.push p r).qhead = T.stack.take T.qhead := by
    simp only [Trail.push, Trail.setValue]
    rw [List.take_append_of_le_length ht.qle]
  rw [htake] at hw
  obtain ⟨l, hl, hs, hle⟩ := h hw
  refine ⟨l, hl, by simp [Trail.push, Trail.setValue, hs], ?_⟩
  have h1 : w.neg.var ≠ p.var := ne_var_of_mem ht hp (List.mem_of_mem_take hw)
  simp only [Trail.push, upd_ne _ _ (ne_var_of_mem ht hp hs)]
  rw [upd_ne _ _ (by simpa using h1)]
  exact hle

theorem SatW.perm {ls ls' : List Lit} {w : Lit} (hp : ls'.Perm ls) (h : SatW T ls w) :
    SatW T ls' w := by
  intro hw
  obtain ⟨l, hl, hs⟩ := h hw
  exact ⟨l, hp.mem_iff.2 hl, hs⟩

theorem CInv.push {A : Nat → Prop} {watch : Lit → List Watcher} {ex : Nat → Lit → Prop} {p : Lit}
    {r : Option Nat} (ht : T.Inv) (hp : T.value p = none) (h : CInv A store watch bin T ex) :
    CInv A store watch bin (T.push p r) ex where
  w1 := h.w1
  b1 := h.b1
  w4 c hc x y rr hl w hw := (h.w4 c hc x y rr hl w hw).imp id (SatW.push ht hp)

theorem CInv.weaken {A : Nat → Prop} {watch : Lit → List Watcher} {ex ex' : Nat → Lit → Prop}
    (h : CInv A store watch bin T ex)
    (hw : ∀ c, A c → ∀ x y r, (store c).lits = x :: y :: r → ∀ w, (w = x ∨ w = y) → ex c w →
      ex' c w ∨ SatW T (store c).lits w) :
    CInv A store watch bin T ex' where
  w1 := h.w1
  b1 := h.b1
  w4 c hc x y r hl w hx := by
    rcases h.w4 c hc x y r hl w hx with h1 | h1
    · exact hw c hc x y r hl w hx h1
    · exact Or.inr h1

/-- Postcondition shared by the propagation functions when they report conflict `c`. -/
structure ConflictL (L : Prop) (next : Nat) (store : Nat → Cls) (T : Trail) (c : Nat) : Prop where
  lt : c < next
  allFalse : ∀ l ∈ (store c).lits, l.neg ∈ T.stack
  top : L → ∃ l ∈ (store c).lits, T.level l.var = T.decisionLevel

/-- A conflict found while the lower levels are completely propagated. -/
abbrev Conflict := ConflictL True

section Binary

variable {L : Prop}

theorem propBinary_spec {p : Lit} {A : Nat → Prop} {watch : Lit → List Watcher} :
    ∀ (ws : List Watcher) (T : Trail), (∀ w ∈ ws, w ∈ bin p) →
      CoreB base F nV next bin store T → p ∈ T.stack → (L → T.level p.var = T.decisionLevel) →
      ∀ T' r, propBinary T ws = (T', r) →
      CoreB base F nV next bin store T' ∧ TExt T T' ∧ T'.qhead = T.qhead ∧
      (∀ c, r = some c → ConflictL L next store T' c) ∧
      (L → CInv A store watch bin T
          (fun c w => w = p.neg ∧ (2 < (store c).lits.length ∨ c ∈ ws.map Watcher.cref)) →
        CInv A store watch bin T' (fun c w => w = p.neg ∧ (2 < (store c).lits.length ∨ r ≠ none)))
  | [], T, _, hc, _, _, T', r, he => by
    simp only [propBinary, Prod.mk.injEq] at he
    obtain ⟨rfl, rfl⟩ := he
    refine ⟨hc, TExt.refl _, rfl, by simp, fun _ h => ?_⟩
    simpa using h
  | w :: ws, T, hb, hc, hp, hlv, T', r, he => by
    have hwb := hc.binInv p w (hb w (by simp))
    have hpv : T.value p.neg = some false := (hc.tinv.valFalse _).2 (by simpa using hp)
    have hlits : ∀ q, q ∈ (store w.cref).lits ↔ q = p.neg ∨ q = w.blocker := by
      intro q; rcases hwb.2 with h | h <;> rw [h] <;> simp [or_comm]
    have hlen : (store w.cref).lits.length = 2 := by rcases hwb.2 with h | h <;> rw [h] <;> rfl
    simp only [propBinary] at he
    split at he
    · -- conflict
      rename_i hv
      simp only [Prod.mk.injEq] at he
      obtain ⟨rfl, rfl⟩ := he
      refine ⟨hc, TExt.refl _, rfl, ?_, fun hL h => h.weaken ?_⟩
      · intro c hceq
        simp at hceq; subst hceq
        refine ⟨hwb.1, ?_, fun hL => ⟨p.neg, (hlits _).2 (Or.inl rfl), by simpa using hlv hL⟩⟩
        intro l hl
        rcases (hlits l).1 hl with rfl | rfl
        · simpa using hp
        · exact (hc.tinv.valFalse _).1 hv
      · intro c _ x y r _ w' _ h1
        exact Or.inl ⟨h1.1, Or.inr (by simp)⟩
    · -- propagate
      rename_i hv
      rw [Trail.propagate_eq_push _ _ _ hv] at he
      have hcore : CoreB base F nV next bin store (T.push w.blocker (some w.cref)) := by
        refine hc.push hv hwb.1 ((hlits _).2 (Or.inr rfl)) ?_
        intro q hq hne
        rcases (hlits q).1 hq with rfl | rfl
        · exact hpv
        · exact (hne rfl).elim
      have hext : TExt T (T.push w.blocker (some w.cref)) := TExt.push hc.tinv hv
      have hlv' : L → (T.push w.blocker (some w.cref)).level p.var =
          (T.push w.blocker (some w.cref)).decisionLevel := by
        intro hL; rw [hext.level p hp, hext.decisionLevel, hlv hL]
      obtain ⟨h1, h2, h3, h4, h5⟩ := propBinary_spec ws _ (fun w' h => hb w' (by simp [h])) hcore
        (hext.mem hp) hlv' T' r he
      refine ⟨h1, hext.trans h2, h3, h4, fun hL h => h5 hL ((h.push hc.tinv hv).weaken ?_)⟩
      intro c _ x y rr hl w' _ hex
      obtain ⟨hw', hex⟩ := hex
      rcases hex with hex | hex
      · exact Or.inl ⟨hw', Or.inl hex⟩
      · simp only [List.map_cons, List.mem_cons] at hex
        rcases hex with rfl | hex
        · right
          intro _
          refine ⟨w.blocker, (hlits _).2 (Or.inr rfl), by simp [Trail.push, Trail.setValue], ?_⟩
          subst hw'
          rw [Lit.var_neg, hlv' hL]
          exact hcore.tinv.level_le (by simp [Trail.push, Trail.setValue])
        · exact Or.inl ⟨hw', Or.inr hex⟩
    · -- already true
      rename_i hv
      obtain ⟨h1, h2, h3, h4, h5⟩ := propBinary_spec ws T (fun w' h => hb w' (by simp [h])) hc hp hlv
        T' r he
      refine ⟨h1, h2, h3, h4, fun hL h => h5 hL (h.weaken ?_)⟩
      intro c _ x y rr hl w' _ hex
      obtain ⟨hw', hex⟩ := hex
      rcases hex with hex | hex
      · exact Or.inl ⟨hw', Or.inl hex⟩
      · simp only [List.map_cons, List.mem_cons] at hex
        rcases hex with rfl | hex
        · right
          intro _
          have hm := (hc.tinv.val _).1 hv
          refine ⟨w.blocker, (hlits _).2 (Or.inr rfl), hm, ?_⟩
          subst hw'
          rw [Lit.var_neg, hlv hL]
          exact hc.tinv.level_le hm
        · exact Or.inl ⟨hw', Or.inr hex⟩

end Binary

section Watched

variable {L : Prop} {A : Nat → Prop} {watch W : Lit → List Watcher} {ex : Nat → Lit → Prop} {p : Lit}

theorem fixFirst_eq {ls : List Lit} {x y : Lit} {r : List Lit} (hls : ls = x :: y :: r)
    (h : x = p.neg ∨ y = p.neg) :
    ∃ first, fixFirst p ls = first :: p.neg :: r ∧
      ((first = x ∧ y = p.neg) ∨ (first = y ∧ x = p.neg)) := by
  subst hls
  unfold fixFirst
  by_cases hx : x = p.neg
  · subst hx
    exact ⟨y, by simp [swapAt_01], Or.inr ⟨rfl, rfl⟩⟩
  · have hy : y = p.neg := h.resolve_left hx
    subst hy
    exact ⟨x, by simp [hx], Or.inl ⟨rfl, rfl⟩⟩

/-- Swapping the two watched literals of a clause keeps the watch invariants. -/
theorem WatchInv.swapTwo (h : WatchInv next store W) {c : Nat} {x y a b : Lit} {r : List Lit}
    (hl : (store c).lits = x :: y :: r) (hab : (a = x ∧ b = y) ∨ (a = y ∧ b = x)) :
    WatchInv next (setLits store c (a :: b :: r)) W where
  wmem q w hw := by
    obtain ⟨h1, h2, x', y', r', h3, h4, h5⟩ := h.wmem q w hw
    by_cases hc : w.cref = c
    · subst hc
      rw [hl] at h3 h2
      simp only [List.cons.injEq] at h3
      obtain ⟨rfl, rfl, rfl⟩ := h3
      rw [setLits_same]
      refine ⟨h1, ?_, a, b, r, rfl, h4, ?_⟩
      · rcases hab with ⟨rfl, rfl⟩ | ⟨rfl, rfl⟩
        · exact h2
        · simp only [List.mem_cons] at h2 ⊢
          rcases h2 with h | h | h <;> simp [h]
      · rcases hab with ⟨rfl, rfl⟩ | ⟨rfl, rfl⟩
        · exact h5
        · exact h5.symm
    · rw [setLits_ne _ _ hc]; exact ⟨h1, h2, x', y', r', h3, h4, h5⟩
  wnd := h.wnd

theorem CInv.swapTwo (h : CInv A store W bin T ex) {c : Nat} {x y a b : Lit} {r : List Lit}
    (hl : (store c).lits = x :: y :: r) (hr : r ≠ []) (hab : (a = x ∧ b = y) ∨ (a = y ∧ b = x)) :
    CInv A (setLits store c (a :: b :: r)) W bin T ex where
  w1 d hd x' y' r' h1 h2 := by
    by_cases hc : d = c
    · subst hc
      rw [setLits_same] at h1
      simp only [List.cons.injEq] at h1
      obtain ⟨rfl, rfl, rfl⟩ := h1
      have := h.w1 d hd x y r hl hr
      rcases hab with ⟨rfl, rfl⟩ | ⟨rfl, rfl⟩
      · exact this
      · exact this.symm
    · rw [setLits_ne _ _ hc] at h1; exact h.w1 d hd x' y' r' h1 h2
  b1 d hd x' y' h1 := by
    by_cases hc : d = c
    · subst hc
      rw [setLits_same] at h1
      simp only [List.cons.injEq] at h1
      exact (hr h1.2.2).elim
    · rw [setLits_ne _ _ hc] at h1; exact h.b1 d hd x' y' h1
  w4 d hd x' y' r' h1 w hw := by
    by_cases hc : d = c
    · subst hc
      rw [setLits_same] at h1 ⊢
      simp only [List.cons.injEq] at h1
      obtain ⟨rfl, rfl, rfl⟩ := h1
      have hperm : (a :: b :: r).Perm (store d).lits := by
        rw [hl]
        rcases hab with ⟨rfl, rfl⟩ | ⟨rfl, rfl⟩
        · exact List.Perm.refl _
        · exact List.Perm.swap _ _ _
      refine (h.w4 d hd x y r hl w ?_).imp id (SatW.perm hperm)
      rcases hab with ⟨rfl, rfl⟩ | ⟨rfl, rfl⟩
      · exact hw
      · exact hw.symm
    · rw [setLits_ne _ _ hc] at h1 ⊢; exact h.w4 d hd x' y' r' h1 w hw

/-- Replacing a blocker by another literal of the clause. -/
theorem WatchInv.replace {kept ws : List Watcher} {w : Watcher} {b : Lit}
    (h : WatchInv next store (upd watch p (kept ++ w :: ws))) (hb : b ∈ (store w.cref).lits) :
    WatchInv next store (upd watch p (kept ++ ⟨w.cref, b⟩ :: ws)) where
  wmem q u hu := by
    by_cases hq : q = p
    · subst hq
      rw [upd_same] at hu
      have hall := h.wmem q
      rw [upd_same] at hall
      rw [List.mem_append, List.mem_cons] at hu
      rcases hu with hu | rfl | hu
      · exact hall u (by simp [hu])
      · obtain ⟨h1, _, h3⟩ := hall w (by simp)
        exact ⟨h1, hb, h3⟩
      · exact hall u (by simp [hu])
    · rw [upd_ne _ _ hq] at hu
      have := h.wmem q u
      rw [upd_ne _ _ hq] at this
      exact this hu
  wnd q := by
    have := h.wnd q
    by_cases hq : q = p
    · subst hq; rw [upd_same] at this ⊢; simpa using this
    · rw [upd_ne _ _ hq] at this ⊢; exact this

theorem mem_cref_upd {l l' : List Watcher} (h : ∀ c, c ∈ l.map Watcher.cref → c ∈ l'.map Watcher.cref)
    {q : Lit} {c : Nat} (hw : ∃ w ∈ (upd watch p l) q, w.cref = c) :
    ∃ w ∈ (upd watch p l') q, w.cref = c := by
  by_cases hq : q = p
  · subst hq
    rw [upd_same] at hw ⊢
    have := h c (List.mem_map.2 hw)
    exact List.mem_map.1 this
  · rw [upd_ne _ _ hq] at hw ⊢; exact hw

theorem CInv.relist {l l' : List Watcher} (h : ∀ c, c ∈ l.map Watcher.cref → c ∈ l'.map Watcher.cref)
    (hc : CInv A store (upd watch p l) bin T ex) : CInv A store (upd watch p l') bin T ex where
  w1 c hA x y r hl hr := (hc.w1 c hA x y r hl hr).imp (mem_cref_upd h) (mem_cref_upd h)
  b1 := hc.b1
  w4 := hc.w4

theorem findWatch_some {ls : List Lit} {a b : Lit} {r : List Lit} {k : Nat} (hls : ls = a :: b :: r)
    (h : findWatch T ls = some k) :
    ∃ n j, k = j + 2 ∧ r[j]? = some n ∧ T.value n ≠ some false ∧
      swapAt ls 1 k = a :: n :: r.set j b := by
  subst hls
  unfold findWatch at h
  simp only [List.drop_succ_cons, List.drop_zero, Option.map_eq_some_iff] at h
  obtain ⟨j, hj, rfl⟩ := h
  rw [List.findIdx?_eq_some_iff_getElem] at hj
  obtain ⟨hlt, hv, _⟩ := hj
  refine ⟨r[j], j, rfl, by simp [hlt], by simpa using hv, ?_⟩
  simp [swapAt, hlt]

theorem findWatch_none {ls : List Lit} {a b : Lit} {r : List Lit} (hls : ls = a :: b :: r)
    (h : findWatch T ls = none) : ∀ l ∈ r, T.value l = some false := by
  subst hls
  unfold findWatch at h
  simp only [List.drop_succ_cons, List.drop_zero, Option.map_eq_none_iff] at h
  rw [List.findIdx?_eq_none_iff] at h
  intro l hl
  have := h l hl
  simpa using this

theorem perm_set_cons {r : List Lit} {j : Nat} {n b : Lit} (h : r[j]? = some n) :
    (n :: r.set j b).Perm (b :: r) := by
  induction r generalizing j with
  | nil => simp at h
  | cons a r ih =>
    cases j with
    | zero =>
      simp at h; subst h
      simp only [List.set_cons_zero]
      exact List.Perm.swap _ _ _
    | succ j =>
      simp only [List.getElem?_cons_succ] at h
      simp only [List.set_cons_succ]
      exact ((List.Perm.swap a n _).trans ((ih h).cons a)).trans (List.Perm.swap b a _)

/-- Moving a watch from `p` to a non-false literal. -/
theorem WatchInv.move {kept ws : List Watcher} {w : Watcher} {first n : Lit} {r r' : List Lit}
    (h : WatchInv next store (upd watch p (kept ++ w :: ws)))
    (hl : (store w.cref).lits = first :: p.neg :: r) (hr' : r' ≠ [])
    (hmem : ∀ l, l ∈ first :: n :: r' ↔ l ∈ first :: p.neg :: r)
    (hnp : n.neg ≠ p) (hnf : n ≠ first) :
    WatchInv next (setLits store w.cref (first :: n :: r'))
      (upd (upd watch n.neg (watch n.neg ++ [⟨w.cref, first⟩])) p (kept ++ ws)) := by
  have hnd := h.wnd p
  rw [upd_same] at hnd
  have hnotin : ∀ u ∈ kept ++ ws, u.cref ≠ w.cref := by
    intro u hu he
    simp only [List.map_append, List.map_cons, List.nodup_append, List.nodup_cons] at hnd
    rw [List.mem_append] at hu
    rcases hu with hu | hu
    · exact hnd.2.2 u.cref (List.mem_map_of_mem hu) w.cref (by simp) he
    · exact hnd.2.1.1 (he ▸ List.mem_map_of_mem hu)
  have hw0 : w.cref < next := (h.wmem p w (by rw [upd_same]; simp)).1
  constructor
  · intro q u hu
    have key : ∀ u, u ∈ (upd watch p (kept ++ w :: ws)) q → (q = p → u.cref ≠ w.cref) →
        u.cref < next ∧ u.blocker ∈ (setLits store w.cref (first :: n :: r') u.cref).lits ∧
        ∃ x y rr, (setLits store w.cref (first :: n :: r') u.cref).lits = x :: y :: rr ∧ rr ≠ [] ∧
          (x = q.neg ∨ y = q.neg) := by
      intro u hu hne
      obtain ⟨h1, h2, x, y, rr, h3, h4, h5⟩ := h.wmem q u hu
      by_cases hc : u.cref = w.cref
      · rw [hc, setLits_same]
        rw [hc, hl] at h3 h2
        simp only [List.cons.injEq] at h3
        obtain ⟨rfl, rfl, rfl⟩ := h3
        refine ⟨hw0, (hmem _).2 h2, first, n, r', rfl, hr', ?_⟩
        rcases h5 with h5 | h5
        · exact Or.inl h5
        · have : q = p := (Lit.neg_inj.1 h5).symm
          exact (hne this hc).elim
      · rw [setLits_ne _ _ hc]; exact ⟨h1, h2, x, y, rr, h3, h4, h5⟩
    by_cases hq : q = p
    · subst hq
      rw [upd_same] at hu
      refine key u ?_ fun _ => hnotin u hu
      rw [upd_same]
      rw [List.mem_append] at hu
      rcases hu with hu | hu <;> simp [hu]
    · rw [upd_ne _ _ hq] at hu
      by_cases hq2 : q = n.neg
      · subst hq2
        rw [upd_same, List.mem_append, List.mem_singleton] at hu
        rcases hu with hu | rfl
        · exact key u (by rw [upd_ne _ _ hq]; exact hu) fun h => (hq h).elim
        · rw [setLits_same]
          exact ⟨hw0, by simp, first, n, r', rfl, hr', Or.inr (by simp)⟩
      · rw [upd_ne _ _ hq2] at hu
        exact key u (by rw [upd_ne _ _ hq]; exact hu) fun h => (hq h).elim
  · intro q
    have hndq := h.wnd q
    by_cases hq : q = p
    · subst hq
      rw [upd_same] at hndq ⊢
      refine hndq.sublist ?_
      simp only [List.map_append, List.map_cons]
      exact List.Sublist.append_left (List.sublist_cons_self _ _) _
    · rw [upd_ne _ _ hq] at hndq ⊢
      by_cases hq2 : q = n.neg
      · subst hq2
        rw [upd_same, List.map_append, List.nodup_append]
        refine ⟨hndq, by simp, ?_⟩
        intro a ha b hb hab
        simp at hb; subst hb
        obtain ⟨u, hu, hue⟩ := List.mem_map.1 ha
        obtain ⟨_, _, x, y, rr, h3, _, h5⟩ := h.wmem n.neg u (by rw [upd_ne _ _ hq]; exact hu)
        rw [hue, hab, hl] at h3
        simp only [List.cons.injEq] at h3
        obtain ⟨rfl, rfl, _⟩ := h3
        rw [Lit.neg_neg] at h5
        rcases h5 with h5 | h5
        · exact hnf h5.symm
        · exact hnp (by rw [← h5, Lit.neg_neg])
      · rw [upd_ne _ _ hq2]; exact hndq

theorem CInv.move {kept ws : List Watcher} {w : Watcher} {first n : Lit} {r r' : List Lit}
    (h : CInv A store (upd watch p (kept ++ w :: ws)) bin T
      (fun c l => l = p.neg ∧ c ∈ (w :: ws).map Watcher.cref))
    (hl : (store w.cref).lits = first :: p.neg :: r) (hr : r ≠ []) (hr' : r' ≠ [])
    (hperm : (first :: n :: r').Perm (first :: p.neg :: r))
    (hnp : n.neg ≠ p) (hfp : first ≠ p.neg) (hnv : n.neg ∉ T.stack) :
    CInv A (setLits store w.cref (first :: n :: r'))
      (upd (upd watch n.neg (watch n.neg ++ [⟨w.cref, first⟩])) p (kept ++ ws)) bin T
      (fun c l => l = p.neg ∧ c ∈ ws.map Watcher.cref) where
  w1 d hd x y rr h1 h2 := by
    have hfp' : first.neg ≠ p := by intro h; apply hfp; rw [← h, Lit.neg_neg]
    by_cases hc : d = w.cref
    · subst hc
      rw [setLits_same] at h1
      simp only [List.cons.injEq] at h1
      obtain ⟨rfl, rfl, rfl⟩ := h1
      refine ⟨?_, ?_⟩
      · obtain ⟨u, hu, hue⟩ := (h.w1 _ hd _ _ _ hl hr).1
        rw [upd_ne _ _ hfp'] at hu
        refine ⟨u, ?_, hue⟩
        rw [upd_ne _ _ hfp']
        by_cases hq2 : first.neg = n.neg
        · rw [hq2] at hu ⊢; rw [upd_same]; simp [hu]
        · rw [upd_ne _ _ hq2]; exact hu
      · refine ⟨⟨w.cref, first⟩, ?_, rfl⟩
        rw [upd_ne _ _ hnp, upd_same]; simp
    · rw [setLits_ne _ _ hc] at h1
      have key : ∀ q, (∃ u ∈ upd watch p (kept ++ w :: ws) q, u.cref = d) →
          ∃ u ∈ upd (upd watch n.neg (watch n.neg ++ [⟨w.cref, first⟩])) p (kept ++ ws) q,
            u.cref = d := by
        rintro q ⟨u, hu, hue⟩
        by_cases hq : q = p
        · subst hq
          rw [upd_same] at hu ⊢
          refine ⟨u, ?_, hue⟩
          rw [List.mem_append, List.mem_cons] at hu
          rcases hu with hu | rfl | hu
          · simp [hu]
          · exact (hc hue.symm).elim
          · simp [hu]
        · rw [upd_ne _ _ hq] at hu ⊢
          refine ⟨u, ?_, hue⟩
          by_cases hq2 : q = n.neg
          · subst hq2; rw [upd_same]; simp [hu]
          · rw [upd_ne _ _ hq2]; exact hu
      exact (h.w1 d hd x y rr h1 h2).imp (key _) (key _)
  b1 d hd x y h1 := by
    by_cases hc : d = w.cref
    · subst hc
      rw [setLits_same] at h1
      simp only [List.cons.injEq] at h1
      exact (hr' h1.2.2).elim
    · rw [setLits_ne _ _ hc] at h1; exact h.b1 d hd x y h1
  w4 d hd x y rr h1 l hlw := by
    by_cases hc : d = w.cref
    · subst hc
      rw [setLits_same] at h1 ⊢
      simp only [List.cons.injEq] at h1
      obtain ⟨rfl, rfl, rfl⟩ := h1
      right
      rcases hlw with rfl | rfl
      · rcases h.w4 _ hd _ _ _ hl l (Or.inl rfl) with h5 | h5
        · exact (hfp h5.1).elim
        · exact SatW.perm (by rw [hl]; exact hperm) h5
      · intro hin
        exact (hnv (List.mem_of_mem_take hin)).elim
    · rw [setLits_ne _ _ hc] at h1 ⊢
      refine (h.w4 d hd x y rr h1 l hlw).imp ?_ id
      rintro ⟨h5, h6⟩
      refine ⟨h5, ?_⟩
      rw [List.map_cons, List.mem_cons] at h6
      exact h6.resolve_left hc

theorem propWatched_spec {p : Lit} {A : Nat → Prop} :
    ∀ (ws kept : List Watcher) (s : PS),
      CoreB base F nV next bin s.store s.T → WatchInv next s.store (upd s.watch p (kept ++ ws)) →
      p ∈ s.T.stack → (L → s.T.level p.var = s.T.decisionLevel) →
      ∃ s' r, propWatched p ws kept s = some (s', r) ∧ CoreB base F nV next bin s'.store s'.T ∧
        WatchInv next s'.store s'.watch ∧ TExt s.T s'.T ∧ s'.T.qhead = s.T.qhead ∧
        StoreExt s.store s'.store ∧ (∀ c, r = some c → ConflictL L next s'.store s'.T c) ∧
        (L → CInv A s.store (upd s.watch p (kept ++ ws)) bin s.T
            (fun c w => w = p.neg ∧ c ∈ ws.map Watcher.cref) →
          CInv A s'.store s'.watch bin s'.T (fun _ w => w = p.neg ∧ r ≠ none))
  | [], kept, s, hc, hw, _, _ => by
    refine ⟨_, _, rfl, hc, ?_, TExt.refl _, rfl, StoreExt.refl _, by simp, fun _ h => ?_⟩
    · simpa using hw
    · simpa using h
  | w :: ws, kept, s, hc, hw, hp, hlv => by
    obtain ⟨hlt, hbl, x, y, r, hl, hr, hxy⟩ := hw.wmem p w (by rw [upd_same]; simp)
    rw [propWatched]
    by_cases hblk : s.T.value w.blocker = some true
    · -- blocker true
      rw [if_pos hblk]
      have hbm := (hc.tinv.val _).1 hblk
      obtain ⟨s', r', h1, h2, h3, h4, h5, h6, h7, h8⟩ :=
        propWatched_spec ws (kept ++ [w]) s hc (by simpa using hw) hp hlv (A := A)
      refine ⟨s', r', h1, h2, h3, h4, h5, h6, h7, fun hL h => h8 hL ?_⟩
      rw [List.append_assoc, List.singleton_append]
      refine h.weaken ?_
      intro c _ x' y' r'' _ l _ hex
      rw [List.map_cons, List.mem_cons] at hex
      rcases hex with ⟨rfl, rfl | hex⟩
      · right
        intro _
        refine ⟨w.blocker, hbl, hbm, ?_⟩
        rw [Lit.var_neg, hlv hL]
        exact hc.tinv.level_le hbm
      · exact Or.inl ⟨rfl, hex⟩
    · rw [if_neg hblk]
      obtain ⟨first, hfix, hfirst⟩ := fixFirst_eq hl hxy
      have hnd := hc.nd _ hlt
      have hpermF : (first :: p.neg :: r).Perm (s.store w.cref).lits := by
        rw [← hfix]; exact fixFirst_perm _ _
      have hab : (first = x ∧ p.neg = y) ∨ (first = y ∧ p.neg = x) := by
        rcases hfirst with ⟨rfl, rfl⟩ | ⟨rfl, rfl⟩ <;> simp
      have hndF : ((first :: p.neg :: r).map Lit.var).Nodup :=
        (hpermF.map _).nodup_iff.2 hnd
      have hfp : first ≠ p.neg := by
        intro h; rw [h] at hndF; simp at hndF
      simp only [hfix]
      -- state after fixing the first literal
      generalize hs1 : setLits s.store w.cref (first :: p.neg :: r) = store1
      have hstore1 : StoreExt s.store store1 := by
        rw [← hs1]; exact StoreExt.setLits _ _ _ hpermF
      have hc1 : CoreB base F nV next bin store1 s.T := hc.perm hstore1
      have hw1 : WatchInv next store1 (upd s.watch p (kept ++ w :: ws)) := by
        rw [← hs1]; exact hw.swapTwo hl hab
      have hl1 : (store1 w.cref).lits = first :: p.neg :: r := by rw [← hs1, setLits_same]
      have hci1 : ∀ {ex}, CInv A s.store (upd s.watch p (kept ++ w :: ws)) bin s.T ex →
          CInv A store1 (upd s.watch p (kept ++ w :: ws)) bin s.T ex := by
        intro ex h; rw [← hs1]; exact h.swapTwo hl hr hab
      have hpf : s.T.value p.neg = some false := (hc.tinv.valFalse _).2 (by simpa using hp)
      by_cases hft : s.T.value first = some true
      · -- first literal true
        rw [if_pos hft]
        have hfm := (hc.tinv.val _).1 hft
        have hw1' := hw1.replace (b := first) (by rw [hl1]; simp)
        obtain ⟨s', r', h1, h2, h3, h4, h5, h6, h7, h8⟩ :=
          propWatched_spec ws (kept ++ [⟨w.cref, first⟩]) { s with store := store1 } hc1
            (by simpa using hw1') hp hlv (A := A)
        refine ⟨s', r', h1, h2, h3, h4, h5, hstore1.trans h6, h7, fun hL h => h8 hL ?_⟩
        rw [List.append_assoc, List.singleton_append]
        refine (CInv.relist ?_ ((hci1 h).weaken ?_))
        · intro c hcm; simpa using hcm
        · intro c _ x' y' r'' _ l _ hex
          rw [List.map_cons, List.mem_cons] at hex
          rcases hex with ⟨rfl, rfl | hex⟩
          · right
            intro _
            refine ⟨first, by rw [hl1]; simp, hfm, ?_⟩
            rw [Lit.var_neg, hlv hL]
            exact hc.tinv.level_le hfm
          · exact Or.inl ⟨rfl, hex⟩
      · rw [if_neg hft]
        cases hfw : findWatch s.T (first :: p.neg :: r) with
        | some k =>
          obtain ⟨n, j, rfl, hrj, hnv, hsw⟩ := findWatch_some rfl hfw
          simp only [hsw, List.getElem?_cons_succ, List.getElem?_cons_zero]
          have hnr : n ∈ r := List.mem_of_getElem? hrj
          have hr' : r.set j p.neg ≠ [] := by
            intro h; apply hr; have := congrArg List.length h; simpa using this
          have hpermM : (first :: n :: r.set j p.neg).Perm (first :: p.neg :: r) :=
            (perm_set_cons hrj).cons _
          have hnv' : n.neg ∉ s.T.stack := by
            rw [← hc.tinv.valFalse]; exact hnv
          have hnp : n.neg ≠ p := fun h => hnv' (h ▸ hp)
          have hnf : n ≠ first := by
            intro h; subst h
            simp only [List.map_cons, List.nodup_cons] at hndF
            exact hndF.1 (by simp only [List.mem_cons]; right; exact List.mem_map_of_mem hnr)
          have hstore2 : StoreExt store1 (setLits store1 w.cref (first :: n :: r.set j p.neg)) :=
            StoreExt.setLits _ _ _ (by rw [hl1]; exact hpermM)
          have hwm := hw1.move hl1 hr' (fun l => hpermM.mem_iff) hnp hnf
          obtain ⟨s', r', h1, h2, h3, h4, h5, h6, h7, h8⟩ :=
            propWatched_spec ws kept
              { s with
                store := setLits store1 w.cref (first :: n :: r.set j p.neg)
                watch := upd s.watch n.neg (s.watch n.neg ++ [⟨w.cref, first⟩]) }
              (hc1.perm hstore2) hwm hp hlv (A := A)
          refine ⟨s', r', h1, h2, h3, h4, h5, (hstore1.trans hstore2).trans h6, h7, fun hL h => h8 hL ?_⟩
          exact (hci1 h).move hl1 hr hr' hpermM hnp hfp hnv'
        | none =>
          have hrest := findWatch_none rfl hfw
          have hw1' := hw1.replace (b := first) (by rw [hl1]; simp)
          by_cases hff : s.T.value first = some false
          · -- conflict
            simp only [hff, if_true]
            refine ⟨_, _, rfl, hc1, hw1', TExt.refl _, rfl, hstore1, ?_, fun hL h => ?_⟩
            · intro c hceq
              simp at hceq; subst hceq
              refine ⟨hlt, ?_, fun hL => ⟨p.neg, by simp only [hl1]; simp, by simpa using hlv hL⟩⟩
              intro l hlm
              simp only [hl1, List.mem_cons] at hlm
              rcases hlm with rfl | rfl | hlm
              · exact (hc.tinv.valFalse _).1 hff
              · simpa using hp
              · exact (hc.tinv.valFalse _).1 (hrest l hlm)
            · refine CInv.relist ?_ ((hci1 h).weaken ?_)
              · intro c hcm; simpa using hcm
              · intro c _ x' y' r'' _ l _ hex
                exact Or.inl ⟨hex.1, by simp⟩
          · -- unit
            have hfn : s.T.value first = none := by
              cases hv : s.T.value first with
              | none => rfl
              | some b => cases b <;> simp_all
            simp only [hff, if_false]
            rw [Trail.propagate_eq_push _ _ _ hfn]
            have hc2 : CoreB base F nV next bin store1 (s.T.push first (some w.cref)) := by
              refine hc1.push hfn hlt (by rw [hl1]; simp) ?_
              intro q hq hne
              rw [hl1] at hq
              simp only [List.mem_cons] at hq
              rcases hq with rfl | rfl | hq
              · exact (hne rfl).elim
              · exact hpf
              · exact hrest q hq
            have hext : TExt s.T (s.T.push first (some w.cref)) := TExt.push hc.tinv hfn
            have hlv' : L → (s.T.push first (some w.cref)).level p.var =
                (s.T.push first (some w.cref)).decisionLevel := by
              intro hL; rw [hext.level p hp, hext.decisionLevel, hlv hL]
            obtain ⟨s', r', h1, h2, h3, h4, h5, h6, h7, h8⟩ :=
              propWatched_spec ws (kept ++ [⟨w.cref, first⟩])
                { s with store := store1, T := s.T.push first (some w.cref) } hc2
                (by simpa using hw1') (hext.mem hp) hlv' (A := A)
            refine ⟨s', r', h1, h2, h3, hext.trans h4, h5, hstore1.trans h6, h7, fun hL h => h8 hL ?_⟩
            rw [List.append_assoc, List.singleton_append]
            refine (CInv.relist ?_ (((hci1 h).push hc.tinv hfn).weaken ?_))
            · intro c hcm; simpa using hcm
            · intro c _ x' y' r'' _ l _ hex
              rw [List.map_cons, List.mem_cons] at hex
              rcases hex with ⟨rfl, rfl | hex⟩
              · right
                intro _
                have hfm : first ∈ (s.T.push first (some w.cref)).stack := by
                  simp [Trail.push, Trail.setValue]
                refine ⟨first, by rw [hl1]; simp, hfm, ?_⟩
                rw [Lit.var_neg, hlv' hL]
                exact hc2.tinv.level_le hfm
              · exact Or.inl ⟨rfl, hex⟩

end Watched

section Loop

variable {L : Prop}

theorem Trail.Inv.varNodup {T : Trail} (h : T.Inv) : (T.stack.map Lit.var).Nodup := by
  unfold List.Nodup
  rw [List.pairwise_map]
  refine h.nodup.imp_of_mem ?_
  intro a b ha hb hab hv
  exact hab (h.varInj ha hb hv)

/-- The stack never outgrows the number of variables. -/
theorem Trail.Inv.length_le {T : Trail} (h : T.Inv) : T.stack.length ≤ T.nVars := by
  have := h.varNodup.length_le_of_subset (l₂ := List.range T.nVars) (by
    intro v hv
    obtain ⟨l, hl, rfl⟩ := List.mem_map.1 hv
    exact List.mem_range.2 (h.bound l hl))
  simpa using this

/-- All levels below the current one have been fully propagated. -/
def LimQ (T : Trail) : Prop := ∀ k ∈ T.lim, k ≤ T.qhead

theorem propagateLoop_specL {A : Nat → Prop} :
    ∀ (fuel : Nat) (s : PS),
      CoreB base F nV next bin s.store s.T → WatchInv next s.store s.watch → (L → LimQ s.T) →
      nV < fuel + s.T.qhead →
      ∃ s' r, propagateLoop bin fuel s = some (s', r) ∧ CoreB base F nV next bin s'.store s'.T ∧
        WatchInv next s'.store s'.watch ∧ TExt s.T s'.T ∧ StoreExt s.store s'.store ∧
        (r = none → s'.T.qhead = s'.T.stack.length) ∧
        (∀ c, r = some c → ConflictL L next s'.store s'.T c) ∧ (L → LimQ s'.T) ∧
        (L → CInv A s.store s.watch bin s.T (fun _ _ => False) →
          CInv A s'.store s'.watch bin s'.T
            (fun _ w => r ≠ none ∧ s'.T.level w.var = s'.T.decisionLevel))
  | 0, s, hc, _, _, hf => by
    have := hc.tinv.length_le
    have := hc.tinv.qle
    have := hc.nv
    omega
  | fuel + 1, s, hc, hw, hq, hf => by
    rw [propagateLoop]
    cases hp : s.T.stack[s.T.qhead]? with
    | none =>
      have : s.T.qhead = s.T.stack.length := by
        have := List.getElem?_eq_none_iff.1 hp
        have := hc.tinv.qle
        omega
      refine ⟨s, none, rfl, hc, hw, TExt.refl _, StoreExt.refl _, fun _ => this, by simp, hq,
        fun _ h => h.weaken (by simp)⟩
    | some p =>
      obtain ⟨hlt, hpe⟩ := List.getElem?_eq_some_iff.1 hp
      -- state after advancing `qhead`
      have htinv : ({ s.T with qhead := s.T.qhead + 1 } : Trail).Inv :=
        ⟨hc.tinv.val, hc.tinv.nodup, hc.tinv.bound, hc.tinv.limSorted, hc.tinv.limLe, hc.tinv.lev,
          by simp; omega⟩
      have hc1 : CoreB base F nV next bin s.store { s.T with qhead := s.T.qhead + 1 } :=
        ⟨htinv, hc.nv, hc.wf, hc.nd, hc.ent, hc.rsome, hc.rnone, hc.binInv⟩
      have hext1 : TExt s.T { s.T with qhead := s.T.qhead + 1 } :=
        ⟨⟨[], by simp⟩, rfl, by simp, rfl, rfl, rfl, fun _ _ => rfl, fun _ _ => rfl,
          fun _ h h' => (h' h).elim⟩
      have hpm : p ∈ s.T.stack := by rw [← hpe]; exact List.getElem_mem _
      have hlv : L → s.T.level p.var = s.T.decisionLevel := by
        intro hL
        rw [← hpe, hc.tinv.lev_idx hlt]
        unfold Trail.decisionLevel
        rw [List.countP_eq_length]
        intro k hk
        simpa using hq hL k hk
      have hcinv1 : CInv A s.store s.watch bin s.T (fun _ _ => False) →
          CInv A s.store s.watch bin { s.T with qhead := s.T.qhead + 1 } (fun _ w => w = p.neg) := by
        intro h
        refine ⟨h.w1, h.b1, ?_⟩
        intro c hA x y r hl w hxw
        rcases h.w4 c hA x y r hl w hxw with h' | h'
        · exact h'.elim
        · by_cases hwp : w = p.neg
          · exact Or.inl hwp
          · right
            intro hin
            apply h'
            simp only at hin
            rw [List.take_add_one, hp] at hin
            simp only [Option.toList_some, List.mem_append, List.mem_singleton] at hin
            rcases hin with hin | hin
            · exact hin
            · exact (hwp (by rw [← hin, Lit.neg_neg])).elim
      have hbin1 : ∀ {T : Trail}, CInv A s.store s.watch bin T (fun _ w => w = p.neg) →
          CInv A s.store s.watch bin T (fun c w => w = p.neg ∧
            (2 < (s.store c).lits.length ∨ c ∈ (bin p).map Watcher.cref)) := by
        intro T h
        refine h.weaken ?_
        intro c hA x y r hl w hxw hwp
        refine Or.inl ⟨hwp, ?_⟩
        cases r with
        | cons z r => left; rw [hl]; simp
        | nil =>
          right
          obtain ⟨b1, b2⟩ := h.b1 c hA x y hl
          rcases hxw with rfl | rfl
          · subst hwp; rw [Lit.neg_neg] at b1; exact List.mem_map.2 ⟨_, b1, rfl⟩
          · subst hwp; rw [Lit.neg_neg] at b2; exact List.mem_map.2 ⟨_, b2, rfl⟩
      simp only
      generalize hpb : propBinary { s.T with qhead := s.T.qhead + 1 } (bin p) = pb
      obtain ⟨T2, r2⟩ := pb
      obtain ⟨b1, b2, b3, b4, b5⟩ := propBinary_spec (A := A) (watch := s.watch) (bin p) _
        (fun _ h => h) hc1 hpm hlv T2 r2 hpb
      simp only at b3
      have hq2 : L → LimQ T2 := by
        intro hL k hk
        rw [b2.lim] at hk
        have := hq hL k hk
        rw [b3]; simp; omega
      have hpm2 : p ∈ T2.stack := b2.mem hpm
      have hlv2 : L → T2.level p.var = T2.decisionLevel := by
        intro hL; rw [b2.level p hpm, b2.decisionLevel]; exact hlv hL
      cases r2 with
      | some c =>
        refine ⟨{ s with T := T2 }, some c, rfl, b1, hw, hext1.trans b2, StoreExt.refl _, by simp, b4,
          hq2, fun hL h => ?_⟩
        refine (b5 hL (hbin1 (hcinv1 h))).weaken ?_
        intro d _ x y r _ w _ hex
        refine Or.inl ⟨by simp, ?_⟩
        rw [hex.1, Lit.var_neg]; exact hlv2 hL
      | none =>
        obtain ⟨s3, r3, e3, w1, w2, w3, w4, w5, w6, w7⟩ := propWatched_spec (A := A) (p := p)
          (s.watch p) [] { s with T := T2 } b1 (by
            have : upd s.watch p (s.watch p) = s.watch := by
              funext q; simp only [upd]; split
              · subst_vars; rfl
              · rfl
            simpa [this] using hw) hpm2 hlv2
        simp only [e3]
        have hsame : upd s.watch p ([] ++ s.watch p) = s.watch := by
          funext q; simp only [upd]; split
          · subst_vars; simp
          · rfl
        have hcinv3 : L → CInv A s.store s.watch bin s.T (fun _ _ => False) →
            CInv A s3.store s3.watch bin s3.T (fun _ w => w = p.neg ∧ r3 ≠ none) := by
          intro hL h
          apply w7 hL
          simp only [hsame]
          refine (b5 hL (hbin1 (hcinv1 h))).weaken ?_
          intro d hA x y r hl w hxw hex
          refine Or.inl ⟨hex.1, ?_⟩
          have hlen : 2 < (s.store d).lits.length := by
            rcases hex.2 with h' | h'
            · exact h'
            · simp at h'
          have hr : r ≠ [] := by
            rintro rfl; rw [hl] at hlen; simp at hlen
          obtain ⟨h1, h2⟩ := h.w1 d hA x y r hl hr
          have hwp := hex.1
          rcases hxw with rfl | rfl
          · subst hwp; rw [Lit.neg_neg] at h1; exact List.mem_map.2 h1
          · subst hwp; rw [Lit.neg_neg] at h2; exact List.mem_map.2 h2
        have hext3 : TExt s.T s3.T := (hext1.trans b2).trans w3
        have hq3 : L → LimQ s3.T := by
          intro hL k hk
          rw [hext3.lim] at hk
          have h1 := hq hL k hk
          have h2 := (b2.trans w3).qhead
          simp at h2
          omega
        cases r3 with
        | some c =>
          refine ⟨s3, some c, rfl, w1, w2, hext3, w5, by simp, w6, hq3, fun hL h => ?_⟩
          refine (hcinv3 hL h).weaken ?_
          intro d _ x y r _ w _ hex
          refine Or.inl ⟨by simp, ?_⟩
          rw [hex.1, Lit.var_neg, w3.level p hpm2, w3.decisionLevel]; exact hlv2 hL
        | none =>
          have hqh : s3.T.qhead = s.T.qhead + 1 := by rw [w4]; exact b3
          obtain ⟨s', r', e', c1, c2, c3, c4, c5, c6, c7, c8⟩ :=
            propagateLoop_specL fuel s3 w1 w2 hq3 (by omega) (A := A)
          refine ⟨s', r', e', c1, c2, hext3.trans c3, w5.trans c4, c5, c6, c7, fun hL h => c8 hL ?_⟩
          exact (hcinv3 hL h).weaken (by simp)

theorem propagateLoop_spec {A : Nat → Prop} (fuel : Nat) (s : PS)
    (hc : CoreB base F nV next bin s.store s.T) (hw : WatchInv next s.store s.watch)
    (hq : LimQ s.T) (hf : nV < fuel + s.T.qhead) :
    ∃ s' r, propagateLoop bin fuel s = some (s', r) ∧ CoreB base F nV next bin s'.store s'.T ∧
      WatchInv next s'.store s'.watch ∧ TExt s.T s'.T ∧ StoreExt s.store s'.store ∧
      (r = none → s'.T.qhead = s'.T.stack.length) ∧
      (∀ c, r = some c → Conflict next s'.store s'.T c) ∧ LimQ s'.T ∧
      (CInv A s.store s.watch bin s.T (fun _ _ => False) →
        CInv A s'.store s'.watch bin s'.T
          (fun _ w => r ≠ none ∧ s'.T.level w.var = s'.T.decisionLevel)) := by
  obtain ⟨s', r, e1, e2, e3, e4, e5, e6, e7, e8, e9⟩ :=
    propagateLoop_specL (L := True) (A := A) fuel s hc hw (fun _ => hq) hf
  exact ⟨s', r, e1, e2, e3, e4, e5, e6, e7, e8 trivial, e9 trivial⟩

end Loop

end Candy
