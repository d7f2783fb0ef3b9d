import Verif.Model.Static
import Verif.Proofs.SatSide

/-! The static propagator: invariants of its watchers and the propagation theorem. -/

namespace Candy

variable {F : CNF} {nV next : Nat} {bin : Lit → List Watcher} {store : Nat → Cls} {T : Trail}

/-- Well-formedness of the watchers: the two watched literals are different literals of the clause,
and the watcher is exactly in the lists of their complements. -/
structure SWInv (next : Nat) (store : Nat → Cls) (W : SW) : Prop where
  ref : ∀ i < W.cnt, (W.tab i).cref < next ∧ (W.tab i).w0 ∈ (store (W.tab i).cref).lits ∧
    (W.tab i).w1 ∈ (store (W.tab i).cref).lits ∧ (W.tab i).w0 ≠ (W.tab i).w1
  mem : ∀ p i, i ∈ W.lists p ↔ i < W.cnt ∧ ((W.tab i).w0 = p.neg ∨ (W.tab i).w1 = p.neg)
  nd : ∀ p, (W.lists p).Nodup

/-- Completeness invariant for the watched literals, except for the pairs in `ex`. -/
def SCI (store : Nat → Cls) (W : SW) (T : Trail) (ex : Nat → Lit → Prop) : Prop :=
  ∀ i < W.cnt, ∀ w, (w = (W.tab i).w0 ∨ w = (W.tab i).w1) →
    ex i w ∨ SatW T (store (W.tab i).cref).lits w

theorem SatW.grow {T' : Trail} {ls : List Lit} {w : Lit} (he : TExt T T') (ht : T.Inv)
    (hq : T'.qhead = T.qhead) (h : SatW T ls w) : SatW T' ls w := by
  intro hin
  obtain ⟨suf, hs⟩ := he.stack
  rw [hs, hq, List.take_append_of_le_length ht.qle] at hin
  obtain ⟨l, h1, h2, h3⟩ := h hin
  refine ⟨l, h1, he.mem h2, ?_⟩
  have := he.level w.neg (List.mem_of_mem_take hin)
  simp only [Lit.var_neg] at this
  rw [he.level l h2, this]
  exact h3

theorem SCI.push {W : SW} {ex : Nat → Lit → Prop} {p : Lit} {r : Option Nat} (ht : T.Inv)
    (hp : T.value p = none) (h : SCI store W T ex) : SCI store W (T.push p r) ex :=
  fun i hi w hw => (h i hi w hw).imp id (SatW.push ht hp)

theorem SCI.weaken {W : SW} {ex ex' : Nat → Lit → Prop} (h : SCI store W T ex)
    (hw : ∀ i < W.cnt, ∀ w, ex i w → ex' i w ∨ SatW T (store (W.tab i).cref).lits w) :
    SCI store W T ex' := by
  intro i hi w hx
  rcases h i hi w hx with h1 | h1
  · exact hw i hi w h1
  · exact Or.inr h1

/-- The other watched literal of a watcher in the list of `p`. -/
theorem other_spec {W : SW} {p : Lit} {i : Nat} (h : (W.tab i).w0 = p.neg ∨ (W.tab i).w1 = p.neg)
    (hne : (W.tab i).w0 ≠ (W.tab i).w1) :
    (if (W.tab i).w0 ≠ p.neg then (W.tab i).w0 else (W.tab i).w1) ≠ p.neg ∧
    ∀ w, (w = (W.tab i).w0 ∨ w = (W.tab i).w1) ↔
      (w = p.neg ∨ w = (if (W.tab i).w0 ≠ p.neg then (W.tab i).w0 else (W.tab i).w1)) := by
  by_cases h0 : (W.tab i).w0 = p.neg
  · rw [if_neg (by simp [h0])]
    exact ⟨fun h1 => hne (h0.trans h1.symm), fun w => by rw [h0]⟩
  · rw [if_pos h0]
    refine ⟨h0, fun w => ?_⟩
    rw [h.resolve_left h0]
    exact Or.comm

theorem neg_inj {a b : Lit} (h : a.neg = b.neg) : a = b := by
  rw [← Lit.neg_neg a, h, Lit.neg_neg]

theorem SWInv.move {W : SW} {p l o : Lit} {i : Nat} {kept ws : List Nat}
    (h : SWInv next store (W.setList p (kept ++ i :: ws)))
    (hol : ∀ w, (w = (W.tab i).w0 ∨ w = (W.tab i).w1) ↔ (w = p.neg ∨ w = o)) (hop : o ≠ p.neg)
    (hlp : l ≠ p.neg) (hlo : l ≠ o) (hl : l ∈ (store (W.tab i).cref).lits) (hi : i < W.cnt) :
    SWInv next store (SW.setList { W with tab := upd W.tab i ⟨(W.tab i).cref, l, o⟩
                                          lists := upd W.lists l.neg (W.lists l.neg ++ [i]) }
      p (kept ++ ws)) := by
  have hnd := h.nd p
  have hlist : ∀ q, q ≠ p → (W.setList p (kept ++ i :: ws)).lists q = W.lists q := by
    intro q hq; simp [SW.setList, upd_ne _ _ hq]
  have hlp' : l.neg ≠ p := fun e => hlp (by rw [← e, Lit.neg_neg])
  simp only [SW.setList, upd_same] at hnd
  have hni : i ∉ kept ++ ws := by
    have := (List.perm_middle (a := i) (l₁ := kept) (l₂ := ws)).nodup_iff.1 hnd
    exact (List.nodup_cons.1 this).1
  have hnd' : (kept ++ ws).Nodup := by
    have := (List.perm_middle (a := i) (l₁ := kept) (l₂ := ws)).nodup_iff.1 hnd
    exact (List.nodup_cons.1 this).2
  have hm : ∀ q, q ≠ p → ∀ j, j ∈ W.lists q ↔
      j < W.cnt ∧ ((W.tab j).w0 = q.neg ∨ (W.tab j).w1 = q.neg) := by
    intro q hq j
    have := h.mem q j
    rw [hlist q hq] at this
    exact this
  have hmp : ∀ j, j ∈ kept ++ i :: ws ↔
      j < W.cnt ∧ ((W.tab j).w0 = p.neg ∨ (W.tab j).w1 = p.neg) := by
    intro j
    have := h.mem p j
    simp only [SW.setList, upd_same] at this
    exact this
  -- which lists contain `i` before
  have hio : ∀ q, q ≠ p → (i ∈ W.lists q ↔ q.neg = o) := by
    intro q hq
    rw [hm q hq i]
    constructor
    · rintro ⟨_, e⟩
      rcases (hol q.neg).1 (e.imp Eq.symm Eq.symm) with e | e
      · exact (hq (neg_inj e)).elim
      · exact e
    · intro e
      exact ⟨hi, ((hol q.neg).2 (Or.inr e)).imp Eq.symm Eq.symm⟩
  refine ⟨?_, ?_, ?_⟩
  · intro j hj
    simp only [SW.setList] at hj ⊢
    by_cases hji : j = i
    · subst hji
      rw [upd_same]
      have := h.ref j hj
      simp only [SW.setList] at this
      refine ⟨this.1, hl, ?_, hlo⟩
      rcases (hol o).2 (Or.inr rfl) with e | e
      · simp only; rw [e]; exact this.2.1
      · simp only; rw [e]; exact this.2.2.1
    · rw [upd_ne _ _ hji]
      exact h.ref j hj
  · intro q j
    simp only [SW.setList]
    by_cases hqp : q = p
    · subst hqp
      rw [upd_same]
      by_cases hji : j = i
      · subst hji
        rw [upd_same]
        simp only
        exact ⟨fun h => (hni h).elim, fun h => by
          rcases h.2 with e | e
          · exact (hlp e).elim
          · exact (hop e).elim⟩
      · rw [upd_ne _ _ hji, ← hmp j]
        simp only [List.mem_append, List.mem_cons, hji, false_or]
    · rw [upd_ne _ _ hqp]
      by_cases hql : q = l.neg
      · subst hql
        rw [upd_same]
        by_cases hji : j = i
        · subst hji
          rw [upd_same]
          simp [hi]
        · rw [upd_ne _ _ hji, ← hm _ hqp j]
          simp [hji]
      · rw [upd_ne _ _ hql]
        by_cases hji : j = i
        · subst hji
          rw [upd_same]
          rw [hio q hqp]
          simp only
          constructor
          · intro e; exact ⟨hi, Or.inr e.symm⟩
          · rintro ⟨_, e | e⟩
            · exact (hql (by rw [e, Lit.neg_neg])).elim
            · exact e.symm
        · rw [upd_ne _ _ hji]
          exact hm q hqp j
  · intro q
    simp only [SW.setList]
    by_cases hqp : q = p
    · subst hqp; rw [upd_same]; exact hnd'
    · rw [upd_ne _ _ hqp]
      have hq := h.nd q
      rw [hlist q hqp] at hq
      by_cases hql : q = l.neg
      · subst hql
        rw [upd_same]
        refine List.nodup_append.2 ⟨hq, by simp, ?_⟩
        intro a ha b hb e
        simp only [List.mem_singleton] at hb
        subst hb; subst e
        have := (hio _ hqp).1 ha
        rw [Lit.neg_neg] at this
        exact hlo this
      · rw [upd_ne _ _ hql]; exact hq

theorem sFindWatch_some {p o l : Lit} {ls : List Lit} (h : sFindWatch T p o ls = some l) :
    l ∈ ls ∧ l ≠ p.neg ∧ l ≠ o ∧ T.value l ≠ some false := by
  unfold sFindWatch at h
  have h1 := List.find?_some h
  simp only [Bool.and_eq_true, bne_iff_ne, ne_eq] at h1
  exact ⟨List.mem_of_find?_eq_some h, h1.1.1, h1.1.2, h1.2⟩

theorem sFindWatch_none {p o : Lit} {ls : List Lit} (h : sFindWatch T p o ls = none) :
    ∀ l ∈ ls, l ≠ p.neg → l ≠ o → T.value l = some false := by
  unfold sFindWatch at h
  rw [List.find?_eq_none] at h
  intro l hl h1 h2
  have := h l hl
  simp only [Bool.and_eq_true, bne_iff_ne, ne_eq, not_and, Classical.not_not] at this
  exact this ⟨h1, h2⟩

/-- What propagation preserves besides the watchers: any completeness invariant that survives
pushing a literal. -/
def PushClosed (P : Trail → Prop) : Prop :=
  ∀ (T : Trail) (p : Lit) (r : Option Nat), T.Inv → T.value p = none → P T → P (T.push p r)

/-- The watched-literal loop for one literal. -/
theorem sPropWatched_spec {L : Prop} {base : Nat} {p : Lit} :
    ∀ (ws kept : List Nat) (W : SW) (T : Trail),
      CoreB base F nV next bin store T → SWInv next store (W.setList p (kept ++ ws)) →
      p ∈ T.stack → (L → T.level p.var = T.decisionLevel) →
      ∀ W' T' r, sPropWatched store p ws kept W T = ((W', T'), r) →
      CoreB base F nV next bin store T' ∧ SWInv next store W' ∧ TExt T T' ∧ T'.qhead = T.qhead ∧
      (∀ c, r = some c → ConflictL L next store T' c) ∧
      (L → SCI store (W.setList p (kept ++ ws)) T (fun i w => w = p.neg ∧ i ∈ ws) →
        SCI store W' T' (fun _ w => w = p.neg ∧ r ≠ none)) ∧
      (∀ P, PushClosed P → P T → P T') ∧
      W'.cnt = W.cnt ∧ (∀ i, (W'.tab i).cref = (W.tab i).cref)
  | [], kept, W, T, hc, hw, hp, hlv, W', T', r, he => by
    simp only [sPropWatched, Prod.mk.injEq] at he
    obtain ⟨⟨rfl, rfl⟩, rfl⟩ := he
    refine ⟨hc, by simpa using hw, TExt.refl _, rfl, by simp, fun _ h => ?_, fun _ _ h => h, rfl,
      fun _ => rfl⟩
    rw [List.append_nil] at h
    exact h.weaken (by simp)
  | i :: ws, kept, W, T, hc, hw, hp, hlv, W', T', r, he => by
    have hmi : i < W.cnt ∧ ((W.tab i).w0 = p.neg ∨ (W.tab i).w1 = p.neg) := by
      have := (hw.mem p i).1 (by simp [SW.setList, upd_same])
      exact this
    have href : (W.tab i).cref < next ∧ (W.tab i).w0 ∈ (store (W.tab i).cref).lits ∧
        (W.tab i).w1 ∈ (store (W.tab i).cref).lits ∧ (W.tab i).w0 ≠ (W.tab i).w1 := hw.ref i hmi.1
    obtain ⟨hop, hol⟩ := other_spec hmi.2 href.2.2.2
    rw [sPropWatched] at he
    generalize (if (W.tab i).w0 ≠ p.neg then (W.tab i).w0 else (W.tab i).w1) = o at *
    have hom : o ∈ (store (W.tab i).cref).lits := by
      rcases (hol o).2 (Or.inr rfl) with e | e
      · rw [e]; exact href.2.1
      · rw [e]; exact href.2.2.1
    have hpm : p.neg ∈ (store (W.tab i).cref).lits := by
      rcases (hol p.neg).2 (Or.inl rfl) with e | e
      · rw [e]; exact href.2.1
      · rw [e]; exact href.2.2.1
    have hassoc : kept ++ [i] ++ ws = kept ++ i :: ws := by simp
    by_cases hv : T.value o = some true
    · rw [if_pos hv] at he
      obtain ⟨g1, g2, g3, g4, g5, g6, g7⟩ := sPropWatched_spec ws (kept ++ [i]) W T hc
        (by rw [hassoc]; exact hw) hp hlv W' T' r he
      refine ⟨g1, g2, g3, g4, g5, fun hL h => g6 hL ?_, g7⟩
      rw [hassoc]
      refine h.weaken ?_
      intro j hj w hex
      rcases List.mem_cons.1 hex.2 with rfl | hjw
      · right
        intro _
        have hm := (hc.tinv.val _).1 hv
        refine ⟨o, hom, hm, ?_⟩
        rw [hex.1, Lit.var_neg, hlv hL]
        exact hc.tinv.level_le hm
      · exact Or.inl ⟨hex.1, hjw⟩
    · rw [if_neg hv] at he
      cases hf : sFindWatch T p o (store (W.tab i).cref).lits with
      | some l =>
        rw [hf] at he
        dsimp only at he
        obtain ⟨f1, f2, f3, f4⟩ := sFindWatch_some hf
        obtain ⟨g1, g2, g3, g4, g5, g6, g7, g8, g9⟩ := sPropWatched_spec ws kept _ T hc
          (hw.move hol hop f2 f3 f1 hmi.1) hp hlv W' T' r he
        refine ⟨g1, g2, g3, g4, g5, fun hL h => g6 hL ?_, g7, g8, ?_⟩
        · intro j hj w hwj
          simp only [SW.setList] at hj hwj ⊢
          by_cases hji : j = i
          · subst hji
            rw [upd_same] at hwj ⊢
            simp only at hwj ⊢
            rcases hwj with rfl | rfl
            · right
              intro hin
              exact (f4 ((hc.tinv.valFalse _).2 (List.mem_of_mem_take hin))).elim
            · rcases h j hj w (by exact (hol w).2 (Or.inr rfl)) with h1 | h1
              · exact (hop h1.1).elim
              · exact Or.inr h1
          · rw [upd_ne _ _ hji] at hwj ⊢
            rcases h j hj w hwj with h1 | h1
            · exact Or.inl ⟨h1.1, (List.mem_cons.1 h1.2).resolve_left hji⟩
            · exact Or.inr h1
        · intro j
          rw [g9 j]
          by_cases hji : j = i
          · subst hji; simp [upd_same]
          · simp only [upd_ne _ _ hji]
      | none =>
        rw [hf] at he
        dsimp only at he
        have hfn := sFindWatch_none hf
        have hpv : T.value p.neg = some false := (hc.tinv.valFalse _).2 (by simpa using hp)
        by_cases hv2 : T.value o = some false
        · rw [if_pos hv2] at he
          simp only [Prod.mk.injEq] at he
          obtain ⟨⟨rfl, rfl⟩, rfl⟩ := he
          refine ⟨hc, hw, TExt.refl _, rfl, ?_, fun _ h => h.weaken ?_, fun _ _ h => h, rfl,
            fun _ => rfl⟩
          · intro c hceq
            simp only [Option.some.injEq] at hceq; subst hceq
            refine ⟨href.1, ?_, fun hL => ⟨p.neg, hpm, by simpa using hlv hL⟩⟩
            intro l hl
            by_cases h1 : l = p.neg
            · rw [h1]; simpa using hp
            · by_cases h2 : l = o
              · rw [h2]; exact (hc.tinv.valFalse _).1 hv2
              · exact (hc.tinv.valFalse _).1 (hfn l hl h1 h2)
          · intro j _ w hex
            exact Or.inl ⟨hex.1, by simp⟩
        · rw [if_neg hv2] at he
          have hvn : T.value o = none := by
            cases hvo : T.value o with
            | none => rfl
            | some b => cases b
                        · exact (hv2 hvo).elim
                        · exact (hv hvo).elim
          rw [Trail.propagate_eq_push _ _ _ hvn] at he
          have hcore : CoreB base F nV next bin store (T.push o (some (W.tab i).cref)) := by
            refine CoreB.push hc hvn href.1 hom ?_
            intro q hq hne
            by_cases h1 : q = p.neg
            · rw [h1]; exact hpv
            · exact hfn q hq h1 hne
          have hext : TExt T (T.push o (some (W.tab i).cref)) := TExt.push hc.tinv hvn
          have hlv' : L → (T.push o (some (W.tab i).cref)).level p.var =
              (T.push o (some (W.tab i).cref)).decisionLevel := by
            intro hL
            rw [hext.level p hp, hext.decisionLevel, hlv hL]
          obtain ⟨g1, g2, g3, g4, g5, g6, g7, g8⟩ := sPropWatched_spec ws (kept ++ [i]) W _ hcore
            (by rw [hassoc]; exact hw) (hext.mem hp) hlv' W' T' r he
          refine ⟨g1, g2, hext.trans g3, g4, g5, fun hL h => g6 hL ?_,
            fun P hP h => g7 P hP (hP _ _ _ hc.tinv hvn h), g8⟩
          rw [hassoc]
          refine (SCI.push hc.tinv hvn h).weaken ?_
          intro j hj w hex
          rcases List.mem_cons.1 hex.2 with rfl | hjw
          · right
            intro _
            refine ⟨o, hom, by simp [Trail.push, Trail.setValue], ?_⟩
            rw [hex.1, Lit.var_neg, hlv' hL]
            exact hcore.tinv.level_le (by simp [Trail.push, Trail.setValue])
          · exact Or.inl ⟨hex.1, hjw⟩

/-- Completeness for the clauses in `A` of at most two literals, as for the other propagator. -/
abbrev noWatch : Lit → List Watcher := fun _ => []

theorem CInv.noLong {A : Nat → Prop} {ex : Nat → Lit → Prop}
    (h : CInv A store noWatch bin T ex) {c : Nat} (hA : A c) : ¬ 2 < (store c).lits.length := by
  intro hl
  match hs : (store c).lits, hl with
  | x :: y :: z :: r, _ =>
    obtain ⟨⟨w, hw, _⟩, _⟩ := h.w1 c hA x y (z :: r) hs (by simp)
    simp [noWatch] at hw

theorem pushClosed_cinv {A : Nat → Prop} {ex : Nat → Lit → Prop} :
    PushClosed (fun T => CInv A store noWatch bin T ex) :=
  fun _ _ _ ht hp h => h.push ht hp

/-- Propagation with the static propagator. -/
theorem sPropagateLoop_specL {L : Prop} {base : Nat} :
    ∀ (fuel : Nat) (W : SW) (T : Trail),
      CoreB base F nV next bin store T → SWInv next store W → (L → LimQ T) → nV < fuel + T.qhead →
      ∃ W' T' r, sPropagateLoop bin store fuel W T = some ((W', T'), r) ∧
        CoreB base F nV next bin store T' ∧ SWInv next store W' ∧ TExt T T' ∧
        (r = none → T'.qhead = T'.stack.length) ∧
        (∀ c, r = some c → ConflictL L next store T' c) ∧ (L → LimQ T') ∧
        (L → SCI store W T (fun _ _ => False) →
          SCI store W' T' (fun _ w => r ≠ none ∧ T'.level w.var = T'.decisionLevel)) ∧
        (L → ∀ A, CInv A store noWatch bin T (fun _ _ => False) →
          CInv A store noWatch bin T' (fun _ w => r ≠ none ∧ T'.level w.var = T'.decisionLevel)) ∧
        W'.cnt = W.cnt ∧ (∀ i, (W'.tab i).cref = (W.tab i).cref)
  | 0, W, T, hc, _, _, hf => by
    have := hc.tinv.length_le
    have := hc.tinv.qle
    have := hc.nv
    omega
  | fuel + 1, W, T, hc, hw, hq, hf => by
    rw [sPropagateLoop]
    cases hp : T.stack[T.qhead]? with
    | none =>
      have : T.qhead = T.stack.length := by
        have := List.getElem?_eq_none_iff.1 hp
        have := hc.tinv.qle
        omega
      exact ⟨W, T, none, rfl, hc, hw, TExt.refl _, fun _ => this, by simp, hq,
        fun _ h => h.weaken (by simp), fun _ A h => h.weaken (by simp), rfl, fun _ => rfl⟩
    | some p =>
      obtain ⟨hlt, hpe⟩ := List.getElem?_eq_some_iff.1 hp
      have htinv : ({ T with qhead := T.qhead + 1 } : Trail).Inv :=
        ⟨hc.tinv.val, hc.tinv.nodup, hc.tinv.bound, hc.tinv.limSorted, hc.tinv.limLe, hc.tinv.lev,
          by simp; omega⟩
      have hc1 : CoreB base F nV next bin store { T with qhead := T.qhead + 1 } :=
        ⟨htinv, hc.nv, hc.wf, hc.nd, hc.ent, hc.rsome, hc.rnone, hc.binInv⟩
      have hext1 : TExt T { T with qhead := T.qhead + 1 } :=
        ⟨⟨[], by simp⟩, rfl, by simp, rfl, rfl, rfl, fun _ _ => rfl, fun _ _ => rfl,
          fun _ h h' => (h' h).elim⟩
      have hpm : p ∈ T.stack := by rw [← hpe]; exact List.getElem_mem _
      have hlv : L → T.level p.var = T.decisionLevel := by
        intro hL
        rw [← hpe, hc.tinv.lev_idx hlt]
        unfold Trail.decisionLevel
        rw [List.countP_eq_length]
        intro k hk
        simpa using hq hL k hk
      have hsat1 : ∀ {ls : List Lit} {w : Lit}, SatW T ls w →
          w = p.neg ∨ SatW { T with qhead := T.qhead + 1 } ls w := by
        intro ls w h'
        by_cases hwp : w = p.neg
        · exact Or.inl hwp
        · right
          intro hin
          apply h'
          simp only at hin
          rw [List.take_add_one, hp] at hin
          simp only [Option.toList_some, List.mem_append, List.mem_singleton] at hin
          rcases hin with hin | hin
          · exact hin
          · exact (hwp (by rw [← hin, Lit.neg_neg])).elim
      -- binary clauses: exceptions
      have hcinv1 : ∀ A, CInv A store noWatch bin T (fun _ _ => False) →
          CInv A store noWatch bin { T with qhead := T.qhead + 1 } (fun c w => w = p.neg ∧
            (2 < (store c).lits.length ∨ c ∈ (bin p).map Watcher.cref)) := by
        intro A h
        refine ⟨h.w1, h.b1, ?_⟩
        intro c hA x y r hl w hxw
        rcases h.w4 c hA x y r hl w hxw with h' | h'
        · exact h'.elim
        · rcases hsat1 h' with hwp | h'
          · refine Or.inl ⟨hwp, ?_⟩
            cases r with
            | cons z r => left; rw [hl]; simp
            | nil =>
              right
              obtain ⟨b1, b2⟩ := h.b1 c hA x y hl
              rcases hxw with rfl | rfl
              · subst hwp; rw [Lit.neg_neg] at b1; exact List.mem_map.2 ⟨_, b1, rfl⟩
              · subst hwp; rw [Lit.neg_neg] at b2; exact List.mem_map.2 ⟨_, b2, rfl⟩
          · exact Or.inr h'
      have hsci1 : SCI store W T (fun _ _ => False) →
          SCI store W { T with qhead := T.qhead + 1 } (fun _ w => w = p.neg) := by
        intro h i hi w hwi
        rcases h i hi w hwi with h' | h'
        · exact h'.elim
        · exact hsat1 h'
      simp only
      generalize hpb : propBinary { T with qhead := T.qhead + 1 } (bin p) = pb
      obtain ⟨T2, r2⟩ := pb
      have hbspec := fun A => propBinary_spec (L := L) (A := A) (watch := noWatch) (bin p) _
        (fun _ h => h) hc1 hpm hlv T2 r2 hpb
      obtain ⟨b1, b2, b3, b4, _⟩ := hbspec (fun _ => False)
      -- the long clauses during the binary loop
      have hbsci : SCI store W { T with qhead := T.qhead + 1 } (fun _ w => w = p.neg) →
          SCI store W T2 (fun _ w => w = p.neg) := by
        intro h i hi w hwi
        rcases h i hi w hwi with h' | h'
        · exact Or.inl h'
        · right
          have := (SatW.grow b2 htinv b3 h')
          exact this
      simp only at b3
      have hq2 : L → LimQ T2 := by
        intro hL k hk
        rw [b2.lim] at hk
        have := hq hL k hk
        rw [b3]; simp; omega
      have hpm2 : p ∈ T2.stack := b2.mem hpm
      have hlv2 : L → T2.level p.var = T2.decisionLevel := by
        intro hL
        rw [b2.level p hpm, b2.decisionLevel]; exact hlv hL
      cases r2 with
      | some c =>
        refine ⟨W, T2, some c, rfl, b1, hw, hext1.trans b2, by simp, b4, hq2, fun hL h => ?_,
          fun hL A h => ?_, rfl, fun _ => rfl⟩
        · refine (hbsci (hsci1 h)).weaken ?_
          intro i _ w hex
          refine Or.inl ⟨by simp, ?_⟩
          rw [hex, Lit.var_neg]; exact hlv2 hL
        · refine ((hbspec A).2.2.2.2 hL (hcinv1 A h)).weaken ?_
          intro d _ x y r _ w _ hex
          refine Or.inl ⟨by simp, ?_⟩
          rw [hex.1, Lit.var_neg]; exact hlv2 hL
      | none =>
        have hsame : W.setList p ([] ++ W.lists p) = W := by
          have : upd W.lists p (W.lists p) = W.lists := by
            funext q; simp only [upd]; split
            · subst_vars; rfl
            · rfl
          simp [SW.setList, this]
        dsimp only
        generalize hpw : sPropWatched store p (W.lists p) [] W T2 = pw
        obtain ⟨⟨W3, T3⟩, r3⟩ := pw
        obtain ⟨w1, w2, w3, w4, w5, w6, w7, w8, w9⟩ := sPropWatched_spec (W.lists p) [] W T2 b1
          (by rw [hsame]; exact hw) hpm2 hlv2 W3 T3 r3 hpw
        have hsci3 : L → SCI store W T (fun _ _ => False) →
            SCI store W3 T3 (fun _ w => w = p.neg ∧ r3 ≠ none) := by
          intro hL h
          apply w6 hL
          rw [hsame]
          intro i hi w hwi
          rcases hbsci (hsci1 h) i hi w hwi with h' | h'
          · left
            refine ⟨h', (hw.mem p i).2 ⟨hi, ?_⟩⟩
            rw [← h']; exact hwi.imp Eq.symm Eq.symm
          · exact Or.inr h'
        have hcinv3 : L → ∀ A, CInv A store noWatch bin T (fun _ _ => False) →
            CInv A store noWatch bin T3 (fun _ _ => False) := by
          intro hL A h
          refine w7 _ pushClosed_cinv ?_
          refine ((hbspec A).2.2.2.2 hL (hcinv1 A h)).weaken ?_
          intro d hA x y r hl w hxw hex
          rcases hex.2 with h' | h'
          · exact (h.noLong hA h').elim
          · simp at h'
        have hext3 : TExt T T3 := (hext1.trans b2).trans w3
        have hq3 : L → LimQ T3 := by
          intro hL k hk
          rw [hext3.lim] at hk
          have h1 := hq hL k hk
          have h2 := (b2.trans w3).qhead
          simp at h2
          omega
        cases r3 with
        | some c =>
          refine ⟨W3, T3, some c, rfl, w1, w2, hext3, by simp, w5, hq3, fun hL h => ?_, fun hL A h => ?_,
            w8, w9⟩
          · refine (hsci3 hL h).weaken ?_
            intro i _ w hex
            refine Or.inl ⟨by simp, ?_⟩
            rw [hex.1, Lit.var_neg, w3.level p hpm2, w3.decisionLevel]; exact hlv2 hL
          · exact (hcinv3 hL A h).weaken (by simp)
        | none =>
          have hqh : T3.qhead = T.qhead + 1 := by rw [w4]; exact b3
          obtain ⟨W', T', r', e', c1, c2, c3, c4, c5, c6, c7, c8, c9, c10⟩ :=
            sPropagateLoop_specL fuel W3 T3 w1 w2 hq3 (by omega)
          refine ⟨W', T', r', e', c1, c2, hext3.trans c3, c4, c5, c6, fun hL h => c7 hL ?_,
            fun hL A h => c8 hL A (hcinv3 hL A h), c9.trans w8, fun i => (c10 i).trans (w9 i)⟩
          exact (hsci3 hL h).weaken (by simp)

theorem sPropagateLoop_spec (fuel : Nat) (W : SW) (T : Trail)
    (hc : Core F nV next bin store T) (hw : SWInv next store W) (hq : LimQ T)
    (hf : nV < fuel + T.qhead) :
    ∃ W' T' r, sPropagateLoop bin store fuel W T = some ((W', T'), r) ∧
      Core F nV next bin store T' ∧ SWInv next store W' ∧ TExt T T' ∧
      (r = none → T'.qhead = T'.stack.length) ∧
      (∀ c, r = some c → Conflict next store T' c) ∧ LimQ T' ∧
      (SCI store W T (fun _ _ => False) →
        SCI store W' T' (fun _ w => r ≠ none ∧ T'.level w.var = T'.decisionLevel)) ∧
      (∀ A, CInv A store noWatch bin T (fun _ _ => False) →
        CInv A store noWatch bin T' (fun _ w => r ≠ none ∧ T'.level w.var = T'.decisionLevel)) ∧
      W'.cnt = W.cnt ∧ (∀ i, (W'.tab i).cref = (W.tab i).cref) := by
  obtain ⟨W', T', r, e1, e2, e3, e4, e5, e6, e7, e8, e9, e10⟩ :=
    sPropagateLoop_specL (L := True) fuel W T hc hw (fun _ => hq) hf
  exact ⟨W', T', r, e1, e2, e3, e4, e5, e6, e7 trivial, e8 trivial, e9 trivial, e10⟩

end Candy
