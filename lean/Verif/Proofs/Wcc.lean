import Verif.Proofs.Brandes
import Mathlib.Algebra.Order.BigOperators.Group.Finset

/-!
# Weakly connected components
-/

namespace Candy.Wcc

open Finset Betweenness

/-- There is a path. -/
inductive Reach (nbr : Nat → List Nat) (a : Nat) : Nat → Prop
  | refl : Reach nbr a a
  | step {b c : Nat} : Reach nbr a b → c ∈ nbr b → Reach nbr a c

theorem Reach.trans {nbr : Nat → List Nat} {a b c : Nat} (h1 : Reach nbr a b) (h2 : Reach nbr b c) : Reach nbr a c := by
  induction h2 with
  | refl => exact h1
  | step _ h ih => exact ih.step h

theorem Reach.symm {nbr : Nat → List Nat} (hs : ∀ a b, a ∈ nbr b → b ∈ nbr a) {a b : Nat} (h : Reach nbr a b) : Reach nbr b a := by
  induction h with
  | refl => exact .refl
  | step _ h ih => exact (Reach.refl.step (hs _ _ h)).trans ih

theorem reach_of_path {nbr : Nat → List Nat} : ∀ (p : List Nat) (a b : Nat), Path (fun v w => w ∈ nbr v) a b p → Reach nbr a b
  | [], _, _, h => by simp [Path] at h
  | [x], _, _, h => by
    obtain ⟨_, h1, h2⟩ := h
    simp at h1 h2
    rw [← h1, ← h2]
    exact .refl
  | x :: y :: p, a, b, h => by
    obtain ⟨h1, h2, h3⟩ := h
    simp only [List.head?_cons, Option.some.injEq] at h2
    subst h2
    rw [List.getLast?_cons_cons] at h3
    exact (Reach.refl.step h1.1).trans (reach_of_path (y :: p) y b ⟨h1.2, rfl, h3⟩)

theorem chain_snoc {adj : Nat → Nat → Prop} {b c : Nat} (hbc : adj b c) : ∀ (p : List Nat), Chain adj p → p.getLast? = some b →
    Chain adj (p ++ [c])
  | [], _, _ => by simp [Chain]
  | [x], _, h => by
    simp at h
    subst h
    exact ⟨hbc, trivial⟩
  | x :: y :: p, h1, h2 => by
    rw [List.getLast?_cons_cons] at h2
    exact ⟨h1.1, chain_snoc hbc (y :: p) h1.2 h2⟩

theorem path_of_reach {nbr : Nat → List Nat} {a b : Nat} (h : Reach nbr a b) : ∃ p, Path (fun v w => w ∈ nbr v) a b p := by
  induction h with
  | refl => exact ⟨[a], trivial, rfl, rfl⟩
  | @step b c _ h ih =>
    obtain ⟨p, h1, h2, h3⟩ := ih
    refine ⟨p ++ [c], chain_snoc h p h1 h3, ?_, by simp⟩
    cases p with
    | nil => simp at h2
    | cons x p => exact h2

/-- Number of nodes with the given mark. -/
def cnt (n : Nat) (id : Nat → Nat) (k : Nat) : Nat := ((range n).filter fun v => id v = k).card

theorem cnt_upd {n : Nat} {id : Nat → Nat} {i c : Nat} (hi : i < n) (h0 : id i = 0) (hc : c ≠ 0) :
    cnt n (upd id i c) c = cnt n id c + 1 ∧ cnt n (upd id i c) 0 + 1 = cnt n id 0 ∧
      ∀ k, k ≠ c → k ≠ 0 → cnt n (upd id i c) k = cnt n id k := by
  refine ⟨?_, ?_, ?_⟩
  · unfold cnt
    have : (range n).filter (fun v => upd id i c v = c) = insert i ((range n).filter fun v => id v = c) := by
      ext v
      simp only [mem_filter, mem_range, mem_insert]
      rw [upd_apply]
      by_cases e : v = i
      · subst e; simp [hi]
      · simp [e]
    rw [this, card_insert_of_notMem]
    simp only [mem_filter, not_and]
    intro _ e
    exact hc (e.symm.trans h0)
  · unfold cnt
    have : (range n).filter (fun v => id v = 0) = insert i ((range n).filter fun v => upd id i c v = 0) := by
      ext v
      simp only [mem_filter, mem_range, mem_insert]
      rw [upd_apply]
      by_cases e : v = i
      · subst e; simp [hi, h0]
      · simp [e]
    rw [this, card_insert_of_notMem]
    simp [upd_same, hc]
  · intro k h1 h2
    unfold cnt
    congr 1
    ext v
    simp only [mem_filter, mem_range]
    rw [upd_apply]
    by_cases e : v = i
    · subst e
      simp only [if_true]
      constructor
      · rintro ⟨_, e⟩; exact absurd e.symm h1
      · rintro ⟨_, e⟩; exact absurd (e.symm.trans h0) h2
    · simp [e]

/-- The numbers of nodes are right. -/
structure Sized (n : Nat) (w : Wcc) : Prop where
  pos : w.c ≠ 0
  zero : w.size 0 = 0
  size : ∀ k, k ≠ 0 → w.size k = cnt n w.id k

theorem Sized.join {n : Nat} {w : Wcc} (h : Sized n w) {i : Nat} (hi : i < n) (h0 : w.id i = 0) : Sized n (w.join i) := by
  obtain ⟨c1, _, c3⟩ := cnt_upd hi h0 h.pos
  refine ⟨h.pos, ?_, ?_⟩
  · show upd w.size w.c _ 0 = 0
    rw [upd_ne _ _ (Ne.symm h.pos)]
    exact h.zero
  · intro k hk
    show upd w.size w.c _ k = cnt n (upd w.id i w.c) k
    by_cases e : k = w.c
    · subst e
      rw [upd_same, c1, h.size _ hk]
    · rw [upd_ne _ _ e, c3 k e hk, h.size k hk]

/-- What the loop over neighbours does. -/
structure Visited (n : Nat) (l : List Nat) (w w' : Wcc) : Prop where
  c : w'.c = w.c
  largest : w'.largest = w.largest
  keep : ∀ x, w.id x ≠ 0 → w'.id x = w.id x
  new : ∀ x, w.id x = 0 → w'.id x = 0 ∨ (w'.id x = w.c ∧ x ∈ l)
  done : ∀ x ∈ l, w'.id x ≠ 0
  q : ∀ x, x ∈ w'.q ↔ x ∈ w.q ∨ (w.id x = 0 ∧ w'.id x ≠ 0)
  sized : Sized n w'
  measure : w'.q.length + cnt n w'.id 0 = w.q.length + cnt n w.id 0
  sizes : ∀ k, k ≠ w.c → w'.size k = w.size k
  le : w.size w.c ≤ w'.size w.c

theorem visit_spec {n : Nat} : ∀ (l : List Nat) (w : Wcc), (∀ x ∈ l, x < n) → Sized n w → Visited n l w (l.foldl visit w)
  | [], w, _, h => ⟨rfl, rfl, fun _ _ => rfl, fun _ h => Or.inl h, by simp, fun x => by simp, h, rfl, fun _ _ => rfl, Nat.le_refl _⟩
  | i :: l, w, hl, h => by
    rw [List.forall_mem_cons] at hl
    rw [List.foldl_cons]
    by_cases h0 : w.id i = 0
    · have e : visit w i = w.join i := if_pos h0
      rw [e]
      have ih := visit_spec l (w.join i) hl.2 (h.join hl.1 h0)
      have hid : ∀ x, (w.join i).id x = if x = i then w.c else w.id x := fun x => upd_apply ..
      have hc : (w.join i).c = w.c := rfl
      refine ⟨ih.c, ih.largest, ?_, ?_, ?_, ?_, ih.sized, ?_, ?_, ?_⟩
      · intro x hx
        have hxi : x ≠ i := fun e => hx (by rw [e]; exact h0)
        have := ih.keep x (by rw [hid, if_neg hxi]; exact hx)
        rw [this, hid, if_neg hxi]
      · intro x hx
        by_cases hxi : x = i
        · subst hxi
          right
          have := ih.keep x (by rw [hid, if_pos rfl]; exact h.pos)
          rw [this, hid, if_pos rfl]
          exact ⟨rfl, by simp⟩
        · rcases ih.new x (by rw [hid, if_neg hxi]; exact hx) with h1 | ⟨h1, h2⟩
          · exact Or.inl h1
          · exact Or.inr ⟨h1, List.mem_cons_of_mem _ h2⟩
      · intro x hx
        rcases List.mem_cons.1 hx with rfl | hx
        · rw [ih.keep x (by rw [hid, if_pos rfl]; exact h.pos), hid, if_pos rfl]
          exact h.pos
        · exact ih.done x hx
      · intro x
        rw [ih.q]
        show x ∈ w.q ++ [i] ∨ _ ↔ _
        rw [List.mem_append, List.mem_singleton, hid]
        by_cases hxi : x = i
        · subst hxi
          have := ih.keep x (by rw [hid, if_pos rfl]; exact h.pos)
          rw [hid, if_pos rfl] at this
          rw [this]
          simp [h0, h.pos]
        · simp [hxi]
      · rw [ih.measure]
        obtain ⟨_, c2, _⟩ := cnt_upd hl.1 h0 h.pos
        show (w.q ++ [i]).length + cnt n (upd w.id i w.c) 0 = _
        rw [List.length_append]
        simp only [List.length_singleton]
        omega
      · intro k hk
        rw [ih.sizes k hk]
        exact upd_ne _ _ hk
      · refine le_trans ?_ ih.le
        show w.size w.c ≤ upd w.size w.c (w.size w.c + 1) w.c
        rw [upd_same]
        omega
    · have e : visit w i = w := if_neg h0
      rw [e]
      have ih := visit_spec l w hl.2 h
      refine ⟨ih.c, ih.largest, ih.keep, fun x hx => (ih.new x hx).imp (fun h => h) fun h => ⟨h.1, List.mem_cons_of_mem _ h.2⟩, ?_, ih.q, ih.sized,
        ih.measure, ih.sizes, ih.le⟩
      intro x hx
      rcases List.mem_cons.1 hx with rfl | hx
      · rw [ih.keep x h0]; exact h0
      · exact ih.done x hx

/-- Invariant of the loop over the queue, for the component of `r`; `w0` is the state before. -/
structure Inner (n : Nat) (nbr : Nat → List Nat) (r : Nat) (w0 w : Wcc) : Prop where
  c : w.c = w0.c
  largest : w.largest = w0.largest
  sized : Sized n w
  root : w.id r = w.c
  keep : ∀ x, w0.id x ≠ 0 → w.id x = w0.id x
  new : ∀ x, w0.id x = 0 → w.id x = 0 ∨ (w.id x = w.c ∧ Reach nbr r x ∧ x < n)
  q : ∀ x ∈ w.q, w.id x = w.c ∧ w0.id x = 0
  closed : ∀ x, w.id x = w.c → x ∉ w.q → ∀ u ∈ nbr x, w.id u ≠ 0
  sizes : ∀ k, k ≠ w0.c → w.size k = w0.size k

theorem loop_spec {n : Nat} {nbr : Nat → List Nat} (hn : ∀ v < n, ∀ u ∈ nbr v, u < n) {r : Nat} {w0 : Wcc} (h0 : ∀ x, w0.id x < w0.c) :
    ∀ (k : Nat) (w : Wcc), Inner n nbr r w0 w → w.q.length + cnt n w.id 0 ≤ k →
      ∃ w', loop n nbr k w = some w' ∧ Inner n nbr r w0 w' ∧ w'.q = []
  | k, w, h, hk => by
    unfold loop
    match hq : w.q with
    | [] => exact ⟨w, rfl, h, hq⟩
    | v :: q =>
      rw [hq] at hk
      simp only [List.length_cons] at hk
      match k, hk with
      | 0, hk => omega
      | k + 1, hk =>
        obtain ⟨hv1, hv2⟩ := h.q v (by rw [hq]; simp)
        obtain ⟨hvr, hvn⟩ : Reach nbr r v ∧ v < n := by
          rcases h.new v hv2 with e | e
          · exact absurd (hv1.symm.trans e) h.sized.pos
          · exact e.2
        have hs : Sized n { w with q := q } := ⟨h.sized.pos, h.sized.zero, h.sized.size⟩
        have hV := visit_spec (nbr v) { w with q := q } (hn v hvn) hs
        dsimp only
        rw [if_pos ⟨hvn, hn v hvn⟩]
        generalize hw' : (nbr v).foldl visit { w with q := q } = w' at hV
        have hVq : ∀ x, x ∈ w'.q ↔ x ∈ q ∨ (w.id x = 0 ∧ w'.id x ≠ 0) := hV.q
        have hVk : ∀ x, w.id x ≠ 0 → w'.id x = w.id x := hV.keep
        have hVn : ∀ x, w.id x = 0 → w'.id x = 0 ∨ (w'.id x = w.c ∧ x ∈ nbr v) := hV.new
        have hVc : w'.c = w.c := hV.c
        refine loop_spec hn h0 k w' ⟨hVc.trans h.c, hV.largest.trans h.largest, hV.sized, ?_, ?_, ?_, ?_, ?_, ?_⟩ ?_
        · rw [hVk r (by rw [h.root]; exact h.sized.pos), h.root, hVc]
        · intro x hx
          have := h.keep x hx
          rw [hVk x (by rw [this]; exact hx), this]
        · intro x hx
          rcases h.new x hx with e | ⟨e1, e2⟩
          · rcases hVn x e with e' | ⟨e1, e2⟩
            · exact Or.inl e'
            · exact Or.inr ⟨by rw [e1, hVc], hvr.step e2, hn v hvn x e2⟩
          · right
            rw [hVk x (by rw [e1]; exact h.sized.pos), hVc]
            exact ⟨e1, e2⟩
        · intro x hx
          rcases (hVq x).1 hx with hx | ⟨e1, e2⟩
          · obtain ⟨g1, g2⟩ := h.q x (by rw [hq]; simp [hx])
            rw [hVk x (by rw [g1]; exact h.sized.pos), hVc]
            exact ⟨g1, g2⟩
          · rcases hVn x e1 with e | e
            · exact absurd e e2
            · refine ⟨by rw [e.1, hVc], ?_⟩
              by_contra hc
              exact hc ((h.keep x hc).symm.trans e1)
        · intro x hx hxq u hu
          by_cases hxv : x = v
          · subst hxv
            exact hV.done u hu
          · by_cases hx0 : w.id x = 0
            · exact absurd ((hVq x).2 (Or.inr ⟨hx0, by rw [hx]; exact hV.sized.pos⟩)) hxq
            · have hxc : w.id x = w.c := by rw [← hVk x hx0, hx, hVc]
              have hxq' : x ∉ w.q := by
                rw [hq]
                intro hm
                rcases List.mem_cons.1 hm with e | e
                · exact hxv e
                · exact hxq ((hVq x).2 (Or.inl e))
              have hu0 := h.closed x hxc hxq' u hu
              rw [hVk u hu0]
              exact hu0
        · intro k hk
          have : w'.size k = w.size k := hV.sizes k (by show k ≠ w.c; rw [h.c]; exact hk)
          rw [this, h.sizes k hk]
        · have : w'.q.length + cnt n w'.id 0 = q.length + cnt n w.id 0 := hV.measure
          omega

/-- Invariant of the loop over the nodes. -/
structure Outer (n : Nat) (nbr : Nat → List Nat) (w : Wcc) : Prop where
  sized : Sized n w
  lt : ∀ x, w.id x < w.c
  range : ∀ x, w.id x ≠ 0 → x < n
  closed : ∀ x, w.id x ≠ 0 → ∀ u ∈ nbr x, w.id u = w.id x
  conn : ∀ x y, w.id x ≠ 0 → w.id x = w.id y → Reach nbr x y
  two : ∀ k, k ≠ 0 → k < w.c → 2 ≤ cnt n w.id k
  max : ∀ k, w.size k ≤ w.size w.largest
  large : w.largest < w.c
  used : w.c = 1 ∨ w.largest ≠ 0

theorem Outer.start (n : Nat) (nbr : Nat → List Nat) : Outer n nbr start where
  sized := ⟨by decide, rfl, fun k hk => by
    show 0 = cnt n (fun _ => 0) k
    unfold cnt
    rw [Finset.filter_false_of_mem]
    · rfl
    · exact fun _ _ e => hk e.symm⟩
  lt _ := Nat.lt_succ_self 0
  range _ h := absurd rfl h
  closed _ h := absurd rfl h
  conn _ _ h := absurd rfl h
  two k h1 h2 := absurd (Nat.lt_one_iff.1 h2) h1
  max _ := Nat.le_refl _
  large := Nat.lt_succ_self 0
  used := Or.inl rfl

/-- There is room for the number of a new component. -/
theorem Outer.room {n : Nat} {nbr : Nat → List Nat} {w : Wcc} (h : Outer n nbr w) {i : Nat} (hi : i < n) (h0 : w.id i = 0) (hn : 2 ≤ n) :
    w.c < n := by
  have h1 : ∑ k ∈ Finset.range w.c, cnt n w.id k = n := by
    have := Finset.card_eq_sum_card_fiberwise (s := Finset.range n) (t := Finset.range w.c) (f := w.id) (fun x _ => by
      simpa using h.lt x)
    rw [card_range] at this
    exact this.symm
  have h2 : 1 ≤ cnt n w.id 0 := by
    unfold cnt
    exact card_pos.2 ⟨i, by simp [hi, h0]⟩
  obtain ⟨c, hc⟩ : ∃ c, w.c = c + 1 := ⟨w.c - 1, by have := h.sized.pos; omega⟩
  rw [hc, Finset.sum_range_succ'] at h1
  have h3 : ∑ _k ∈ Finset.range c, 2 ≤ ∑ k ∈ Finset.range c, cnt n w.id (k + 1) :=
    Finset.sum_le_sum fun k hk => h.two (k + 1) (by omega) (by rw [hc]; have := Finset.mem_range.1 hk; omega)
  rw [Finset.sum_const, card_range] at h3
  have h4 : c • 2 = c * 2 := rfl
  rw [h4] at h3
  omega

theorem node_spec {n : Nat} {nbr : Nat → List Nat} (hn : ∀ v < n, ∀ u ∈ nbr v, u < n) (hs : ∀ a b, a ∈ nbr b → b ∈ nbr a)
    (hl : ∀ v < n, ∃ u ∈ nbr v, u ≠ v) {w : Wcc} (h : Outer n nbr w) {i : Nat} (hi : i < n) :
    ∃ w', node n nbr w i = some w' ∧ Outer n nbr w' ∧ w'.id i ≠ 0 ∧ ∀ x, w.id x ≠ 0 → w'.id x ≠ 0 := by
  unfold node
  by_cases h0 : w.id i = 0
  · rw [if_neg (by simp [h0])]
    obtain ⟨u, hu, hui⟩ := hl i hi
    have hun := hn i hi u hu
    rw [if_pos (h.room hi h0 (by omega))]
    have hs0 : Sized n { w with q := [] } := ⟨h.sized.pos, h.sized.zero, h.sized.size⟩
    have hsj := hs0.join hi h0
    have hid : ∀ x, (({ w with q := [] } : Wcc).join i).id x = if x = i then w.c else w.id x := fun x => upd_apply ..
    have hI : Inner n nbr i w (({ w with q := [] } : Wcc).join i) := by
      refine ⟨rfl, rfl, hsj, by rw [hid, if_pos rfl]; rfl, ?_, ?_, ?_, ?_, ?_⟩
      · intro x hx
        rw [hid, if_neg]
        exact fun e => hx (by rw [e]; exact h0)
      · intro x hx
        rw [hid]
        by_cases e : x = i
        · subst e
          right
          rw [if_pos rfl]
          exact ⟨rfl, .refl, hi⟩
        · left
          rw [if_neg e]
          exact hx
      · intro x hx
        have : x = i := by simpa [join] using hx
        subst this
        rw [hid, if_pos rfl]
        exact ⟨rfl, h0⟩
      · intro x hx hxq
        exfalso
        have hxi : x ≠ i := fun e => hxq (by simp [join, e])
        rw [hid, if_neg hxi] at hx
        exact absurd hx (Nat.ne_of_lt (h.lt x))
      · intro k hk
        exact upd_ne _ _ hk
    have hfuel : (({ w with q := [] } : Wcc).join i).q.length + cnt n (({ w with q := [] } : Wcc).join i).id 0 ≤ n := by
      obtain ⟨_, c2, _⟩ := cnt_upd hi h0 h.sized.pos
      have hle : cnt n w.id 0 ≤ n := by
        unfold cnt
        exact (card_filter_le _ _).trans (by rw [card_range])
      show 1 + cnt n (upd w.id i w.c) 0 ≤ n
      omega
    obtain ⟨w', e1, hw', hq⟩ := loop_spec hn h.lt n _ hI hfuel
    rw [e1]
    have hold : ∀ x, w'.id x ≠ w.c → w'.id x = w.id x := by
      intro x hx
      by_cases e : w.id x = 0
      · rcases hw'.new x e with e' | e'
        · rw [e', e]
        · exact absurd (e'.1.trans hw'.c) hx
      · exact hw'.keep x e
    have hnew : ∀ x, w'.id x = w.c → w.id x = 0 ∧ Reach nbr i x ∧ x < n := by
      intro x hx
      by_cases e : w.id x = 0
      · rcases hw'.new x e with e' | e'
        · exact absurd (hx.symm.trans e') h.sized.pos
        · exact ⟨e, e'.2⟩
      · have := hw'.keep x e
        exact absurd (hx.symm.trans this).symm (Nat.ne_of_lt (h.lt x))
    have hcl : ∀ x, w'.id x = w.c → ∀ u ∈ nbr x, w'.id u = w.c := by
      intro x hx u hu
      have h1 := hw'.closed x (hx.trans hw'.c.symm) (by rw [hq]; simp) u hu
      by_contra hc
      have h2 := hold u hc
      have h3 := h.closed u (by rw [← h2]; exact h1) x (hs _ _ hu)
      rw [(hnew x hx).1] at h3
      exact h1 (h2.trans h3.symm)
    have hcnt : ∀ k, k ≠ 0 → k ≠ w.c → cnt n w'.id k = cnt n w.id k := by
      intro k hk1 hk2
      rw [← hw'.sized.size k hk1, ← h.sized.size k hk1]
      exact hw'.sizes k hk2
    have hlarge : (close w').size (close w').largest = Nat.max (w'.size w'.largest) (w'.size w'.c) := by
      show w'.size (if w'.size w'.largest < w'.size w'.c then w'.c else w'.largest) = _
      by_cases e : w'.size w'.largest < w'.size w'.c
      · rw [if_pos e]; exact (Nat.max_eq_right (Nat.le_of_lt e)).symm
      · rw [if_neg e]; exact (Nat.max_eq_left (Nat.le_of_not_lt e)).symm
    have hroot : w'.id i = w.c := hw'.root.trans hw'.c
    have h2c : 2 ≤ cnt n w'.id w.c := by
      unfold cnt
      have hsub : ({i, u} : Finset Nat) ⊆ (Finset.range n).filter fun v => w'.id v = w.c := by
        intro x hx
        rcases mem_insert.1 hx with rfl | hx
        · simp [hi, hroot]
        · rw [mem_singleton] at hx
          subst hx
          simp [hun, hcl i hroot x hu]
      have := card_le_card hsub
      rw [card_pair (Ne.symm hui)] at this
      exact this
    have hll : w'.largest ≠ w.c := by rw [hw'.largest]; exact Nat.ne_of_lt h.large
    refine ⟨close w', rfl, ⟨⟨by show w'.c + 1 ≠ 0; omega, hw'.sized.zero, hw'.sized.size⟩, ?_, ?_, ?_, ?_, ?_, ?_, ?_, ?_⟩, ?_, ?_⟩
    · intro x
      show w'.id x < w'.c + 1
      rw [hw'.c]
      by_cases e : w'.id x = w.c
      · omega
      · rw [hold x e]
        have := h.lt x
        omega
    · intro x hx
      by_cases e : w'.id x = w.c
      · exact (hnew x e).2.2
      · exact h.range x (by rw [← hold x e]; exact hx)
    · intro x hx u hu
      show w'.id u = w'.id x
      by_cases e : w'.id x = w.c
      · rw [e]; exact hcl x e u hu
      · have h1 : w.id x ≠ 0 := by rw [← hold x e]; exact hx
        have h2 := h.closed x h1 u hu
        rw [hw'.keep u (by rw [h2]; exact h1), h2, hold x e]
    · intro x y hx hxy
      change w'.id x ≠ 0 at hx
      change w'.id x = w'.id y at hxy
      by_cases e : w'.id x = w.c
      · exact ((hnew x e).2.1.symm hs).trans (hnew y (hxy ▸ e)).2.1
      · have e' : w'.id y ≠ w.c := by rw [← hxy]; exact e
        rw [hold x e] at hx
        exact h.conn x y hx (by rw [← hold x e, ← hold y e', hxy])
    · intro k hk1 hk2
      show 2 ≤ cnt n w'.id k
      change k < w'.c + 1 at hk2
      rw [hw'.c] at hk2
      by_cases e : k = w.c
      · rw [e]; exact h2c
      · rw [hcnt k hk1 e]
        exact h.two k hk1 (by omega)
    · intro k
      rw [hlarge]
      show w'.size k ≤ _
      by_cases e : k = w.c
      · rw [e, ← hw'.c]; exact Nat.le_max_right _ _
      · refine Nat.le_trans ?_ (Nat.le_max_left _ _)
        rw [hw'.sizes k e, hw'.sizes _ hll, hw'.largest]
        exact h.max k
    · show (if w'.size w'.largest < w'.size w'.c then w'.c else w'.largest) < w'.c + 1
      by_cases e : w'.size w'.largest < w'.size w'.c
      · rw [if_pos e]; omega
      · rw [if_neg e, hw'.largest, hw'.c]
        have := h.large
        omega
    · right
      show (if w'.size w'.largest < w'.size w'.c then w'.c else w'.largest) ≠ 0
      by_cases e : w'.size w'.largest < w'.size w'.c
      · rw [if_pos e]; exact hw'.sized.pos
      · rw [if_neg e]
        intro e0
        rw [e0, hw'.sized.zero, hw'.sized.size _ hw'.sized.pos, hw'.c] at e
        omega
    · show w'.id i ≠ 0
      rw [hroot]
      exact h.sized.pos
    · intro x hx
      show w'.id x ≠ 0
      rw [hw'.keep x hx]
      exact hx
  · rw [if_pos h0]
    exact ⟨w, rfl, h, h0, fun _ h => h⟩

theorem nodes_spec {n : Nat} {nbr : Nat → List Nat} (hn : ∀ v < n, ∀ u ∈ nbr v, u < n) (hs : ∀ a b, a ∈ nbr b → b ∈ nbr a)
    (hl : ∀ v < n, ∃ u ∈ nbr v, u ≠ v) : ∀ (is : List Nat) (w : Wcc), (∀ i ∈ is, i < n) → Outer n nbr w →
    ∃ w', is.foldlM (node n nbr) w = some w' ∧ Outer n nbr w' ∧ (∀ i ∈ is, w'.id i ≠ 0) ∧ ∀ x, w.id x ≠ 0 → w'.id x ≠ 0
  | [], w, _, h => ⟨w, rfl, h, by simp, fun _ h => h⟩
  | i :: is, w, hi, h => by
    rw [List.forall_mem_cons] at hi
    obtain ⟨w1, e1, h1, h2, h3⟩ := node_spec hn hs hl h hi.1
    obtain ⟨w2, e2, h4, h5, h6⟩ := nodes_spec hn hs hl is w1 hi.2 h1
    refine ⟨w2, by rw [List.foldlM_cons, e1]; exact e2, h4, ?_, fun x hx => h6 x (h3 x hx)⟩
    rw [List.forall_mem_cons]
    exact ⟨h6 i h2, h5⟩

end Candy.Wcc
