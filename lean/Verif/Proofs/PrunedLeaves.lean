import Verif.Proofs.Distances

/-!
# Pruning of leaves, and eccentricities
-/

namespace Candy

open Betweenness Distance Brandes Finset Bounding

variable {n : Nat} {nbr : Nat → List Nat} {scope : Nat → Bool} {pruned : Nat → Int}

/-- Lists of neighbours of an undirected graph without loops. -/
structure Simple (n : Nat) (nbr : Nat → List Nat) : Prop where
  nd : ∀ v < n, (nbr v).Nodup ∧ ∀ w ∈ nbr v, w < n
  sym : ∀ a b, a ∈ nbr b → b ∈ nbr a
  irr : ∀ v, v ∉ nbr v

/-- The nodes in the scope are the nodes of a component. -/
structure Comp (n : Nat) (nbr : Nat → List Nat) (scope : Nat → Bool) (nl : Nat) : Prop where
  lt : ∀ i, scope i = true → i < n
  closed : ∀ i j, scope i = true → j ∈ nbr i → scope j = true
  conn : ∀ i j, scope i = true → scope j = true → ∃ k, Walk (Adj nbr) k i j
  size : nl = ((range n).filter fun i => scope i = true).card

/-- Pruned nodes are leaves, with another leaf that is kept. -/
def PrunOk (nbr : Nat → List Nat) (scope : Nat → Bool) (pruned : Nat → Int) : Prop :=
  ∀ x, pruned x < 0 ∨ ∃ p c : Nat, pruned x = p ∧ p ≠ x ∧ nbr x = [c] ∧ nbr p = [c] ∧ scope c = true ∧ pruned p < 0

/-! ### `pruning` -/

namespace Pruning

/-- `p` is kept for the pruned nodes. -/
structure Inv (n : Nat) (nbr : Nat → List Nat) (scope : Nat → Bool) (s : Pruning) : Prop where
  ok : ∀ x, s.pruned x = -1 ∨ s.pruned x = -2 ∨
    ∃ p c : Nat, s.pruned x = p ∧ p ≠ x ∧ nbr x = [c] ∧ nbr p = [c] ∧ scope c = true ∧ s.pruned p = -2
  lt : ∀ x, 0 ≤ s.pruned x → x < n
  cnt : s.count = (((range n).filter fun i => 0 ≤ s.pruned i).card : Nat)

theorem leaves (hg : Simple n nbr) {i : Nat} (hi : i < n) (hsc : scope i = true) : ∀ (xs : List Nat) (s : Pruning), Inv n nbr scope s → xs.Nodup →
    (∀ x ∈ xs, x ∈ nbr i) → (s.prunee = -1 ∨ ∃ p : Nat, s.prunee = p ∧ p ∉ xs ∧ nbr p = [i] ∧ (s.pruned p = -1 ∨ s.pruned p = -2)) →
    Inv n nbr scope (xs.foldl (leaf nbr) s)
  | [], _, h, _, _, _ => h
  | x :: xs, s, h, hnd, hx, hp => by
    rw [List.foldl_cons]
    have hxn := (hg.nd i hi).2 x (hx x List.mem_cons_self)
    have hnd' := List.nodup_cons.1 hnd
    have hx' : ∀ y ∈ xs, y ∈ nbr i := fun y hy => hx y (List.mem_cons_of_mem _ hy)
    by_cases hc : (nbr x).length = 1 ∧ s.pruned x = -1
    · have hxi : nbr x = [i] := by
        have h1 := hg.sym _ _ (hx x List.mem_cons_self)
        obtain ⟨a, ha⟩ := List.length_eq_one_iff.1 hc.1
        rw [ha] at h1 ⊢
        simp at h1
        rw [h1]
      rcases hp with hp | ⟨p, hp, hpx, hpi, hpp⟩
      · have e : leaf nbr s x = { s with prunee := x } := by unfold leaf; rw [if_pos hc, if_pos hp]
        rw [e]
        exact leaves hg hi hsc xs _ ⟨h.ok, h.lt, h.cnt⟩ hnd'.2 hx' (Or.inr ⟨x, rfl, hnd'.1, hxi, Or.inl hc.2⟩)
      · have e : leaf nbr s x = ⟨upd (upd s.pruned x p) p (-2), s.count + 1, s.prunee⟩ := by
          unfold leaf; rw [if_pos hc, if_neg (by omega)]; simp [hp]
        have hpx1 : p ≠ x := fun e => hpx (e ▸ List.mem_cons_self)
        have hpx2 : p ∉ xs := fun e => hpx (List.mem_cons_of_mem _ e)
        have hval : ∀ y, upd (upd s.pruned x (p : Int)) p (-2) y = if y = p then -2 else if y = x then (p : Int) else s.pruned y := by
          intro y; rfl
        rw [e]
        refine leaves hg hi hsc xs _ ⟨?_, ?_, ?_⟩ hnd'.2 hx' (Or.inr ⟨p, hp, hpx2, hpi, Or.inr (by simp)⟩)
        · intro y
          simp only [hval]
          by_cases hyp : y = p
          · rw [if_pos hyp]; exact Or.inr (Or.inl rfl)
          · rw [if_neg hyp]
            by_cases hyx : y = x
            · rw [if_pos hyx]
              subst hyx
              exact Or.inr (Or.inr ⟨p, i, rfl, hpx1, hxi, hpi, hsc, by simp⟩)
            · rw [if_neg hyx]
              rcases h.ok y with h1 | h1 | ⟨q, c, q1, q2, q3, q4, q5, q6⟩
              · exact Or.inl h1
              · exact Or.inr (Or.inl h1)
              · refine Or.inr (Or.inr ⟨q, c, q1, q2, q3, q4, q5, ?_⟩)
                by_cases hqp : q = p
                · rw [if_pos hqp]
                · have : q ≠ x := by rintro rfl; rw [hc.2] at q6; omega
                  rw [if_neg hqp, if_neg this]; exact q6
        · intro y
          simp only [hval]
          intro h0
          by_cases hyp : y = p
          · rw [if_pos hyp] at h0; omega
          · rw [if_neg hyp] at h0
            by_cases hyx : y = x
            · rw [hyx]; exact hxn
            · rw [if_neg hyx] at h0; exact h.lt y h0
        · have : (range n).filter (fun y => 0 ≤ upd (upd s.pruned x (p : Int)) p (-2) y) = insert x ((range n).filter fun y => 0 ≤ s.pruned y) := by
            ext y
            simp only [mem_filter, mem_insert, mem_range, hval]
            constructor
            · rintro ⟨a1, a2⟩
              by_cases hyx : y = x
              · exact Or.inl hyx
              · by_cases hyp : y = p
                · rw [if_pos hyp] at a2; omega
                · rw [if_neg hyp, if_neg hyx] at a2; exact Or.inr ⟨a1, a2⟩
            · rintro (rfl | ⟨a1, a2⟩)
              · exact ⟨hxn, by rw [if_neg (Ne.symm hpx1), if_pos rfl]; omega⟩
              · have h1 : y ≠ p := by rintro rfl; omega
                have h2 : y ≠ x := by rintro rfl; omega
                exact ⟨a1, by rw [if_neg h1, if_neg h2]; exact a2⟩
          have e2 := h.cnt
          simp only [this]
          rw [card_insert_of_notMem (by simp [hc.2])]
          push_cast
          omega
    · have e : leaf nbr s x = s := by unfold leaf; rw [if_neg hc]
      rw [e]
      refine leaves hg hi hsc xs _ h hnd'.2 hx' (hp.imp_right ?_)
      rintro ⟨p, p1, p2, p3⟩
      exact ⟨p, p1, fun e => p2 (List.mem_cons_of_mem _ e), p3⟩

theorem nodes (hg : Simple n nbr) : ∀ (l : List Nat) (s : Pruning), (∀ i ∈ l, i < n) → Inv n nbr scope s →
    Inv n nbr scope (l.foldl (node nbr scope) s)
  | [], _, _, h => h
  | i :: l, s, hl, h => by
    rw [List.foldl_cons]
    refine nodes hg l _ (fun j hj => hl j (List.mem_cons_of_mem _ hj)) ?_
    unfold node
    split
    · rename_i hsc
      have hi := hl i List.mem_cons_self
      exact leaves hg hi hsc _ _ ⟨h.ok, h.lt, h.cnt⟩ (hg.nd i hi).1 (fun _ h => h) (Or.inl rfl)
    · exact h

theorem compute_inv (hg : Simple n nbr) : Inv n nbr scope (compute n nbr scope) := by
  refine nodes hg _ _ (fun i hi => List.mem_range.1 hi) ⟨fun x => Or.inl rfl, fun x hx => ?_, ?_⟩
  · exact absurd hx (by simp)
  · simp

theorem compute_ok (hg : Simple n nbr) : PrunOk nbr scope (compute n nbr scope).pruned := by
  intro x
  rcases (compute_inv (scope := scope) hg).ok x with h | h | ⟨p, c, h1, h2, h3, h4, h5, h6⟩
  · left; omega
  · left; omega
  · exact Or.inr ⟨p, c, h1, h2, h3, h4, h5, by omega⟩

end Pruning

/-! ### Distances without the pruned nodes -/

theorem adj_kept {a b : Nat} : Adj (kept nbr pruned) a b ↔ Adj nbr a b ∧ pruned b < 0 := by
  unfold Adj kept
  rw [List.mem_filter]
  simp

theorem Walk.of_kept {k u v : Nat} (h : Walk (Adj (kept nbr pruned)) k u v) : Walk (Adj nbr) k u v :=
  Walk.map (f := id) (fun _ _ h => (adj_kept.1 h).1) h

theorem Walk.end_kept {k u v : Nat} (hu : pruned u < 0) (h : Walk (Adj (kept nbr pruned)) k u v) : pruned v < 0 := by
  cases k with
  | zero => cases h; exact hu
  | succ k => obtain ⟨x, _, ha⟩ := h; exact (adj_kept.1 ha).2

theorem Walk.kept (hg : Simple n nbr) (hp : PrunOk nbr scope pruned) : ∀ (k : Nat) {u v : Nat}, pruned u < 0 → pruned v < 0 → Walk (Adj nbr) k u v →
    ∃ j ≤ k, Walk (Adj (kept nbr pruned)) j u v
  | 0, _, _, _, _, h => ⟨0, Nat.le_refl _, h⟩
  | 1, u, v, hu, hv, ⟨x, hx, ha⟩ => by
    cases hx
    exact ⟨1, Nat.le_refl _, ⟨u, rfl, adj_kept.2 ⟨ha, hv⟩⟩⟩
  | k + 2, u, v, hu, hv, ⟨x, ⟨y, hy, hyx⟩, hxv⟩ => by
    rcases hp x with hx | ⟨p, c, _, _, hxc, _⟩
    · obtain ⟨j, hj, hw⟩ := Walk.kept hg hp (k + 1) hu hx ⟨y, hy, hyx⟩
      exact ⟨j + 1, by omega, ⟨x, hw, adj_kept.2 ⟨hxv, hv⟩⟩⟩
    · have h1 : v = c := by unfold Adj at hxv; rw [hxc] at hxv; simpa using hxv
      have h2 : y = c := by have := hg.sym _ _ hyx; rw [hxc] at this; simpa using this
      rw [h2, ← h1] at hy
      obtain ⟨j, hj, hw⟩ := Walk.kept hg hp k hu hv hy
      exact ⟨j, by omega, hw⟩

theorem isDist_kept (hg : Simple n nbr) (hp : PrunOk nbr scope pruned) {u v k : Nat} (hu : pruned u < 0) (hv : pruned v < 0) :
    IsDist (Adj (kept nbr pruned)) u v k ↔ IsDist (Adj nbr) u v k := by
  rw [isDist_iff, isDist_iff]
  constructor
  · rintro ⟨h1, h2⟩
    refine ⟨h1.of_kept, fun j hj => ?_⟩
    obtain ⟨i, hi, hw⟩ := Walk.kept hg hp j hu hv hj
    exact (h2 i hw).trans hi
  · rintro ⟨h1, h2⟩
    obtain ⟨i, hi, hw⟩ := Walk.kept hg hp k hu hv h1
    have := h2 i hw.of_kept
    have : i = k := by omega
    exact ⟨this ▸ hw, fun j hj => h2 j hj.of_kept⟩

theorem isDist_symm (hg : Simple n nbr) {u v k : Nat} (h : IsDist (Adj nbr) u v k) : IsDist (Adj nbr) v u k := by
  have hs : ∀ a b, Adj nbr a b → Adj nbr b a := fun a b h => hg.sym _ _ h
  rw [isDist_iff] at h ⊢
  exact ⟨h.1.symm hs, fun j hj => h.2 j (hj.symm hs)⟩

/-! ### Exchange of two leaves -/

def swapLeaves (p x y : Nat) : Nat := if y = p then x else if y = x then p else y

theorem swapLeaves_swapLeaves (p x y : Nat) : swapLeaves p x (swapLeaves p x y) = y := by
  unfold swapLeaves
  by_cases h1 : y = p
  · subst h1
    by_cases h2 : x = y <;> simp [h2]
  · by_cases h2 : y = x
    · subst h2; simp [h1]
    · simp [h1, h2]

theorem swap_adj (hg : Simple n nbr) {p x c : Nat} (hx : nbr x = [c]) (hp : nbr p = [c]) {a b : Nat} (h : Adj nbr a b) :
    Adj nbr (swapLeaves p x a) (swapLeaves p x b) := by
  have hcx : c ≠ x := fun e => hg.irr x (by rw [hx, e]; simp)
  have hcp : c ≠ p := fun e => hg.irr p (by rw [hp, e]; simp)
  have hxc : x ∈ nbr c := hg.sym _ _ (by rw [hx]; simp)
  have hpc : p ∈ nbr c := hg.sym _ _ (by rw [hp]; simp)
  have hba := hg.sym _ _ h
  unfold Adj at h ⊢
  have key : ∀ {a b : Nat}, b ∈ nbr a → a ∈ nbr b → (a = p ∨ a = x) → b = c := by
    rintro a b h _ (rfl | rfl)
    · rw [hp] at h; simpa using h
    · rw [hx] at h; simpa using h
  have hsc : swapLeaves p x c = c := by unfold swapLeaves; rw [if_neg hcp, if_neg hcx]
  by_cases ha : a = p ∨ a = x
  · have := key h hba ha
    subst this
    rw [hsc]
    rcases ha with rfl | rfl
    · unfold swapLeaves; rw [if_pos rfl, hx]; simp
    · unfold swapLeaves
      split
      · rw [hx]; simp
      · rw [if_pos rfl, hp]; simp
  · by_cases hb : b = p ∨ b = x
    · have := key hba h hb
      subst this
      rw [hsc]
      rcases hb with rfl | rfl
      · unfold swapLeaves; rw [if_pos rfl]; exact hxc
      · unfold swapLeaves
        split
        · exact hxc
        · rw [if_pos rfl]; exact hpc
    · have e1 : swapLeaves p x a = a := by unfold swapLeaves; rw [if_neg (fun e => ha (Or.inl e)), if_neg (fun e => ha (Or.inr e))]
      have e2 : swapLeaves p x b = b := by unfold swapLeaves; rw [if_neg (fun e => hb (Or.inl e)), if_neg (fun e => hb (Or.inr e))]
      rw [e1, e2]; exact h

theorem swap_dist (hg : Simple n nbr) {p x c : Nat} (hx : nbr x = [c]) (hp : nbr p = [c]) {s t k : Nat} :
    IsDist (Adj nbr) s t k → IsDist (Adj nbr) (swapLeaves p x s) (swapLeaves p x t) k := by
  rw [isDist_iff, isDist_iff]
  rintro ⟨h1, h2⟩
  refine ⟨Walk.map (f := swapLeaves p x) (fun _ _ => swap_adj hg hx hp) h1, fun j hj => h2 j ?_⟩
  have := Walk.map (f := swapLeaves p x) (fun _ _ => swap_adj hg hx hp) hj
  rwa [swapLeaves_swapLeaves, swapLeaves_swapLeaves] at this

theorem swap_ecc (hg : Simple n nbr) {p x c : Nat} (hx : nbr x = [c]) (hp : nbr p = [c]) {k : Nat} (h : IsEcc (Adj nbr) p k) : IsEcc (Adj nbr) x k := by
  obtain ⟨⟨t, ht⟩, hmax⟩ := h
  have e1 : swapLeaves p x p = x := by unfold swapLeaves; rw [if_pos rfl]
  have e2 : swapLeaves p x x = p := by
    unfold swapLeaves
    split
    · assumption
    · rw [if_pos rfl]
  refine ⟨⟨swapLeaves p x t, ?_⟩, fun t j hj => hmax (swapLeaves p x t) j ?_⟩
  · have := swap_dist hg hx hp ht
    rwa [e1] at this
  · have := swap_dist hg hx hp hj
    rwa [e2] at this

end Candy
