import Verif.SpecTriangles
import Mathlib.Algebra.BigOperators.Ring.Finset
import Mathlib.Algebra.BigOperators.Group.Finset.Sigma
import Mathlib.Tactic.Ring

/-!
# Every triangle is counted at each of its nodes
-/

namespace Candy.Triangles

variable {n : Nat} {R : Nat → Nat → Prop}

theorem near_symm {a b : Nat} : Near R a b ↔ Near R b a := Or.comm

open Classical in
theorem sum_triangles (C : Nat → Bool) (hc : Closed R C) :
    ∑ u ∈ (Finset.range n).filter (fun u => C u = true), trianglesAt n R u = 3 * triangleCount n R C := by
  let P : Nat → Nat → Nat → Prop := fun a b c => C a = true ∧ C b = true ∧ C c = true ∧ Near R a b ∧ Near R a c ∧ Near R b c
  let D := Finset.range n ×ˢ Finset.range n ×ˢ Finset.range n
  have h1 : ∑ u ∈ (Finset.range n).filter (fun u => C u = true), trianglesAt n R u =
      (D.filter fun p => p.2.1 < p.2.2 ∧ p.2.1 ≠ p.1 ∧ p.2.2 ≠ p.1 ∧ P p.1 p.2.1 p.2.2).card := by
    rw [Finset.sum_filter, Finset.card_filter, Finset.sum_product]
    refine Finset.sum_congr rfl fun u _ => ?_
    by_cases hu : C u = true
    · rw [if_pos hu, trianglesAt, Finset.card_filter]
      refine Finset.sum_congr rfl fun p _ => ?_
      refine if_congr ?_ rfl rfl
      constructor
      · rintro ⟨a1, a2, a3, a4, a5, a6⟩
        exact ⟨a1, a2, a3, hu, hc _ _ a4 hu, hc _ _ a5 hu, a4, a5, a6⟩
      · rintro ⟨a1, a2, a3, _, _, _, a4, a5, a6⟩
        exact ⟨a1, a2, a3, a4, a5, a6⟩
    · rw [if_neg hu]
      refine (Finset.sum_eq_zero fun p _ => if_neg ?_).symm
      rintro ⟨_, _, _, h, _⟩
      exact hu h
  have h2 : (D.filter fun p => p.2.1 < p.2.2 ∧ p.2.1 ≠ p.1 ∧ p.2.2 ≠ p.1 ∧ P p.1 p.2.1 p.2.2).card =
      (D.filter fun p => p.1 < p.2.1 ∧ p.2.1 < p.2.2 ∧ P p.1 p.2.1 p.2.2).card +
      (D.filter fun p => p.2.1 < p.1 ∧ p.1 < p.2.2 ∧ P p.1 p.2.1 p.2.2).card +
      (D.filter fun p => p.2.1 < p.2.2 ∧ p.2.2 < p.1 ∧ P p.1 p.2.1 p.2.2).card := by
    simp only [Finset.card_filter]
    rw [← Finset.sum_add_distrib, ← Finset.sum_add_distrib]
    refine Finset.sum_congr rfl fun p _ => ?_
    by_cases hP : P p.1 p.2.1 p.2.2
    · simp only [hP, and_true]
      split_ifs <;> omega
    · simp [hP]
  have hT : triangleCount n R C = (D.filter fun p => p.1 < p.2.1 ∧ p.2.1 < p.2.2 ∧ P p.1 p.2.1 p.2.2).card := rfl
  have h3 : (D.filter fun p => p.2.1 < p.1 ∧ p.1 < p.2.2 ∧ P p.1 p.2.1 p.2.2).card = triangleCount n R C := by
    rw [hT]
    refine Finset.card_nbij' (fun p => (p.2.1, p.1, p.2.2)) (fun p => (p.2.1, p.1, p.2.2)) ?_ ?_ (fun _ _ => rfl) (fun _ _ => rfl)
    · intro p hp
      simp only [Finset.coe_filter, D, Finset.mem_product, Finset.mem_range, Set.mem_ofPred_eq, P] at hp ⊢
      obtain ⟨⟨x1, x2, x3⟩, l1, l2, c1, c2, c3, r1, r2, r3⟩ := hp
      exact ⟨⟨x2, x1, x3⟩, l1, l2, c2, c1, c3, near_symm.1 r1, r3, r2⟩
    · intro p hp
      simp only [Finset.coe_filter, D, Finset.mem_product, Finset.mem_range, Set.mem_ofPred_eq, P] at hp ⊢
      obtain ⟨⟨x1, x2, x3⟩, l1, l2, c1, c2, c3, r1, r2, r3⟩ := hp
      exact ⟨⟨x2, x1, x3⟩, l1, l2, c2, c1, c3, near_symm.1 r1, r3, r2⟩
  have h4 : (D.filter fun p => p.2.1 < p.2.2 ∧ p.2.2 < p.1 ∧ P p.1 p.2.1 p.2.2).card = triangleCount n R C := by
    rw [hT]
    refine Finset.card_nbij' (fun p => (p.2.1, p.2.2, p.1)) (fun p => (p.2.2, p.1, p.2.1)) ?_ ?_ (fun _ _ => rfl) (fun _ _ => rfl)
    · intro p hp
      simp only [Finset.coe_filter, D, Finset.mem_product, Finset.mem_range, Set.mem_ofPred_eq, P] at hp ⊢
      obtain ⟨⟨x1, x2, x3⟩, l1, l2, c1, c2, c3, r1, r2, r3⟩ := hp
      exact ⟨⟨x2, x3, x1⟩, l1, l2, c2, c3, c1, r3, near_symm.1 r1, near_symm.1 r2⟩
    · intro p hp
      simp only [Finset.coe_filter, D, Finset.mem_product, Finset.mem_range, Set.mem_ofPred_eq, P] at hp ⊢
      obtain ⟨⟨x1, x2, x3⟩, l1, l2, c1, c2, c3, r1, r2, r3⟩ := hp
      exact ⟨⟨x3, x1, x2⟩, l1, l2, c3, c1, c2, near_symm.1 r2, near_symm.1 r3, r1⟩
  rw [h1, h2, h3, h4, ← hT]
  ring

/-- The pairs of elements of a list, an element and a later one. -/
def pairCount (P : Nat → Nat → Bool) : List Nat → Nat
  | [] => 0
  | a :: l => (l.filter (P a)).length + pairCount P l

theorem filter_length (p : Nat → Bool) : ∀ l : List Nat, l.Nodup → (l.filter p).length = ∑ b ∈ l.toFinset, if p b = true then 1 else 0 := by
  intro l hl
  rw [← Finset.card_filter, ← List.toFinset_filter, List.toFinset_card_of_nodup (hl.filter _)]

theorem pairCount_eq (P : Nat → Nat → Bool) : ∀ l : List Nat, l.Pairwise (· < ·) →
    pairCount P l = ((l.toFinset ×ˢ l.toFinset).filter fun p => p.1 < p.2 ∧ P p.1 p.2 = true).card
  | [], _ => by simp [pairCount]
  | a :: l, h => by
    obtain ⟨h1, h2⟩ := List.pairwise_cons.1 h
    have hnd : l.Nodup := h2.imp fun h => Nat.ne_of_lt h
    have ha : a ∉ l.toFinset := fun hm => Nat.lt_irrefl _ (h1 a (List.mem_toFinset.1 hm))
    rw [pairCount, pairCount_eq P l h2, filter_length _ l hnd]
    simp only [Finset.card_filter, Finset.sum_product]
    rw [List.toFinset_cons, Finset.sum_insert ha, Finset.sum_insert ha]
    have e1 : (if (a : Nat) < a ∧ P a a = true then 1 else 0) = 0 := by simp
    have e2 : ∀ x ∈ l.toFinset, ∑ y ∈ insert a l.toFinset, (if x < y ∧ P x y = true then 1 else 0) =
        ∑ y ∈ l.toFinset, if x < y ∧ P x y = true then 1 else 0 := by
      intro x hx
      have := h1 x (List.mem_toFinset.1 hx)
      rw [Finset.sum_insert ha, if_neg (by omega), Nat.zero_add]
    rw [Finset.sum_congr rfl e2, e1, Nat.zero_add]
    congr 1
    refine Finset.sum_congr rfl fun y hy => ?_
    have := h1 y (List.mem_toFinset.1 hy)
    simp [this]

end Candy.Triangles
