import Verif.Proofs.PageRank

/-!
# C80: PageRank

The full statement is that the results are the values of PageRank after a hundred rounds, that their sum is one and that they are close
to the solution of the equations. The sum is less than one for graphs with nodes without outgoing edges.
-/

namespace Candy.PageRank

open Finset

variable {n : Nat} {out : Nat → List Nat}

/-- The computation stays inside of its vectors; the results are those of a hundred rounds with the damping factor 0.85. -/
theorem C80_rounds (hn : ∀ v < n, ∀ w ∈ out v, w < n) : ∃ l, pageRank n out = some l ∧ l.length = n ∧
    ∀ v < n, l[v]? = some (rank n out (17 / 20) 100 v) := by
  obtain ⟨c, e, h⟩ := rounds_spec hn (17 / 20) 100
  refine ⟨(List.range n).map c, by rw [pageRank, e, Option.map_some], by simp, fun v hv => ?_⟩
  rw [List.getElem?_map, List.getElem?_range hv, Option.map_some, h v hv]

/-- After every number of rounds the sum is one, if every node has an outgoing edge. -/
theorem C80_sum_partial (hn : ∀ v < n, ∀ w ∈ out v, w < n) (h0 : 0 < n) (ho : ∀ v < n, out v ≠ []) (d : Rat) (k : Nat) :
    ∑ v ∈ range n, rank n out d k v = 1 := by
  induction k with
  | zero =>
    have hn0 : (n : Rat) ≠ 0 := by
      have : n ≠ 0 := by omega
      exact_mod_cast this
    simp only [rank, sum_const, card_range, nsmul_eq_mul]
    field_simp
  | succ k ih => exact step_sum hn h0 ho d ih

/-- The sum of the results. -/
theorem C80_result_sum_partial (hn : ∀ v < n, ∀ w ∈ out v, w < n) (h0 : 0 < n) (ho : ∀ v < n, out v ≠ []) :
    ∃ l, pageRank n out = some l ∧ l.sum = 1 := by
  obtain ⟨l, h1, h2, h3⟩ := C80_rounds hn
  refine ⟨l, h1, ?_⟩
  have : l = (List.range n).map (rank n out (17 / 20) 100) := by
    refine List.ext_getElem? fun i => ?_
    by_cases hi : i < n
    · rw [h3 i hi, List.getElem?_map, List.getElem?_range hi, Option.map_some]
    · rw [List.getElem?_eq_none (by omega), List.getElem?_eq_none (by simp; omega)]
  rw [this, ← C80_sum_partial hn h0 ho (17 / 20) 100]
  exact list_sum _ n

/-- Every result is at least 0.15 divided by the number of nodes. -/
theorem C80_least (d : Rat) (hd : 0 ≤ d) (hd1 : d ≤ 1) (k v : Nat) : (1 - d) / n ≤ rank n out d k v := by
  have hnn : ∀ k v, 0 ≤ rank n out d k v := by
    intro k
    induction k with
    | zero => intro v; simp only [rank]; positivity
    | succ k ih =>
      intro v
      have h1 : 0 ≤ (1 - d) / (n : Rat) := div_nonneg (by linarith) (by positivity)
      have h2 : 0 ≤ ∑ u ∈ range n, rank n out d k u * share out u v := sum_nonneg fun u _ => mul_nonneg (ih u) (share_nonneg u v)
      have := mul_nonneg hd h2
      simp only [rank, step]
      linarith
  cases k with
  | zero =>
    simp only [rank]
    exact div_le_div_of_nonneg_right (by linarith) (by positivity)
  | succ k =>
    have h2 : 0 ≤ ∑ u ∈ range n, rank n out d k u * share out u v := sum_nonneg fun u _ => mul_nonneg (hnn k u) (share_nonneg u v)
    have := mul_nonneg hd h2
    simp only [rank, step]
    linarith

/-- The distance to every solution of the equations decreases with the power of the damping factor. -/
theorem C80_converges (hn : ∀ v < n, ∀ w ∈ out v, w < n) {d : Rat} (hd : 0 ≤ d) {x : Nat → Rat} (hx : Solution n out d x) (k : Nat) :
    ∑ v ∈ range n, |rank n out d k v - x v| ≤ d ^ k * ∑ v ∈ range n, |1 / (n : Rat) - x v| := by
  induction k with
  | zero => simp [rank]
  | succ k ih =>
    have e : ∑ v ∈ range n, |rank n out d (k + 1) v - x v| = ∑ v ∈ range n, |step n out d (rank n out d k) v - step n out d x v| :=
      sum_congr rfl fun v hv => by rw [rank, ← hx v (mem_range.1 hv)]
    rw [e, pow_succ, mul_comm (d ^ k), mul_assoc]
    exact (step_contracts hn hd _ _).trans (mul_le_mul_of_nonneg_left ih hd)

/-- There is at most one solution. -/
theorem C80_unique (hn : ∀ v < n, ∀ w ∈ out v, w < n) {d : Rat} (hd : 0 ≤ d) (hd1 : d < 1) {x y : Nat → Rat} (hx : Solution n out d x) (hy : Solution n out d y) :
    ∀ v < n, x v = y v := by
  have h1 : ∑ v ∈ range n, |x v - y v| ≤ d * ∑ v ∈ range n, |x v - y v| := by
    refine le_trans (le_of_eq ?_) (step_contracts hn hd x y)
    exact sum_congr rfl fun v hv => by rw [← hx v (mem_range.1 hv), ← hy v (mem_range.1 hv)]
  have h2 : 0 ≤ ∑ v ∈ range n, |x v - y v| := sum_nonneg fun _ _ => abs_nonneg _
  have h3 : ∑ v ∈ range n, |x v - y v| = 0 := by nlinarith
  intro v hv
  have := (sum_eq_zero_iff_of_nonneg fun _ _ => abs_nonneg _).1 h3 v (mem_range.2 hv)
  linarith [abs_eq_zero.1 this]

/-! ### What is false -/

/-- An edge 0 → 1. The value of node 1, which has no outgoing edge, is lost in every round: the sum of the results is 0.21375 instead of 1. -/
def dangling : Nat → List Nat
  | 0 => [1]
  | _ => []

theorem C80_sum_fails : pageRank 2 dangling = some [3 / 40, 111 / 800] := by decide +kernel

/-! ### The hypotheses can be met -/

/-- Edges 0 → 1, 0 → 2, 1 → 2 twice, 2 → 0. -/
def exOut : Nat → List Nat
  | 0 => [1, 2]
  | 1 => [2, 2]
  | 2 => [0]
  | _ => []

example : (∀ v < 3, ∀ w ∈ exOut v, w < 3) ∧ (∀ v < 3, exOut v ≠ []) ∧ rank 3 exOut (17 / 20) 2 1 ≠ rank 3 exOut (17 / 20) 2 2 := by
  refine ⟨by decide, by decide, by decide +kernel⟩

/-- A solution for a cycle of three nodes. -/
example : Solution 3 (fun v => [(v + 1) % 3]) (17 / 20) fun _ => 1 / 3 := by
  have : ∀ v < 3, (1 / 3 : Rat) = step 3 (fun v => [(v + 1) % 3]) (17 / 20) (fun _ => 1 / 3) v := by decide +kernel
  exact this

end Candy.PageRank
