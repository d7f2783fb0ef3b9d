import Verif.Proofs.DistAll
import Verif.Model.Scc
import Mathlib.Tactic.Ring
import Mathlib.Data.Finset.Prod

/-!
# C76: distances, the distribution of distances and the average distance in a graph

The full statement is that for every directed or undirected graph and every scope these functions end, stay inside of their
vectors and give the distances, for every distance the number of pairs of nodes of the scope, and the average distance of two
different nodes of the scope. It is false for samples, for scopes with less than two nodes, and for scopes from which
other nodes can be reached or in which not all nodes can be reached.
-/

namespace Candy.Dst

open Distance

variable {n : Nat} {out : Nat → List Nat}

/-- The length of a shortest path, or -1, for one pair of nodes and for all nodes. -/
theorem C76_distance (hn : Listed n out) {u : Nat} (hu : u < n) :
    (∀ v < n, ∃ x, distance n out u v = some x ∧ IsDistance out u v x) ∧
    ∃ l, alldistances n out u = some l ∧ l.length = n ∧ ∀ v < n, ∃ x, l[v]? = some x ∧ IsDistance out u v x := by
  refine ⟨fun v hv => distance_spec hn hu hv, ?_⟩
  obtain ⟨d, h1, h2⟩ := alldistances_spec hn hu
  exact ⟨_, h1, by simp, fun v hv => ⟨d v, by simp [hv], h2 v⟩⟩

/-- The specification determines the result. -/
theorem C76_distance_unique {u v : Nat} {x y : Int} (hx : IsDistance out u v x) (hy : IsDistance out u v y) : x = y := by
  rcases hx with ⟨k, h1, h2⟩ | ⟨h1, h2⟩ <;> rcases hy with ⟨j, h3, h4⟩ | ⟨h3, h4⟩
  · rw [h1, h3, IsDist.unique h2 h4]
  · exact absurd h2 (h4 k)
  · exact absurd h4 (h2 j)
  · rw [h1, h3]

/-- The sum of the distances to all nodes that can be reached. -/
theorem C76_closenessSum (hn : Listed n out) {u : Nat} (hu : u < n) :
    closenessSum n out u = some ((∑ w ∈ Finset.range n, dist out u w : Nat) : Int) := closenessSum_spec hn hu

/-- The search adds the number of nodes in every distance to the given numbers. -/
theorem C76_distances (hn : Listed n out) {u : Nat} (hu : u < n) (t : Nat → Nat) :
    ∃ t', distances n out u t = some t' ∧ ∀ k, t' k = t k + level n out u k := distances_spec hn hu t

/-- The distribution contains for every distance the number of pairs of a node of the scope and any node. -/
theorem C76_distribution_partial (hn : Listed n out) (C : Nat → Bool) (h : 2 ≤ count n C) :
    ∃ l, distanceDistribution n out C (count n C) = some l ∧ l.length = n ∧ ∀ k < n, l[k]? = some (pairs n out C k) :=
  ⟨_, distribution_spec hn C h, by simp, fun k hk => by simp [hk]⟩

/-- No distances are missing in the distribution: all are less than the number of nodes. -/
theorem C76_distribution_complete (hn : Listed n out) {u w k : Nat} (hu : u < n) (h : IsDist (Edge out) u w k) : k < n := dist_lt hn hu h

/-- The average distance of two different nodes of the scope, if from each of its nodes all of its nodes and no others can be
reached. -/
theorem C76_average_partial (hn : Listed n out) (C : Nat → Bool) (h : 2 ≤ count n C)
    (hc : ∀ u < n, C u = true → ∀ w < n, ((∃ k, IsDist (Edge out) u w k) ↔ C w = true)) :
    let S := (Finset.range n).filter fun u => C u = true
    averageDistance n out C (count n C) = some (some (((∑ p ∈ S.offDiag, dist out p.1 p.2 : Nat) : Rat) / (S.offDiag.card : Rat))) := by
  intro S
  rw [average_spec hn C h]
  have h1 : total n out C = ∑ p ∈ S.offDiag, dist out p.1 p.2 := by
    have e1 : total n out C = ∑ u ∈ S, ∑ w ∈ S, dist out u w := by
      unfold total
      refine Finset.sum_congr rfl fun u hu => ?_
      obtain ⟨hu, hcu⟩ := Finset.mem_filter.1 hu
      refine (Finset.sum_subset (Finset.filter_subset _ _) fun w hw hws => dist_none fun k hk => ?_).symm
      exact hws (Finset.mem_filter.2 ⟨hw, (hc u (Finset.mem_range.1 hu) hcu w (Finset.mem_range.1 hw)).1 ⟨k, hk⟩⟩)
    rw [e1, ← Finset.sum_product']
    refine (Finset.sum_subset (fun p hp => ?_) fun p hp hps => ?_).symm
    · obtain ⟨a, b, _⟩ := Finset.mem_offDiag.1 hp
      exact Finset.mem_product.2 ⟨a, b⟩
    · obtain ⟨a, b⟩ := Finset.mem_product.1 hp
      have : p.1 = p.2 := by
        apply Classical.byContradiction
        intro hne
        exact hps (Finset.mem_offDiag.2 ⟨a, b, hne⟩)
      rw [this]
      exact dist_eq (dist_zero _)
  have h2 : ((S.offDiag.card : Nat) : Rat) = (count n C : Rat) * ((count n C : Rat) - 1) := by
    have e : S.card = count n C := rfl
    rw [Finset.offDiag_card, e, Nat.cast_sub (Nat.le_mul_self _)]
    push_cast
    ring
  rw [h1, h2]

/-- Any scope: the sum of the distances from its nodes to all nodes, divided by the number of pairs of its nodes. -/
theorem C76_average_any (hn : Listed n out) (C : Nat → Bool) (h : 2 ≤ count n C) :
    averageDistance n out C (count n C) = some (some ((total n out C : Rat) / ((count n C : Rat) * ((count n C : Rat) - 1)))) :=
  average_spec hn C h

/-! ### What is false -/

/-- Every sample starts with an access outside of a vector. -/
theorem C76_sample_fails (full : Bool) (t : Nat → Nat) : sampleRound n out full t = none := by
  cases full
  · rfl
  · have : ∀ t : Nat → Nat, search n out (fun t _ k => tally n t k) n t = none := fun t => by
      rw [search, if_neg (Nat.lt_irrefl _)]
    simp only [sampleRound, sampleNode, if_true, distances, this]
    split <;> rfl

/-- The average distance for a scope with less than two nodes, for instance a component that was not computed, reads behind the
end of a vector. -/
theorem C76_average_small_fails (C : Nat → Bool) {nl : Int} (h : nl < 2) (hn : 2 ≤ n) : averageDistance n out C nl = none := by
  unfold averageDistance distanceDistribution
  rw [if_pos h]
  simp only
  rw [mapM_none (List.range n) ⟨1, by simp; omega, rfl⟩]

/-- The edges 0 → 1, 1 → 0, 1 → 2, 2 → 3. -/
def chainOut : Nat → List Nat
  | 0 => [1]
  | 1 => [0, 2]
  | 2 => [3]
  | _ => []

/-- The reversed edges. -/
def chainIn : Nat → List Nat
  | 0 => [1]
  | 1 => [0]
  | 2 => [1]
  | 3 => [2]
  | _ => []

/-- In the largest strongly connected component of this graph there are two nodes, the distances of which are 1, and no distance
in the graph is larger than 3, but the average distance is 5. -/
theorem C76_average_scc_fails :
    ((Scc.computeSCC 4 4 chainOut chainIn 4 false ⟨fun _ => 0, fun _ => 0, fun _ => 0, 0, 0⟩).map fun r =>
      (List.range 4).map fun v => r.id v == r.largest) = some [true, true, false, false] ∧
    averageDistance 4 chainOut (fun v => decide (v < 2)) 2 = some (some 5) ∧
    distance 4 chainOut 0 1 = some 1 ∧ distance 4 chainOut 1 0 = some 1 ∧
    (∀ u < 4, ∀ v < 4, ∀ x, distance 4 chainOut u v = some x → x ≤ 3) := by
  refine ⟨by decide +kernel, by decide +kernel, by decide +kernel, by decide +kernel, ?_⟩
  have h : ∀ u < 4, ∀ v < 4, ∃ y, distance 4 chainOut u v = some y ∧ y ≤ 3 := by
    have : ∀ u < 4, ∀ v < 4, ((distance 4 chainOut u v).map fun y => decide (y ≤ 3)) = some true := by decide +kernel
    intro u hu v hv
    have := this u hu v hv
    rw [Option.map_eq_some_iff] at this
    obtain ⟨y, h1, h2⟩ := this
    exact ⟨y, h1, by simpa using h2⟩
  intro u hu v hv x hx
  obtain ⟨y, h1, h2⟩ := h u hu v hv
  rw [hx] at h1
  cases h1
  exact h2

/-- Two undirected edges 0 - 1 and 2 - 3. -/
def twoEdges : Nat → List Nat
  | 0 => [1]
  | 1 => [0]
  | 2 => [3]
  | 3 => [2]
  | _ => []

/-- A graph that is not connected: the average over all nodes is less than 1, which is the distance of all nodes with a path. -/
theorem C76_average_full_fails : averageDistance 4 twoEdges (fun _ => true) 4 = some (some (1 / 3)) ∧
    alldistances 4 twoEdges 0 = some [0, 1, -1, -1] := by
  refine ⟨by decide +kernel, by decide +kernel⟩

/-! ### The hypotheses can be met -/

theorem chain_listed : Listed 4 chainOut := by
  intro v hv
  have : ∀ v < 4, ∀ w ∈ chainOut v, w < 4 := by decide
  exact this v hv

example : distance 4 chainOut 0 3 = some 3 ∧ distance 4 chainOut 3 0 = some (-1) ∧ alldistances 4 chainOut 1 = some [1, 0, 1, 2] ∧
    closenessSum 4 chainOut 0 = some 6 := by decide +kernel

example : Listed 4 chainOut ∧ 2 ≤ count 4 (fun _ => true) ∧ distanceDistribution 4 chainOut (fun _ => true) 4 = some [4, 4, 2, 1] :=
  ⟨chain_listed, by decide, by decide +kernel⟩

/-- A scope as in `C76_average_partial`: one of the two components. -/
example : Listed 4 twoEdges ∧ 2 ≤ count 4 (fun v => decide (v < 2)) ∧
    (∀ u < 4, decide (u < 2) = true → ∀ w < 4, ((∃ k, IsDist (Edge twoEdges) u w k) ↔ decide (w < 2) = true)) ∧
    averageDistance 4 twoEdges (fun v => decide (v < 2)) 2 = some (some 1) := by
  have hl : Listed 4 twoEdges := by
    intro v hv
    have : ∀ v < 4, ∀ w ∈ twoEdges v, w < 4 := by decide
    exact this v hv
  refine ⟨hl, by decide, fun u hu hc w hw => ?_, by decide +kernel⟩
  obtain ⟨x, h1, h2⟩ := (C76_distance hl hu).1 w hw
  have key : ∀ u < 4, decide (u < 2) = true → ∀ w < 4, ((distance 4 twoEdges u w).map fun x => decide (x = -1)) = some (!decide (w < 2)) := by
    decide +kernel
  have hk := key u hu hc w hw
  rw [h1, Option.map_some] at hk
  have hk : decide (x = -1) = !decide (w < 2) := Option.some.inj hk
  rcases h2 with ⟨k, hx, hd⟩ | ⟨hx, hd⟩
  · refine ⟨fun _ => ?_, fun _ => ⟨k, hd⟩⟩
    have : ¬ x = -1 := by omega
    simpa [this] using hk
  · refine ⟨fun ⟨k, h⟩ => absurd h (hd k), fun h => ?_⟩
    simp [hx] at hk h
    omega

end Candy.Dst
