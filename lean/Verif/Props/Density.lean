import Verif.Model.Density
import Verif.Props.EdgeList
import Mathlib.Tactic.FieldSimp
import Mathlib.Tactic.Ring
import Mathlib.Data.Finset.Sym

/-!
# C82: density and degrees

The full statement is that the density of a graph is the number of its edges divided by the number of possible edges. It is false for graphs
with parallel edges that were not sorted, and for a single node.
-/

namespace Candy.EdgeList

open Finset

/-- Number of possible edges, with or without edges from a node to itself. -/
def possible (n : Nat) (loops : Prop) [Decidable loops] : Nat := if loops then n * n else n * (n - 1)

theorem hasLoops_iff {g : G} (h : Inv g) : hasLoops g = true ↔ ∃ u, u ∈ g.base.out u := by
  unfold hasLoops
  rw [List.any_eq_true]
  constructor
  · rintro ⟨u, _, hu⟩
    exact ⟨u, by simpa using hu⟩
  · rintro ⟨u, hu⟩
    have h1 := (h.dense.edges u u hu).1
    have h2 := h.dense.cap
    exact ⟨u, List.mem_range.2 (by omega), by simpa using hu⟩

open Classical in
/-- The density of a graph with sorted edges and two nodes at least. -/
theorem C82_density_partial {g : G} (h : Inv g) (hs : g.sorted = true) (hn : 2 ≤ g.base.n) :
    let R := fun a b => b ∈ g.base.out a
    density g = (edgesFrom g.base.n R (fun _ => true) : Rat) / (possible g.base.n (∃ u, R u u) : Rat) := by
  intro R
  have hm : g.base.m = edgesFrom g.base.n R fun _ => true := count_eq h hs
  unfold density
  rw [← hm]
  by_cases h0 : 0 < g.base.m
  · rw [if_pos ⟨h0, by omega⟩, div_div]
    congr 1
    unfold possible
    by_cases hl : ∃ u, R u u
    · rw [if_pos ((hasLoops_iff h).2 hl), if_pos hl]
      push_cast
      ring
    · have hl' : ¬ hasLoops g = true := fun h' => hl ((hasLoops_iff h).1 h')
      rw [if_neg hl', if_neg hl, Nat.cast_mul, Nat.cast_sub (by omega : 1 ≤ g.base.n)]
      push_cast
      ring
  · have : g.base.m = 0 := by omega
    rw [if_neg (fun h' => h0 h'.1), this]
    simp

open Classical in
theorem edgesFrom_le (n : Nat) (R : Nat → Nat → Prop) : edgesFrom n R (fun _ => true) ≤ n * n := by
  unfold edgesFrom
  refine (card_filter_le _ _).trans (le_of_eq ?_)
  rw [card_product, card_range]

open Classical in
theorem edgesFrom_le_irrefl (n : Nat) (R : Nat → Nat → Prop) (hR : ∀ u, ¬ R u u) :
    edgesFrom n R (fun _ => true) ≤ n * (n - 1) := by
  unfold edgesFrom
  refine (card_le_card (t := (range n).offDiag) fun p hp => ?_).trans (le_of_eq ?_)
  · obtain ⟨h1, _, h2⟩ := mem_filter.1 hp
    obtain ⟨h3, h4⟩ := mem_product.1 h1
    exact mem_offDiag.2 ⟨h3, h4, fun e => hR p.1 (by rw [← e] at h2; exact h2)⟩
  · rw [offDiag_card, card_range, Nat.mul_sub, Nat.mul_one]

open Classical in
/-- It is not greater than one. -/
theorem C82_density_le {g : G} (h : Inv g) (hs : g.sorted = true) (hn : 2 ≤ g.base.n) : 0 ≤ density g ∧ density g ≤ 1 := by
  have e := C82_density_partial h hs hn
  simp only at e
  rw [e]
  have hp : edgesFrom g.base.n (fun a b => b ∈ g.base.out a) (fun _ => true) ≤ possible g.base.n (∃ u, u ∈ g.base.out u) := by
    unfold possible
    split
    · exact edgesFrom_le _ _
    · rename_i hl
      exact edgesFrom_le_irrefl _ _ fun u hu => hl ⟨u, hu⟩
  refine ⟨div_nonneg (Nat.cast_nonneg _) (Nat.cast_nonneg _), ?_⟩
  exact div_le_one_of_le₀ (by exact_mod_cast hp) (Nat.cast_nonneg _)

open Classical in
/-- The degrees of a graph with sorted edges are the numbers of nodes to which there is an edge; their sum is the number of edges. -/
theorem C82_degrees {g : G} (h : Inv g) (hs : g.sorted = true) : (outdegrees g).length = g.base.n ∧ (outdegrees g).sum = g.base.m ∧
    ∀ i < g.base.n, (outdegrees g)[i]? = some ((range g.base.n).filter fun j => j ∈ g.base.out i).card := by
  refine ⟨by simp [outdegrees], (h.count hs).symm, fun i hi => ?_⟩
  unfold outdegrees
  rw [List.getElem?_map, List.getElem?_range hi, Option.map_some]
  congr 1
  have hnd : (g.base.out i).Nodup := (h.sorted hs i).imp fun h => Nat.ne_of_lt h
  rw [← List.toFinset_card_of_nodup hnd]
  congr 1
  ext j
  rw [List.mem_toFinset, mem_filter, mem_range]
  exact ⟨fun hj => ⟨(h.dense.edges i j hj).2, hj⟩, fun hj => hj.2⟩

/-! ### What is false -/

/-- Three parallel edges between two nodes: the density is 3/2, after sorting it is 1/2. -/
theorem C82_parallel_fails : density (ofEdges 2 [(0, 1), (0, 1), (0, 1)]) = 3 / 2 ∧
    density (sortEdgeList (ofEdges 2 [(0, 1), (0, 1), (0, 1)])) = 1 / 2 := by
  constructor <;> decide +kernel

/-- A node with an edge to itself, the only possible edge: the density is 0. -/
theorem C82_single_fails : density (ofEdges 1 [(0, 0)]) = 0 := by decide +kernel

/-! ### The hypotheses can be met: see `C77_history` and `calls` -/

example : (calls.foldlM apply ⟨VarGraph.empty 24, false, false⟩).map (fun g => (g.sorted, density g, outdegrees g)) =
    some (true, 7 / 16, [2, 1, 3, 1]) := by decide +kernel

end Candy.EdgeList
