import Verif.Proofs.Closeness
import Verif.Props.Components
import Mathlib.Data.Rat.Defs

/-!
# C78: closeness centrality

The full statement is that for every undirected graph the closeness centrality of a node is the reciprocal of the average of the
distances to the nodes of its component. It is false for graphs that are not connected.
-/

namespace Candy.Dst

open Distance

variable {n : Nat} {out : Nat → List Nat}

/-- The largest component has the first `c` nodes (in a connected graph, all nodes) and is the scope: the closeness centrality of
its nodes is the reciprocal of the sum of distances divided by `c`. -/
theorem C78_closeness_partial (hn : Listed n out) (hs : ∀ a b, b ∈ out a → a ∈ out b) {w : Wcc} {full : Bool} {c : Nat} (hc : c = w.size w.largest)
    (h2 : 2 ≤ c) (hcn : c ≤ n) (hfull : full = true → c = n) (hC : ∀ i < n, (w.id i = w.largest ↔ i < c))
    (hreach : ∀ i < c, ∀ j < n, ((∃ k, IsDist (Edge out) i j k) ↔ j < c)) :
    ∃ l, closenessCentrality n out full (some w) = some l ∧ l.length = n ∧
      ∀ i < c, 0 < ∑ j ∈ Finset.range n, dist out i j ∧
        l[i]? = some (some (1 / (((∑ j ∈ Finset.range n, dist out i j : Nat) : Rat) / (c : Rat)))) := by
  have hnl : nodesIn n full (some w) = (c : Int) := by
    unfold nodesIn
    cases full with
    | true => simp [hfull rfl]
    | false => simp [hc]
  have hin : ∀ i < n, inLargest (some w) i = decide (i < c) := by
    intro i hi
    unfold inLargest
    rw [Bool.eq_iff_iff, beq_iff_eq, decide_eq_true_eq]
    exact hC i hi
  obtain ⟨t, h3, h4⟩ := closenessLoop_spec hn full (some w) c hcn
  have hsum : ∀ i < c, t i = ((∑ j ∈ Finset.range n, dist out i j : Nat) : Int) := by
    intro i hi
    rw [h4]
    congr 1
    have e : (Finset.range c).filter (fun u => (full || inLargest (some w) u) = true) = Finset.range c := by
      refine Finset.filter_true_of_mem fun u hu => ?_
      have hu := Finset.mem_range.1 hu
      rw [hin u (by omega)]
      simp [hu]
    rw [e, Finset.sum_congr rfl fun u _ => dist_symm hs u i]
    refine Finset.sum_subset (Finset.range_mono hcn) fun j hj hjc => dist_none fun k hk => hjc ?_
    exact Finset.mem_range.2 ((hreach i hi j (Finset.mem_range.1 hj)).1 ⟨k, hk⟩)
  have hpos : ∀ i < c, 0 < ∑ j ∈ Finset.range n, dist out i j := by
    intro i hi
    have hj : ∃ j, j < c ∧ j ≠ i := by
      by_cases h0 : i = 0
      · exact ⟨1, by omega, by omega⟩
      · exact ⟨0, by omega, by omega⟩
    obtain ⟨j, hj, hne⟩ := hj
    obtain ⟨k, hk⟩ := (hreach i hi j (by omega)).2 hj
    have hk0 : 0 < k := by
      rcases Nat.eq_zero_or_pos k with rfl | h
      · exact absurd (dist_zero_eq hk) hne
      · exact h
    have hle := Finset.single_le_sum (f := fun j => dist out i j) (fun _ _ => Nat.zero_le _) (Finset.mem_range.2 (by omega : j < n))
    simp only [dist_eq hk] at hle
    omega
  have hcl : ∀ i < n, ∃ x, closenessResult n out full (some w) c t i = some x := by
    intro i hi
    unfold closenessResult
    split
    · unfold closeness
      rw [closenessSum_spec hn hi]
      exact ⟨_, rfl⟩
    · exact ⟨_, rfl⟩
  let g : Nat → Option Rat := fun i => (closenessResult n out full (some w) c t i).getD none
  have hg : ∀ i ∈ List.range n, closenessResult n out full (some w) c t i = some (g i) := by
    intro i hi
    obtain ⟨x, hx⟩ := hcl i (by simpa using hi)
    simp only [g, hx, Option.getD_some]
  refine ⟨(List.range n).map g, ?_, by simp, fun i hi => ⟨hpos i hi, ?_⟩⟩
  · unfold closenessCentrality
    rw [hnl, if_neg (by omega), Int.toNat_natCast, h3]
    exact mapM_some _ hg
  · have hp := hpos i hi
    rw [List.getElem?_map, List.getElem?_range (by omega), Option.map_some]
    have : closenessResult n out full (some w) c t i = some (some (1 / (((∑ j ∈ Finset.range n, dist out i j : Nat) : Rat) / (c : Rat)))) := by
      unfold closenessResult
      rw [hin i (by omega), hsum i hi]
      have : ¬ ((∑ j ∈ Finset.range n, dist out i j : Nat) : Int) = 0 := by omega
      rw [if_neg this]
      simp [hi]
    simp only [g, this, Option.getD_some]

theorem dist_of_path {i j : Nat} {p : List Nat} (hp : Betweenness.Path (fun v u => u ∈ out v) i j p) : ∃ k, IsDist (Edge out) i j k := by
  obtain ⟨k, hk⟩ := path_len hp
  obtain ⟨j, _, h⟩ := exists_dist ((walk_iff k i j).1 ⟨p, hp, hk⟩)
  exact ⟨j, h⟩

/-- A connected graph with two nodes at least, with the computed components: for both scopes, the closeness centrality of every node
is the reciprocal of its sum of distances divided by the number of nodes. -/
theorem C78_connected (hn : Listed n out) (hs : ∀ a b, b ∈ out a → a ∈ out b) (h2 : 2 ≤ n)
    (hp : ∀ i < n, ∀ j < n, ∃ p, Betweenness.Path (fun v u => u ∈ out v) i j p) (full : Bool) :
    ∃ w l, Wcc.compute n out = some w ∧ closenessCentrality n out full (some w) = some l ∧ l.length = n ∧
      ∀ i < n, 0 < ∑ j ∈ Finset.range n, dist out i j ∧
        l[i]? = some (some (1 / (((∑ j ∈ Finset.range n, dist out i j : Nat) : Rat) / (n : Rat)))) := by
  have hl : ∀ v < n, ∃ u ∈ out v, u ≠ v := by
    intro v hv
    by_contra hno
    have hno : ∀ u ∈ out v, u = v := fun u hu => by
      by_contra h
      exact hno ⟨u, hu, h⟩
    have hj : ∃ j, j < n ∧ j ≠ v := by
      by_cases h0 : v = 0
      · exact ⟨1, by omega, by omega⟩
      · exact ⟨0, by omega, by omega⟩
    obtain ⟨j, hj, hne⟩ := hj
    obtain ⟨p, hp⟩ := hp v hv j hj
    have hr := Wcc.reach_of_path p v j hp
    have : j = v := by
      clear hp hj hne
      induction hr with
      | refl => rfl
      | step _ h ih => subst ih; exact hno _ h
    exact hne this
  obtain ⟨w, e, h3, h4, h5, h6, h7, h8, h9⟩ := C71_components hn (fun a b h => hs b a h) hl (by omega)
  obtain ⟨i0, hi0, e0⟩ := h5 _ h8 h9
  have hid : ∀ i < n, w.id i = w.largest := fun i hi => by rw [← e0]; exact (h3 i hi i0 hi0).2 (hp i hi i0 hi0)
  have hsz : w.size w.largest = n := by
    rw [h6 _ h8, Finset.filter_true_of_mem fun i hi => hid i (Finset.mem_range.1 hi), Finset.card_range]
  obtain ⟨l, a, b, c⟩ := C78_closeness_partial hn hs (full := full) hsz.symm h2 (Nat.le_refl _) (fun _ => rfl)
    (fun i hi => ⟨fun _ => hi, fun _ => hid i hi⟩) (fun i hi j hj => ⟨fun _ => hj, fun _ => by
      obtain ⟨p, hp⟩ := hp i hi j hj
      exact dist_of_path hp⟩)
  exact ⟨w, l, e, a, b, c⟩

/-! ### What is false -/

/-- An edge 0 - 1 and a path 2 - 3 - 4. -/
def twoParts : Nat → List Nat
  | 0 => [1]
  | 1 => [0]
  | 2 => [3]
  | 3 => [2, 4]
  | 4 => [3]
  | _ => []

/-- The scope is the largest component, which does not have the first nodes: only distances from node 2 are added, so its
own closeness is infinite; the average distances of the nodes 2, 3 and 4 are 1, 2/3 and 1. -/
theorem C78_largest_fails : ((Wcc.compute 5 twoParts).bind fun w => closenessCentrality 5 twoParts false (some w)) =
      some [none, none, none, some 3, some (3 / 2)] ∧
    closenessSum 5 twoParts 2 = some 3 ∧ closenessSum 5 twoParts 3 = some 2 ∧ closenessSum 5 twoParts 4 = some 3 := by
  refine ⟨?_, ?_, ?_, ?_⟩ <;> decide +kernel

/-- The scope are all nodes: for the nodes 0 and 1 outside of the largest component, the result is the average distance 1/2, not its
reciprocal 2. -/
theorem C78_full_fails : ((Wcc.compute 5 twoParts).bind fun w => closenessCentrality 5 twoParts true (some w)) =
    some [some (1 / 2), some (1 / 2), some (5 / 3), some (5 / 2), some (5 / 3)] := by decide +kernel

/-- If components were not computed, the results for all nodes of every graph are the negated sums of distances. -/
theorem C78_not_computed_fails (hn : Listed n out) (h2 : 2 ≤ n) :
    ∃ l, closenessCentrality n out true none = some l ∧ l.length = n ∧
      ∀ i < n, l[i]? = some (some (-((∑ j ∈ Finset.range n, dist out i j : Nat) : Rat))) := by
  obtain ⟨t, h3, _⟩ := closenessLoop_spec hn true none n (Nat.le_refl _)
  have hg : ∀ i ∈ List.range n, closenessResult n out true none n t i = some (some (-((∑ j ∈ Finset.range n, dist out i j : Nat) : Rat))) := by
    intro i hi
    unfold closenessResult closeness
    rw [closenessSum_spec hn (by simpa using hi)]
    simp [inLargest, div_neg]
  refine ⟨(List.range n).map fun i => some (-((∑ j ∈ Finset.range n, dist out i j : Nat) : Rat)), ?_, ?_, fun i hi => ?_⟩
  · unfold closenessCentrality nodesIn
    simp only [if_true]
    rw [if_neg (by omega), Int.toNat_natCast, h3]
    exact mapM_some _ hg
  · simp
  · simp [hi]

/-! ### The hypotheses can be met -/

/-- A path 0 - 1 - 2, and an edge 3 - 4. -/
def firstPart : Nat → List Nat
  | 0 => [1]
  | 1 => [0, 2]
  | 2 => [1]
  | 3 => [4]
  | 4 => [3]
  | _ => []

theorem firstPart_listed : Listed 5 firstPart := by
  intro v hv
  have : ∀ v < 5, ∀ w ∈ firstPart v, w < 5 := by decide
  exact this v hv

example : ∃ w, Wcc.compute 5 firstPart = some w ∧ w.size w.largest = 3 ∧ (∀ i < 5, (w.id i = w.largest ↔ i < 3)) ∧
    (∀ a b, b ∈ firstPart a → a ∈ firstPart b) ∧ (∀ i < 3, ∀ j < 5, ((∃ k, IsDist (Edge firstPart) i j k) ↔ j < 3)) ∧
    closenessCentrality 5 firstPart false (some w) = some [some 1, some (3 / 2), some 1, none, none] := by
  have h : ((Wcc.compute 5 firstPart).map fun w => (w.size w.largest, (List.range 5).all (fun i => decide (w.id i = w.largest) == decide (i < 3)),
      closenessCentrality 5 firstPart false (some w))) = some (3, true, some [some 1, some (3 / 2), some 1, none, none]) := by decide +kernel
  rw [Option.map_eq_some_iff] at h
  obtain ⟨w, h1, h2⟩ := h
  simp only [Prod.mk.injEq, List.all_eq_true, List.mem_range, beq_iff_eq, decide_eq_decide] at h2
  refine ⟨w, h1, h2.1, h2.2.1, ?_, ?_, h2.2.2⟩
  · intro a b hb
    match a, hb with
    | 0, hb => simp [firstPart] at hb; subst hb; simp [firstPart]
    | 1, hb => simp [firstPart] at hb; rcases hb with rfl | rfl <;> simp [firstPart]
    | 2, hb => simp [firstPart] at hb; subst hb; simp [firstPart]
    | 3, hb => simp [firstPart] at hb; subst hb; simp [firstPart]
    | 4, hb => simp [firstPart] at hb; subst hb; simp [firstPart]
    | k + 5, hb => simp [firstPart] at hb
  · intro i hi j hj
    obtain ⟨x, h3, h4⟩ := distance_spec firstPart_listed (u := i) (t := j) (by omega) hj
    have key : ∀ i < 3, ∀ j < 5, ((distance 5 firstPart i j).map fun x => decide (x = -1)) = some (!decide (j < 3)) := by decide +kernel
    have hk := key i hi j hj
    rw [h3, Option.map_some] at hk
    have hk : decide (x = -1) = !decide (j < 3) := Option.some.inj hk
    rcases h4 with ⟨k, hx, hd⟩ | ⟨hx, hd⟩
    · refine ⟨fun _ => ?_, fun _ => ⟨k, hd⟩⟩
      have : ¬ x = -1 := by omega
      simpa [this] using hk
    · refine ⟨fun ⟨k, h⟩ => absurd h (hd k), fun h => ?_⟩
      simp [hx] at hk
      omega

/-- A path 0 - 1 - 2 with a loop and a parallel edge. -/
def onePart : Nat → List Nat
  | 0 => [1, 1]
  | 1 => [0, 1, 2, 0]
  | 2 => [1]
  | _ => []

example : Listed 3 onePart ∧ (∀ a b, b ∈ onePart a → a ∈ onePart b) ∧
    (∀ i < 3, ∀ j < 3, ∃ p, Betweenness.Path (fun v u => u ∈ onePart v) i j p) ∧
    ((Wcc.compute 3 onePart).bind fun w => closenessCentrality 3 onePart true (some w)) = some [some 1, some (3 / 2), some 1] := by
  refine ⟨?_, ?_, ?_, by decide +kernel⟩
  · have : ∀ v < 3, ∀ w ∈ onePart v, w < 3 := by decide
    exact this
  · intro a b hb
    match a, hb with
    | 0, hb => simp [onePart] at hb; subst hb; simp [onePart]
    | 1, hb => simp [onePart] at hb; rcases hb with rfl | rfl | rfl | rfl <;> simp [onePart]
    | 2, hb => simp [onePart] at hb; subst hb; simp [onePart]
    | k + 3, hb => simp [onePart] at hb
  · intro i hi j hj
    have h1 : ∀ i < 3, Wcc.Reach onePart i 1 := fun i hi => .step .refl (by revert i; decide)
    have h2 : Wcc.Reach onePart 1 j := .step .refl (by revert j; decide)
    exact Wcc.path_of_reach ((h1 i hi).trans h2)

end Candy.Dst
