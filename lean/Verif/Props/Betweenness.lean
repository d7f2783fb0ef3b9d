import Verif.Proofs.Betweenness
import Mathlib.Algebra.Order.Field.Basic

/-!
# C70: the centralities of `VSIDSC` are betweenness centralities

Specification: `Verif/SpecBetweenness.lean`; `Together` (Props/Centrality.lean) says that two variables occur in one clause.
-/

namespace Candy

open Betweenness Brandes Finset

/-- C70. The vector that is computed for an undirected graph with `n ≥ 2` nodes: the computation ends without access outside
of a vector, and element `i` is the betweenness centrality of `i` divided by the largest one, `M`. If this is zero then all
elements are NaN (`none`). -/
theorem C70_nodes {n : Nat} {nbr : Nat → List Nat} (hn : 2 ≤ n) (h : ∀ v < n, (nbr v).Nodup ∧ ∀ w ∈ nbr v, w < n) :
    ∃ M, (∀ v < n, centrality (fun v w => w ∈ nbr v) (range n) v ≤ M) ∧ (∃ v < n, centrality (fun v w => w ∈ nbr v) (range n) v = M) ∧
      betweennessCentrality n n nbr none =
        some ((List.range n).map fun i => if M = 0 then none else some (centrality (fun v w => w ∈ nbr v) (range n) i / M)) := by
  obtain ⟨total, h1, h2⟩ := sources_spec h (List.range n) (fun s hs => List.mem_range.1 hs) List.nodup_range (fun _ => 0)
  have hc : ∀ v, total v = centrality (fun v w => w ∈ nbr v) (range n) v := by
    intro v
    have e : (List.range n).toFinset = range n := by
      ext x
      simp
    rw [h2, e, zero_add]
    rfl
  obtain ⟨m1, m2, m3⟩ := foldl_max_rat total (List.range n) 0
  refine ⟨(List.range n).foldl (fun m i => max m (total i)) 0, fun v hv => hc v ▸ m2 v (List.mem_range.2 hv), ?_, ?_⟩
  · rcases m3 with m3 | ⟨i, hi, m3⟩
    · refine ⟨0, by omega, ?_⟩
      rw [m3]
      refine le_antisymm ?_ (centrality_nonneg _ _ _)
      rw [← hc, ← m3]
      exact m2 0 (List.mem_range.2 (by omega))
    · exact ⟨i, List.mem_range.1 hi, by rw [← hc]; exact m3.symm⟩
  · unfold betweennessCentrality sources
    rw [if_neg (by omega)]
    simp only [Option.getD_none]
    rw [h1]
    simp only [Option.map_some, Option.some.injEq]
    refine List.map_congr_left fun i _ => ?_
    unfold floatRatio
    rw [hc i]

/-- C70. For every formula with clauses that are not empty and without repeated variables, and in which two variables occur
together: the vector of centralities has one element for every variable that occurs together with another one. The
element for `x` is the betweenness centrality of `x` among the variables, where variables are neighbours if they occur
together, divided by the largest centrality, `M`; and NaN for all variables if this is zero. -/
theorem C70_variables_partial (rtl : Bool) {nv : Nat} {cs : List Clause}
    (h : ∀ c ∈ cs, c ≠ [] ∧ (c.map Lit.var).Nodup ∧ ∀ l ∈ c, l.var < nv) (hw : ∃ x y, Together cs x y) :
    ∃ (g : VarGraph) (r : List (Option Rat)) (M : Rat), VarGraph.ofClauses rtl nv cs = some g ∧ betweennessCentrality g.n g.n g.out none = some r ∧
      r.length = g.nodes.length ∧ (∀ x, x ∈ g.nodes ↔ ∃ y, Together cs x y) ∧
      (∀ x < nv, centrality (Together cs) (range nv) x ≤ M) ∧ (∃ x < nv, centrality (Together cs) (range nv) x = M) ∧
      ∀ (i x : Nat), g.nodes[i]? = some x →
        r[i]? = some (if M = 0 then none else some (centrality (Together cs) (range nv) x / M)) := by
  obtain ⟨g, h1, hf⟩ := VarGraph.ofClauses_spec rtl h
  have hN := numbering hf
  have hnb : ∀ v < g.n, (g.out v).Nodup ∧ ∀ w ∈ g.out v, w < g.n := fun v _ =>
    ⟨hf.outNodup v, fun w hwv => hf.n ▸ hN.adj_lt v w hwv⟩
  have h2 : 2 ≤ g.n := by
    obtain ⟨x, y, hxy⟩ := hw
    obtain ⟨m1, m2⟩ := hN.mem x y hxy
    obtain ⟨i, hi, ei⟩ := Numbering.exists_node m1
    obtain ⟨j, hj, ej⟩ := Numbering.exists_node m2
    have : i ≠ j := fun e => hxy.1 (by rw [← ei, ← ej, e])
    rw [hf.n]
    omega
  obtain ⟨M, c1, c2, c3⟩ := C70_nodes h2 hnb
  have hsub : g.nodes.toFinset ⊆ range nv := fun x hx => mem_range.2 (hf.bound x (List.mem_toFinset.1 hx))
  have hmem : ∀ a b, Together cs a b → a ∈ g.nodes.toFinset ∧ b ∈ g.nodes.toFinset := fun a b hab =>
    ⟨List.mem_toFinset.2 (hN.mem a b hab).1, List.mem_toFinset.2 (hN.mem a b hab).2⟩
  have hc : ∀ (i x : Nat), g.nodes[i]? = some x →
      centrality (Together cs) (range nv) x = centrality (fun v w => w ∈ g.out v) (range g.n) i := by
    intro i x hx
    obtain ⟨hi, _⟩ := List.getElem?_eq_some_iff.1 hx
    have e := Numbering.node_some hi
    rw [hx] at e
    cases e
    rw [centrality_subset hsub hmem, hN.centrality_eq hi, hf.n]
    rfl
  refine ⟨g, _, M, h1, c3, by rw [List.length_map, List.length_range, hf.n], hf.mem, ?_, ?_, ?_⟩
  · intro x hx
    by_cases hm : x ∈ g.nodes
    · obtain ⟨i, hi, ei⟩ := Numbering.exists_node hm
      have e := Numbering.node_some hi
      rw [ei] at e
      rw [hc i x e]
      exact c1 i (by rw [hf.n]; exact hi)
    · obtain ⟨v, hv, c2⟩ := c2
      refine le_trans (le_of_eq ?_) (c2 ▸ centrality_nonneg _ _ v)
      have hx0 : ∀ s t, pathsThrough (Together cs) s t x ≠ 0 → x ≠ s → s = t ∨ False := by
        intro s t hne hxs
        exfalso
        apply hne
        unfold pathsThrough
        have : {p | Shortest (Together cs) s t p ∧ x ∈ p} = ∅ := by
          ext p
          simp only [Set.mem_ofPred_eq, Set.mem_empty_iff_false, iff_false]
          rintro ⟨⟨hp, _⟩, hxp⟩
          have := chain_ok (A := Together cs) (ok := fun a => a = s ∨ a ∈ g.nodes) (fun i j hij => Or.inr (hN.mem i j hij).2) p s hp.2.1
            (Or.inl rfl) hp.1 x hxp
          rcases this with e | e
          · exact hxs e
          · exact hm e
        rw [this]
        simp
      unfold centrality
      refine sum_eq_zero fun s hs => sum_eq_zero fun t ht => ?_
      by_cases hz : pathsThrough (Together cs) s t x = 0
      · rw [hz, zero_div]
      · rcases hx0 s t hz (fun e => (mem_erase.1 hs).1 e.symm) with e | e
        · exact absurd e.symm (mem_erase.1 ht).1
        · exact e.elim
  · obtain ⟨v, hv, c2⟩ := c2
    have hv' : v < g.nodes.length := by rw [← hf.n]; exact hv
    refine ⟨Numbering.node g.nodes v, hf.bound _ (Numbering.node_mem hv'), ?_⟩
    rw [hc v _ (Numbering.node_some hv'), c2]
  · intro i x hx
    have hi : i < g.n := by rw [hf.n]; exact (List.getElem?_eq_some_iff.1 hx).1
    rw [hc i x hx, List.getElem?_map, List.getElem?_range hi, Option.map_some]

/-- C70. The centralities are numbers from zero to one, and one is among them; unless no node lies between two others. -/
theorem C70_range {n : Nat} {nbr : Nat → List Nat} (hn : 2 ≤ n) (h : ∀ v < n, (nbr v).Nodup ∧ ∀ w ∈ nbr v, w < n)
    (hb : ∃ v < n, centrality (fun v w => w ∈ nbr v) (range n) v ≠ 0) :
    ∃ r, betweennessCentrality n n nbr none = some r ∧ r.length = n ∧ some 1 ∈ r ∧ ∀ x ∈ r, ∃ c, x = some c ∧ 0 ≤ c ∧ c ≤ 1 := by
  obtain ⟨M, c1, ⟨v, hv, c2⟩, c3⟩ := C70_nodes hn h
  obtain ⟨u, hu, hne⟩ := hb
  have hM : 0 < M := lt_of_lt_of_le (lt_of_le_of_ne (centrality_nonneg _ _ u) (Ne.symm hne)) (c1 u hu)
  refine ⟨_, c3, by simp, ?_, ?_⟩
  · refine List.mem_map.2 ⟨v, List.mem_range.2 hv, ?_⟩
    rw [if_neg hM.ne', c2, div_self hM.ne']
  · intro x hx
    obtain ⟨i, hi, rfl⟩ := List.mem_map.1 hx
    rw [if_neg hM.ne']
    exact ⟨_, rfl, div_nonneg (centrality_nonneg _ _ _) hM.le, (div_le_one hM).2 (c1 i (List.mem_range.1 hi))⟩

/-- C70. With sampling, for every list of nodes that are drawn: the computation ends without access outside of a vector, and
the result is the sum over the drawn nodes `s` only, of the fractions of shortest paths from `s` that pass through a node;
divided by the largest one. -/
theorem C70_sample {n til : Nat} {nbr : Nat → List Nat} (hn : 2 ≤ til) (h : ∀ v < n, (nbr v).Nodup ∧ ∀ w ∈ nbr v, w < n)
    (drawn : List Nat) (hd : ∀ s ∈ drawn, s < n) :
    ∃ (S : Nat → Rat) (M : Rat),
      (∀ v, S v = (drawn.map fun s => if v ≠ s then ∑ t ∈ ((range n).erase v).erase s,
        pathsThrough (fun v w => w ∈ nbr v) s t v / paths (fun v w => w ∈ nbr v) s t else 0).sum) ∧
      0 ≤ M ∧ (∀ v < n, S v ≤ M) ∧ (M = 0 ∨ ∃ v < n, S v = M) ∧
      betweennessCentrality n til nbr (some drawn) = some ((List.range n).map fun i => if M = 0 then none else some (S i / M)) := by
  obtain ⟨total, h1, h2⟩ := drawn_spec h drawn hd (fun _ => 0)
  obtain ⟨m1, m2, m3⟩ := foldl_max_rat total (List.range n) 0
  refine ⟨total, (List.range n).foldl (fun m i => max m (total i)) 0, ?_, m1, fun v hv => m2 v (List.mem_range.2 hv), ?_, ?_⟩
  · intro v
    rw [h2, zero_add]
    rfl
  · rcases m3 with m3 | ⟨i, hi, m3⟩
    · exact Or.inl m3
    · exact Or.inr ⟨i, List.mem_range.1 hi, m3.symm⟩
  · unfold betweennessCentrality sources
    rw [if_neg (by omega)]
    simp only [Option.getD_some]
    rw [h1]
    rfl

/-! ### Findings -/

/-- C70 is false if neighbours of neighbours are always neighbours: then all centralities are NaN (zero divided by zero). -/
theorem C70_nan {n : Nat} {nbr : Nat → List Nat} (hn : 2 ≤ n) (h : ∀ v < n, (nbr v).Nodup ∧ ∀ w ∈ nbr v, w < n)
    (ht : ∀ a b c, b ∈ nbr a → c ∈ nbr b → a ≠ c → c ∈ nbr a) :
    betweennessCentrality n n nbr none = some (List.replicate n none) := by
  obtain ⟨M, _, ⟨v, _, c2⟩, c3⟩ := C70_nodes hn h
  rw [centrality_zero (adj := fun v w => w ∈ nbr v) ht] at c2
  rw [c3]
  congr 1
  rw [List.eq_replicate_iff]
  refine ⟨by simp, fun x hx => ?_⟩
  obtain ⟨i, _, rfl⟩ := List.mem_map.1 hx
  rw [if_pos c2.symm]

/-- For example for a formula with one clause: all elements of the vector are NaN. -/
theorem C70_nan_fails : ((VarGraph.ofClauses false 3 (cnf [[1, 2, 3]])).bind fun g => betweennessCentrality g.n g.n g.out none) =
    some [none, none, none] := by decide +kernel

/-- If nothing is drawn (the sample size times the number of nodes is less than one) then all elements are NaN. -/
theorem C70_sample_empty_fails {n til : Nat} {nbr : Nat → List Nat} (hn : 2 ≤ til) :
    betweennessCentrality n til nbr (some []) = some (List.replicate n none) := by
  unfold betweennessCentrality
  rw [if_neg (by omega)]
  have hM : (List.range n).foldl (fun m (_ : Nat) => max m (0 : Rat)) 0 = 0 := by
    generalize List.range n = l
    induction l with
    | nil => rfl
    | cons a l ih => rw [List.foldl_cons, max_self, ih]
  change some ((List.range n).map fun _ => floatRatio 0 ((List.range n).foldl (fun m (_ : Nat) => max m (0 : Rat)) 0)) = _
  rw [hM]
  congr 1
  rw [List.eq_replicate_iff]
  exact ⟨by simp, fun x hx => by obtain ⟨i, _, rfl⟩ := List.mem_map.1 hx; rfl⟩

/-- Two small components and the path 5 - 6 - 7, which is the largest component. -/
def exLargest : CNF := cnf [[1, 2], [3, 4], [5, 6], [6, 7]]

/-- C70 is false for the scope `LWCC`. The variable with number 5 is the only one between two others, but the searches begin
at the first three nodes of the graph, which are not in the largest component: all elements are NaN. For the whole graph
the result is right. -/
theorem C70_largest_fails :
    ((VarGraph.ofClauses false 7 exLargest).bind fun g => (Wcc.compute g.n g.out).map fun w =>
      (w.size w.largest, (List.range g.n).filter fun i => w.id i == w.largest)) = some (3, [4, 5, 6]) ∧
    ((VarGraph.ofClauses false 7 exLargest).bind fun g => centralityLargest g.n g.out none) = some (List.replicate 7 none) := by
  decide +kernel

/-! ### Examples -/

/-- The hypotheses and the result for a path of four variables, with a variable that does not occur. -/
example : ((VarGraph.ofClauses false 5 (cnf [[1, 2], [2, 3], [3, 5]])).bind fun g => betweennessCentrality g.n g.n g.out none) =
    some [some 0, some 1, some 1, some 0] := by decide +kernel

example : (∀ c ∈ cnf [[1, 2], [2, 3], [3, 5]], c ≠ [] ∧ (c.map Lit.var).Nodup ∧ ∀ l ∈ c, l.var < 5) ∧
    ∃ x y, Together (cnf [[1, 2], [2, 3], [3, 5]]) x y :=
  ⟨by decide, 0, 1, by decide, [lit 1, lit 2], by decide, ⟨lit 1, by decide, by decide⟩, lit 2, by decide, by decide⟩

/-- A square with one more node: two shortest paths between opposite corners. -/
def exSquare : Nat → List Nat := fun i => ([[1, 3], [0, 2], [1, 3, 4], [0, 2], [2]] : List (List Nat)).getD i []

example : (∀ v < 5, (exSquare v).Nodup ∧ ∀ w ∈ exSquare v, w < 5) ∧
    betweennessCentrality 5 5 exSquare none = some [some (1 / 7), some (2 / 7), some 1, some (2 / 7), some 0] := by decide +kernel

example : betweennessCentrality 5 5 exSquare (some [0]) = some [some 0, some (1 / 1), some 1, some (1 / 1), some 0] := by decide +kernel

end Candy
