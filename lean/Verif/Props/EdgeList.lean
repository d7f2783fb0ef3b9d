import Verif.Proofs.EdgeCount

/-!
# C77: queries of edges, undirected graphs, reciprocity

The full statement is that in every graph `edge(a, b)` tells whether there is an edge, `makeUndirected` adds exactly the
reversed edges and removes repetitions, and the reciprocity is the fraction of the edges for which there is a reversed edge.
It is false for edges between numbers of nodes that were not given in order, and the reciprocity is wrong, or elements behind
the end of a vector are read, if the edges were not sorted before.
-/

namespace Candy.EdgeList

/-- Any sequence of calls for a new graph, if there is room for two nodes per call. The calls do not fail. There are the edges
that the calls make, between the numbers of the names; queries tell whether there is an edge; lists that are sorted have no
repetitions, and then the number of edges is right. -/
theorem C77_history {maxn : Nat} (ops : List Op) (hr : 2 * ops.length ≤ maxn) (ho : ∀ a b, Op.query a b ∈ ops → a < maxn) :
    ∃ g, ops.foldlM apply ⟨VarGraph.empty maxn, false, false⟩ = some g ∧
      let R := fun i j => ∃ x y, g.base.nodes[i]? = some x ∧ g.base.nodes[j]? = some y ∧ ops.foldl edgesAfter (fun _ _ => False) x y
      g.base.nodes.Nodup ∧ (∀ x y, ops.foldl edgesAfter (fun _ _ => False) x y → x ∈ g.base.nodes ∧ y ∈ g.base.nodes) ∧
      g.base.n = g.base.nodes.length ∧
      (∀ i j, j ∈ g.base.out i ↔ R i j) ∧
      (∀ i < maxn, ∀ j, (∃ g' b, edge g i j = some (g', b) ∧ (b = true ↔ R i j)) ∧ ∃ b, edgeSlow g i j = some b ∧ (b = true ↔ R i j)) ∧
      (g.sorted = true → (∀ i, (g.base.out i).Pairwise (· < ·)) ∧ g.base.m = edgesFrom g.base.n R fun _ => true) := by
  obtain ⟨g, h1, h2, h3⟩ := HInv.run ops (HInv.new maxn) (by simpa [VarGraph.empty] using hr) (by simpa [VarGraph.empty] using ho)
  have hm : g.base.maxn = maxn := h3
  refine ⟨g, h1, ?_⟩
  intro R
  have hR : ∀ i j, j ∈ g.base.out i ↔ R i j := h2.rel
  refine ⟨h2.nodup, h2.mem, h2.n, hR, fun i hi j => ⟨⟨_, _, edge_spec h2.inv (by omega) j, by rw [decide_eq_true_eq]; exact hR i j⟩, ?_⟩,
    fun hs => ⟨h2.inv.sorted hs, ?_⟩⟩
  · refine ⟨_, by unfold edgeSlow; rw [if_pos (by omega)], ?_⟩
    rw [List.any_eq_true, ← hR]
    simp
  · rw [count_eq h2.inv hs]
    have eR : (fun a b => b ∈ g.base.out a) = R := by funext a b; exact propext (hR a b)
    rw [eR]

/-- `makeUndirected`, for every graph in which the nodes with edges are the first ones. -/
theorem C77_undirected {g : G} (h : Inv g) : ∃ g', makeUndirected g = some g' ∧ Inv g' ∧ g'.undir = true ∧ g'.sorted = true ∧
    (∀ v w, w ∈ g'.base.out v ↔ w ∈ g.base.out v ∨ v ∈ g.base.out w) ∧ (∀ v, (g'.base.out v).Pairwise (· < ·) ∧ g'.base.inn v = []) ∧
    g'.base.m = edgesFrom g.base.n (fun a b => b ∈ g.base.out a ∨ a ∈ g.base.out b) fun _ => true := by
  obtain ⟨g', h1, h2, h3, h4, _, h6⟩ := undirect_spec h
  obtain ⟨k1, _, k3⟩ := h2.undir h3
  refine ⟨g', h1, h2, h3, k1, h6, fun v => ⟨h2.sorted k1 v, k3 v⟩, ?_⟩
  rw [count_eq h2 k1, h4]
  simp only [h6]

/-- The loop that appends to the lists it reads gives the graph of variables that the theorems about centralities (C60, C70, C71)
are about. -/
theorem C77_variable_graph (rtl : Bool) {nv : Nat} {cs : List Clause} (hc : ∀ c ∈ cs, c ≠ [] ∧ (c.map Lit.var).Nodup ∧ ∀ l ∈ c, l.var < nv) :
    ∃ g, (VarGraph.empty (max 1 nv)).addClauses rtl cs = some g ∧
      (makeUndirected ⟨g, false, false⟩).map G.base = VarGraph.ofClauses rtl nv cs := by
  obtain ⟨g, h1, h2⟩ := clauses_dense rtl hc
  refine ⟨g, h1, ?_⟩
  rw [makeUndirected_eq h2, VarGraph.ofClauses, h1]
  rfl

/-- The reciprocity of a graph with sorted lists of edges. -/
theorem C77_reciprocity_partial {g : G} (h : Inv g) (hs : g.sorted = true) (C : Nat → Bool) :
    let R := fun a b => b ∈ g.base.out a
    reciprocity C g = some (if 0 < edgesFrom g.base.n R C then (mutualFrom g.base.n R C : Rat) / (edgesFrom g.base.n R C : Rat) else 0) := by
  intro R
  unfold reciprocity
  rw [reci_nodes h hs C, Option.map_some, edgesFrom_eq h hs, mutualFrom_eq h hs]

/-- The average degree of an undirected graph is the average number of neighbours. -/
theorem C77_averageDegree {g : G} (h : Inv g) (hu : g.undir = true) (hn : 0 < g.base.n) :
    averageDegree g = some ((((∑ i ∈ Finset.range g.base.n, (g.base.out i).length : Nat)) : Rat) / (g.base.n : Rat)) := by
  have hs := (h.undir hu).1
  unfold averageDegree
  rw [if_neg (by omega), if_pos hu, h.count hs, sum_list]

/-! ### What is false -/

/-- Graphs made by `addEdge` for numbers of nodes. -/
def ofEdges (maxn : Nat) (es : List (Nat × Nat)) : G := es.foldl (fun g p => addEdge g p.1 p.2) ⟨VarGraph.empty maxn, false, false⟩

/-- Two parallel edges: the list gets shorter while it is read. -/
theorem C77_reciprocity_reads_behind : reciprocity (fun _ => true) (ofEdges 2 [(0, 1), (0, 1)]) = none := by decide +kernel

/-- Edges 0 → 2, 0 → 1, 2 → 0: there is no edge 1 → 0, but the reciprocity is 1; after sorting it is 2/3. -/
theorem C77_reciprocity_wrong : reciprocity (fun _ => true) (ofEdges 3 [(0, 2), (0, 1), (2, 0)]) = some 1 ∧
    reciprocity (fun _ => true) (sortEdgeList (ofEdges 3 [(0, 2), (0, 1), (2, 0)])) = some (2 / 3) := by
  constructor <;> decide +kernel

/-- Edges from node 5, which was not numbered in order: edges that were added are not found, the slow query finds them. -/
theorem C77_edge_sparse_fails : (edge (ofEdges 10 [(5, 9), (5, 8), (5, 7)]) 5 9).map Prod.snd = some false ∧
    edgeSlow (ofEdges 10 [(5, 9), (5, 8), (5, 7)]) 5 9 = some true := by
  constructor <;> decide +kernel

/-! ### The hypotheses can be met -/

/-- A graph with loops and parallel edges in both directions, and an edge that is added after others were sorted. -/
def calls : List Op := [.add false 7 3, .add false 3 7, .add true 7 3, .add false 5 7, .query 0 1, .undirect, .query 2 0, .add true 5 5,
  .add false 5 4, .query 2 3, .undirect, .sort]

example : 2 * calls.length ≤ 24 ∧ (calls.foldlM apply ⟨VarGraph.empty 24, false, false⟩).map
    (fun g => ((List.range 4).map g.base.out, g.base.nodes, g.base.m)) = some ([[1, 2], [0], [0, 2, 3], [2]], [7, 3, 5, 4], 7) := by decide +kernel

example : ∃ g, Inv g ∧ g.sorted = true ∧ reciprocity (fun _ => true) g = some (2 / 3) := by
  refine ⟨sortEdgeList ⟨Scc.build false 6 [(0, 2), (0, 1), (2, 0)], false, false⟩, ?_, ?_, by decide +kernel⟩
  · exact (sort_spec (inv_new (build_dense false (by decide)))).1
  · exact (sort_spec (inv_new (build_dense false (by decide)))).2.1

example : ∃ g g', Inv g ∧ makeUndirected g = some g' ∧ 0 < g'.base.n ∧ averageDegree g' = some (4 / 3) := by
  refine ⟨⟨Scc.build false 6 [(0, 2), (0, 1), (2, 0)], false, false⟩, ⟨(Scc.build false 6 [(0, 2), (0, 1), (2, 0)]).makeUndirected, true, true⟩, inv_new (build_dense false (by decide)),
    makeUndirected_eq (build_dense false (by decide)) false, by decide +kernel, by decide +kernel⟩

/-- Clauses as in `C77_variable_graph`. -/
example : ∀ c ∈ [[pos 0, (pos 1).neg, pos 2]], c ≠ [] ∧ (c.map Lit.var).Nodup ∧ ∀ l ∈ c, l.var < 3 := by decide

end Candy.EdgeList
