import Verif.Proofs.Clustering
import Verif.Props.EdgeList
import Verif.Props.Components

/-!
# C79: triangles and clustering coefficients

The full statement is that triangles, wedges and clustering coefficients are exact for all graphs and scopes. It is false for scopes with
edges that leave them, and for the coefficients of nodes of directed graphs.
-/

namespace Candy.Triangles

open EdgeList

/-- Triangles and wedges around a node, in directed and undirected graphs, sorted or not. -/
theorem C79_around {g : G} (h : Inv g) (hb : Both g) {u : Nat} (hu : u < g.base.n) :
    ∃ g', trianglesWedges g u = some (g', trianglesAt g.base.n (Rel g) u, (((degree g.base.n (Rel g) u).choose 2 : Nat) : Int)) ∧
      Inv g' ∧ Both g' ∧ g'.base.n = g.base.n ∧ Rel g' = Rel g := by
  obtain ⟨g', e, s⟩ := around_spec (St.rfl h hb) hu
  exact ⟨g', e, s.inv, s.both, s.n, s.rel_eq⟩

/-- The number of triangles of a scope without edges that leave it, for instance all nodes or a component. -/
theorem C79_triangles_partial {g : G} (h : Inv g) (hb : Both g) {C : Nat → Bool} (hc : Closed (Rel g) C) :
    triangles C g = some (triangleCount g.base.n (Rel g) C) := by
  obtain ⟨s, e, _⟩ := totals_spec h hb C g.base.n (Nat.le_refl _)
  unfold triangles totals
  rw [e, Option.map_some, sum_triangles C hc]
  simp

/-- The number of wedges of any scope. -/
theorem C79_wedges {g : G} (h : Inv g) (hb : Both g) (C : Nat → Bool) : wedges C g = some (wedgeCount g.base.n (Rel g) C : Int) := by
  obtain ⟨s, e, _⟩ := totals_spec h hb C g.base.n (Nat.le_refl _)
  unfold wedges totals
  rw [e, Option.map_some]
  rfl

/-- The clustering coefficient of such a scope, if there are wedges. -/
theorem C79_clustering_partial {g : G} (h : Inv g) (hb : Both g) {C : Nat → Bool} (hc : Closed (Rel g) C) (hw : 0 < wedgeCount g.base.n (Rel g) C) :
    graphClustering C g = some (some (3 * (triangleCount g.base.n (Rel g) C : Rat) / (wedgeCount g.base.n (Rel g) C : Rat))) := by
  obtain ⟨s, e, _⟩ := totals_spec h hb C g.base.n (Nat.le_refl _)
  unfold graphClustering totals
  rw [e, Option.map_some, sum_triangles C hc]
  unfold wedgeCount at hw ⊢
  rw [if_neg (by simp only; omega)]
  simp only [Nat.cast_mul, Int.cast_natCast, Nat.cast_ofNat]

/-- The clustering coefficient of a node of an undirected graph. -/
theorem C79_node_partial {g : G} (h : Inv g) (hb : Both g) (hu : g.undir = true) {u : Nat} (hn : u < g.base.n) :
    (nodeClustering g u).map Prod.snd = some (localCoefficient g.base.n (Rel g) u) := by
  obtain ⟨s, e, _⟩ := node_spec (St.rfl h hb) hu hn
  rw [e, Option.map_some]

/-- Their average. -/
theorem C79_average_partial {g : G} (h : Inv g) (hb : Both g) (hu : g.undir = true) (hn : 0 < g.base.n) :
    averageClustering g = some ((∑ u ∈ Finset.range g.base.n, localCoefficient g.base.n (Rel g) u) / (g.base.n : Rat)) := by
  obtain ⟨s, e, _⟩ := average_spec h hb hu g.base.n (Nat.le_refl _)
  unfold averageClustering
  rw [e, Option.map_some, if_pos hn]

/-- After every sequence of calls that add edges between names, make the graph undirected, sort or query it, with room for the names:
the triangles around nodes and in the whole graph, and the wedges, are those of the edges between the names. -/
theorem C79_history {maxn : Nat} (ops : List Op) (hr : 2 * ops.length ≤ maxn) (ho : ∀ a b, Op.query a b ∈ ops → a < maxn) :
    ∃ g, ops.foldlM apply ⟨VarGraph.empty maxn, false, false⟩ = some g ∧ Inv g ∧ Both g ∧ g.base.n = g.base.nodes.length ∧ g.base.nodes.Nodup ∧
      let R := fun i j => ∃ x y, g.base.nodes[i]? = some x ∧ g.base.nodes[j]? = some y ∧ ops.foldl edgesAfter (fun _ _ => False) x y
      triangles (fun _ => true) g = some (triangleCount g.base.n R fun _ => true) ∧
      wedges (fun _ => true) g = some (wedgeCount g.base.n R fun _ => true : Int) ∧
      (∀ u < g.base.n, (trianglesWedges g u).map Prod.snd = some (trianglesAt g.base.n R u, (((degree g.base.n R u).choose 2 : Nat) : Int))) ∧
      (0 < wedgeCount g.base.n R (fun _ => true) → graphClustering (fun _ => true) g =
        some (some (3 * (triangleCount g.base.n R (fun _ => true) : Rat) / (wedgeCount g.base.n R (fun _ => true) : Rat)))) ∧
      (g.undir = true → ∀ u < g.base.n, (nodeClustering g u).map Prod.snd = some (localCoefficient g.base.n R u)) := by
  have h0 := HInv.new maxn
  have hr' : (VarGraph.empty maxn).nodes.length + 2 * ops.length ≤ (VarGraph.empty maxn).maxn := by simpa [VarGraph.empty] using hr
  have ho' : ∀ a b, Op.query a b ∈ ops → a < (VarGraph.empty maxn).maxn := by simpa [VarGraph.empty] using ho
  obtain ⟨g, h1, h2, h3⟩ := HInv.run ops h0 hr' ho'
  have hb : Both g := Both.run ops h0 (by intro i j; simp [VarGraph.empty]) hr' ho' h1
  refine ⟨g, h1, h2.inv, hb, h2.n, h2.nodup, ?_⟩
  intro R
  have hR : Rel g = R := by
    funext i j
    exact propext (h2.rel i j)
  rw [← hR]
  refine ⟨C79_triangles_partial h2.inv hb fun _ _ _ h => h, C79_wedges h2.inv hb _, fun u hu => ?_,
    fun hw => C79_clustering_partial h2.inv hb (fun _ _ _ h => h) hw, fun hu u hn => C79_node_partial h2.inv hb hu hn⟩
  obtain ⟨g', e, _⟩ := C79_around h2.inv hb hu
  rw [e, Option.map_some]

/-- The largest component of an undirected graph in which every node has a neighbour: its triangles and its clustering coefficient. -/
theorem C79_component {g : G} (h : Inv g) (hb : Both g) (hu : g.undir = true) (hl : ∀ v < g.base.n, ∃ u ∈ g.base.out v, u ≠ v) (h0 : 0 < g.base.n) :
    ∃ w, Wcc.compute g.base.n g.base.out = some w ∧
      let C := fun i => decide (w.id i = w.largest)
      triangles C g = some (triangleCount g.base.n (Rel g) C) ∧
      (0 < wedgeCount g.base.n (Rel g) C → graphClustering C g =
        some (some (3 * (triangleCount g.base.n (Rel g) C : Rat) / (wedgeCount g.base.n (Rel g) C : Rat)))) := by
  have hs := (h.undir hu).2.1
  obtain ⟨w, e, h1, _⟩ := C71_components (fun v _ u hv => (h.dense.edges v u hv).2) (fun a b hab => hs b a hab) hl h0
  refine ⟨w, e, ?_⟩
  intro C
  have hc : Closed (Rel g) C := by
    intro a b hab ha
    obtain ⟨ha', hb'⟩ := near_lt h hab
    have hout : b ∈ g.base.out a := hab.elim id fun h' => hs b a h'
    have : w.id a = w.id b := (h1 a ha' b hb').2 ⟨[a, b], ⟨hout, trivial⟩, rfl, rfl⟩
    simp only [C, decide_eq_true_eq] at ha ⊢
    rw [← this, ha]
  exact ⟨C79_triangles_partial h hb hc, fun hw => C79_clustering_partial h hb hc hw⟩

/-! ### What is false -/

/-- The directed cycle 0 → 1 → 2 → 0: every node has two neighbours that are neighbours, but only one outgoing edge. All coefficients of nodes
are 0, that of the graph is 1. -/
theorem C79_node_directed_fails : (averageClustering (ofEdges 3 [(0, 1), (1, 2), (2, 0)]) = some 0) ∧
    ((List.range 3).map fun u => (nodeClustering (ofEdges 3 [(0, 1), (1, 2), (2, 0)]) u).map Prod.snd) = [some 0, some 0, some 0] ∧
    ((List.range 3).map fun u => (trianglesWedges (ofEdges 3 [(0, 1), (1, 2), (2, 0)]) u).map Prod.snd) = [some (1, 1), some (1, 1), some (1, 1)] ∧
    graphClustering (fun _ => true) (ofEdges 3 [(0, 1), (1, 2), (2, 0)]) = some (some 1) := by
  refine ⟨?_, ?_, ?_, ?_⟩ <;> decide +kernel

/-- Edges 0 ⇄ 1 and from both to 2 and 3. The largest strongly connected component are the nodes 0 and 1, which have no triangle; one is
reported. -/
theorem C79_scope_fails : triangles (fun i => decide (i < 2)) (ofEdges 4 [(0, 1), (1, 0), (0, 2), (1, 2), (0, 3), (1, 3)]) = some 1 ∧
    ∀ R, triangleCount 4 R (fun i => decide (i < 2)) = 0 := by
  refine ⟨by decide +kernel, fun R => ?_⟩
  classical
  unfold triangleCount
  rw [Finset.card_eq_zero, Finset.filter_eq_empty_iff]
  rintro p _ ⟨h1, h2, _, _, h3, _⟩
  simp only [decide_eq_true_eq] at h3
  omega

/-- Without wedges the coefficient of the graph is the quotient of two zeros. -/
theorem C79_no_wedges_fails : graphClustering (fun _ => true) (ofEdges 2 [(0, 1)]) = some none := by decide +kernel

/-! ### The hypotheses can be met -/

/-- Two triangles with a common edge, a loop and parallel edges; edges are added after the graph was made undirected. -/
def exCalls : List Op := [.add false 7 3, .add false 3 5, .add true 7 5, .add false 7 5, .add false 5 5, .undirect, .query 2 0, .add true 3 4, .add false 4 7]

example : 2 * exCalls.length ≤ 18 ∧ (∀ a b, Op.query a b ∈ exCalls → a < 18) ∧
    (exCalls.foldlM apply ⟨VarGraph.empty 18, false, false⟩).bind (fun g => triangles (fun _ => true) g) = some 2 ∧
    (exCalls.foldlM apply ⟨VarGraph.empty 18, false, false⟩).bind (fun g => wedges (fun _ => true) g) = some 8 ∧
    ((exCalls ++ [Op.undirect]).foldlM apply ⟨VarGraph.empty 18, false, false⟩).bind (fun g => averageClustering g) = some (5 / 6 : Rat) := by
  refine ⟨by decide, ?_, by decide +kernel, by decide +kernel, by decide +kernel⟩
  intro a b h
  simp [exCalls] at h
  omega

/-- `C79_component`: a triangle, and an edge between other nodes. -/
def exParts : List Op := [.add false 1 2, .add false 3 4, .add false 4 5, .add false 5 3, .undirect]

example : (exParts.foldlM apply ⟨VarGraph.empty 10, false, false⟩).map (fun g => (g.undir, g.base.n, (List.range 5).all fun v => (g.base.out v).any (· != v),
      (Wcc.compute g.base.n g.base.out).bind fun w => triangles (fun i => decide (w.id i = w.largest)) g)) = some (true, 5, true, some 1) := by decide +kernel

end Candy.Triangles
