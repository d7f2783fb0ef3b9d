import Verif.Proofs.SccAll

/-!
# C75: strongly connected components of a directed graph

The full statement is that for every directed graph the computation ends, stays inside of its vectors and gives the strongly
connected components with their sizes. It is false: the vectors with one element per component are indexed from 1 and have as
many elements as nodes, so there is no element for the last component if every node is a component of its own.
-/

namespace Candy.Scc

variable {n : Nat} {out inn : Nat → List Nat}

/-- Directed graphs in which two different nodes are strongly connected. -/
theorem C75_components_partial (hg : Digraph n out inn) {m : Nat} (hm : 1 ≤ m) (hc : ∃ u v, u < n ∧ u ≠ v ∧ Strong out u v) (old : Comps) :
    ∃ r, computeSCC n n out inn m false old = some r ∧
      (∀ u < n, 1 ≤ r.id u ∧ r.id u ≤ r.sccs) ∧ (∀ k, 1 ≤ k → k ≤ r.sccs → ∃ u < n, r.id u = k) ∧
      (∀ u v, u < n → v < n → (r.id u = r.id v ↔ Strong out u v)) ∧
      (∀ k, 1 ≤ k → k ≤ r.sccs → r.nodes k = size n (fun v => r.id v == k) ∧ r.edges k = inner n inn fun v => r.id v == k) ∧
      1 ≤ r.largest ∧ r.largest ≤ r.sccs ∧ ∀ k, 1 ≤ k → k ≤ r.sccs → r.nodes k ≤ r.nodes r.largest := by
  rcases compute_cases hg n hm old with ⟨r, h1, h2, _⟩ | ⟨_, reps, h2, h3, h4⟩
  · exact ⟨r, h1, h2.ids, h2.onto, h2.same, h2.sizes, h2.largest⟩
  · obtain ⟨u, v, hu, hne, hs⟩ := hc
    have hnd := apart_nodup h2
    have hu' := mem_of_full hnd h3 h4 hu
    have hv' := mem_of_full hnd h3 h4 (hs.lt hg hu)
    exact absurd hs (apart_of_mem h2 hu' hv' hne)

/-- The same with vectors that have one more element: nothing else can go wrong. -/
theorem C75_components_larger (hg : Digraph n out inn) {m : Nat} (hm : 1 ≤ m) (old : Comps) :
    ∃ r, computeSCC (n + 1) n out inn m false old = some r ∧ Correct n out inn r := by
  rcases compute_cases hg (n + 1) hm old with ⟨r, h1, h2, _⟩ | ⟨_, reps, h2, h3, h4⟩
  · exact ⟨r, h1, h2⟩
  · have := length_le (apart_nodup h2) h3; omega

/-- Every other directed graph makes the code access an element behind the end of a vector. -/
theorem C75_acyclic_fails (hg : Digraph n out inn) {m : Nat} (hm : 1 ≤ m) (hc : ∀ u v, u < n → Strong out u v → u = v) (old : Comps) :
    computeSCC n n out inn m false old = none := by
  rcases compute_cases hg n hm old with ⟨r, _, _, reps, h3, h4⟩ | ⟨h1, _⟩
  · have hsub : List.range n ⊆ reps := by
      intro v hv
      have hv : v < n := by simpa using hv
      obtain ⟨r, hr, hs⟩ := h4 v hv
      rw [hc v r hv hs.symm]; exact hr
    have := List.Subperm.length_le (List.subperm_of_subset List.nodup_range hsub)
    simp only [List.length_range] at this
    omega
  · exact h1

/-- Graphs that are built by the methods of the class: two names get the same component if and only if there are paths along
the added edges in both directions. -/
theorem C75_names_partial (rtl : Bool) {maxn : Nat} {es : List (Nat × Nat)} (hr : 2 * es.length ≤ maxn)
    (hc : ∃ a b, a ≠ b ∧ Relation.TransGen (fun x y => (x, y) ∈ es) a b ∧ Relation.TransGen (fun x y => (x, y) ∈ es) b a) (old : Comps) :
    ∃ r, sccOf (build rtl maxn es) false old = some r ∧
      ∀ i j a b, (build rtl maxn es).nodes[i]? = some a → (build rtl maxn es).nodes[j]? = some b → (r.id i = r.id j ↔
        Relation.ReflTransGen (fun x y => (x, y) ∈ es) a b ∧ Relation.ReflTransGen (fun x y => (x, y) ∈ es) b a) := by
  have hd := build_spec rtl hr
  obtain ⟨a, b, hab, p1, p2⟩ := hc
  obtain ⟨a', ha', _⟩ := Relation.TransGen.head'_iff.1 p1
  obtain ⟨b', hb', _⟩ := Relation.TransGen.head'_iff.1 p2
  have hne : es ≠ [] := List.ne_nil_of_mem ha'
  have hg := hd.digraph hne
  obtain ⟨i, hi⟩ := List.getElem?_of_mem ((hd.mem a).2 ⟨a', Or.inl ha'⟩)
  obtain ⟨j, hj⟩ := List.getElem?_of_mem ((hd.mem b).2 ⟨b', Or.inl hb'⟩)
  have hlt : ∀ {k v : Nat}, (build rtl maxn es).nodes[k]? = some v → k < (build rtl maxn es).n := by
    intro k v hk; rw [hd.n]; exact (List.getElem?_eq_some_iff.1 hk).1
  obtain ⟨r, h1, _, _, h2, _⟩ := C75_components_partial hg (m := (build rtl maxn es).m)
    (by rw [hd.m]; exact List.length_pos_iff.2 hne)
    ⟨i, j, hlt hi, by rintro rfl; rw [hi] at hj; exact hab (Option.some.inj hj),
      (hd.reach hi hj).2 p1.to_reflTransGen, (hd.reach hj hi).2 p2.to_reflTransGen⟩ old
  refine ⟨r, h1, fun k l x y hk hl => ?_⟩
  rw [h2 k l (hlt hk) (hlt hl), Strong, hd.reach hk hl, hd.reach hl hk]

/-- Adding the edges numbers the names in the order of their first occurrence and keeps all edges. -/
theorem C75_build (rtl : Bool) {maxn : Nat} {es : List (Nat × Nat)} (hr : 2 * es.length ≤ maxn) (hne : es ≠ []) :
    Digraph (build rtl maxn es).n (build rtl maxn es).out (build rtl maxn es).inn ∧ (build rtl maxn es).m = es.length ∧
    (build rtl maxn es).nodes.Nodup ∧ (build rtl maxn es).n = (build rtl maxn es).nodes.length ∧
    (∀ v, v ∈ (build rtl maxn es).nodes ↔ ∃ w, (v, w) ∈ es ∨ (w, v) ∈ es) ∧
    ∀ i j, j ∈ (build rtl maxn es).out i ↔ ∃ a b, (build rtl maxn es).nodes[i]? = some a ∧ (build rtl maxn es).nodes[j]? = some b ∧ (a, b) ∈ es := by
  have hd := build_spec rtl hr
  exact ⟨hd.digraph hne, hd.m, hd.nodup, hd.n, hd.mem, hd.out⟩

/-! ### Concrete cases -/

/-- A cycle of three nodes with a loop, from which an edge leads to another cycle and from there to a node without
outgoing edge. -/
def exEdges : List (Nat × Nat) := [(7, 3), (3, 5), (5, 7), (3, 3), (5, 8), (8, 9), (9, 8), (9, 1), (7, 3)]

theorem exEdges_cycle : ∃ a b, a ≠ b ∧ Relation.TransGen (fun x y => (x, y) ∈ exEdges) a b ∧
    Relation.TransGen (fun x y => (x, y) ∈ exEdges) b a :=
  ⟨8, 9, by decide, .single (by decide), .single (by decide)⟩

/-- Numbers of the components of nodes `7, 3, 5, 8, 9, 1`; sizes, numbers of edges and the largest one. -/
example : ((sccOf (build false 100 exEdges) false ⟨fun _ => 0, fun _ => 0, fun _ => 0, 0, 0⟩).map fun r =>
    ((List.range 6).map r.id, (List.range 6).map r.nodes, (List.range 6).map r.edges, r.largest, r.sccs)) =
    some ([1, 1, 1, 2, 2, 3], [0, 3, 2, 1, 0, 0], [0, 5, 2, 0, 0, 0], 1, 3) := by decide +kernel

example (old : Comps) : ∃ r, sccOf (build false 100 exEdges) false old = some r :=
  (C75_names_partial false (by decide) exEdges_cycle old).imp fun _ h => h.1

/-- One edge between two nodes. -/
example : Digraph 2 (build false 4 [(0, 1)]).out (build false 4 [(0, 1)]).inn :=
  (C75_build false (maxn := 4) (es := [(0, 1)]) (by decide) (by decide)).1

example : (sccOf (build false 4 [(0, 1)]) false ⟨fun _ => 0, fun _ => 0, fun _ => 0, 0, 0⟩).isNone = true := by decide +kernel

/-- The hypothesis of `C75_acyclic_fails`: only loops. -/
example (old : Comps) : sccOf (build false 4 [(0, 0)]) false old = none := by
  have hb := C75_build false (maxn := 4) (es := [(0, 0)]) (by decide) (by decide)
  refine C75_acyclic_fails hb.1 (by rw [hb.2.1]; decide) (fun u v hu hs => ?_) old
  have hv := hs.lt hb.1 hu
  have hn : (build false 4 [(0, 0)]).n = 1 := by decide
  rw [hn] at hu hv
  omega

end Candy.Scc
