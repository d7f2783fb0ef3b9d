import Verif.Proofs.Wcc
import Verif.Props.Betweenness

/-!
# C71: the connected components of the graph of variables

`Path` is specified in `Verif/SpecBetweenness.lean`.
-/

namespace Candy

open Betweenness Finset

/-- C71. The components that are computed for a symmetric graph in which every node has a neighbour: the computation ends and
does not access elements outside of the vectors. Two nodes get the same number if and only if there is a path from one to the
other. The numbers are `1 .. c - 1`; for each the number of nodes is right, and `largest` is one with most nodes. -/
theorem C71_components {n : Nat} {nbr : Nat → List Nat} (hn : ∀ v < n, ∀ u ∈ nbr v, u < n) (hs : ∀ a b, a ∈ nbr b → b ∈ nbr a)
    (hl : ∀ v < n, ∃ u ∈ nbr v, u ≠ v) (h0 : 0 < n) :
    ∃ w, Wcc.compute n nbr = some w ∧
      (∀ i < n, ∀ j < n, w.id i = w.id j ↔ ∃ p, Path (fun v u => u ∈ nbr v) i j p) ∧
      (∀ i < n, 1 ≤ w.id i ∧ w.id i < w.c) ∧ (∀ k, 1 ≤ k → k < w.c → ∃ i < n, w.id i = k) ∧
      (∀ k, 1 ≤ k → w.size k = ((range n).filter fun i => w.id i = k).card) ∧
      (∀ k, w.size k ≤ w.size w.largest) ∧ 1 ≤ w.largest ∧ w.largest < w.c := by
  obtain ⟨w, e, h, h1, _⟩ := Wcc.nodes_spec hn hs hl (List.range n) Wcc.start (fun i hi => List.mem_range.1 hi) (Wcc.Outer.start n nbr)
  have h1 : ∀ i < n, w.id i ≠ 0 := fun i hi => h1 i (List.mem_range.2 hi)
  have hk : ∀ k, 1 ≤ k → k < w.c → ∃ i < n, w.id i = k := by
    intro k hk1 hk2
    have := h.two k (by omega) hk2
    unfold Wcc.cnt at this
    obtain ⟨i, hi⟩ := Finset.card_pos.1 (by omega : 0 < ((range n).filter fun v => w.id v = k).card)
    rw [mem_filter, mem_range] at hi
    exact ⟨i, hi.1, hi.2⟩
  refine ⟨w, e, ?_, fun i hi => ⟨Nat.pos_of_ne_zero (h1 i hi), h.lt i⟩, hk, fun k hk => h.sized.size k (by omega), h.max, ?_, h.large⟩
  · intro i hi j hj
    constructor
    · exact fun e => Wcc.path_of_reach (h.conn i j (h1 i hi) e)
    · rintro ⟨p, hp⟩
      have hr := Wcc.reach_of_path p i j hp
      clear hp hj
      induction hr with
      | refl => rfl
      | step hab hc ih =>
        rw [ih]
        refine (h.closed _ ?_ _ hc).symm
        rw [← ih]
        exact h1 i hi
  · rcases h.used with hu | hu
    · have := h.lt 0
      have := h1 0 h0
      omega
    · omega

/-- C71. For every formula with clauses that are not empty and without repeated variables, in which two variables occur together:
two variables of the graph are in the same component if and only if they are linked by a chain of variables of which
neighbours occur together in a clause. The size given for the largest component is the largest number of variables that
are linked to a variable. -/
theorem C71_variables (rtl : Bool) {nv : Nat} {cs : List Clause}
    (h : ∀ c ∈ cs, c ≠ [] ∧ (c.map Lit.var).Nodup ∧ ∀ l ∈ c, l.var < nv) (hw : ∃ x y, Together cs x y) :
    ∃ (g : VarGraph) (w : Wcc), VarGraph.ofClauses rtl nv cs = some g ∧ Wcc.compute g.n g.out = some w ∧
      (∀ (i j x y : Nat), g.nodes[i]? = some x → g.nodes[j]? = some y → (w.id i = w.id j ↔ ∃ p, Path (Together cs) x y p)) ∧
      (∀ x, (∃ y, Together cs x y) → {y | ∃ p, Path (Together cs) x y p}.ncard ≤ w.size w.largest) ∧
      (∀ (i x : Nat), g.nodes[i]? = some x → w.id i = w.largest → {y | ∃ p, Path (Together cs) x y p}.ncard = w.size w.largest) ∧
      ∃ i, i < g.n ∧ w.id i = w.largest := by
  obtain ⟨g, h1, hf⟩ := VarGraph.ofClauses_spec rtl h
  have hN := numbering hf
  have hn : ∀ v < g.n, ∀ u ∈ g.out v, u < g.n := fun v _ u hu => hf.n ▸ hN.adj_lt v u hu
  have hsy : ∀ x y, Together cs x y → Together cs y x := fun x y hxy =>
    ⟨fun e => hxy.1 e.symm, by obtain ⟨c, hc, a, b⟩ := hxy.2; exact ⟨c, hc, b, a⟩⟩
  have hs : ∀ a b, a ∈ g.out b → b ∈ g.out a := by
    intro a b hab
    obtain ⟨x, y, e1, e2, hxy⟩ := (hf.out b a).1 hab
    exact (hf.out a b).2 ⟨y, x, e2, e1, hsy x y hxy⟩
  have hl : ∀ v < g.n, ∃ u ∈ g.out v, u ≠ v := by
    intro v hv
    rw [hf.n] at hv
    obtain ⟨y, hy⟩ := (hf.mem _).1 (Numbering.node_mem hv)
    obtain ⟨j, hj, ej⟩ := Numbering.exists_node (hN.mem _ _ hy).2
    have ej' := Numbering.node_some hj
    rw [ej] at ej'
    refine ⟨j, (hf.out v j).2 ⟨_, y, Numbering.node_some hv, ej', hy⟩, fun e => ?_⟩
    rw [e] at ej
    exact hy.1 ej
  have h0 : 0 < g.n := by
    obtain ⟨x, y, hxy⟩ := hw
    rw [hf.n]
    exact List.length_pos_of_mem (hN.mem x y hxy).1
  obtain ⟨w, e, c1, c2, c3, c4, c5, c6, c7⟩ := C71_components hn hs hl h0
  have hpath : ∀ (i j x y : Nat), g.nodes[i]? = some x → g.nodes[j]? = some y → (w.id i = w.id j ↔ ∃ p, Path (Together cs) x y p) := by
    intro i j x y hx hy
    obtain ⟨hi, _⟩ := List.getElem?_eq_some_iff.1 hx
    obtain ⟨hj, _⟩ := List.getElem?_eq_some_iff.1 hy
    have ex := Numbering.node_some hi
    have ey := Numbering.node_some hj
    rw [hx] at ex
    rw [hy] at ey
    cases ex; cases ey
    rw [c1 i (by rw [hf.n]; exact hi) j (by rw [hf.n]; exact hj)]
    constructor
    · rintro ⟨p, hp⟩
      exact ⟨_, (hN.path_iff hi hj _).2 ⟨p, hp, hN.path_lt hi hp, rfl⟩⟩
    · rintro ⟨q, hq⟩
      obtain ⟨p, hp, _⟩ := (hN.path_iff hi hj _).1 hq
      exact ⟨p, hp⟩
  have hsize : ∀ (i x : Nat), g.nodes[i]? = some x → {y | ∃ p, Path (Together cs) x y p}.ncard = w.size (w.id i) := by
    intro i x hx
    obtain ⟨hi, _⟩ := List.getElem?_eq_some_iff.1 hx
    rw [c4 _ (c2 i (by rw [hf.n]; exact hi)).1]
    have : {y | ∃ p, Path (Together cs) x y p} =
        Numbering.node g.nodes '' (((range g.n).filter fun j => w.id j = w.id i : Finset Nat) : Set Nat) := by
      ext y
      simp only [Set.mem_ofPred_eq, Set.mem_image, coe_filter, mem_range]
      constructor
      · rintro ⟨p, hp⟩
        have hy : y ∈ g.nodes := chain_ok (ok := fun a => a ∈ g.nodes) (fun a b hab => (hN.mem a b hab).2) p x hp.2.1
          (List.mem_of_getElem? hx) hp.1 y (List.mem_of_getLast? hp.2.2)
        obtain ⟨j, hj, ej⟩ := Numbering.exists_node hy
        have ey := Numbering.node_some hj
        rw [ej] at ey
        exact ⟨j, ⟨by rw [hf.n]; exact hj, ((hpath i j x y hx ey).2 ⟨p, hp⟩).symm⟩, ej⟩
      · rintro ⟨j, ⟨hj, e⟩, rfl⟩
        rw [hf.n] at hj
        exact (hpath i j x _ hx (Numbering.node_some hj)).1 e.symm
    rw [this, Set.InjOn.ncard_image, Set.ncard_coe_finset]
    intro a ha b hb hab
    have ha : a < g.n := mem_range.1 (mem_filter.1 ha).1
    have hb : b < g.n := mem_range.1 (mem_filter.1 hb).1
    rw [hf.n] at ha hb
    exact hN.node_inj ha hb hab
  refine ⟨g, w, h1, e, hpath, ?_, ?_, c3 _ c6 c7⟩
  · intro x hx
    obtain ⟨i, hi, ei⟩ := Numbering.exists_node ((hf.mem x).2 hx)
    have ex := Numbering.node_some hi
    rw [ei] at ex
    rw [hsize i x ex]
    exact c5 _
  · intro i x hx hi
    rw [hsize i x hx, hi]

/-! ### Examples -/

example : ((VarGraph.ofClauses false 7 exLargest).bind fun g => (Wcc.compute g.n g.out).map fun w =>
    ((List.range g.n).map w.id, w.c, (List.range w.c).map w.size)) = some ([1, 1, 2, 2, 3, 3, 3], 4, [0, 2, 2, 3]) := by decide +kernel

example : (∀ c ∈ exLargest, c ≠ [] ∧ (c.map Lit.var).Nodup ∧ ∀ l ∈ c, l.var < 7) ∧ ∃ x y, Together exLargest x y :=
  ⟨by decide, 0, 1, by decide, [lit 1, lit 2], by decide, ⟨lit 1, by decide, by decide⟩, lit 2, by decide, by decide⟩

/-- The hypothesis that every node has a neighbour is needed: with only loops the number of components reaches the number of
nodes, and `wccNodes[c]` is outside of the vector. -/
theorem C71_isolated_fails : Wcc.compute 2 (fun v => [v]) = none := by decide +kernel

end Candy
