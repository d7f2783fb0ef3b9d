import Verif.Proofs.Extremes
import Verif.Props.Components

/-!
# The largest component as scope
-/

namespace Candy

open Betweenness Distance Brandes Finset Bounding

/-- The nodes of the largest component. -/
def Largest (n : Nat) (w : Wcc) (i : Nat) : Prop := i < n ∧ w.id i = w.largest

section

variable {n : Nat} {nbr : Nat → List Nat} {w : Wcc}

theorem network_simple (h : Network n nbr) : Simple n nbr := ⟨fun v hv => ⟨(h.nodes v hv).1, (h.nodes v hv).2.1⟩, h.symm, h.noLoop⟩

theorem network_comp (h : Network n nbr) (hw : Wcc.compute n nbr = some w) : Comp n nbr w.inLargest (w.size w.largest) ∧
    (∀ i, w.inLargest i = true ↔ Largest n w i) ∧ 2 ≤ w.size w.largest := by
  have hl : ∀ v < n, ∃ u ∈ nbr v, u ≠ v := by
    intro v hv
    obtain ⟨u, hu⟩ := List.exists_mem_of_ne_nil _ (h.nodes v hv).2.2
    exact ⟨u, hu, fun e => h.noLoop v (e ▸ hu)⟩
  obtain ⟨w', e, h1, h2, h3, h4, h5, h6, h7⟩ := C71_components (fun v hv => (h.nodes v hv).2.1) h.symm hl h.nonempty
  obtain ⟨w'', e', g, _, _⟩ := Wcc.nodes_spec (fun v hv => (h.nodes v hv).2.1) h.symm hl (List.range n) Wcc.start (fun i hi => List.mem_range.1 hi)
    (Wcc.Outer.start n nbr)
  have : w' = w := by rw [e] at hw; simpa using hw
  subst this
  have : w'' = w' := by
    change Wcc.compute n nbr = some w'' at e'
    rw [e] at e'; simpa using e'.symm
  subst this
  have hout : ∀ i, w''.id i ≠ 0 → i < n := g.range
  have hscope : ∀ i, w''.inLargest i = true ↔ Largest n w'' i := by
    intro i
    unfold Wcc.inLargest Largest
    simp only [beq_iff_eq]
    exact ⟨fun e => ⟨hout i (by omega), e⟩, fun e => e.2⟩
  have hwalk : ∀ {p : List Nat} {i j : Nat}, Path (Adj nbr) i j p → ∃ k, Walk (Adj nbr) k i j := by
    intro p i j hp
    obtain ⟨k, hk⟩ := path_len hp
    exact ⟨k, (walk_iff k i j).1 ⟨p, hp, hk⟩⟩
  have hcomp : Comp n nbr w''.inLargest (w''.size w''.largest) := by
    refine ⟨fun i hi => ((hscope i).1 hi).1, ?_, ?_, ?_⟩
    · intro i j hi hj
      obtain ⟨a1, a2⟩ := (hscope i).1 hi
      have hjn := (h.nodes i a1).2.1 j hj
      refine (hscope j).2 ⟨hjn, ?_⟩
      rw [← a2]
      refine ((h1 i a1 j hjn).2 ⟨[i, j], ?_⟩).symm
      exact ⟨⟨hj, trivial⟩, rfl, rfl⟩
    · intro i j hi hj
      obtain ⟨a1, a2⟩ := (hscope i).1 hi
      obtain ⟨b1, b2⟩ := (hscope j).1 hj
      obtain ⟨p, hp⟩ := (h1 i a1 j b1).1 (a2.trans b2.symm)
      exact hwalk hp
    · rw [h4 _ h6]
      congr 1
      ext i
      simp [Wcc.inLargest]
  refine ⟨hcomp, hscope, ?_⟩
  -- the component has two nodes
  obtain ⟨i, hi, ei⟩ := h3 _ h6 h7
  obtain ⟨u, hu⟩ := List.exists_mem_of_ne_nil _ (h.nodes i hi).2.2
  have hui : u ≠ i := fun e => h.noLoop i (e ▸ hu)
  have hsi := (hscope i).2 ⟨hi, ei⟩
  have hsu := hcomp.closed i u hsi hu
  rw [hcomp.size]
  have : ({i, u} : Finset Nat) ⊆ (range n).filter fun i => w''.inLargest i = true := by
    intro x hx
    simp only [mem_insert, mem_singleton] at hx
    rcases hx with rfl | rfl
    · exact mem_filter.2 ⟨mem_range.2 hi, hsi⟩
    · exact mem_filter.2 ⟨mem_range.2 (hcomp.lt _ hsu), hsu⟩
  have := card_le_card this
  rwa [card_pair (Ne.symm hui)] at this

/-- The loop, for the largest component. -/
theorem extremes_run (h : Network n nbr) (hw : Wcc.compute n nbr = some w) (type : Measure) {b : Bounding}
    (hb : Bounding.loop n nbr w.inLargest (w.size w.largest) (Pruning.compute n nbr w.inLargest).pruned type n
      (Bounding.start (w.size w.largest) (Pruning.compute n nbr w.inLargest).count) = some b) :
    extremes n nbr type = some (Bounding.finish n (Pruning.compute n nbr w.inLargest).pruned type b) := by
  have h2 := (network_comp h hw).2.2
  unfold extremes extremaBounding
  rw [hw]
  simp only [Option.bind_some]
  rw [if_neg (by omega), hb]
  rfl

/-- A node of the component has another one. -/
theorem ecc_pos {scope : Nat → Bool} {nl : Nat} (hc : Comp n nbr scope nl) (h2 : 2 ≤ nl) {u k : Nat} (hu : scope u = true) (hk : IsEcc (Adj nbr) u k) :
    1 ≤ k := by
  have h1 : 1 < ((range n).filter fun i => scope i = true).card := by have := hc.size; omega
  obtain ⟨v, hv, hne⟩ := exists_mem_ne h1 u
  obtain ⟨j, hj⟩ := hc.conn u v hu (mem_filter.1 hv).2
  obtain ⟨i, _, hi⟩ := exists_dist hj
  have := hk.2 v i hi
  cases i with
  | zero => exact absurd (isDist_iff.1 hi).1 (Ne.symm hne)
  | succ i => omega

end

end Candy
