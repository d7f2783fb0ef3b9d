import Verif.Model.EccCentrality
import Verif.Proofs.DistAll
import Verif.Props.Extremes

/-!
# C81: eccentricity centrality

The full statement is that the result for every node of the scope is its eccentricity. It is false for the stars and starts of C74, and if
components were not computed before.
-/

namespace Candy

open Betweenness Distance Brandes Finset Bounding

section

variable {n : Nat} {nbr : Nat → List Nat} {w : Wcc}

/-- Nodes outside of the component are not pruned, and neither are the nodes they reach. -/
theorem outside_ecc (h : Network n nbr) (hw : Wcc.compute n nbr = some w) {i : Nat} (hi : i < n) (ho : ¬ w.inLargest i = true) :
    ∃ k : Nat, (eccentricity n nbr (Pruning.compute n nbr w.inLargest).pruned i).map Prod.snd = some (k : Int) ∧ IsEcc (Adj nbr) i k := by
  have hg := network_simple h
  obtain ⟨hc, hsc, h2⟩ := network_comp h hw
  have hp := Pruning.compute_ok (scope := w.inLargest) hg
  revert hp
  generalize (Pruning.compute n nbr w.inLargest).pruned = pruned
  intro hp
  have hs : ∀ a b, Adj nbr a b → Adj nbr b a := fun a b h => hg.sym _ _ h
  have hun : ∀ t j, Walk (Adj nbr) j i t → pruned t < 0 := by
    intro t j hj
    rcases hp t with h1 | ⟨_, c, _, _, q3, _, q5, _⟩
    · exact h1
    · have ht := hc.closed c t q5 (hg.sym _ _ (by rw [q3]; simp))
      exact absurd (hc.walk ht (hj.symm hs)) ho
  have hii : pruned i < 0 := hun i 0 rfl
  obtain ⟨d, k, e, _, _, ⟨⟨t, ht⟩, hmax⟩, _⟩ := eccentricity_spec (pruned := pruned) hg.nd hi
  refine ⟨k, by rw [e, Option.map_some], ⟨t, ?_⟩, fun t j hj => ?_⟩
  · exact (isDist_kept hg hp hii (hun t k (isDist_iff.1 ht).1.of_kept)).1 ht
  · exact hmax t j ((isDist_kept hg hp hii (hun t j (isDist_iff.1 hj).1)).2 hj)

/-- C81, if the largest component is not a star and `StartOk` (see C74), and components were computed before: the results are the eccentricities of the nodes of the scope, and -1 for other nodes. -/
theorem C81_eccentricity_partial (h : Network n nbr) (hw : Wcc.compute n nbr = some w) (h0 : StartOk n nbr w)
    (hs : ¬ IsStar (fun v u => u ∈ nbr v) (Largest n w)) (full : Bool) :
    ∃ l, eccentricityCentrality n nbr w full true = some l ∧ l.length = n ∧
      (∀ i < n, full = true ∨ Largest n w i → ∃ k : Nat, l[i]? = some (k : Int) ∧ IsEcc (fun v u => u ∈ nbr v) i k) ∧
      ∀ i < n, ¬ (full = true ∨ Largest n w i) → l[i]? = some (-1) := by
  obtain ⟨hc, hsc, h2⟩ := network_comp h hw
  obtain ⟨r, E, e, hE, _⟩ := C74_eccentricities_partial h hw h0 hs
  have hcard : w.size w.largest ≤ n := by
    rw [hc.size]
    exact (card_filter_le _ _).trans (le_of_eq (card_range n))
  have hnb : ¬ nodesBefore n w full true < 2 := by
    unfold nodesBefore
    split
    · omega
    · rw [if_pos rfl]; omega
  have hel : ∀ i < n, ∃ x, eccElement n nbr w full ((List.range n).map fun i => (E i : Int)) i = some x ∧
      (full = true ∨ Largest n w i → ∃ k : Nat, x = (k : Int) ∧ IsEcc (fun v u => u ∈ nbr v) i k) ∧ (¬ (full = true ∨ Largest n w i) → x = -1) := by
    intro i hi
    unfold eccElement
    by_cases hL : w.inLargest i = true
    · have hL' := (hsc i).1 hL
      refine ⟨(E i : Int), ?_, fun _ => ⟨E i, rfl, hE i hL'⟩, fun hn => absurd (Or.inr hL') hn⟩
      rw [if_pos hL, List.getElem?_map, List.getElem?_range hi, Option.map_some]
    · have hL' : ¬ Largest n w i := fun hh => hL ((hsc i).2 hh)
      rw [if_neg hL]
      cases full with
      | true =>
        obtain ⟨k, e1, e2⟩ := outside_ecc h hw hi hL
        exact ⟨(k : Int), by rw [if_pos rfl, e1], fun _ => ⟨k, rfl, e2⟩, fun hn => absurd (Or.inl rfl) hn⟩
      | false =>
        refine ⟨-1, by simp, fun hh => ?_, fun _ => rfl⟩
        rcases hh with hh | hh
        · cases hh
        · exact absurd hh hL'
  let g : Nat → Int := fun i => (eccElement n nbr w full ((List.range n).map fun i => (E i : Int)) i).getD 0
  have hg : ∀ i < n, eccElement n nbr w full ((List.range n).map fun i => (E i : Int)) i = some (g i) := by
    intro i hi
    obtain ⟨x, hx, _⟩ := hel i hi
    simp only [g, hx, Option.getD_some]
  have hget : ∀ i < n, ((List.range n).map g)[i]? = some (g i) := fun i hi => by
    rw [List.getElem?_map, List.getElem?_range hi, Option.map_some]
  refine ⟨(List.range n).map g, ?_, by simp, fun i hi hh => ?_, fun i hi hh => ?_⟩
  · unfold eccentricityCentrality
    rw [extremes, hw, Option.bind_some] at e
    rw [if_neg hnb, if_pos rfl, e, Option.bind_some]
    exact Dst.mapM_some _ fun i hi => hg i (List.mem_range.1 hi)
  · obtain ⟨x, hx, h1, _⟩ := hel i hi
    obtain ⟨k, rfl, hk⟩ := h1 hh
    have := hg i hi
    rw [hx] at this
    exact ⟨k, by rw [hget i hi, ← Option.some.inj this], hk⟩
  · obtain ⟨x, hx, _, h1⟩ := hel i hi
    have := hg i hi
    rw [hx, h1 hh] at this
    rw [hget i hi, ← Option.some.inj this]

/-- Without computed components, for every graph: for the largest component all results are -1, for all nodes an element outside of an empty
vector is read. -/
theorem C81_not_computed_fails (h : Network n nbr) (w : Wcc) : eccentricityCentrality n nbr w false false = some (List.replicate n (-1)) ∧
    eccentricityCentrality n nbr w true false = none := by
  have hn : 2 ≤ n := by
    obtain ⟨u, hu⟩ := List.exists_mem_of_ne_nil _ (h.nodes 0 h.nonempty).2.2
    have h1 := (h.nodes 0 h.nonempty).2.1 u hu
    have h2 : u ≠ 0 := fun e => h.noLoop 0 (e ▸ hu)
    omega
  constructor
  · unfold eccentricityCentrality nodesBefore
    exact if_pos (by simp)
  · unfold eccentricityCentrality nodesBefore
    rw [if_pos rfl, if_neg (by omega), if_neg (by simp)]
    obtain ⟨m, rfl⟩ : ∃ m, n = m + 1 := ⟨n - 1, by omega⟩
    have h0 : eccentricityUnset (m + 1) nbr 0 = none := by
      unfold eccentricityUnset
      rw [if_pos (by omega), if_neg]
      intro hall
      obtain ⟨u, hu⟩ := List.exists_mem_of_ne_nil _ (h.nodes 0 h.nonempty).2.2
      have := List.all_eq_true.1 hall u hu
      exact h.noLoop 0 (by simpa using (beq_iff_eq.1 this) ▸ hu)
    rw [List.range_succ_eq_map, List.mapM_cons, h0]
    rfl

end

/-- The hypotheses are met by `exTree`, see C74. -/
example : ((Wcc.compute 8 exTree).bind fun w => eccentricityCentrality 8 exTree w true true) = some [1, 1, 3, 2, 3, 4, 4, 4] ∧
    ((Wcc.compute 8 exTree).bind fun w => eccentricityCentrality 8 exTree w false true) = some [-1, -1, 3, 2, 3, 4, 4, 4] ∧
    ((Wcc.compute 8 exTree).bind fun w => eccentricityCentrality 8 exTree w true false) = none := by
  refine ⟨?_, ?_, ?_⟩ <;> decide +kernel

end Candy
