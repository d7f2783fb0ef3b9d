import Verif.Proofs.ExtremesLargest

/-!
# C74: eccentricities, diameter, radius, periphery and center

`Network`, `IsEcc`, `IsDiameter`, `IsRadius`, `periphery`, `center` and `IsStar` are specified in `Verif/SpecDistance.lean`.
`Largest n w` are the nodes of the largest component (see C71).
-/

namespace Candy

open Betweenness Distance Brandes Finset Bounding

/-- The node with number `0` is in the largest component, or a node of this component has more neighbours. -/
def StartOk (n : Nat) (nbr : Nat → List Nat) (w : Wcc) : Prop :=
  Largest n w 0 ∨ ∃ v, Largest n w v ∧ (nbr 0).length < (nbr v).length

section

variable {n : Nat} {nbr : Nat → List Nat} {w : Wcc}

theorem StartOk.scope (h : Network n nbr) (hw : Wcc.compute n nbr = some w) (h0 : StartOk n nbr w) :
    w.inLargest 0 = true ∨ ∃ v, w.inLargest v = true ∧ (nbr 0).length < (nbr v).length := by
  have hs := (network_comp h hw).2.1
  rcases h0 with h0 | ⟨v, hv, hl⟩
  · exact Or.inl ((hs 0).2 h0)
  · exact Or.inr ⟨v, (hs v).2 hv, hl⟩

theorem not_star (h : Network n nbr) (hw : Wcc.compute n nbr = some w) (hs : ¬ IsStar (fun v u => u ∈ nbr v) (Largest n w)) :
    ¬ IsStar (Adj nbr) fun i => w.inLargest i = true := by
  have : (fun i => w.inLargest i = true) = Largest n w := funext fun i => propext ((network_comp h hw).2.1 i)
  rw [this]
  exact hs

/-- C74, for `diameterBD` and the largest component, if it is not a star and `StartOk`: the computation ends without accesses
outside of the vectors, with the diameter of the component. -/
theorem C74_diameter_partial (h : Network n nbr) (hw : Wcc.compute n nbr = some w) (h0 : StartOk n nbr w)
    (hs : ¬ IsStar (fun v u => u ∈ nbr v) (Largest n w)) :
    ∃ (k : Nat) (l : List Int), extremes n nbr .diameter = some ((k : Int), l) ∧ IsDiameter (fun v u => u ∈ nbr v) (Largest n w) k := by
  have hg := network_simple h
  obtain ⟨hc, hsc, h2⟩ := network_comp h hw
  obtain ⟨b, e, hx, hb, hr⟩ := bounding_result hg hc .diameter (h0.scope h hw)
  obtain ⟨r1, ⟨j, hj, ej⟩, _⟩ := max_result hx hb (Or.inl rfl)
  have hp := Pruning.compute_ok (scope := w.inLargest) hg
  have hall := fun {u : Nat} (hu : w.inLargest u = true) => ecc_all hg hp hc (not_star h hw hs) hu
  rw [extremes_run h hw .diameter e]
  refine ⟨_, _, by unfold Bounding.finish; rw [ej], ⟨j, (hsc j).1 hj.2.1, (hall hj.2.1).1 hj.2.2⟩, ?_⟩
  intro s i hsL hi
  have hs' := (hsc s).2 hsL
  by_cases hps : (Pruning.compute n nbr w.inLargest).pruned s < 0
  · have := IsEcc.unique hi ((hall hs').1 hps)
    have := r1 s ⟨hsL.1, hs', hps⟩
    omega
  · obtain ⟨p, _, hup, he⟩ := (hall hs').2 (by omega)
    have := IsEcc.unique hi he
    have := r1 p hup
    omega

/-- C74, for `radiusBD` and the largest component, if `StartOk`: the computation ends without accesses outside of the
vectors, with the radius of the component. -/
theorem C74_radius_partial (h : Network n nbr) (hw : Wcc.compute n nbr = some w) (h0 : StartOk n nbr w) :
    ∃ (k : Nat) (l : List Int), extremes n nbr .radius = some ((k : Int), l) ∧ IsRadius (fun v u => u ∈ nbr v) (Largest n w) k := by
  have hg := network_simple h
  obtain ⟨hc, hsc, h2⟩ := network_comp h hw
  obtain ⟨b, e, hx, hb, hr⟩ := bounding_result hg hc .radius (h0.scope h hw)
  obtain ⟨r1, ⟨j, hj, ej⟩, _⟩ := min_result hx hb (Or.inl rfl)
  have hp := Pruning.compute_ok (scope := w.inLargest) hg
  obtain ⟨hm, hecc⟩ := metric hg hp hc
  rw [extremes_run h hw .radius e]
  revert hp hm hecc r1 hj ej
  generalize (Pruning.compute n nbr w.inLargest).pruned = pruned
  intro r1 hj ej hp hm hecc
  -- the values are lower bounds of the eccentricities
  have hlow : ∀ u i, Used n w.inLargest pruned u → IsEcc (Adj nbr) u i → eccOf (Adj (kept nbr pruned)) u ≤ i := by
    intro u i hu hi
    obtain ⟨t, ht⟩ := (hecc u hu).1
    exact hi.2 t _ ((isDist_kept hg hp hu.2.2 (used_of_dist hc hu ht).2.2).1 ht)
  refine ⟨_, _, by unfold Bounding.finish; rw [ej], ?_, ?_⟩
  · by_cases hpr : ∃ x, pruned x = j
    · obtain ⟨x, hxj⟩ := hpr
      rcases hp x with h1 | ⟨p, c, q1, q2, q3, q4, q5, q6⟩
      · omega
      have : p = j := by omega
      subst this
      have hxc : x ∈ nbr c := hg.sym _ _ (by rw [q3]; simp)
      have hpc : p ∈ nbr c := hg.sym _ _ (by rw [q4]; simp)
      have hcl : ∀ a, nbr c ≠ [a] := by
        intro a ha
        rw [ha] at hxc hpc
        simp at hxc hpc
        exact q2 (hpc.trans hxc.symm)
      have hcu : Used n w.inLargest pruned c := by
        refine ⟨hc.lt c q5, q5, ?_⟩
        rcases hp c with h1 | ⟨_, a, _, _, h1, _⟩
        · exact h1
        · exact absurd h1 (hcl a)
      have hcE : IsEcc (Adj nbr) c (eccOf (Adj (kept nbr pruned)) c) := by
        refine ecc_full hg hp hc hcu fun y hy => ?_
        rcases hp y with h1 | ⟨p', a, y1, _, _, y4, _⟩
        · omega
        · have : p' = c := by omega
          subst this
          exact absurd y4 (hcl a)
      have hle : eccOf (Adj (kept nbr pruned)) c ≤ eccOf (Adj (kept nbr pruned)) p := by
        obtain ⟨t, ht⟩ := (hecc c hcu).1
        have htu := used_of_dist hc hcu ht
        have ht' := (isDist_kept hg hp hcu.2.2 htu.2.2).1 ht
        by_cases htp : t = p
        · subst htp
          exact (hecc t hj).2 c _ ((isDist_kept hg hp hj.2.2 hcu.2.2).2 (isDist_symm hg ht'))
        · have h1 : Walk (Adj nbr) 1 p c := ⟨p, rfl, by unfold Adj; rw [q4]; simp⟩
          obtain ⟨i, _, hd⟩ := exists_dist (Walk.trans h1 (isDist_iff.1 ht').1)
          obtain ⟨i', e', hd'⟩ := leaf_dist hg q4 htp hd
          have := IsDist.unique hd' ht'
          have := (hecc p hj).2 t i ((isDist_kept hg hp hj.2.2 htu.2.2).2 hd)
          omega
      have := r1 c hcu
      have heq : eccOf (Adj (kept nbr pruned)) c = eccOf (Adj (kept nbr pruned)) p := by omega
      rw [← heq]
      exact ⟨c, (hsc c).1 q5, hcE⟩
    · exact ⟨j, (hsc j).1 hj.2.1, ecc_full hg hp hc hj fun x hxj => absurd ⟨x, hxj⟩ hpr⟩
  · intro s i hsL hi
    have hs' := (hsc s).2 hsL
    rcases hp s with hps | ⟨p, c, q1, q2, q3, q4, q5, q6⟩
    · have hu : Used n w.inLargest pruned s := ⟨hsL.1, hs', hps⟩
      have := hlow s i hu hi
      have := r1 s hu
      omega
    · have hsp := hc.closed c p q5 (hg.sym _ _ (by rw [q4]; simp))
      have hu : Used n w.inLargest pruned p := ⟨hc.lt p hsp, hsp, q6⟩
      have := hlow p i hu (swap_ecc hg q4 q3 hi)
      have := r1 p hu
      omega

/-- C74, for `eccentricitiesBD` and the largest component, if it is not a star and `StartOk`: the elements of the result are
the eccentricities of the nodes of the component, and zero for other nodes. -/
theorem C74_eccentricities_partial (h : Network n nbr) (hw : Wcc.compute n nbr = some w) (h0 : StartOk n nbr w)
    (hs : ¬ IsStar (fun v u => u ∈ nbr v) (Largest n w)) :
    ∃ (r : Int) (E : Nat → Nat), extremes n nbr .eccentricities = some (r, (List.range n).map fun i => (E i : Int)) ∧
      (∀ i, Largest n w i → IsEcc (fun v u => u ∈ nbr v) i (E i)) ∧ ∀ i, ¬ Largest n w i → E i = 0 := by
  classical
  have hg := network_simple h
  obtain ⟨hc, hsc, h2⟩ := network_comp h hw
  obtain ⟨b, e, hx, hb, hr⟩ := bounding_result hg hc .eccentricities (h0.scope h hw)
  have hp := Pruning.compute_ok (scope := w.inLargest) hg
  have hall := fun {u : Nat} (hu : w.inLargest u = true) => ecc_all hg hp hc (not_star h hw hs) hu
  rw [extremes_run h hw .eccentricities e]
  revert hp hall hb hr
  generalize (Pruning.compute n nbr w.inLargest).pruned = pruned
  intro hb hr hp hall
  have hlow : ∀ i, Used n w.inLargest pruned i → b.lower i = (eccOf (Adj (kept nbr pruned)) i : Int) := by
    intro i hi
    obtain ⟨a1, a2, a3 | a3⟩ := hb i hi
    · omega
    · exact absurd a3 (by simp)
  have hecc : ∀ i, Largest n w i → IsEcc (Adj nbr) i (eccOf (Adj nbr) i) := by
    intro i hi
    have hs' := (hsc i).2 hi
    by_cases hpi : pruned i < 0
    · have := (hall hs').1 hpi
      rwa [eccOf_eq this]
    · obtain ⟨p, _, _, this⟩ := (hall hs').2 (by omega)
      rwa [eccOf_eq this]
  refine ⟨0, fun i => if Largest n w i then eccOf (Adj nbr) i else 0, ?_, ?_, fun i hi => if_neg hi⟩
  · unfold Bounding.finish
    simp only [Option.some.injEq, Prod.mk.injEq, true_and]
    refine List.map_congr_left fun i hi => ?_
    have hin := List.mem_range.1 hi
    rw [fill_eq hp _ hin]
    by_cases hL : Largest n w i
    · rw [if_pos hL]
      have hs' := (hsc i).2 hL
      by_cases hpi : pruned i < 0
      · rw [if_neg (by omega), hlow i ⟨hin, hs', hpi⟩, eccOf_eq ((hall hs').1 hpi)]
      · obtain ⟨p, q1, hup, this⟩ := (hall hs').2 (by omega)
        rw [if_pos (by omega), q1, Int.toNat_natCast, hlow p hup, eccOf_eq this]
    · rw [if_neg hL]
      have hns : ¬ w.inLargest i = true := fun hh => hL ((hsc i).1 hh)
      have hpi : pruned i < 0 := by
        rcases hp i with h1 | ⟨_, c, _, _, q3, _, q5, _⟩
        · exact h1
        · exact absurd (hc.closed c i q5 (hg.sym _ _ (by rw [q3]; simp))) hns
      rw [if_neg (by omega), (hr i fun hu => hns hu.2.1).1]
      rfl
  · intro i hi
    simp only [if_pos hi]
    exact hecc i hi

/-- C74, for `peripherySizeBD` and the largest component, if it is not a star and `StartOk`: the result is the number of nodes
of the component the eccentricity of which is the diameter. -/
theorem C74_periphery_partial (h : Network n nbr) (hw : Wcc.compute n nbr = some w) (h0 : StartOk n nbr w)
    (hs : ¬ IsStar (fun v u => u ∈ nbr v) (Largest n w)) :
    ∃ l : List Int, extremes n nbr .periphery = some (((periphery (fun v u => u ∈ nbr v) (Largest n w)).ncard : Int), l) := by
  have hg := network_simple h
  obtain ⟨hc, hsc, h2⟩ := network_comp h hw
  obtain ⟨b, e, hx, hb, hr⟩ := bounding_result hg hc .periphery (h0.scope h hw)
  obtain ⟨r1, ⟨j, hj, ej⟩, r3⟩ := max_result hx hb (Or.inr rfl)
  have r3 := r3 rfl
  have hp := Pruning.compute_ok (scope := w.inLargest) hg
  have hall := fun {u : Nat} (hu : w.inLargest u = true) => ecc_all hg hp hc (not_star h hw hs) hu
  rw [extremes_run h hw .periphery e]
  revert hp hall hb hr r1 r3 hj ej
  generalize (Pruning.compute n nbr w.inLargest).pruned = pruned
  intro hb hr r1 hj ej r3 hp hall
  have hpos : 1 ≤ eccOf (Adj (kept nbr pruned)) j := ecc_pos hc h2 hj.2.1 ((hall hj.2.1).1 hj.2.2)
  have hdiam : IsDiameter (Adj nbr) (Largest n w) (eccOf (Adj (kept nbr pruned)) j) := by
    refine ⟨⟨j, (hsc j).1 hj.2.1, (hall hj.2.1).1 hj.2.2⟩, ?_⟩
    intro s i hsL hi
    have hs' := (hsc s).2 hsL
    by_cases hps : pruned s < 0
    · have := IsEcc.unique hi ((hall hs').1 hps)
      have := r1 s ⟨hsL.1, hs', hps⟩
      omega
    · obtain ⟨p, _, hup, he⟩ := (hall hs').2 (by omega)
      have := IsEcc.unique hi he
      have := r1 p hup
      omega
  have huniq : ∀ k, IsDiameter (Adj nbr) (Largest n w) k → k = eccOf (Adj (kept nbr pruned)) j := by
    rintro k ⟨⟨s, s1, s2⟩, s3⟩
    obtain ⟨⟨t, t1, t2⟩, t3⟩ := hdiam
    exact Nat.le_antisymm (t3 s k s1 s2) (s3 t _ t1 t2)
  have hset : periphery (fun v u => u ∈ nbr v) (Largest n w) =
      (((range n).filter fun i => (fill n pruned b.lower i == b.maxlower) = true : Finset Nat) : Set Nat) := by
    ext i
    simp only [periphery, Set.mem_ofPred_eq, coe_filter, mem_range, beq_iff_eq]
    constructor
    · rintro ⟨hL, k, hk, hki⟩
      refine ⟨hL.1, ?_⟩
      have hs' := (hsc i).2 hL
      have hk' := huniq k hk
      subst hk'
      rw [fill_eq hp _ hL.1]
      by_cases hpi : pruned i < 0
      · rw [if_neg (by omega), r3 i ⟨hL.1, hs', hpi⟩, ej]
        rw [IsEcc.unique hki ((hall hs').1 hpi)]
      · obtain ⟨p, q1, hup, he⟩ := (hall hs').2 (by omega)
        rw [if_pos (by omega), q1, Int.toNat_natCast, r3 p hup, ej, IsEcc.unique hki he]
    · rintro ⟨hin, hf⟩
      rw [fill_eq hp _ hin] at hf
      by_cases hs' : w.inLargest i = true
      · refine ⟨(hsc i).1 hs', _, hdiam, ?_⟩
        by_cases hpi : pruned i < 0
        · rw [if_neg (by omega), r3 i ⟨hin, hs', hpi⟩, ej] at hf
          have := (hall hs').1 hpi
          rwa [show eccOf (Adj (kept nbr pruned)) i = eccOf (Adj (kept nbr pruned)) j by omega] at this
        · obtain ⟨p, q1, hup, he⟩ := (hall hs').2 (by omega)
          rw [if_pos (by omega), q1, Int.toNat_natCast, r3 p hup, ej] at hf
          rwa [show eccOf (Adj (kept nbr pruned)) p = eccOf (Adj (kept nbr pruned)) j by omega] at he
      · exfalso
        have hpi : pruned i < 0 := by
          rcases hp i with h1 | ⟨_, c, _, _, q3, _, q5, _⟩
          · exact h1
          · exact absurd (hc.closed c i q5 (hg.sym _ _ (by rw [q3]; simp))) hs'
        rw [if_neg (by omega), (hr i fun hu => hs' hu.2.1).1, ej] at hf
        omega
  refine ⟨(List.range n).map (fill n pruned b.lower), ?_⟩
  · unfold Bounding.finish
    simp only
    rw [hset, Set.ncard_coe_finset, countP_range]

/-- C74, for `centerSizeBD` and the largest component, if it is not a star and `StartOk`: the result is the number of nodes
of the component the eccentricity of which is the radius. -/
theorem C74_center_partial (h : Network n nbr) (hw : Wcc.compute n nbr = some w) (h0 : StartOk n nbr w)
    (hs : ¬ IsStar (fun v u => u ∈ nbr v) (Largest n w)) :
    ∃ l : List Int, extremes n nbr .center = some (((center (fun v u => u ∈ nbr v) (Largest n w)).ncard : Int), l) := by
  have hg := network_simple h
  obtain ⟨hc, hsc, h2⟩ := network_comp h hw
  obtain ⟨b, e, hx, hb, hr⟩ := bounding_result hg hc .center (h0.scope h hw)
  obtain ⟨r1, ⟨j, hj, ej⟩, r3⟩ := min_result hx hb (Or.inr rfl)
  have r3 := r3 rfl
  have hp := Pruning.compute_ok (scope := w.inLargest) hg
  have hall := fun {u : Nat} (hu : w.inLargest u = true) => ecc_all hg hp hc (not_star h hw hs) hu
  have hm := (metric hg hp hc).1
  have htwo := fun {u x : Nat} => ecc_two (u := u) (x := x) hg hp hc (not_star h hw hs)
  rw [extremes_run h hw .center e]
  revert hp hall hb hr r1 r3 hj ej hm htwo
  generalize (Pruning.compute n nbr w.inLargest).pruned = pruned
  intro hb hr r1 hj ej r3 hp hall hm htwo
  have hrad : IsRadius (Adj nbr) (Largest n w) (eccOf (Adj (kept nbr pruned)) j) := by
    refine ⟨⟨j, (hsc j).1 hj.2.1, (hall hj.2.1).1 hj.2.2⟩, ?_⟩
    intro s i hsL hi
    have hs' := (hsc s).2 hsL
    by_cases hps : pruned s < 0
    · have := IsEcc.unique hi ((hall hs').1 hps)
      have := r1 s ⟨hsL.1, hs', hps⟩
      omega
    · obtain ⟨p, _, hup, he⟩ := (hall hs').2 (by omega)
      have := IsEcc.unique hi he
      have := r1 p hup
      omega
  have huniq : ∀ k, IsRadius (Adj nbr) (Largest n w) k → k = eccOf (Adj (kept nbr pruned)) j := by
    rintro k ⟨⟨s, s1, s2⟩, s3⟩
    obtain ⟨⟨t, t1, t2⟩, t3⟩ := hrad
    exact Nat.le_antisymm (s3 t _ t1 t2) (t3 s k s1 s2)
  have hset : center (fun v u => u ∈ nbr v) (Largest n w) =
      (((range n).filter fun i => (b.upper i == b.minupper) = true : Finset Nat) : Set Nat) := by
    ext i
    simp only [center, Set.mem_ofPred_eq, coe_filter, mem_range, beq_iff_eq]
    constructor
    · rintro ⟨hL, k, hk, hki⟩
      refine ⟨hL.1, ?_⟩
      have hs' := (hsc i).2 hL
      have hk' := huniq k hk
      subst hk'
      rcases hp i with hpi | ⟨p, c, q1, q2, q3, q4, q5, q6⟩
      · rw [r3 i ⟨hL.1, hs', hpi⟩, ej, IsEcc.unique hki ((hall hs').1 hpi)]
      · -- a pruned node is not in the center
        exfalso
        obtain ⟨p', y1, hup, he⟩ := (hall hs').2 (by omega)
        have h3 := htwo hup y1
        have hcc : IsEcc (Adj nbr) c (eccOf (Adj nbr) c) := by
          by_cases hpc : pruned c < 0
          · have := (hall q5).1 hpc
            rwa [eccOf_eq this]
          · obtain ⟨_, _, _, this⟩ := (hall q5).2 (by omega)
            rwa [eccOf_eq this]
        have h4 := IsEcc.unique hki he
        have h5 := leaf_ecc hg q3 hki hcc (by omega)
        have h6 := hrad.2 c _ ((hsc c).1 q5) hcc
        omega
    · rintro ⟨hin, hf⟩
      by_cases hu : Used n w.inLargest pruned i
      · refine ⟨(hsc i).1 hu.2.1, _, hrad, ?_⟩
        rw [r3 i hu, ej] at hf
        have := (hall hu.2.1).1 hu.2.2
        rwa [show eccOf (Adj (kept nbr pruned)) i = eccOf (Adj (kept nbr pruned)) j by omega] at this
      · exfalso
        rw [(hr i hu).2, ej] at hf
        have := hm.lt j hj
        omega
  refine ⟨(List.range n).map (fill n pruned b.lower), ?_⟩
  · unfold Bounding.finish
    simp only
    rw [hset, Set.ncard_coe_finset, countP_range]

theorem eccentricity_plain (h : ∀ v < n, (nbr v).Nodup ∧ ∀ u ∈ nbr v, u < n) {i : Nat} (hi : i < n) :
    ∃ d, eccentricity n nbr (fun _ => -1) i = some (d, (eccOf (Adj nbr) i : Int)) ∧ IsEcc (Adj nbr) i (eccOf (Adj nbr) i) := by
  have hk : kept nbr (fun _ => -1) = nbr := by
    funext v
    unfold kept
    simp
  obtain ⟨d, k, e, _, _, hE, _⟩ := eccentricity_spec (pruned := fun _ => -1) h hi
  rw [hk] at hE
  rw [eccOf_eq hE]
  exact ⟨d, e, hE⟩

theorem mapM_eq {f : Nat → Option Int} {g : Nat → Int} : ∀ (l : List Nat), (∀ i ∈ l, f i = some (g i)) → l.mapM f = some (l.map g)
  | [], _ => rfl
  | a :: l, h => by
    rw [List.mapM_cons, h a List.mem_cons_self, mapM_eq l fun i hi => h i (List.mem_cons_of_mem _ hi)]
    rfl

/-- C74, for `eccentricitiesAPSP` and graphs of any kind: the elements of the result are the eccentricities of the nodes. -/
theorem C74_eccentricities_all (h : ∀ v < n, (nbr v).Nodup ∧ ∀ u ∈ nbr v, u < n) :
    ∃ E : Nat → Nat, eccentricitiesAPSP n nbr = some ((List.range n).map fun i => (E i : Int)) ∧
      ∀ i < n, IsEcc (fun v u => u ∈ nbr v) i (E i) := by
  refine ⟨eccOf (Adj nbr), ?_, fun i hi => (eccentricity_plain h hi).choose_spec.2⟩
  unfold eccentricitiesAPSP
  refine mapM_eq _ fun i hi => ?_
  obtain ⟨d, e, _⟩ := eccentricity_plain h (List.mem_range.1 hi)
  rw [e]
  rfl

theorem diameter_fold (h : ∀ v < n, (nbr v).Nodup ∧ ∀ u ∈ nbr v, u < n) (hn : 100 ≤ n) (scope : Nat → Bool) : ∀ (l : List Nat) (m : Int), (∀ i ∈ l, i < n) →
    ∃ M : Int, l.foldlM (diameterStep n nbr scope) m = some M ∧ m ≤ M ∧ (∀ i ∈ l, scope i = true → (eccOf (Adj nbr) i : Int) ≤ M) ∧
      (M = m ∨ ∃ i ∈ l, scope i = true ∧ M = eccOf (Adj nbr) i)
  | [], m, _ => ⟨m, rfl, Int.le_refl _, by simp, Or.inl rfl⟩
  | a :: l, m, hl => by
    have ha := hl a List.mem_cons_self
    obtain ⟨d, e, _⟩ := eccentricity_plain h ha
    have hstep : diameterStep n nbr scope m a = some (if scope a then max m (eccOf (Adj nbr) a) else m) := by
      unfold diameterStep
      rw [if_neg (by omega), e]
      cases scope a <;> rfl
    obtain ⟨M, e1, e2, e3, e4⟩ := diameter_fold h hn scope l (if scope a then max m (eccOf (Adj nbr) a) else m) fun i hi => hl i (List.mem_cons_of_mem _ hi)
    refine ⟨M, ?_, ?_, ?_, ?_⟩
    · rw [List.foldlM_cons, hstep]
      exact e1
    · cases hs : scope a <;> rw [hs] at e2 <;> simp at e2 <;> omega
    · intro i hi hsi
      rcases List.mem_cons.1 hi with rfl | hi
      · rw [hsi] at e2; simp at e2; omega
      · exact e3 i hi hsi
    · rcases e4 with e4 | ⟨i, hi, e5⟩
      · cases hs : scope a with
        | false => rw [hs] at e4; exact Or.inl (by simpa using e4)
        | true =>
          rw [hs] at e4
          simp only [if_true] at e4
          rcases Int.le_total m (eccOf (Adj nbr) a) with hc | hc
          · exact Or.inr ⟨a, List.mem_cons_self, hs, by rw [e4, Int.max_eq_right hc]⟩
          · exact Or.inl (by rw [e4, Int.max_eq_left hc])
      · exact Or.inr ⟨i, List.mem_cons_of_mem _ hi, e5⟩

theorem radius_fold (h : ∀ v < n, (nbr v).Nodup ∧ ∀ u ∈ nbr v, u < n) (hn : 100 ≤ n) (scope : Nat → Bool) : ∀ (l : List Nat) (m : Int), (∀ i ∈ l, i < n) →
    ∃ M : Int, l.foldlM (radiusStep n nbr scope) m = some M ∧ M ≤ m ∧ (∀ i ∈ l, scope i = true → M ≤ (eccOf (Adj nbr) i : Int)) ∧
      (M = m ∨ ∃ i ∈ l, scope i = true ∧ M = eccOf (Adj nbr) i)
  | [], m, _ => ⟨m, rfl, Int.le_refl _, by simp, Or.inl rfl⟩
  | a :: l, m, hl => by
    have ha := hl a List.mem_cons_self
    obtain ⟨d, e, _⟩ := eccentricity_plain h ha
    have hstep : radiusStep n nbr scope m a = some (if scope a then min m (eccOf (Adj nbr) a) else m) := by
      unfold radiusStep
      rw [if_neg (by omega), e]
      cases scope a <;> rfl
    obtain ⟨M, e1, e2, e3, e4⟩ := radius_fold h hn scope l (if scope a then min m (eccOf (Adj nbr) a) else m) fun i hi => hl i (List.mem_cons_of_mem _ hi)
    refine ⟨M, ?_, ?_, ?_, ?_⟩
    · rw [List.foldlM_cons, hstep]
      exact e1
    · cases hs : scope a <;> rw [hs] at e2 <;> simp at e2 <;> omega
    · intro i hi hsi
      rcases List.mem_cons.1 hi with rfl | hi
      · rw [hsi] at e2; simp at e2; omega
      · exact e3 i hi hsi
    · rcases e4 with e4 | ⟨i, hi, e5⟩
      · cases hs : scope a with
        | false => rw [hs] at e4; exact Or.inl (by simpa using e4)
        | true =>
          rw [hs] at e4
          simp only [if_true] at e4
          rcases Int.le_total m (eccOf (Adj nbr) a) with hc | hc
          · exact Or.inl (by rw [e4, Int.min_eq_left hc])
          · exact Or.inr ⟨a, List.mem_cons_self, hs, by rw [e4, Int.min_eq_right hc]⟩
      · exact Or.inr ⟨i, List.mem_cons_of_mem _ hi, e5⟩

/-- C74, for `diameterAPSP` and `radiusAPSP`, and graphs with at least 100 nodes: the results are the diameter and the radius
of the largest component. -/
theorem C74_brute_partial (h : Network n nbr) (hw : Wcc.compute n nbr = some w) (hn : 100 ≤ n) :
    ∃ k r : Nat, diameterAPSP n nbr w.inLargest = some (k : Int) ∧ IsDiameter (fun v u => u ∈ nbr v) (Largest n w) k ∧
      radiusAPSP n nbr w.inLargest = some (r : Int) ∧ IsRadius (fun v u => u ∈ nbr v) (Largest n w) r := by
  have hg := network_simple h
  obtain ⟨hc, hsc, h2⟩ := network_comp h hw
  have hecc : ∀ i, i < n → IsEcc (Adj nbr) i (eccOf (Adj nbr) i) := fun i hi => (eccentricity_plain hg.nd hi).choose_spec.2
  obtain ⟨u, hu⟩ : ((range n).filter fun i => w.inLargest i = true).Nonempty := card_pos.1 (by have := hc.size; omega)
  have hu' := mem_filter.1 hu
  have hun := mem_range.1 hu'.1
  have hpos := ecc_pos hc h2 hu'.2 (hecc u hun)
  have hlt : eccOf (Adj nbr) u < n := by
    have hk : kept nbr (fun _ => -1) = nbr := by
      funext v
      unfold kept
      simp
    obtain ⟨d, k, _, _, _, hE, L, l1, l2, l3⟩ := eccentricity_spec (pruned := fun _ => -1) hg.nd hun
    rw [hk] at hE l2
    rw [eccOf_eq hE]
    have : L.toFinset ⊆ range n := by
      intro x hx
      obtain ⟨j, hj⟩ := l2 x (List.mem_toFinset.1 hx)
      exact mem_range.2 (hc.lt x (hc.walk hu'.2 (isDist_iff.1 hj).1))
    have := card_le_card this
    rw [List.toFinset_card_of_nodup l1, card_range] at this
    omega
  obtain ⟨M, e1, e2, e3, e4⟩ := diameter_fold hg.nd hn w.inLargest (List.range n) 0 fun i hi => List.mem_range.1 hi
  obtain ⟨R, f1, f2, f3, f4⟩ := radius_fold hg.nd hn w.inLargest (List.range n) n fun i hi => List.mem_range.1 hi
  have e3u := e3 u (List.mem_range.2 hun) hu'.2
  have f3u := f3 u (List.mem_range.2 hun) hu'.2
  obtain ⟨i, hi, hi2, rfl⟩ : ∃ i ∈ List.range n, w.inLargest i = true ∧ M = eccOf (Adj nbr) i := e4.resolve_left (by omega)
  obtain ⟨j, hj, hj2, rfl⟩ : ∃ i ∈ List.range n, w.inLargest i = true ∧ R = eccOf (Adj nbr) i := f4.resolve_left (by omega)
  refine ⟨_, _, e1, ⟨⟨i, (hsc i).1 hi2, hecc i (List.mem_range.1 hi)⟩, ?_⟩, f1, ⟨j, (hsc j).1 hj2, hecc j (List.mem_range.1 hj)⟩, ?_⟩
  · intro s k hs hk
    have := e3 s (List.mem_range.2 hs.1) ((hsc s).2 hs)
    have := IsEcc.unique hk (hecc s hs.1)
    omega
  · intro s k hs hk
    have := f3 s (List.mem_range.2 hs.1) ((hsc s).2 hs)
    have := IsEcc.unique hk (hecc s hs.1)
    omega

/-- C74 is false for `diameterAPSP` and `radiusAPSP` and graphs with less than 100 nodes: division by zero. -/
theorem C74_brute_fails (scope : Nat → Bool) (h0 : 0 < n) (hn : n < 100) : diameterAPSP n nbr scope = none ∧ radiusAPSP n nbr scope = none := by
  obtain ⟨m, rfl⟩ : ∃ m, n = m + 1 := ⟨n - 1, by omega⟩
  unfold diameterAPSP radiusAPSP
  rw [List.range_succ_eq_map, List.foldlM_cons, List.foldlM_cons]
  unfold diameterStep radiusStep
  rw [if_pos (by omega), if_pos (by omega)]
  exact ⟨rfl, rfl⟩

/-- C74 is false if the node with number `0` is not in the largest component and no node of this component has more neighbours:
the search begins outside of the component, and the next one at the node `-1`, outside of the vectors. -/
theorem C74_start_fails (h : Network n nbr) (hw : Wcc.compute n nbr = some w) (h0 : ¬ StartOk n nbr w) (type : Measure) :
    ∀ k, Bounding.loop n nbr w.inLargest (w.size w.largest) (Pruning.compute n nbr w.inLargest).pruned type k
      (Bounding.start (w.size w.largest) (Pruning.compute n nbr w.inLargest).count) = none := by
  have hg := network_simple h
  obtain ⟨hc, hsc, h2⟩ := network_comp h hw
  have hp := Pruning.compute_ok (scope := w.inLargest) hg
  have hcard := used_card hg hc
  have hs0 : ¬ w.inLargest 0 = true := fun hh => h0 (Or.inl ((hsc 0).1 hh))
  have hdeg : ∀ v, w.inLargest v = true → (nbr v).length ≤ (nbr 0).length := fun v hv =>
    Nat.le_of_not_lt fun hl => h0 (Or.inr ⟨v, (hsc v).1 hv, hl⟩)
  generalize (Pruning.compute n nbr w.inLargest).count = count at hcard ⊢
  revert hp hcard
  generalize (Pruning.compute n nbr w.inLargest).pruned = pruned
  intro hp hcard
  generalize w.inLargest = scope at hc hs0 hdeg hcard hp ⊢
  generalize w.size w.largest = nl at hc h2 hcard ⊢
  -- there are candidates
  have hcand : (Bounding.start nl count).candidates > 0 := by
    show (nl : Int) - count > 0
    rw [hcard]
    obtain ⟨u, hu⟩ : ((range n).filter fun i => scope i = true).Nonempty := card_pos.1 (by have := hc.size; omega)
    have hu' := mem_filter.1 hu
    have : 0 < ((range n).filter fun i => Used n scope pruned i).card := by
      refine card_pos.2 ?_
      rcases hp u with hpu | ⟨p, c, _, _, _, q4, q5, q6⟩
      · exact ⟨u, mem_filter.2 ⟨hu'.1, mem_range.1 hu'.1, hu'.2, hpu⟩⟩
      · have hsp := hc.closed c p q5 (hg.sym _ _ (by rw [q4]; simp))
        exact ⟨p, mem_filter.2 ⟨mem_range.2 (hc.lt p hsp), hc.lt p hsp, hsp, q6⟩⟩
    omega
  -- the first node
  have hfirst : mostNeighbours n nbr scope pruned (fun _ => 0) = 0 := by
    obtain ⟨h1, _, _⟩ := mostNeighbours_fold (nbr := nbr) (scope := scope) (pruned := pruned) (fun _ => 0) ((List.range n).drop 1) 0
    rcases h1 with h1 | ⟨h1, h4, h5⟩
    · exact h1
    · exfalso
      have hu := (eligible_iff (n := n) (d := fun _ => 0) (fun _ _ => by omega) (mem_drop_range.1 h1).2).1 h4
      have := hdeg _ hu.2.1
      omega
  obtain ⟨d, k, e, _, hd, _⟩ := eccentricity_spec (pruned := pruned) hg.nd h.nonempty
  have hel : ∀ i, eligible scope pruned d i = false := by
    intro i
    unfold eligible
    by_cases hs : scope i = true
    · have : d i = -1 := by
        rw [hd]
        intro j hj
        have hw := (isDist_iff.1 hj).1.of_kept
        exact hs0 (hc.walk hs (hw.symm fun a b hab => hg.sym _ _ hab))
      simp [this]
    · simp [hs]
  have hsel : (Bounding.select n nbr scope pruned (Bounding.start nl count)).current = ((0 : Nat) : Int) := by
    simp [Bounding.select, Bounding.start, hfirst]
  have hround : Bounding.round n nbr scope nl pruned type (Bounding.start nl count) =
      some (Bounding.clear nl { Bounding.select n nbr scope pruned (Bounding.start nl count) with d := d }) := by
    unfold Bounding.round
    have hcur : (Bounding.select n nbr scope pruned (Bounding.start nl count)).current = ((0 : Nat) : Int) := by
      rw [hsel]
    have : eccentricity n nbr pruned (Bounding.select n nbr scope pruned (Bounding.start nl count)).current = some (d, (k : Int)) := by
      rw [hcur]; exact e
    simp only [this, Option.map_some, Option.some.injEq]
    have h1 : ∀ (l : List Nat) (b : Bounding), b.d = d → l.foldl (Bounding.improve scope pruned (k : Int)) b = b := by
      intro l
      induction l with
      | nil => intro b _; rfl
      | cons a l ih =>
        intro b hb
        rw [List.foldl_cons]
        have : Bounding.improve scope pruned (k : Int) b a = b := by unfold Bounding.improve; rw [hb, hel a]; rfl
        rw [this]; exact ih b hb
    have h2 : ∀ (l : List Nat) (b : Bounding), b.d = d → l.foldl (Bounding.filter nbr scope pruned type) b = b := by
      intro l
      induction l with
      | nil => intro b _; rfl
      | cons a l ih =>
        intro b hb
        rw [List.foldl_cons]
        have : Bounding.filter nbr scope pruned type b a = b := by unfold Bounding.filter; rw [hb, hel a]; simp
        rw [this]; exact ih b hb
    rw [h1 _ _ rfl, h2 _ _ rfl]
  intro m
  cases m with
  | zero => rw [Bounding.loop, if_pos hcand]
  | succ m =>
    rw [loop_succ _ hcand, hround]
    simp only [Option.bind_some]
    have hcand' : (Bounding.clear nl { Bounding.select n nbr scope pruned (Bounding.start nl count) with d := d }).candidates > 0 := hcand
    cases m with
    | zero => rw [Bounding.loop, if_pos hcand']
    | succ m =>
      rw [loop_succ _ hcand']
      have : Bounding.round n nbr scope nl pruned type
          (Bounding.clear nl { Bounding.select n nbr scope pruned (Bounding.start nl count) with d := d }) = none := by
        unfold Bounding.round
        have hcur : (Bounding.select n nbr scope pruned
            (Bounding.clear nl { Bounding.select n nbr scope pruned (Bounding.start nl count) with d := d })).current = -1 := by
          simp [Bounding.select, Bounding.clear, Bounding.start, hfirst]
        have : eccentricity n nbr pruned (Bounding.select n nbr scope pruned
            (Bounding.clear nl { Bounding.select n nbr scope pruned (Bounding.start nl count) with d := d })).current = none := by
          rw [hcur]; unfold eccentricity; rw [if_neg (by omega)]
        simp only [this, Option.map_none]
      rw [this]
      rfl

end

/-- A star with three leaves. -/
def exStar : Nat → List Nat := fun i => ([[1, 2, 3], [0], [0], [0]] : List (List Nat)).getD i []

/-- C74 is false for stars: the diameter is 2, all leaves are in the periphery, and one node is the center. The results are
1, 4 and 2. -/
theorem C74_star_fails : [Measure.diameter, .eccentricities, .periphery, .center].map (fun t => extremes 4 exStar t) =
    [some (1, [1, 1, 0, 0]), some (0, [1, 1, 1, 1]), some (4, [1, 1, 1, 1]), some (2, [1, 1, 1, 1])] := by decide +kernel

/-! ### The hypotheses are met -/

/-- An edge, and a tree with the nodes 2 .. 7 that has two equal leaves at node 2. -/
def exTree : Nat → List Nat := fun i => ([[1], [0], [3, 6, 7], [2, 4], [3, 5], [4], [2], [2]] : List (List Nat)).getD i []

theorem exTree_out {i : Nat} (h : 8 ≤ i) : exTree i = [] := by
  unfold exTree
  rw [List.getD_eq_getElem?_getD, List.getElem?_eq_none (by simpa using h)]
  rfl

theorem exTree_some : (Wcc.compute 8 exTree).isSome := by decide +kernel

theorem exTree_network : Network 8 exTree where
  nonempty := by decide
  nodes := by decide
  symm a b h := by
    have hb : b < 8 := Nat.lt_of_not_le fun hb => by rw [exTree_out hb] at h; cases h
    exact (by decide : ∀ b < 8, ∀ a ∈ exTree b, b ∈ exTree a) b hb a h
  noLoop v h := by
    have hv : v < 8 := Nat.lt_of_not_le fun hv => by rw [exTree_out hv] at h; cases h
    exact (by decide : ∀ b < 8, b ∉ exTree b) v hv h

example : ∃ w, Wcc.compute 8 exTree = some w ∧ StartOk 8 exTree w ∧ ¬ IsStar (fun v u => u ∈ exTree v) (Largest 8 w) := by
  refine ⟨(Wcc.compute 8 exTree).get exTree_some, by simp, Or.inr ⟨2, ⟨by decide, by decide +kernel⟩, by decide⟩, ?_⟩
  rintro ⟨⟨c, hc, h⟩, _⟩
  have h3 : Largest 8 ((Wcc.compute 8 exTree).get exTree_some) 3 := ⟨by decide, by decide +kernel⟩
  have h4 : Largest 8 ((Wcc.compute 8 exTree).get exTree_some) 4 := ⟨by decide, by decide +kernel⟩
  by_cases e : (3 : Nat) = c
  · have h1 : (5 : Nat) = c := (h 4 h4 (by omega) 5).1 (by decide)
    omega
  · have h1 : (2 : Nat) = c := (h 3 h3 e 2).1 (by decide)
    have h2 : (4 : Nat) = c := (h 3 h3 e 4).1 (by decide)
    omega

example : [Measure.diameter, .radius, .eccentricities, .periphery, .center].map (fun t => (extremes 8 exTree t).map Prod.fst) =
    [some 4, some 2, some 0, some 3, some 1] ∧
    (extremes 8 exTree .eccentricities).map Prod.snd = some [0, 0, 3, 2, 3, 4, 4, 4] := by decide +kernel

/-- A star with three leaves, and a path of five nodes with larger numbers. -/
def exTwo : Nat → List Nat := fun i => ([[1, 2, 3], [0], [0], [0], [5], [4, 6], [5, 7], [6, 8], [7]] : List (List Nat)).getD i []

theorem exTwo_out {i : Nat} (h : 9 ≤ i) : exTwo i = [] := by
  unfold exTwo
  rw [List.getD_eq_getElem?_getD, List.getElem?_eq_none (by simpa using h)]
  rfl

theorem exTwo_some : (Wcc.compute 9 exTwo).isSome := by decide +kernel

theorem exTwo_network : Network 9 exTwo where
  nonempty := by decide
  nodes := by decide
  symm a b h := by
    have hb : b < 9 := Nat.lt_of_not_le fun hb => by rw [exTwo_out hb] at h; cases h
    exact (by decide : ∀ b < 9, ∀ a ∈ exTwo b, b ∈ exTwo a) b hb a h
  noLoop v h := by
    have hv : v < 9 := Nat.lt_of_not_le fun hv => by rw [exTwo_out hv] at h; cases h
    exact (by decide : ∀ b < 9, b ∉ exTwo b) v hv h

/-- `C74_start_fails` for a graph with nine nodes. -/
example : ∃ w, Wcc.compute 9 exTwo = some w ∧ ¬ StartOk 9 exTwo w := by
  refine ⟨(Wcc.compute 9 exTwo).get exTwo_some, by simp, ?_⟩
  rintro (⟨_, h⟩ | ⟨v, ⟨hv, _⟩, h⟩)
  · exact absurd h (by decide +kernel)
  · exact absurd h ((by decide : ∀ v < 9, ¬ (exTwo 0).length < (exTwo v).length) v hv)

/-- `C74_brute_partial`: a graph of 100 nodes. -/
def exPairs : Nat → List Nat := fun i => if i < 100 then [if i % 2 = 0 then i + 1 else i - 1] else []

example : Network 100 exPairs where
  nonempty := by decide
  nodes v hv := by
    unfold exPairs
    rw [if_pos hv]
    refine ⟨by simp, fun w hw => ?_, by simp⟩
    rw [List.mem_singleton.1 hw]
    split <;> omega
  symm a b h := by
    unfold exPairs at h ⊢
    split at h
    · rw [List.mem_singleton.1 h]
      split
      · rw [if_pos (by omega), if_neg (by omega)]; simp
      · rw [if_pos (by omega), if_pos (by omega)]; simp; omega
    · cases h
  noLoop v h := by
    unfold exPairs at h
    split at h
    · have := List.mem_singleton.1 h
      split at this <;> omega
    · cases h

end Candy
