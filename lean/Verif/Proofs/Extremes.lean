import Verif.Proofs.PrunedLeaves

/-!
# The results of `extremaBounding`
-/

namespace Candy

open Betweenness Distance Brandes Finset Bounding

variable {n : Nat} {nbr : Nat → List Nat} {scope : Nat → Bool} {nl : Nat} {pruned : Nat → Int} {type : Measure}

open Classical in
/-- The distance. -/
noncomputable def distOf (adj : Nat → Nat → Prop) (u v : Nat) : Nat := if h : ∃ k, IsDist adj u v k then Classical.choose h else 0

open Classical in
/-- The eccentricity. -/
noncomputable def eccOf (adj : Nat → Nat → Prop) (u : Nat) : Nat := if h : ∃ k, IsEcc adj u k then Classical.choose h else 0

theorem distOf_eq {adj : Nat → Nat → Prop} {u v k : Nat} (h : IsDist adj u v k) : distOf adj u v = k := by
  unfold distOf
  have hx : ∃ k, IsDist adj u v k := ⟨k, h⟩
  rw [dif_pos hx]
  exact IsDist.unique (Classical.choose_spec hx) h

theorem eccOf_eq {adj : Nat → Nat → Prop} {u k : Nat} (h : IsEcc adj u k) : eccOf adj u = k := by
  unfold eccOf
  have hx : ∃ k, IsEcc adj u k := ⟨k, h⟩
  rw [dif_pos hx]
  exact IsEcc.unique (Classical.choose_spec hx) h

theorem Comp.walk (hc : Comp n nbr scope nl) : ∀ {k u v : Nat}, scope u = true → Walk (Adj nbr) k u v → scope v = true
  | 0, _, _, hu, e => by cases e; exact hu
  | _ + 1, _, _, hu, ⟨x, hx, ha⟩ => hc.closed x _ (hc.walk hu hx) ha

/-- Nodes that are reached without pruned nodes. -/
theorem used_of_dist (hc : Comp n nbr scope nl) {u v k : Nat} (hu : Used n scope pruned u) (h : IsDist (Adj (kept nbr pruned)) u v k) :
    Used n scope pruned v := by
  have hw := (isDist_iff.1 h).1
  have hs := hc.walk hu.2.1 hw.of_kept
  exact ⟨hc.lt v hs, hs, hw.end_kept hu.2.2⟩

theorem dist_used (hg : Simple n nbr) (hp : PrunOk nbr scope pruned) (hc : Comp n nbr scope nl) {u v : Nat} (hu : Used n scope pruned u)
    (hv : Used n scope pruned v) : IsDist (Adj nbr) u v (distOf (Adj (kept nbr pruned)) u v) := by
  obtain ⟨k, hk⟩ := hc.conn u v hu.2.1 hv.2.1
  obtain ⟨j, _, hj⟩ := exists_dist hk
  rwa [distOf_eq ((isDist_kept hg hp hu.2.2 hv.2.2).2 hj)]

theorem metric (hg : Simple n nbr) (hp : PrunOk nbr scope pruned) (hc : Comp n nbr scope nl) :
    Metric n nbr scope nl pruned (fun u v => (distOf (Adj (kept nbr pruned)) u v : Int)) (fun u => (eccOf (Adj (kept nbr pruned)) u : Int)) ∧
      ∀ u, Used n scope pruned u → IsEcc (Adj (kept nbr pruned)) u (eccOf (Adj (kept nbr pruned)) u) := by
  have hd := fun {u v : Nat} (hu : Used n scope pruned u) (hv : Used n scope pruned v) => dist_used hg hp hc hu hv
  have hd' : ∀ {u v : Nat}, Used n scope pruned u → Used n scope pruned v → IsDist (Adj (kept nbr pruned)) u v (distOf (Adj (kept nbr pruned)) u v) :=
    fun hu hv => (isDist_kept hg hp hu.2.2 hv.2.2).2 (hd hu hv)
  have he : ∀ u, Used n scope pruned u → IsEcc (Adj (kept nbr pruned)) u (eccOf (Adj (kept nbr pruned)) u) := by
    intro u hu
    obtain ⟨d, k, _, _, _, hk, _⟩ := eccentricity_spec (pruned := pruned) hg.nd hu.1
    rwa [eccOf_eq hk]
  have hsym : ∀ {u v : Nat}, Used n scope pruned u → Used n scope pruned v →
      distOf (Adj (kept nbr pruned)) u v = distOf (Adj (kept nbr pruned)) v u := fun hu hv =>
    IsDist.unique (hd hu hv) (isDist_symm hg (hd hv hu))
  have htri : ∀ u v, Used n scope pruned u → Used n scope pruned v →
      eccOf (Adj (kept nbr pruned)) v ≤ eccOf (Adj (kept nbr pruned)) u + distOf (Adj (kept nbr pruned)) u v := by
    intro u v hu hv
    obtain ⟨t, ht⟩ := (he v hv).1
    have htu := used_of_dist hc hv ht
    have h1 := (he u hu).2 t _ (hd' hu htu)
    have h2 := (isDist_iff.1 ht).2 _ ((isDist_iff.1 (hd' hv hu)).1.trans (isDist_iff.1 (hd' hu htu)).1)
    have := hsym hu hv
    omega
  refine ⟨⟨?_, ?_, ?_, ?_, ?_, ?_⟩, he⟩
  · intro u hu
    obtain ⟨d, k, e, h1, _, hk, _⟩ := eccentricity_spec (pruned := pruned) hg.nd hu.1
    refine ⟨d, by rw [eccOf_eq hk]; exact e, fun v hv => (h1 v _).2 (hd' hu hv)⟩
  · intro u v _ _; simp
  · intro u hu
    have : IsDist (Adj (kept nbr pruned)) u u 0 := isDist_iff.2 ⟨rfl, fun j _ => Nat.zero_le j⟩
    rw [distOf_eq this]; rfl
  · intro u v hu hv
    have := (he v hv).2 u _ (hd' hv hu)
    have := hsym hu hv
    omega
  · intro u v hu hv
    have h1 := htri u v hu hv
    have h2 := htri v u hv hu
    have := hsym hu hv
    omega
  · intro u hu
    obtain ⟨d, k, _, _, _, hk, L, l1, l2, l3⟩ := eccentricity_spec (pruned := pruned) hg.nd hu.1
    rw [eccOf_eq hk, hc.size]
    have : L.toFinset ⊆ (range n).filter fun i => scope i = true := by
      intro x hx
      obtain ⟨j, hj⟩ := l2 x (List.mem_toFinset.1 hx)
      have := used_of_dist hc hu hj
      exact mem_filter.2 ⟨mem_range.2 this.1, this.2.1⟩
    have := card_le_card this
    rw [List.toFinset_card_of_nodup l1] at this
    omega

/-! ### The first node -/

theorem mostNeighbours_fold (d : Nat → Int) : ∀ (l : List Nat) (c : Nat),
    let r := l.foldl (fun c i => if eligible scope pruned d i then if (nbr i).length > (nbr c).length then i else c else c) c
    (r = c ∨ (r ∈ l ∧ eligible scope pruned d r = true ∧ (nbr c).length < (nbr r).length)) ∧ (nbr c).length ≤ (nbr r).length ∧
      ∀ i ∈ l, eligible scope pruned d i = true → (nbr i).length ≤ (nbr r).length
  | [], c => by simp
  | i :: l, c => by
    have ih := mostNeighbours_fold d l (if eligible scope pruned d i then if (nbr i).length > (nbr c).length then i else c else c)
    simp only [List.foldl_cons]
    revert ih
    generalize l.foldl _ _ = r
    intro ⟨h1, h2, h3⟩
    by_cases he : eligible scope pruned d i = true
    · rw [if_pos he] at h1 h2
      by_cases hl : (nbr i).length > (nbr c).length
      · rw [if_pos hl] at h1 h2
        refine ⟨?_, by omega, ?_⟩
        · rcases h1 with rfl | ⟨h1, h4, h5⟩
          · exact Or.inr ⟨List.mem_cons_self, he, hl⟩
          · exact Or.inr ⟨List.mem_cons_of_mem _ h1, h4, by omega⟩
        · intro j hj hej
          rcases List.mem_cons.1 hj with rfl | hj
          · exact h2
          · exact h3 j hj hej
      · rw [if_neg hl] at h1 h2
        refine ⟨h1.imp_right fun h => ⟨List.mem_cons_of_mem _ h.1, h.2⟩, h2, ?_⟩
        intro j hj hej
        rcases List.mem_cons.1 hj with rfl | hj
        · omega
        · exact h3 j hj hej
    · rw [if_neg he] at h1 h2
      refine ⟨h1.imp_right fun h => ⟨List.mem_cons_of_mem _ h.1, h.2⟩, h2, ?_⟩
      intro j hj hej
      rcases List.mem_cons.1 hj with rfl | hj
      · exact absurd hej he
      · exact h3 j hj hej

theorem mem_drop_range {n i : Nat} : i ∈ (List.range n).drop 1 ↔ 1 ≤ i ∧ i < n := by
  rw [List.range_eq_range', List.drop_range']
  simp [List.mem_range'_1]
  omega

theorem first_used (hg : Simple n nbr) (hp : PrunOk nbr scope pruned) (hc : Comp n nbr scope nl)
    (h0 : scope 0 = true ∨ ∃ v, scope v = true ∧ (nbr 0).length < (nbr v).length) :
    Used n scope pruned (mostNeighbours n nbr scope pruned fun _ => 0) := by
  have hel : ∀ i, scope i = true → pruned i < 0 → eligible scope pruned (fun _ => 0) i = true := by
    intro i h1 h2; unfold eligible; simp [h1, h2]
  obtain ⟨h1, h2, h3⟩ := mostNeighbours_fold (nbr := nbr) (scope := scope) (pruned := pruned) (fun _ => 0) ((List.range n).drop 1) 0
  change (mostNeighbours n nbr scope pruned (fun _ => 0) = 0 ∨ _) at h1
  rcases h1 with h1 | ⟨h1, h4, _⟩
  · have h3' : ∀ i, 1 ≤ i → scope i = true → pruned i < 0 → (nbr i).length ≤ (nbr 0).length := by
      intro i hi hs hpi
      have := h3 i (mem_drop_range.2 ⟨hi, hc.lt i hs⟩) (hel i hs hpi)
      change _ ≤ (nbr (mostNeighbours n nbr scope pruned fun _ => 0)).length at this
      rwa [h1] at this
    rw [h1]
    rcases h0 with h0 | ⟨v, hv, hlen⟩
    · refine ⟨hc.lt 0 h0, h0, ?_⟩
      rcases hp 0 with hp0 | ⟨p, c, _, q2, q3, q4, q5, _⟩
      · exact hp0
      · have m1 : 0 ∈ nbr c := hg.sym _ _ (by rw [q3]; simp)
        have m2 : p ∈ nbr c := hg.sym _ _ (by rw [q4]; simp)
        have hlen : 2 ≤ (nbr c).length := by
          rcases hcl : nbr c with _ | ⟨a, _ | ⟨b, l⟩⟩
          · rw [hcl] at m1; simp at m1
          · rw [hcl] at m1 m2
            simp at m1 m2
            omega
          · simp
        have hc0 : c ≠ 0 := fun e => hg.irr 0 (by rw [q3, e]; simp)
        have hpc : pruned c < 0 := by
          rcases hp c with h | ⟨_, _, _, _, h, _⟩
          · exact h
          · rw [h] at hlen; simp at hlen
        have := h3' c (by omega) q5 hpc
        rw [q3] at this
        simp at this
        omega
    · exfalso
      by_cases hs0 : scope 0 = true
      · by_cases hv0 : v = 0
        · subst hv0; omega
        · rcases hp v with hpv | ⟨p, c, _, _, q3, q4, q5, q6⟩
          · have := h3' v (by omega) hv hpv; omega
          · have hnc : 0 ∉ nbr 0 := hg.irr 0
            rw [q3] at hlen
            have hz : nbr 0 = [] := List.length_eq_zero_iff.1 (by simpa using hlen)
            -- the node `0` has no neighbour, but is connected with `v`
            obtain ⟨k, hk⟩ := hc.conn v 0 hv hs0
            cases k with
            | zero => exact hv0 hk
            | succ k =>
              obtain ⟨x, _, hx⟩ := hk
              have := hg.sym _ _ hx
              rw [hz] at this
              simp at this
      · have hpos : ∀ i, scope i = true → 1 ≤ i := fun i hi => by
          rcases Nat.eq_zero_or_pos i with rfl | h
          · exact absurd hi hs0
          · exact h
        rcases hp v with hpv | ⟨p, c, _, _, q3, q4, q5, q6⟩
        · have := h3' v (hpos v hv) hv hpv; omega
        · have hsp : scope p = true := hc.closed c p q5 (hg.sym _ _ (by rw [q4]; simp))
          have := h3' p (hpos p hsp) hsp q6
          rw [q4] at this
          rw [q3] at hlen
          omega
  · change mostNeighbours n nbr scope pruned (fun _ => 0) ∈ _ at h1
    change eligible scope pruned _ (mostNeighbours n nbr scope pruned fun _ => 0) = true at h4
    exact (eligible_iff (d := fun _ => 0) (fun _ _ => by omega) (mem_drop_range.1 h1).2).1 h4

/-! ### Eccentricities in the whole graph -/

theorem ecc_full (hg : Simple n nbr) (hp : PrunOk nbr scope pruned) (hc : Comp n nbr scope nl) {u : Nat} (hu : Used n scope pruned u)
    (h2 : ∀ x, pruned x = u → 2 ≤ eccOf (Adj (kept nbr pruned)) u) : IsEcc (Adj nbr) u (eccOf (Adj (kept nbr pruned)) u) := by
  have he := (metric hg hp hc).2 u hu
  obtain ⟨⟨t, ht⟩, hmax⟩ := he
  refine ⟨⟨t, (isDist_kept hg hp hu.2.2 (used_of_dist hc hu ht).2.2).1 ht⟩, fun x j hj => ?_⟩
  rcases hp x with hx | ⟨p, c, q1, q2, q3, q4, q5, q6⟩
  · exact hmax x j ((isDist_kept hg hp hu.2.2 hx).2 hj)
  · by_cases hup : u = p
    · subst hup
      have := h2 x q1
      have hw : Walk (Adj nbr) 2 u x := ⟨c, ⟨u, rfl, by unfold Adj; rw [q4]; simp⟩, hg.sym _ _ (by rw [q3]; simp)⟩
      exact ((isDist_iff.1 hj).2 2 hw).trans this
    · have hux : u ≠ x := by rintro rfl; have := hu.2.2; omega
      have := swap_dist hg q3 q4 hj
      have e1 : swapLeaves p x u = u := by unfold swapLeaves; rw [if_neg hup, if_neg hux]
      have e2 : swapLeaves p x x = p := by unfold swapLeaves; rw [if_neg (Ne.symm q2), if_pos rfl]
      rw [e1, e2] at this
      exact hmax p j ((isDist_kept hg hp hu.2.2 q6).2 this)

/-- A node with a neighbour that it prunes, in a component that is not a star. -/
theorem ecc_two (hg : Simple n nbr) (hp : PrunOk nbr scope pruned) (hc : Comp n nbr scope nl)
    (hstar : ¬ IsStar (Adj nbr) fun i => scope i = true) {u x : Nat} (hu : Used n scope pruned u) (hx : pruned x = u) :
    2 ≤ eccOf (Adj (kept nbr pruned)) u := by
  rcases hp x with h | ⟨p, c, q1, q2, q3, q4, q5, q6⟩
  · omega
  have : p = u := by omega
  subst this
  have hxc : x ∈ nbr c := hg.sym _ _ (by rw [q3]; simp)
  have hpc : p ∈ nbr c := hg.sym _ _ (by rw [q4]; simp)
  have hsx := hc.closed c x q5 hxc
  have hcx : c ≠ x := fun e => hg.irr x (by rw [q3, e]; simp)
  have hcp : c ≠ p := fun e => hg.irr p (by rw [q4, e]; simp)
  -- a used node that is neither `p` nor `c`
  have key : ∀ y, Used n scope pruned y → y ≠ p → y ≠ c → 2 ≤ eccOf (Adj (kept nbr pruned)) p := by
    intro y hy h1 h2
    have hd := dist_used hg hp hc hu hy
    have hle := ((metric hg hp hc).2 p hu).2 y _ ((isDist_kept hg hp hu.2.2 hy.2.2).2 hd)
    have hw := (isDist_iff.1 hd).1
    revert hw
    generalize distOf (Adj (kept nbr pruned)) p y = k at hle
    intro hw
    match k, hle, hw with
    | 0, _, hw => exact absurd hw (Ne.symm h1)
    | 1, _, ⟨z, hz, ha⟩ => cases hz; unfold Adj at ha; rw [q4] at ha; simp at ha; exact absurd ha h2
    | k + 2, hle, _ => omega
  refine Classical.byContradiction fun hlt => hstar ⟨⟨c, q5, ?_⟩, p, x, c, hu.2.1, hsx, q5, q2, Ne.symm hcx, Ne.symm hcp⟩
  intro v hv hvc w
  -- all nodes but `c` have `c` as only neighbour
  suffices hnv : nbr v = [c] by unfold Adj; rw [hnv]; simp
  rcases hp v with hv' | ⟨p', c', r1, r2, r3, r4, r5, r6⟩
  · by_cases hvp : v = p
    · rw [hvp]; exact q4
    · exact absurd (key v ⟨hc.lt v hv, hv, hv'⟩ hvp hvc) hlt
  · have hs' : scope p' = true := hc.closed c' p' r5 (hg.sym _ _ (by rw [r4]; simp))
    by_cases hp' : p' = p
    · rw [hp', q4] at r4
      rw [r3, ← r4]
    · by_cases hpc' : p' = c
      · rw [hpc'] at r4
        rw [r4] at hxc hpc
        simp at hxc hpc
        exact absurd (hpc.trans hxc.symm) q2
      · exact absurd (key p' ⟨hc.lt _ hs', hs', r6⟩ hp' hpc') hlt

/-- The eccentricities of all nodes of the component. -/
theorem ecc_all (hg : Simple n nbr) (hp : PrunOk nbr scope pruned) (hc : Comp n nbr scope nl)
    (hstar : ¬ IsStar (Adj nbr) fun i => scope i = true) {u : Nat} (hu : scope u = true) :
    (pruned u < 0 → IsEcc (Adj nbr) u (eccOf (Adj (kept nbr pruned)) u)) ∧
    (0 ≤ pruned u → ∃ p : Nat, pruned u = p ∧ Used n scope pruned p ∧ IsEcc (Adj nbr) u (eccOf (Adj (kept nbr pruned)) p)) := by
  have hk : ∀ v, Used n scope pruned v → IsEcc (Adj nbr) v (eccOf (Adj (kept nbr pruned)) v) := fun v hv =>
    ecc_full hg hp hc hv fun x hx => ecc_two hg hp hc hstar hv hx
  refine ⟨fun h => hk u ⟨hc.lt u hu, hu, h⟩, fun h => ?_⟩
  rcases hp u with h' | ⟨p, c, q1, q2, q3, q4, q5, q6⟩
  · omega
  · have hs := hc.closed c p q5 (hg.sym _ _ (by rw [q4]; simp))
    have hup : Used n scope pruned p := ⟨hc.lt p hs, hs, q6⟩
    exact ⟨p, q1, hup, swap_ecc hg q3 q4 (hk p hup)⟩

/-- Distances from a leaf. -/
theorem leaf_dist (hg : Simple n nbr) {x c t k : Nat} (hx : nbr x = [c]) (hne : t ≠ x) (h : IsDist (Adj nbr) x t k) :
    ∃ j, k = j + 1 ∧ IsDist (Adj nbr) c t j := by
  have hs : ∀ a b, Adj nbr a b → Adj nbr b a := fun a b h => hg.sym _ _ h
  have h' := isDist_iff.1 (isDist_symm hg h)
  cases k with
  | zero => exact absurd h'.1 hne
  | succ k =>
    obtain ⟨⟨v, hv, ha⟩, _⟩ := h'
    have hvc : v = c := by have := hg.sym _ _ ha; rw [hx] at this; simpa using this
    subst hvc
    refine ⟨k, rfl, isDist_iff.2 ⟨hv.symm hs, fun i hi => ?_⟩⟩
    have h1 : Walk (Adj nbr) 1 x v := ⟨x, rfl, by unfold Adj; rw [hx]; simp⟩
    have := (isDist_iff.1 h).2 _ (h1.trans hi)
    omega

/-- The neighbour of a leaf has a lower eccentricity. -/
theorem leaf_ecc (hg : Simple n nbr) {x c j k : Nat} (hx : nbr x = [c]) (hk : IsEcc (Adj nbr) x k) (hj : IsEcc (Adj nbr) c j) (h2 : 2 ≤ k) : j < k := by
  obtain ⟨⟨t, ht⟩, _⟩ := hj
  by_cases htx : t = x
  · subst htx
    have hw : Walk (Adj nbr) 1 c t := ⟨c, rfl, hg.sym _ _ (by rw [hx]; simp)⟩
    have := (isDist_iff.1 ht).2 1 hw
    omega
  · have h1 : Walk (Adj nbr) 1 x c := ⟨x, rfl, by unfold Adj; rw [hx]; simp⟩
    have hw : Walk (Adj nbr) (1 + j) x t := Walk.trans h1 (isDist_iff.1 ht).1
    obtain ⟨i, hi, hd⟩ := exists_dist hw
    obtain ⟨i', e, hd'⟩ := leaf_dist hg hx htx hd
    have := IsDist.unique hd' ht
    have := hk.2 t i hd
    omega

/-! ### The number of nodes that are used -/

theorem used_card (hg : Simple n nbr) (hc : Comp n nbr scope nl) :
    (nl : Int) - (Pruning.compute n nbr scope).count =
      (((range n).filter fun i => Used n scope (Pruning.compute n nbr scope).pruned i).card : Nat) := by
  have h := Pruning.compute_inv (scope := scope) hg
  have hp := Pruning.compute_ok (scope := scope) hg
  revert h hp
  generalize Pruning.compute n nbr scope = s
  intro h hp
  have e : (range n).filter (fun i => scope i = true) = (range n).filter (fun i => Used n scope s.pruned i) ∪ (range n).filter fun i => 0 ≤ s.pruned i := by
    ext i
    simp only [mem_filter, mem_union, mem_range]
    constructor
    · rintro ⟨h1, h2⟩
      by_cases h3 : s.pruned i < 0
      · exact Or.inl ⟨h1, h1, h2, h3⟩
      · exact Or.inr ⟨h1, by omega⟩
    · rintro (⟨h1, h2⟩ | ⟨h1, h2⟩)
      · exact ⟨h1, h2.2.1⟩
      · refine ⟨h1, ?_⟩
        rcases hp i with h3 | ⟨p, c, _, _, q3, _, q5, _⟩
        · omega
        · exact hc.closed c i q5 (hg.sym _ _ (by rw [q3]; simp))
  have d : Disjoint ((range n).filter (fun i => Used n scope s.pruned i)) ((range n).filter fun i => 0 ≤ s.pruned i) := by
    rw [Finset.disjoint_left]
    intro i h1 h2
    have := (mem_filter.1 h1).2.2.2
    have := (mem_filter.1 h2).2
    omega
  have e1 := hc.size
  rw [e, card_union_of_disjoint d] at e1
  have := h.cnt
  omega

/-! ### Results -/

section results

variable {b : Bounding} {E : Nat → Int}

theorem max_result (hx : Bounding.Extremes n scope pruned b)
    (h : ∀ i, Used n scope pruned i → b.lower i ≤ E i ∧ E i ≤ b.upper i ∧ Done n scope pruned type b.lower b.upper i)
    (ht : type = .diameter ∨ type = .periphery) :
    (∀ i, Used n scope pruned i → E i ≤ b.maxlower) ∧ (∃ j, Used n scope pruned j ∧ b.maxlower = E j) ∧
      (type = .periphery → ∀ i, Used n scope pruned i → (b.lower i = b.maxlower ↔ E i = b.maxlower)) := by
  have h1 : ∀ i, Used n scope pruned i → E i ≤ b.maxlower := by
    intro i hi
    obtain ⟨a1, a2, a3⟩ := h i hi
    have a4 := (hx.1 i hi).1
    rcases a3 with a3 | a3
    · omega
    · rcases ht with rfl | rfl
      · obtain ⟨j, hj, a5⟩ := a3
        have := (hx.1 j hj).1
        omega
      · obtain ⟨j, hj, a5⟩ := a3
        have := (hx.1 j hj).1
        omega
  refine ⟨h1, ?_, ?_⟩
  · obtain ⟨j, hj, e⟩ := hx.2.1
    have := h1 j hj
    have := (h j hj).1
    exact ⟨j, hj, by omega⟩
  · rintro rfl i hi
    obtain ⟨a1, a2, a3⟩ := h i hi
    have a4 := h1 i hi
    rcases a3 with a3 | ⟨j, hj, a5⟩
    · omega
    · have := (hx.1 j hj).1
      omega

theorem min_result (hx : Bounding.Extremes n scope pruned b)
    (h : ∀ i, Used n scope pruned i → b.lower i ≤ E i ∧ E i ≤ b.upper i ∧ Done n scope pruned type b.lower b.upper i)
    (ht : type = .radius ∨ type = .center) :
    (∀ i, Used n scope pruned i → b.minupper ≤ E i) ∧ (∃ j, Used n scope pruned j ∧ b.minupper = E j) ∧
      (type = .center → ∀ i, Used n scope pruned i → (b.upper i = b.minupper ↔ E i = b.minupper)) := by
  have h1 : ∀ i, Used n scope pruned i → b.minupper ≤ E i := by
    intro i hi
    obtain ⟨a1, a2, a3⟩ := h i hi
    have a4 := (hx.1 i hi).2
    rcases a3 with a3 | a3
    · omega
    · rcases ht with rfl | rfl
      · obtain ⟨j, hj, a5⟩ := a3
        have := (hx.1 j hj).2
        omega
      · obtain ⟨j, hj, a5⟩ := a3
        have := (hx.1 j hj).2
        omega
  refine ⟨h1, ?_, ?_⟩
  · obtain ⟨j, hj, e⟩ := hx.2.2
    have := h1 j hj
    have := (h j hj).2.1
    exact ⟨j, hj, by omega⟩
  · rintro rfl i hi
    obtain ⟨a1, a2, a3⟩ := h i hi
    have a4 := h1 i hi
    rcases a3 with a3 | ⟨j, hj, a5⟩
    · omega
    · have := (hx.1 j hj).2
      omega

end results

theorem fill_spec (hp : ∀ x, 0 ≤ pruned x → pruned (pruned x).toNat < 0) : ∀ (l : List Nat) (lo : Nat → Int) (i : Nat),
    l.foldl (fun lo i => if 0 ≤ pruned i then upd lo i (lo (pruned i).toNat) else lo) lo i =
      if i ∈ l ∧ 0 ≤ pruned i then lo (pruned i).toNat else lo i
  | [], lo, i => by simp
  | a :: l, lo, i => by
    rw [List.foldl_cons, fill_spec hp l]
    by_cases ha : 0 ≤ pruned a
    · rw [if_pos ha]
      by_cases hi : 0 ≤ pruned i
      · have hne : (pruned i).toNat ≠ a := fun e => by have := hp i hi; rw [e] at this; omega
        rw [upd_ne _ _ hne]
        by_cases hia : i = a
        · subst hia; simp [hi]
        · simp [hia, hi, upd_ne _ _ hia]
      · have hia : i ≠ a := by rintro rfl; exact hi ha
        simp [hi, upd_ne _ _ hia]
    · rw [if_neg ha]
      by_cases hia : i = a
      · subst hia; simp [ha]
      · simp [hia]

theorem fill_eq (hp : PrunOk nbr scope pruned) (lo : Nat → Int) {i : Nat} (hi : i < n) :
    fill n pruned lo i = if 0 ≤ pruned i then lo (pruned i).toNat else lo i := by
  unfold fill
  rw [fill_spec]
  · simp [hi]
  · intro x hx
    rcases hp x with h | ⟨p, c, q1, _, _, _, _, q6⟩
    · omega
    · rw [q1, Int.toNat_natCast]; exact q6

/-- The loop, for a component. -/
theorem bounding_result (hg : Simple n nbr) (hc : Comp n nbr scope nl) (type : Measure)
    (h0 : scope 0 = true ∨ ∃ v, scope v = true ∧ (nbr 0).length < (nbr v).length) :
    ∃ b, Bounding.loop n nbr scope nl (Pruning.compute n nbr scope).pruned type n (Bounding.start nl (Pruning.compute n nbr scope).count) = some b ∧
      Bounding.Extremes n scope (Pruning.compute n nbr scope).pruned b ∧
      (∀ i, Used n scope (Pruning.compute n nbr scope).pruned i →
        b.lower i ≤ (eccOf (Adj (kept nbr (Pruning.compute n nbr scope).pruned)) i : Int) ∧
        (eccOf (Adj (kept nbr (Pruning.compute n nbr scope).pruned)) i : Int) ≤ b.upper i ∧
        Done n scope (Pruning.compute n nbr scope).pruned type b.lower b.upper i) ∧
      ∀ i, ¬ Used n scope (Pruning.compute n nbr scope).pruned i → b.lower i = 0 ∧ b.upper i = nl := by
  have hp := Pruning.compute_ok (scope := scope) hg
  exact loop_result (metric hg hp hc).1 (first_used hg hp hc h0) (used_card hg hc)

end Candy
