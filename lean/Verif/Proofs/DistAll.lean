import Verif.Proofs.DistSearch
import Mathlib.Algebra.BigOperators.Ring.Finset

/-!
# Distances, their numbers and their sums
-/

namespace Candy.Dst

open Distance

variable {n : Nat} {out : Nat → List Nat}

theorem dist_eq {u w k : Nat} (h : IsDist (Edge out) u w k) : dist out u w = k := by
  unfold dist
  have hx : ∃ k, IsDist (Edge out) u w k := ⟨k, h⟩
  rw [dif_pos hx]
  exact IsDist.unique hx.choose_spec h

theorem dist_none {u w : Nat} (h : ∀ k, ¬ IsDist (Edge out) u w k) : dist out u w = 0 := by
  unfold dist
  rw [dif_neg (fun ⟨k, hk⟩ => h k hk)]

theorem alldistances_spec (hn : Listed n out) {u : Nat} (hu : u < n) :
    ∃ d : Nat → Int, alldistances n out u = some ((List.range n).map d) ∧ ∀ w, IsDistance out u w (d w) := by
  obtain ⟨s, L, h1, h2, h3, h4⟩ := search_spec (f := fun a _ _ => some a) hn hu () (fun _ _ _ _ _ _ => rfl)
  refine ⟨s.d, by rw [alldistances, h1]; rfl, fun w => ?_⟩
  by_cases hw : ∀ k, ¬ IsDist (Edge out) u w k
  · exact Or.inr ⟨(h3 w).2 hw, hw⟩
  · rw [Classical.not_forall] at hw
    obtain ⟨k, hk⟩ := hw
    rw [Classical.not_not] at hk
    exact Or.inl ⟨k, (h2 w k).2 hk, hk⟩

/-! ### `distance` -/

theorem distEdges_spec (hn : Listed n out) {u t v : Nat} :
    ∀ (ws : List Nat) (d : Nat → Int) (q : List Nat), Inner out u v ws d q → (∀ w ∈ ws, w ∈ out v ∧ w < n) →
      (∃ r : Nat, distEdges t v ws (d, q) = .inl r ∧ IsDist (Edge out) u t r) ∨
      ∃ d' q', distEdges t v ws (d, q) = .inr (d', q') ∧ Inner out u v [] d' q' ∧ q'.length + unseen n d' = q.length + unseen n d ∧
        ∀ x ∈ q', x ∈ q ∨ x < n
  | [], d, q, h, _ => Or.inr ⟨d, q, rfl, h, rfl, fun _ hx => Or.inl hx⟩
  | w :: ws, d, q, h, hw => by
    obtain ⟨hwv, hwn⟩ := hw w (by simp)
    have hws : ∀ x ∈ ws, x ∈ out v ∧ x < n := fun x hx => hw x (by simp [hx])
    unfold distEdges
    by_cases hd : d w = -1
    · obtain ⟨h1, h2⟩ := h.reach hwv hd
      have hv := h.cur.1
      rw [if_pos hd]
      by_cases ht : w = t
      · subst ht
        rw [if_pos rfl, upd_same]
        exact Or.inl ⟨(d v + 1).toNat, by rw [Int.toNat_of_nonneg (by omega)], h2⟩
      · rw [if_neg ht]
        rcases distEdges_spec hn ws _ _ h1 hws with hl | ⟨d', q', g1, g2, g3, g4⟩
        · exact Or.inl hl
        · have := unseen_reach (x := d v + 1) hwn hd (by omega)
          simp only [List.length_append, List.length_singleton] at g3
          refine Or.inr ⟨d', q', g1, g2, by omega, fun x hx => ?_⟩
          rcases g4 x hx with h5 | h5
          · simp only [List.mem_append, List.mem_singleton] at h5
            rcases h5 with h5 | h5
            · exact Or.inl h5
            · exact Or.inr (h5 ▸ hwn)
          · exact Or.inr h5
    · rw [if_neg hd]
      exact distEdges_spec hn ws d q (h.skip hd) hws

theorem distLoop_spec (hn : Listed n out) {u t : Nat} : ∀ (k : Nat) (d : Nat → Int) (q : List Nat),
    Outer n out u d q → (∀ x ∈ q, x < n) → q.length + unseen n d ≤ k → ∃ x, distLoop n out t k (d, q) = some x ∧ IsDistance out u t x := by
  have hend : ∀ d, Outer n out u d [] → IsDistance out u t (d t) := by
    intro d h
    rcases h.range t with h1 | h1
    · exact Or.inr ⟨h1, (h.done_none t).1 h1⟩
    · exact Or.inl ⟨(d t).toNat, by omega, (h.done t _).1 (by omega)⟩
  intro k
  induction k with
  | zero =>
    intro d q h hl hk
    have hq : q = [] := List.length_eq_zero_iff.1 (by omega)
    subst hq
    exact ⟨d t, by unfold distLoop; rfl, hend d h⟩
  | succ k ih =>
    intro d q h hl hk
    cases q with
    | nil => exact ⟨d t, by unfold distLoop; rfl, hend d h⟩
    | cons v q =>
      have hv := hl v (by simp)
      unfold distLoop
      simp only
      rw [if_pos ⟨hv, hn v hv⟩]
      simp only [List.length_cons] at hk
      rcases distEdges_spec hn (t := t) (out v) d q h.inner (fun w hw => ⟨hw, hn v hv w hw⟩) with ⟨r, g1, g2⟩ | ⟨d', q', g1, g2, g3, g4⟩
      · rw [g1]; exact ⟨r, rfl, Or.inl ⟨r, rfl, g2⟩⟩
      · rw [g1]
        refine ih d' q' g2.outer (fun x hx => ?_) (by omega)
        rcases g4 x hx with h5 | h5
        · exact hl x (by simp [h5])
        · exact h5

theorem distance_spec (hn : Listed n out) {u t : Nat} (hu : u < n) (ht : t < n) :
    ∃ x, distance n out u t = some x ∧ IsDistance out u t x := by
  have hk : unseen n (upd (fun _ => (-1 : Int)) u 0) + 1 = n := by
    rw [unseen_reach hu rfl (by omega)]
    simp [unseen]
  rw [distance, if_pos ⟨hu, ht⟩]
  exact distLoop_spec hn n _ _ (Outer.init u) (by simpa using hu) (by simp only [List.length_singleton]; omega)

/-! ### `distances` and `closenessSum` -/

theorem tally_fold (d : Nat → Int) : ∀ (L : List Nat) (t t' : Nat → Nat), L.foldlM (fun t w => tally n t (d w)) t = some t' →
    ∀ k : Nat, t' k = t k + L.countP fun w => decide (d w = k)
  | [], t, t', h, k => by
    have h : t = t' := by simpa using h
    subst h; rfl
  | w :: L, t, t', h, k => by
    rw [List.foldlM_cons] at h
    unfold tally at h
    by_cases hw : 0 ≤ d w ∧ d w < n
    · rw [if_pos hw] at h
      have := tally_fold d L _ t' h k
      rw [this, List.countP_cons, upd_apply]
      by_cases hk : d w = k
      · rw [if_pos (by omega)]
        have e : (d w).toNat = k := by omega
        rw [e]; simp [hk]; omega
      · rw [if_neg (by omega)]; simp [hk]
    · rw [if_neg hw] at h; cases h

theorem level_eq {u : Nat} (hu : u < n) (hn : Listed n out) {d : Nat → Int} (hd : ∀ w (k : Nat), d w = k ↔ IsDist (Edge out) u w k) {L : List Nat} (hnd : L.Nodup)
    (hL : ∀ w, w ∈ L ↔ 0 ≤ d w ∧ w ≠ u) (k : Nat) : level n out u k = (u :: L).countP fun w => decide (d w = k) := by
  have hnd' : (u :: L).Nodup := List.nodup_cons.2 ⟨fun h => ((hL u).1 h).2 rfl, hnd⟩
  rw [List.countP_eq_length_filter, ← List.toFinset_card_of_nodup (hnd'.filter _), level]
  congr 1
  ext w
  simp only [Finset.mem_filter, Finset.mem_range, List.mem_toFinset, List.mem_filter, List.mem_cons, decide_eq_true_eq, hL]
  rw [← hd]
  constructor
  · rintro ⟨_, h⟩
    refine ⟨?_, h⟩
    by_cases hw : w = u
    · exact Or.inl hw
    · exact Or.inr ⟨by omega, hw⟩
  · rintro ⟨_, h⟩
    refine ⟨?_, h⟩
    have hx := (hd w k).1 h
    have : ∀ (k w : Nat), IsDist (Edge out) u w k → w < n := by
      intro k
      induction k with
      | zero => intro w hw; rw [dist_zero_eq hw]; exact hu
      | succ k ih =>
        intro w hw
        obtain ⟨p, hp, he⟩ := dist_pred hw
        exact hn p (ih p hp) w he
    exact this k w hx

theorem distances_spec (hn : Listed n out) {u : Nat} (hu : u < n) (t : Nat → Nat) :
    ∃ t', distances n out u t = some t' ∧ ∀ k, t' k = t k + level n out u k := by
  have e0 : tally n t 0 = some (upd t 0 (t 0 + 1)) := by unfold tally; rw [if_pos (by omega)]; rfl
  obtain ⟨s, L, h1, h2, h3, h4⟩ := search_spec (f := fun t _ k => tally n t k) hn hu (upd t 0 (t 0 + 1)) (fun a w k _ h5 h6 => by
    unfold tally; rw [if_pos (by omega)]; rfl)
  refine ⟨s.acc, by rw [distances, e0]; simp only [h1]; rfl, fun k => ?_⟩
  rw [tally_fold s.d L _ _ h4.fold k, level_eq hu hn h2 h4.nodup h4.mem, List.countP_cons, (h2 u 0).2 (dist_zero u), upd_apply]
  by_cases hk : k = 0
  · subst hk; simp; omega
  · have : ¬ ((0 : Nat) : Int) = k := by omega
    simp only [hk, if_false, this, decide_false, Bool.false_eq_true]; omega

theorem sum_fold (d : Nat → Int) : ∀ (L : List Nat) (a b : Int), L.foldlM (fun a w => some (a + d w)) a = some b → b = a + (L.map d).sum
  | [], a, b, h => by
    have h : a = b := by simpa using h
    simp [h]
  | w :: L, a, b, h => by
    rw [List.foldlM_cons] at h
    have := sum_fold d L (a + d w) b h
    rw [this, List.map_cons, List.sum_cons]; omega

theorem closenessSum_spec (hn : Listed n out) {u : Nat} (hu : u < n) :
    closenessSum n out u = some ((∑ w ∈ Finset.range n, dist out u w : Nat) : Int) := by
  obtain ⟨s, L, h1, h2, h3, h4⟩ := search_spec (f := fun a _ k => some (a + k)) hn hu (0 : Int) (fun _ _ _ _ _ _ => rfl)
  rw [closenessSum, h1, Option.map_some, sum_fold s.d L _ _ h4.fold]
  have hd : ∀ w, 0 ≤ s.d w → s.d w = (dist out u w : Int) := by
    intro w hw
    have := (h2 w (s.d w).toNat).1 (by omega)
    rw [dist_eq this]; omega
  have hsub : ∑ w ∈ L.toFinset, dist out u w = ∑ w ∈ Finset.range n, dist out u w := by
    refine Finset.sum_subset (fun w hw => ?_) (fun w _ hw => ?_)
    · rw [List.mem_toFinset, h4.mem] at hw
      have hx := (h2 w (s.d w).toNat).1 (by omega)
      have : ∀ (k w : Nat), IsDist (Edge out) u w k → w < n := by
        intro k
        induction k with
        | zero => intro w hw; rw [dist_zero_eq hw]; exact hu
        | succ k ih =>
          intro w hw
          obtain ⟨p, hp, he⟩ := dist_pred hw
          exact hn p (ih p hp) w he
      exact Finset.mem_range.2 (this _ w hx)
    · rw [List.mem_toFinset, h4.mem] at hw
      by_cases hwu : w = u
      · rw [hwu]; exact dist_eq (dist_zero u)
      · refine dist_none fun k hk => hw ⟨?_, hwu⟩
        rw [← h2] at hk; omega
  rw [← hsub, List.sum_toFinset _ h4.nodup]
  have : ∀ L' : List Nat, (∀ w ∈ L', 0 ≤ s.d w) → (L'.map s.d).sum = (((L'.map (dist out u)).sum : Nat) : Int) := by
    intro L'
    induction L' with
    | nil => intro _; rfl
    | cons a L' ih =>
      intro h
      rw [List.map_cons, List.sum_cons, ih fun w hw => h w (by simp [hw]), hd a (h a (by simp)), List.map_cons, List.sum_cons]; omega
  rw [this L fun w hw => ((h4.mem w).1 hw).1]
  simp

/-! ### The distribution and the average -/

theorem pairs_eq (C : Nat → Bool) (k : Nat) :
    pairs n out C k = ∑ u ∈ (Finset.range n).filter (fun u => C u = true), level n out u k := by
  classical
  unfold pairs level
  rw [Finset.card_filter, Finset.sum_product, Finset.sum_filter]
  refine Finset.sum_congr rfl fun u _ => ?_
  rw [Finset.card_filter]
  split
  · next h => simp [h]
  · next h => simp [h]

theorem distFold (hn : Listed n out) (C : Nat → Bool) : ∀ m ≤ n, ∃ t, (List.range m).foldlM (distStep n out C (count n C)) (0, fun _ => 0) = some (count m C, t) ∧
    ∀ k, t k = ∑ u ∈ (Finset.range m).filter (fun u => C u = true), level n out u k
  | 0, _ => ⟨fun _ => 0, rfl, fun _ => by simp⟩
  | m + 1, hm => by
    obtain ⟨t, h1, h2⟩ := distFold hn C m (by omega)
    rw [List.range_succ, List.foldlM_append, h1]
    have hmem : m ∉ (Finset.range m).filter (fun u => C u = true) := by simp
    by_cases hc : C m = true
    · have hcnt : count (m + 1) C = count m C + 1 := by
        unfold count; rw [Finset.range_add_one, Finset.filter_insert, if_pos hc, Finset.card_insert_of_notMem hmem]
      have hle : count (m + 1) C ≤ count n C := Finset.card_le_card (Finset.filter_subset_filter _ (Finset.range_mono hm))
      obtain ⟨t', h3, h4⟩ := distances_spec hn (u := m) (by omega) t
      refine ⟨t', ?_, fun k => ?_⟩
      · have : distStep n out C (count n C) (count m C, t) m = some (count m C + 1, t') := by
          unfold distStep
          rw [if_neg (by simp only; omega), if_neg (by simp [hc])]
          simp only [h3]; rfl
        simp [this, hcnt]
      · rw [h4, h2, Finset.range_add_one, Finset.filter_insert, if_pos hc, Finset.sum_insert hmem]; omega
    · have hcnt : count (m + 1) C = count m C := by
        unfold count; rw [Finset.range_add_one, Finset.filter_insert, if_neg hc]
      refine ⟨t, ?_, fun k => ?_⟩
      · have : distStep n out C (count n C) (count m C, t) m = some (count m C, t) := by
          unfold distStep
          split
          · rfl
          · rw [if_pos (by simpa using hc)]
        simp [this, hcnt]
      · rw [h2, Finset.range_add_one, Finset.filter_insert, if_neg hc]

theorem distribution_spec (hn : Listed n out) (C : Nat → Bool) (h : 2 ≤ count n C) :
    distanceDistribution n out C (count n C) = some ((List.range n).map (pairs n out C)) := by
  obtain ⟨t, h1, h2⟩ := distFold hn C n (Nat.le_refl _)
  unfold distanceDistribution
  rw [if_neg (by omega), Int.toNat_natCast, h1, Option.map_some]
  congr 2
  funext k
  rw [pairs_eq]
  exact h2 k

theorem mapM_some {β : Type} {f : Nat → Option β} {g : Nat → β} : ∀ L : List Nat, (∀ i ∈ L, f i = some (g i)) → L.mapM f = some (L.map g)
  | [], _ => rfl
  | a :: L, h => by
    rw [List.mapM_cons, h a (by simp), mapM_some L fun i hi => h i (by simp [hi])]; rfl

theorem mapM_none {β : Type} {f : Nat → Option β} : ∀ L : List Nat, (∃ i ∈ L, f i = none) → L.mapM f = none
  | [], h => by obtain ⟨_, h, _⟩ := h; cases h
  | a :: L, h => by
    rw [List.mapM_cons]
    cases ha : f a with
    | none => rfl
    | some x =>
      have : ∃ i ∈ L, f i = none := by
        obtain ⟨i, hi, hn⟩ := h
        rcases List.mem_cons.1 hi with rfl | hi
        · rw [ha] at hn; cases hn
        · exact ⟨i, hi, hn⟩
      simp [mapM_none L this]

theorem sum_range_list (F : Nat → Nat) : ∀ m, ((List.range m).map F).sum = ∑ i ∈ Finset.range m, F i
  | 0 => rfl
  | m + 1 => by rw [List.range_succ, List.map_append, List.sum_append, sum_range_list F m, Finset.sum_range_succ]; simp

theorem level_sum (hn : Listed n out) {u : Nat} (hu : u < n) : ∑ k ∈ Finset.range n, k * level n out u k = ∑ w ∈ Finset.range n, dist out u w := by
  classical
  have : ∀ k, k * level n out u k = ∑ w ∈ Finset.range n, if IsDist (Edge out) u w k then k else 0 := by
    intro k
    unfold level
    rw [Finset.card_filter, Finset.mul_sum]
    exact Finset.sum_congr rfl fun w _ => by split <;> simp
  rw [Finset.sum_congr rfl fun k _ => this k, Finset.sum_comm]
  refine Finset.sum_congr rfl fun w _ => ?_
  by_cases hw : ∃ k, IsDist (Edge out) u w k
  · obtain ⟨k, hk⟩ := hw
    rw [dist_eq hk, Finset.sum_eq_single k]
    · rw [if_pos hk]
    · intro j _ hj
      exact if_neg fun h => hj (IsDist.unique h hk)
    · intro h
      exact absurd (Finset.mem_range.2 (dist_lt hn hu hk)) h
  · have hw : ∀ k, ¬ IsDist (Edge out) u w k := fun k hk => hw ⟨k, hk⟩
    rw [dist_none hw]
    exact Finset.sum_eq_zero fun k _ => if_neg (hw k)

theorem average_spec (hn : Listed n out) (C : Nat → Bool) (h : 2 ≤ count n C) :
    averageDistance n out C (count n C) = some (some ((total n out C : Rat) / ((count n C : Rat) * ((count n C : Rat) - 1)))) := by
  have hm : ((List.range n).mapM fun i => ((List.range n).map (pairs n out C))[i]?) = some ((List.range n).map (pairs n out C)) :=
    mapM_some _ fun i hi => by
      have : i < n := by simpa using hi
      simp [this]
  have hz : ¬ ((count n C : Int) * ((count n C : Int) - 1) = 0) := by
    intro h0
    rcases Int.mul_eq_zero.1 h0 with h0 | h0 <;> omega
  unfold averageDistance
  rw [distribution_spec hn C h]
  simp only
  rw [hm]
  simp only
  rw [if_neg hz]
  have hs : ((List.range n).map fun i => i * ((List.range n).map (pairs n out C)).getD i 0).sum = total n out C := by
    have e : ((List.range n).map fun i => i * ((List.range n).map (pairs n out C)).getD i 0) = (List.range n).map fun i => i * pairs n out C i := by
      apply List.map_congr_left
      intro i hi
      have : i < n := by simpa using hi
      simp [this]
    rw [e, sum_range_list, total, Finset.sum_congr rfl fun k _ => by rw [pairs_eq, Finset.mul_sum], Finset.sum_comm]
    refine Finset.sum_congr rfl fun u hu => level_sum hn ?_
    simpa using (Finset.mem_filter.1 hu).1
  rw [hs]
  push_cast
  rfl

end Candy.Dst
