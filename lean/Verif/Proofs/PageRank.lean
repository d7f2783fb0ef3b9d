import Verif.SpecPageRank
import Verif.Model.PageRank
import Verif.Proofs.Basic
import Mathlib.Algebra.BigOperators.Ring.Finset
import Mathlib.Algebra.BigOperators.Field
import Mathlib.Algebra.Order.BigOperators.Group.Finset
import Mathlib.Algebra.Order.BigOperators.Ring.Finset
import Mathlib.Tactic.Ring
import Mathlib.Tactic.Linarith
import Mathlib.Tactic.FieldSimp
import Mathlib.Tactic.Positivity

/-!
# The loops of PageRank
-/

namespace Candy.PageRank

open Finset

variable {n : Nat} {out : Nat → List Nat}

theorem give_spec (value : Rat) : ∀ (l : List Nat) (t : Nat → Rat), (∀ w ∈ l, w < n) →
    ∃ t', give n value l t = some t' ∧ ∀ v, t' v = t v + (l.count v : Rat) * value
  | [], t, _ => ⟨t, rfl, by simp⟩
  | w :: l, t, h => by
    obtain ⟨t', e, h'⟩ := give_spec value l (upd t w (t w + value)) fun x hx => h x (by simp [hx])
    refine ⟨t', ?_, fun v => ?_⟩
    · unfold give at e ⊢
      rw [List.foldlM_cons, if_pos (h w (by simp))]
      exact e
    · rw [h' v, upd_apply, List.count_cons]
      by_cases hv : v = w
      · subst hv
        simp
        ring
      · rw [if_neg hv, if_neg (by simpa using fun e => hv e.symm)]
        simp

theorem giveAll_spec (hn : ∀ v < n, ∀ w ∈ out v, w < n) (c : Nat → Rat) : ∀ k ≤ n, ∃ t,
    (List.range k).foldlM (fun t i => give n (c i / ((out i).length : Rat)) (out i) t) (fun _ => 0) = some t ∧
      ∀ v, t v = ∑ u ∈ range k, c u * share out u v
  | 0, _ => ⟨fun _ => 0, rfl, by simp⟩
  | k + 1, hk => by
    obtain ⟨t, e, h⟩ := giveAll_spec hn c k (by omega)
    obtain ⟨t', e', h'⟩ := give_spec (c k / ((out k).length : Rat)) (out k) t (hn k (by omega))
    refine ⟨t', ?_, fun v => ?_⟩
    · rw [List.range_succ, List.foldlM_append, e]
      simp only [Option.bind_eq_bind, Option.bind_some, List.foldlM_cons, List.foldlM_nil, e']
      rfl
    · rw [h' v, h v, sum_range_succ, share]
      ring

theorem damp_fold (d : Rat) (t c : Nat → Rat) : ∀ k v, (List.range k).foldl (fun c i => upd c i ((1 - d) / (n : Rat) + d * t i)) c v =
    if v < k then (1 - d) / (n : Rat) + d * t v else c v
  | 0, v => by simp
  | k + 1, v => by
    rw [List.range_succ, List.foldl_append, List.foldl_cons, List.foldl_nil, upd_apply, damp_fold d t c k v]
    by_cases hv : v = k
    · subst hv
      simp
    · rw [if_neg hv]
      refine if_congr ?_ rfl rfl
      omega

theorem rounds_spec (hn : ∀ v < n, ∀ w ∈ out v, w < n) (d : Rat) : ∀ k, ∃ c, rounds n out d k = some c ∧ ∀ v < n, c v = rank n out d k v
  | 0 => ⟨_, rfl, fun _ _ => rfl⟩
  | k + 1 => by
    obtain ⟨c, e, h⟩ := rounds_spec hn d k
    obtain ⟨t, e', h'⟩ := giveAll_spec hn c n (Nat.le_refl _)
    refine ⟨damp n d t c, ?_, fun v hv => ?_⟩
    · rw [rounds, e, Option.bind_some, giveAll, e', Option.map_some]
    · rw [damp, damp_fold, if_pos hv, h' v, rank, step, sum_congr rfl fun u hu => by rw [h u (mem_range.1 hu)]]

theorem share_nonneg (u v : Nat) : 0 ≤ share out u v := by
  unfold share
  positivity

theorem count_sum {l : List Nat} (h : ∀ w ∈ l, w < n) : ∑ v ∈ range n, l.count v = l.length := by
  induction l with
  | nil => simp
  | cons a l ih =>
    have ha : a ∈ range n := mem_range.2 (h a (by simp))
    simp only [List.count_cons, sum_add_distrib, ih fun w hw => h w (by simp [hw]), List.length_cons, beq_iff_eq]
    rw [sum_ite_eq, if_pos ha]

theorem share_sum (hn : ∀ v < n, ∀ w ∈ out v, w < n) {u : Nat} (hu : u < n) : ∑ v ∈ range n, share out u v = if out u = [] then 0 else 1 := by
  unfold share
  rw [← sum_div, ← Nat.cast_sum, count_sum (hn u hu)]
  split
  · rename_i e; rw [e]; simp
  · rename_i e
    have : ((out u).length : Rat) ≠ 0 := by
      simpa using e
    exact div_self this

theorem share_le (hn : ∀ v < n, ∀ w ∈ out v, w < n) {u : Nat} (hu : u < n) : ∑ v ∈ range n, share out u v ≤ 1 := by
  rw [share_sum hn hu]
  split <;> norm_num

theorem step_sum (hn : ∀ v < n, ∀ w ∈ out v, w < n) (h0 : 0 < n) (ho : ∀ v < n, out v ≠ []) (d : Rat) {x : Nat → Rat} (hx : ∑ v ∈ range n, x v = 1) :
    ∑ v ∈ range n, step n out d x v = 1 := by
  unfold step
  rw [sum_add_distrib, ← mul_sum, sum_comm, sum_const, card_range, nsmul_eq_mul]
  have : ∑ u ∈ range n, ∑ v ∈ range n, x u * share out u v = 1 := by
    rw [← hx]
    refine sum_congr rfl fun u hu => ?_
    rw [← mul_sum, share_sum hn (mem_range.1 hu), if_neg (ho u (mem_range.1 hu)), mul_one]
  rw [this]
  have hn0 : (n : Rat) ≠ 0 := by
    have : n ≠ 0 := by omega
    exact_mod_cast this
  field_simp
  ring

/-- A step reduces the distance of two vectors. -/
theorem step_contracts (hn : ∀ v < n, ∀ w ∈ out v, w < n) {d : Rat} (hd : 0 ≤ d) (x y : Nat → Rat) :
    ∑ v ∈ range n, |step n out d x v - step n out d y v| ≤ d * ∑ v ∈ range n, |x v - y v| := by
  have h1 : ∀ v, |step n out d x v - step n out d y v| ≤ d * ∑ u ∈ range n, |x u - y u| * share out u v := by
    intro v
    have e : step n out d x v - step n out d y v = d * ∑ u ∈ range n, (x u - y u) * share out u v := by
      unfold step
      simp only [sub_mul, sum_sub_distrib]
      ring
    rw [e, abs_mul, abs_of_nonneg hd]
    refine mul_le_mul_of_nonneg_left ((abs_sum_le_sum_abs _ _).trans (le_of_eq ?_)) hd
    exact sum_congr rfl fun u _ => by rw [abs_mul, abs_of_nonneg (share_nonneg u v)]
  refine (sum_le_sum fun v _ => h1 v).trans ?_
  rw [← mul_sum, sum_comm]
  refine mul_le_mul_of_nonneg_left (sum_le_sum fun u hu => ?_) hd
  rw [← mul_sum]
  exact (mul_le_mul_of_nonneg_left (share_le hn (mem_range.1 hu)) (abs_nonneg _)).trans (le_of_eq (mul_one _))

theorem list_sum (f : Nat → Rat) : ∀ k, ((List.range k).map f).sum = ∑ i ∈ range k, f i
  | 0 => by simp
  | k + 1 => by
    rw [List.range_succ, List.map_append, List.sum_append, list_sum f k, sum_range_succ]
    simp

end Candy.PageRank
