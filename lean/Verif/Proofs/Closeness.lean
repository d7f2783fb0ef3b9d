import Verif.Model.Closeness
import Verif.Proofs.DistAll

/-!
# Closeness centrality
-/

namespace Candy.Dst

open Distance

variable {n : Nat} {out : Nat → List Nat}

theorem add_fold (d : Nat → Int) : ∀ (L : List Nat) (t t' : Nat → Int), L.Nodup → L.foldlM (fun t w => some (upd t w (t w + d w))) t = some t' →
    ∀ w, t' w = t w + if w ∈ L then d w else 0
  | [], t, t', _, h, w => by
    have h : t = t' := by simpa using h
    subst h; simp
  | a :: L, t, t', hn, h, w => by
    obtain ⟨n1, n2⟩ := List.nodup_cons.1 hn
    rw [List.foldlM_cons] at h
    rw [add_fold d L _ t' n2 h w, upd_apply]
    by_cases hw : w = a
    · subst hw; simp [n1]
    · simp [hw]

theorem closenesses_spec (hn : Listed n out) {u : Nat} (hu : u < n) (t : Nat → Int) :
    ∃ t', closenesses n out u t = some t' ∧ ∀ w, t' w = t w + (dist out u w : Int) := by
  obtain ⟨s, L, h1, h2, h3, h4⟩ := search_spec (f := fun t w k => some (upd t w (t w + k))) hn hu t (fun _ _ _ _ _ _ => rfl)
  refine ⟨s.acc, by rw [closenesses, h1]; rfl, fun w => ?_⟩
  rw [add_fold s.d L _ _ h4.nodup h4.fold w]
  congr 1
  rw [if_congr (h4.mem w) rfl rfl]
  by_cases hw : 0 ≤ s.d w
  · have hx := (h2 w (s.d w).toNat).1 (by omega)
    rw [dist_eq hx]
    by_cases hwu : w = u
    · subst hwu
      have := IsDist.unique hx (dist_zero w)
      simp [this]
    · rw [if_pos ⟨hw, hwu⟩]; omega
  · rw [if_neg (fun h => hw h.1), dist_none fun k hk => ?_]
    · rfl
    · rw [← h2] at hk; omega

theorem closenessLoop_spec (hn : Listed n out) (full : Bool) (wcc : Option Wcc) : ∀ m ≤ n, ∃ t, closenessLoop n out full wcc m = some t ∧
    ∀ w, t w = ((∑ u ∈ (Finset.range m).filter (fun u => (full || inLargest wcc u) = true), dist out u w : Nat) : Int)
  | 0, _ => ⟨fun _ => 0, rfl, fun _ => by simp⟩
  | m + 1, hm => by
    obtain ⟨t, h1, h2⟩ := closenessLoop_spec hn full wcc m (by omega)
    unfold closenessLoop at h1 ⊢
    rw [List.range_succ, List.foldlM_append, h1]
    have hmem : m ∉ (Finset.range m).filter (fun u => (full || inLargest wcc u) = true) := by simp
    by_cases hc : (full || inLargest wcc m) = true
    · obtain ⟨t', h3, h4⟩ := closenesses_spec hn (u := m) (by omega) t
      refine ⟨t', by simp only [Option.bind_eq_bind, Option.bind_some, List.foldlM_cons, List.foldlM_nil, if_pos hc, h3]; rfl, fun w => ?_⟩
      rw [h4, h2, Finset.range_add_one, Finset.filter_insert, if_pos hc, Finset.sum_insert hmem]
      push_cast
      omega
    · refine ⟨t, by simp only [Option.bind_eq_bind, Option.bind_some, List.foldlM_cons, List.foldlM_nil, if_neg hc]; rfl, fun w => ?_⟩
      rw [h2, Finset.range_add_one, Finset.filter_insert, if_neg hc]

theorem dist_symm (hs : ∀ a b, b ∈ out a → a ∈ out b) (u w : Nat) : dist out u w = dist out w u := by
  have key : ∀ {u w k}, IsDist (Edge out) u w k → IsDist (Edge out) w u k := by
    intro u w k h
    rw [isDist_iff] at h ⊢
    exact ⟨Walk.symm hs h.1, fun j hj => h.2 j (Walk.symm hs hj)⟩
  by_cases h : ∃ k, IsDist (Edge out) u w k
  · obtain ⟨k, hk⟩ := h
    rw [dist_eq hk, dist_eq (key hk)]
  · have h1 : ∀ k, ¬ IsDist (Edge out) u w k := fun k hk => h ⟨k, hk⟩
    rw [dist_none h1, dist_none fun k hk => h1 k (key hk)]

end Candy.Dst
