import Verif.Proofs.SccGraph

/-!
# The results of the computation of strongly connected components
-/

namespace Candy.Scc

variable {n : Nat} {out inn : Nat → List Nat}

/-- The results are right. -/
structure Correct (n : Nat) (out inn : Nat → List Nat) (r : Comps) : Prop where
  ids : ∀ u < n, 1 ≤ r.id u ∧ r.id u ≤ r.sccs
  onto : ∀ k, 1 ≤ k → k ≤ r.sccs → ∃ u < n, r.id u = k
  same : ∀ u v, u < n → v < n → (r.id u = r.id v ↔ Strong out u v)
  sizes : ∀ k, 1 ≤ k → k ≤ r.sccs → r.nodes k = size n (fun v => r.id v == k) ∧ r.edges k = inner n inn fun v => r.id v == k
  largest : 1 ≤ r.largest ∧ r.largest ≤ r.sccs ∧ ∀ k, 1 ≤ k → k ≤ r.sccs → r.nodes k ≤ r.nodes r.largest

theorem pairwise_inj {f : Nat → Nat} : ∀ {l : List Nat}, (l.Pairwise fun a b => f b < f a) → ∀ {u v : Nat}, u ∈ l → v ∈ l → f u = f v → u = v
  | [], _, _, _, hu, _, _ => by cases hu
  | x :: l, h, u, v, hu, hv, he => by
    obtain ⟨h1, h2⟩ := List.pairwise_cons.1 h
    rcases List.mem_cons.1 hu with rfl | hu' <;> rcases List.mem_cons.1 hv with rfl | hv'
    · rfl
    · have := h1 v hv'; omega
    · have := h1 u hu'; omega
    · exact pairwise_inj h2 hu' hv' he

theorem compute_cases (hg : Digraph n out inn) (cap : Nat) {m : Nat} (hm : 1 ≤ m) (old : Comps) :
    (∃ r, computeSCC cap n out inn m false old = some r ∧ Correct n out inn r ∧ ∃ reps : List Nat, reps.length < cap ∧
      ∀ v < n, ∃ r ∈ reps, Strong out r v) ∨
    (computeSCC cap n out inn m false old = none ∧ ∃ reps : List Nat, (reps.Pairwise fun u v => ¬ Strong out u v) ∧
      (∀ r ∈ reps, r < n) ∧ cap ≤ reps.length) := by
  obtain ⟨s, f, h1, h2, h3, h4, h5⟩ := visitAll_spec hg
  have hinj : ∀ u v, u < n → v < n → f u = f v → u = v := by
    intro u v hu hv he
    exact pairwise_inj h4 ((h3 u).2 hu) ((h3 v).2 hv) he
  have h0 : OInv cap n out inn [] ⟨fun _ => 0, fun _ => 0, fun _ => 0, 0, 0⟩ 1 := by
    constructor <;> simp
    intro k h1 h2; omega
  have hm' : ¬ m < 1 := by omega
  simp only [computeSCC, hm', if_false, Bool.false_eq_true, h1, markAll]
  rcases OInv.loop hg hinj h5 s.stack [] _ 1 h0 h4 (fun v hv => (h3 v).1 hv) (fun v hv _ => (h3 v).2 hv) with
    ⟨r, c, reps, g1, g2, g3⟩ | ⟨g1, g2⟩
  · left
    have hrep : reps ≠ [] := by
      intro he
      obtain ⟨r, hr, _⟩ := g2.cover 0 (g3 0 hg.nonempty)
      rw [he] at hr; cases hr
    have hc : 2 ≤ c := by
      have := g2.len
      have := List.length_pos_iff.2 hrep
      omega
    refine ⟨{ r with sccs := c - 1 }, by rw [g1], ?_, reps, ?_, fun v hv => g2.cover v (g3 v hv)⟩
    · obtain ⟨l1, l2, l3⟩ := g2.largest
      refine ⟨fun u hu => ?_, fun k k1 k2 => ?_, fun u v hu hv => ?_, fun k k1 k2 => ?_, l2 (by omega), by simp only; omega, fun k k1 k2 => ?_⟩
      · have a1 := g3 u hu
        have a2 := g2.lt u
        simp only; omega
      · exact (g2.used k k1 (by simp only at k2; omega)).1
      · have a := (g2.full u (g3 u hu)).2 v
        simp only
        rw [← a]; exact eq_comm
      · exact (g2.used k k1 (by simp only at k2; omega)).2
      · exact l3 k k1 (by simp only at k2; omega)
    · have := g2.len
      have := g2.capLe hrep
      omega
  · right
    exact ⟨by rw [g1], g2⟩

theorem apart_nodup {reps : List Nat} (h : reps.Pairwise fun u v => ¬ Strong out u v) : reps.Nodup :=
  h.imp fun {a b} (h : ¬ Strong out a b) (e : a = b) => h (e ▸ Strong.refl _)

theorem apart_of_mem : ∀ {reps : List Nat}, (reps.Pairwise fun u v => ¬ Strong out u v) → ∀ {u v : Nat}, u ∈ reps → v ∈ reps → u ≠ v → ¬ Strong out u v
  | [], _, _, _, hu, _, _ => by cases hu
  | x :: l, h, u, v, hu, hv, hne => by
    obtain ⟨h1, h2⟩ := List.pairwise_cons.1 h
    rcases List.mem_cons.1 hu with rfl | hu' <;> rcases List.mem_cons.1 hv with rfl | hv'
    · exact absurd rfl hne
    · exact h1 v hv'
    · exact fun hs => h1 u hu' hs.symm
    · exact apart_of_mem h2 hu' hv' hne

theorem length_le {reps : List Nat} (hn : reps.Nodup) (hl : ∀ r ∈ reps, r < n) : reps.length ≤ n := by
  have := List.Subperm.length_le (List.subperm_of_subset hn (l₂ := List.range n) fun r hr => by simpa using hl r hr)
  simpa using this

theorem mem_of_full {reps : List Nat} (hn : reps.Nodup) (hl : ∀ r ∈ reps, r < n) (hc : n ≤ reps.length) {v : Nat} (hv : v < n) : v ∈ reps := by
  have hp := (List.subperm_of_subset hn (l₂ := List.range n) fun r hr => by simpa using hl r hr).perm_of_length_le (by simpa using hc)
  exact hp.mem_iff.2 (by simpa using hv)

end Candy.Scc
