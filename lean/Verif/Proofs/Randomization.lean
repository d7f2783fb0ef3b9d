import Verif.Model.Randomization
import Verif.SpecRandomization
import Verif.Proofs.Simulation
import Verif.Proofs.RsilRun

/-! Lemmas on randomisation. -/

namespace Candy

theorem randAfter_add (s : BitVec 64) : ∀ m n, randAfter s (m + n) = randAfter (randAfter s m) n := by
  intro m
  induction m generalizing s with
  | zero => intro n; simp [randAfter]
  | succ m ih =>
    intro n
    rw [Nat.succ_add]
    exact ih (fastNextRand s) n

theorem randAfter_ne_zero {s : BitVec 64} (h : s ≠ 0) (n : Nat) : randAfter s n ≠ 0 := by
  induction n generalizing s with
  | zero => exact h
  | succ n ih => exact ih fun e => h (fastNextRand_eq_zero e)

theorem randWord_add (s : BitVec 64) (m n : Nat) : randWord s (m + n) = randWord (randAfter s m) n := by
  unfold randWord
  rw [Nat.add_assoc, randAfter_add]

theorem randWord_succ (s : BitVec 64) (n : Nat) : randWord s (n + 1) = randWord (fastNextRand s) n := by
  rw [randWord, randWord, randAfter]

theorem randWord_zero (s : BitVec 64) : randWord s 0 = fastNextRand s := by
  rw [randWord, randAfter, randAfter]

theorem setField_some {A : SimVectors} {v : Nat} (h : v < A.size) (i : Fin 32) (x : BitVec 64) :
    ∃ A', A.setField v i x = some A' ∧ A'.size = A.size ∧ A'.vec v i = x ∧
      ∀ w k, (w, k) ≠ (v, i) → A'.vec w k = A.vec w k := by
  refine ⟨_, if_pos h, rfl, by simp [upd_same], fun w k hne => ?_⟩
  by_cases e : w = v
  · subst e
    have : k ≠ i := fun e => hne (by rw [e])
    simp [upd_same, this]
  · show (upd A.vec v _) w k = _
    rw [upd_ne _ _ e]

theorem setField_none {A : SimVectors} {v : Nat} {i : Fin 32} {x : BitVec 64} (h : ¬ v < A.size) : A.setField v i x = none :=
  if_neg h

theorem setField_size {A A' : SimVectors} {v : Nat} {i : Fin 32} {x : BitVec 64} (h : A.setField v i x = some A') :
    A'.size = A.size ∧ v < A.size ∧ ∀ w k, w ≠ v → A'.vec w k = A.vec w k := by
  unfold SimVectors.setField at h
  split at h
  · cases h
    rename_i hv
    refine ⟨rfl, hv, fun w k hw => ?_⟩
    show (upd A.vec v _) w k = _
    rw [upd_ne _ _ hw]
  · cases h

namespace Randomization

theorem mem_slots {indices : List Nat} {v : Nat} {i : Fin 32} : (v, i) ∈ slots indices ↔ v ∈ indices := by
  unfold slots
  simp only [List.mem_flatMap, List.mem_map, List.mem_finRange, true_and, Prod.mk.injEq]
  constructor
  · rintro ⟨w, hw, k, rfl, rfl⟩; exact hw
  · intro h; exact ⟨v, h, i, rfl, rfl⟩

theorem nodup_slots {indices : List Nat} (h : indices.Nodup) : (slots indices).Nodup := by
  unfold slots
  induction indices with
  | nil => simp
  | cons v vs ih =>
    rw [List.nodup_cons] at h
    rw [List.flatMap_cons]
    refine List.nodup_append.2 ⟨?_, ih h.2, ?_⟩
    · exact List.pairwise_map.2 ((List.nodup_finRange 32).imp fun hne e => hne (Prod.mk.inj e).2)
    · intro a ha b hb e
      subst e
      obtain ⟨v', i⟩ := a
      obtain ⟨k, _, hk⟩ := List.mem_map.1 ha
      have := (mem_slots (indices := vs) (v := v') (i := i)).1 hb
      cases hk
      exact h.1 this

theorem fill_spec : ∀ (ps : List (Nat × Fin 32)) (s : BitVec 64) (A : SimVectors), (∀ p ∈ ps, p.1 < A.size) →
    ∃ A', fill ps s A = some (randAfter s ps.length, A') ∧ A'.size = A.size ∧
      (∀ v i, (v, i) ∉ ps → A'.vec v i = A.vec v i) ∧
      (ps.Nodup → ∀ n (h : n < ps.length), A'.vec ps[n].1 ps[n].2 = randWord s n) := by
  intro ps
  induction ps with
  | nil => intro s A _; exact ⟨A, rfl, rfl, fun _ _ _ => rfl, fun _ n h => absurd h (by simp)⟩
  | cons p ps ih =>
    obtain ⟨v, i⟩ := p
    intro s A h
    obtain ⟨A1, e1, s1, w1, f1⟩ := setField_some (h (v, i) (List.mem_cons_self ..)) i (fastNextRand s)
    obtain ⟨A2, e2, s2, f2, w2⟩ := ih (fastNextRand s) A1 (fun p hp => by rw [s1]; exact h p (List.mem_cons_of_mem _ hp))
    refine ⟨A2, by simp only [fill, e1, e2, List.length_cons, randAfter], s2.trans s1, fun w k hne => ?_, fun hnd n hn => ?_⟩
    · rw [List.mem_cons, not_or] at hne
      rw [f2 _ _ hne.2, f1 _ _ hne.1]
    · rw [List.nodup_cons] at hnd
      cases n with
      | zero =>
        show A2.vec v i = _
        rw [f2 _ _ hnd.1, w1, randWord_zero]
      | succ n => rw [randWord_succ]; exact w2 hnd.2 n (by simpa using hn)

/-- The combination of `n` numbers, drawn at the state `s`, with the word `x`. -/
theorem mixWord_spec (toTrue : Bool) : ∀ (n : Nat) (s x : BitVec 64), (mixWord toTrue n s x).1 = randAfter s n ∧
    ∀ b, (mixWord toTrue n s x).2.getLsbD b =
      if toTrue then x.getLsbD b || (List.range n).any fun j => (randWord s j).getLsbD b
      else x.getLsbD b && (List.range n).all fun j => (randWord s j).getLsbD b := by
  intro n
  induction n with
  | zero => intro s x; exact ⟨rfl, fun b => by cases toTrue <;> simp [mixWord]⟩
  | succ n ih =>
    intro s x
    obtain ⟨h1, h2⟩ := ih (fastNextRand s) (if toTrue then x ||| fastNextRand s else x &&& fastNextRand s)
    refine ⟨h1, fun b => ?_⟩
    rw [mixWord, h2, List.range_succ_eq_map]
    have hz := randWord_zero s
    cases toTrue
    · simp only [Bool.false_eq_true, if_false, List.all_cons, List.all_map, Function.comp_def, Nat.succ_eq_add_one, randWord_succ,
        BitVec.getLsbD_and, hz]
      rw [Bool.and_assoc]
    · simp only [if_true, List.any_cons, List.any_map, Function.comp_def, Nat.succ_eq_add_one, randWord_succ,
        BitVec.getLsbD_or, hz]
      rw [Bool.or_assoc]

theorem mix_spec (toTrue : Bool) (m : Nat) : ∀ (ps : List (Nat × Fin 32)) (s : BitVec 64) (A : SimVectors), (∀ p ∈ ps, p.1 < A.size) →
    ∃ A', mix toTrue m ps s A = some (randAfter s (ps.length * m), A') ∧ A'.size = A.size ∧
      (∀ v i, (v, i) ∉ ps → A'.vec v i = A.vec v i) ∧
      (ps.Nodup → ∀ n (h : n < ps.length), A'.vec ps[n].1 ps[n].2 =
        (mixWord toTrue m (randAfter s (n * m)) (A.vec ps[n].1 ps[n].2)).2) := by
  intro ps
  induction ps with
  | nil => intro s A _; exact ⟨A, by simp [mix, randAfter], rfl, fun _ _ _ => rfl, fun _ n h => absurd h (by simp)⟩
  | cons p ps ih =>
    obtain ⟨v, i⟩ := p
    intro s A h
    have hv := h (v, i) (List.mem_cons_self ..)
    obtain ⟨A1, e1, s1, w1, f1⟩ := setField_some hv i (mixWord toTrue m s (A.vec v i)).2
    obtain ⟨A2, e2, s2, f2, w2⟩ := ih (mixWord toTrue m s (A.vec v i)).1 A1
      (fun p hp => by rw [s1]; exact h p (List.mem_cons_of_mem _ hp))
    have hg : A.get v = some (A.vec v) := if_pos hv
    refine ⟨A2, ?_, s2.trans s1, fun w k hne => ?_, fun hnd n hn => ?_⟩
    · rw [mix, hg]
      dsimp only
      rw [e1]
      dsimp only
      rw [e2, (mixWord_spec toTrue m s _).1, ← randAfter_add, List.length_cons, Nat.succ_mul, Nat.add_comm]
    · rw [List.mem_cons, not_or] at hne
      rw [f2 _ _ hne.2, f1 _ _ hne.1]
    · rw [List.nodup_cons] at hnd
      cases n with
      | zero =>
        show A2.vec v i = (mixWord toTrue m (randAfter s (0 * m)) (A.vec v i)).2
        rw [f2 _ _ hnd.1, w1, Nat.zero_mul]
        rfl
      | succ n =>
        have hn' : n < ps.length := by simpa using hn
        show A2.vec ps[n].1 ps[n].2 = (mixWord toTrue m (randAfter s ((n + 1) * m)) (A.vec ps[n].1 ps[n].2)).2
        rw [w2 hnd.2 n hn', (mixWord_spec toTrue m s _).1, ← randAfter_add, Nat.succ_mul, Nat.add_comm m,
          f1 ps[n].1 ps[n].2 fun e => hnd.1 (by rw [← e]; exact List.getElem_mem hn')]

end Randomization

end Candy
