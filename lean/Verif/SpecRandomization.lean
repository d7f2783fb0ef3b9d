import Verif.Model.FastRand

/-!
# What randomisation strategies promise
(src/candy/randomsimulation/Randomization.h:67-133)
-/

namespace Candy

/-- The state of the generator after `n` numbers have been drawn. -/
def randAfter (s : BitVec 64) : Nat → BitVec 64
  | 0 => s
  | n + 1 => randAfter (fastNextRand s) n

/-- The `n`-th number drawn, counted from 0. -/
def randWord (s : BitVec 64) (n : Nat) : BitVec 64 := randAfter s (n + 1)

/-- The sequence `k_i` of Randomization.h:98 and 113. -/
def biasAt (minBias maxBias step i : Nat) : Nat := (minBias + i * step) % (maxBias + 1)

/-- Which of two alternating strategies is responsible for the call with number `i`, counted from 0: the first one for
`period` calls, then the second one for `period` calls, and so on, Randomization.h:127-129. -/
def firstTurn (period i : Nat) : Bool := i / period % 2 == 0

/-- All tuples of `k` bits. -/
def bitTuples : Nat → List (List Bool)
  | 0 => [[]]
  | k + 1 => (bitTuples k).map (false :: ·) ++ (bitTuples k).map (true :: ·)

/-- Every tuple is listed exactly once: this is the sample space of `k` fair and independent bits. -/
theorem bitTuples_spec (k : Nat) : (bitTuples k).Nodup ∧ (bitTuples k).length = 2 ^ k ∧
    ∀ t : List Bool, t ∈ bitTuples k ↔ t.length = k := by
  induction k with
  | zero => simp [bitTuples]
  | succ k ih =>
    refine ⟨?_, by simp [bitTuples, ih.2.1, Nat.pow_succ]; omega, fun t => ?_⟩
    · simp only [bitTuples]
      refine List.nodup_append.2 ⟨?_, ?_, ?_⟩
      · exact List.pairwise_map.2 (ih.1.imp fun h e => h (List.cons.inj e).2)
      · exact List.pairwise_map.2 (ih.1.imp fun h e => h (List.cons.inj e).2)
      · intro a ha b hb e
        obtain ⟨x, _, rfl⟩ := List.mem_map.1 ha
        obtain ⟨y, _, rfl⟩ := List.mem_map.1 hb
        cases e
    · cases t with
      | nil => simp [bitTuples]
      | cons b t => cases b <;> simp [bitTuples, ih.2.2]

end Candy
