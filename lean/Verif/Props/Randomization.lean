import Verif.Proofs.Randomization

/-!
# C66: randomisation strategies

A strategy is created and then called any number of times, each time with any indices and any vectors (they are
changed by propagation between the calls). `randWord 0xFFFF n` is the `n`-th number of the generator.
-/

namespace Candy

/-- The vectors of the indices are random with `k` numbers for each field: bit `b` of field `i` of the vector of
`v` is the disjunction or conjunction of the bits `b` of `k` numbers. These are drawn from the numbers `d, ..., d' - 1`
of the generator, and no number is used twice. -/
def Drawn (disj : Bool) (k d d' : Nat) (indices : List Nat) (A : SimVectors) : Prop :=
  ∃ draw : Nat → Fin 32 → Nat → Nat,
    (∀ v ∈ indices, ∀ i, ∀ j < k, d ≤ draw v i j ∧ draw v i j < d') ∧
    (∀ v ∈ indices, ∀ w ∈ indices, ∀ i i' j j', j < k → j' < k → draw v i j = draw w i' j' → v = w ∧ i = i' ∧ j = j') ∧
    ∀ v ∈ indices, ∀ i b, b < 64 → (A.vec v i).getLsbD b =
      if disj then (List.range k).any fun j => (randWord 0xFFFF (draw v i j)).getLsbD b
      else (List.range k).all fun j => (randWord 0xFFFF (draw v i j)).getLsbD b

/-- Of the `2 ^ k` values of `k` bits, all but one have a set bit, and exactly one has only set bits. -/
theorem C66_chance (k : Nat) : (bitTuples k).countP (·.any id) = 2 ^ k - 1 ∧ (bitTuples k).countP (·.all id) = 1 := by
  induction k with
  | zero => simp [bitTuples]
  | succ k ih =>
    have hl := (bitTuples_spec k).2.1
    have hpos : 0 < 2 ^ k := Nat.pos_of_ne_zero (by simp)
    simp only [bitTuples, List.countP_append, List.countP_map]
    have e1 : (fun t : List Bool => t.any id) ∘ (false :: ·) = fun t => t.any id := by funext t; simp
    have e2 : (fun t : List Bool => t.any id) ∘ (true :: ·) = fun _ => true := by funext t; simp
    have e3 : (fun t : List Bool => t.all id) ∘ (false :: ·) = fun _ => false := by funext t; simp
    have e4 : (fun t : List Bool => t.all id) ∘ (true :: ·) = fun t => t.all id := by funext t; simp
    rw [e1, e2, e3, e4, ih.1, ih.2]
    simp only [List.countP_true, List.countP_false, hl, Nat.pow_succ]
    exact ⟨by omega, by simp⟩

theorem CyclicRand.bias_eq (R : CyclicRand) (h : R.maxBias.toNat + 1 < 2 ^ 32)
    (hw : R.minBias.toNat + R.invocations.toNat * R.step.toNat < 2 ^ 32) :
    ∃ k, R.bias = some k ∧ k.toNat = biasAt R.minBias.toNat R.maxBias.toNat R.step.toNat R.invocations.toNat := by
  have h1 : (R.maxBias + 1).toNat = R.maxBias.toNat + 1 := by
    rw [BitVec.toNat_add]
    exact Nat.mod_eq_of_lt h
  refine ⟨_, if_neg fun e => ?_, ?_⟩
  · have := congrArg BitVec.toNat e
    rw [h1] at this
    simp at this
  · unfold biasAt
    rw [BitVec.toNat_umod, h1, BitVec.toNat_add, BitVec.toNat_mul]
    rw [Nat.mod_eq_of_lt (a := R.invocations.toNat * R.step.toNat) (by omega), Nat.mod_eq_of_lt hw]

open Randomization in
/-- One call, with `k` the current bias. -/
theorem CyclicRand.randomize_spec (R : CyclicRand) {k : BitVec 32} (hk : R.bias = some k) {d : Nat}
    (hs : R.state = randAfter 0xFFFF d) {indices : List Nat} (hnd : indices.Nodup) {A : SimVectors}
    (hA : ∀ v ∈ indices, v < A.size) :
    ∃ A' d', R.randomize indices A = some ({ R with state := randAfter 0xFFFF d', invocations := R.invocations + 1 }, A') ∧
      A'.size = A.size ∧ (∀ v, v ∉ indices → A'.vec v = A.vec v) ∧ d ≤ d' ∧ Drawn R.toTrue (max k.toNat 1) d d' indices A' := by
  have hps : ∀ p ∈ slots indices, p.1 < A.size := fun p hp => hA _ (mem_slots.1 (show (p.1, p.2) ∈ _ from hp))
  have hnp := nodup_slots hnd
  obtain ⟨A1, e1, s1, f1, w1⟩ := fill_spec (slots indices) R.state A hps
  have hframe : ∀ {A2 : SimVectors}, (∀ v i, (v, i) ∉ slots indices → A2.vec v i = A1.vec v i) →
      ∀ v, v ∉ indices → A2.vec v = A.vec v := by
    intro A2 h v hv
    funext i
    have hni : (v, i) ∉ slots indices := fun h => hv (mem_slots.1 h)
    rw [h v i hni, f1 v i hni]
  have hidx : ∀ v ∈ indices, ∀ i, (slots indices).idxOf (v, i) < (slots indices).length := fun v hv i =>
    List.idxOf_lt_length_iff.2 (mem_slots.2 hv)
  have hget : ∀ v (hv : v ∈ indices) i, (slots indices)[(slots indices).idxOf (v, i)]'(hidx v hv i) = (v, i) := fun v hv i =>
    List.getElem_idxOf _
  have hinj : ∀ v ∈ indices, ∀ w ∈ indices, ∀ i i', (slots indices).idxOf (v, i) = (slots indices).idxOf (w, i') → v = w ∧ i = i' := by
    intro v hv w hw i i' e
    have h1 := hget v hv i
    have h2 := hget w hw i'
    simp only [e] at h1
    exact Prod.mk.inj (h1.symm.trans h2)
  have hw1 : ∀ v (_ : v ∈ indices) i, A1.vec v i = randWord 0xFFFF (d + (slots indices).idxOf (v, i)) := by
    intro v hv i
    have := w1 hnp _ (hidx v hv i)
    rw [hget v hv i] at this
    rw [this, hs, randWord_add]
  by_cases h1 : 1 < k.toNat
  · obtain ⟨A2, e2, s2, f2, w2⟩ := mix_spec R.toTrue (k.toNat - 1) (slots indices) (randAfter R.state (slots indices).length) A1
      (fun p hp => by rw [s1]; exact hps p hp)
    refine ⟨A2, d + (slots indices).length * k.toNat, ?_, s2.trans s1, hframe f2, by omega, ?_⟩
    · unfold CyclicRand.randomize CyclicRand.mixAll
      rw [e1]
      dsimp only
      rw [hk]
      dsimp only
      rw [if_pos h1, e2]
      dsimp only
      rw [hs, ← randAfter_add, ← randAfter_add]
      have : d + (slots indices).length + (slots indices).length * (k.toNat - 1) = d + (slots indices).length * k.toNat := by
        obtain ⟨m, hm⟩ : ∃ m, k.toNat = m + 1 := ⟨k.toNat - 1, by omega⟩
        rw [hm, Nat.add_sub_cancel, Nat.mul_succ]
        omega
      rw [← Nat.add_assoc, this]
    · rw [Nat.max_eq_left (by omega)]
      obtain ⟨m, hm⟩ : ∃ m, k.toNat = m + 1 := ⟨k.toNat - 1, by omega⟩
      rw [hm] at w2 ⊢
      rw [Nat.add_sub_cancel] at w2
      -- the first number of a field is drawn in the first loop
      refine ⟨fun v i j => d + if j = 0 then (slots indices).idxOf (v, i)
        else (slots indices).length + (slots indices).idxOf (v, i) * m + (j - 1), ?_, ?_, ?_⟩
      · intro v hv i j hj
        dsimp only
        have hi := hidx v hv i
        refine ⟨by omega, ?_⟩
        have hle : ((slots indices).idxOf (v, i) + 1) * m ≤ (slots indices).length * m := Nat.mul_le_mul_right _ hi
        rw [Nat.succ_mul] at hle
        rw [Nat.mul_succ]
        split <;> omega
      · intro v hv w hw i i' j j' hj hj' e
        dsimp only at e
        have hi := hidx v hv i
        have hi' := hidx w hw i'
        have key : (slots indices).idxOf (v, i) = (slots indices).idxOf (w, i') ∧ j = j' := by
          by_cases hz : j = 0
          · by_cases hz' : j' = 0
            · rw [if_pos hz, if_pos hz'] at e; omega
            · rw [if_pos hz, if_neg hz'] at e; omega
          · by_cases hz' : j' = 0
            · rw [if_neg hz, if_pos hz'] at e; omega
            · rw [if_neg hz, if_neg hz'] at e
              have e' : (j - 1) + m * (slots indices).idxOf (v, i) = (j' - 1) + m * (slots indices).idxOf (w, i') := by
                rw [Nat.mul_comm m, Nat.mul_comm m]; omega
              have hm1 : j - 1 < m := by omega
              have hm2 : j' - 1 < m := by omega
              have q := congrArg (· / m) e'
              have r := congrArg (· % m) e'
              simp only [Nat.add_mul_mod_self_left, Nat.add_mul_div_left _ _ (show 0 < m by omega), Nat.div_eq_of_lt hm1,
                Nat.div_eq_of_lt hm2, Nat.mod_eq_of_lt hm1, Nat.mod_eq_of_lt hm2] at q r
              omega
        obtain ⟨a, b⟩ := hinj v hv w hw i i' key.1
        exact ⟨a, b, key.2⟩
      · intro v hv i b _
        have := w2 hnp _ (hidx v hv i)
        rw [hget v hv i] at this
        rw [this, (mixWord_spec _ _ _ _).2, hw1 v hv i, List.range_succ_eq_map]
        have hword : ∀ j, randWord (randAfter (randAfter R.state (slots indices).length) ((slots indices).idxOf (v, i) * m)) j =
            randWord 0xFFFF (d + ((slots indices).length + (slots indices).idxOf (v, i) * m + j)) := by
          intro j
          rw [hs, ← randAfter_add, ← randAfter_add, ← randWord_add]
          congr 1
          omega
        simp only [hword, List.any_cons, List.all_cons, List.any_map, List.all_map, Function.comp_def, if_true, Nat.succ_eq_add_one,
          Nat.add_one_ne_zero, if_false, Nat.add_sub_cancel]
  · refine ⟨A1, d + (slots indices).length, ?_, s1, hframe fun _ _ _ => rfl, by omega, ?_⟩
    · unfold CyclicRand.randomize CyclicRand.mixAll
      rw [e1]
      dsimp only
      rw [hk]
      dsimp only
      rw [if_neg h1]
      dsimp only
      rw [hs, ← randAfter_add]
    · rw [Nat.max_eq_right (by omega)]
      refine ⟨fun v i _ => d + (slots indices).idxOf (v, i), ?_, ?_, ?_⟩
      · intro v hv i j _
        have := hidx v hv i
        dsimp only
        omega
      · intro v hv w hw i i' j j' hj hj' e
        obtain ⟨a, b⟩ := hinj v hv w hw i i' (by dsimp only at e; omega)
        exact ⟨a, b, by omega⟩
      · intro v hv i b _
        rw [hw1 v hv i]
        cases R.toTrue <;> simp [List.range_succ]

theorem Randomization.fill_range : ∀ {ps : List (Nat × Fin 32)} {s : BitVec 64} {A : SimVectors} {r : BitVec 64 × SimVectors},
    Randomization.fill ps s A = some r → ∀ p ∈ ps, p.1 < A.size := by
  intro ps
  induction ps with
  | nil => intro s A r _ p hp; cases hp
  | cons q ps ih =>
    obtain ⟨v, i⟩ := q
    intro s A r h p hp
    rw [fill] at h
    split at h
    · cases h
    · rename_i A1 e
      obtain ⟨s1, hv, _⟩ := setField_size e
      rcases List.mem_cons.1 hp with rfl | hp
      · exact hv
      · rw [← s1]; exact ih h p hp

open Randomization in
theorem CyclicRand.randomize_state {R R' : CyclicRand} {indices : List Nat} {A A' : SimVectors}
    (h : R.randomize indices A = some (R', A')) {d : Nat} (hs : R.state = randAfter 0xFFFF d) :
    ∃ d', d ≤ d' ∧ R' = { R with state := randAfter 0xFFFF d', invocations := R.invocations + 1 } := by
  unfold CyclicRand.randomize at h
  split at h
  · cases h
  · rename_i s A1 e
    obtain ⟨A2, e1, s1, _⟩ := fill_spec (slots indices) R.state A (fill_range e)
    rw [e1] at e
    obtain ⟨rfl, rfl⟩ := Prod.mk.inj (Option.some.inj e)
    split at h
    · cases h
    · rename_i s3 A3 e3
      obtain ⟨rfl, rfl⟩ := Prod.mk.inj (Option.some.inj h)
      unfold CyclicRand.mixAll at e3
      split at e3
      · cases e3
      · rename_i k _
        split at e3
        · obtain ⟨A4, e4, _⟩ := mix_spec R.toTrue (k.toNat - 1) (slots indices) (randAfter R.state (slots indices).length) A2
            (fun p hp => by rw [s1]; exact fill_range e1 p hp)
          rw [e4] at e3
          obtain ⟨rfl, rfl⟩ := Prod.mk.inj (Option.some.inj e3)
          refine ⟨d + ((slots indices).length + (slots indices).length * (k.toNat - 1)), by omega, ?_⟩
          rw [hs, ← randAfter_add, ← randAfter_add]
        · obtain ⟨rfl, rfl⟩ := Prod.mk.inj (Option.some.inj e3)
          refine ⟨d + (slots indices).length, by omega, ?_⟩
          rw [hs, ← randAfter_add]

/-- What a history of calls leaves behind. -/
theorem calls_cyclic : ∀ {cs : List (List Nat × SimVectors)} {R : CyclicRand} {d : Nat} {r : Randomizer} {As : List SimVectors},
    (Randomizer.cyclic R).calls cs = some (r, As) → R.state = randAfter 0xFFFF d →
    ∃ d', r = .cyclic { R with state := randAfter 0xFFFF d', invocations := R.invocations + BitVec.ofNat 32 cs.length } := by
  intro cs
  induction cs with
  | nil =>
    intro R d r As h hs
    cases h
    exact ⟨d, by rw [← hs]; simp⟩
  | cons c cs ih =>
    obtain ⟨indices, A⟩ := c
    intro R d r As h hs
    rw [Randomizer.calls] at h
    split at h
    · cases h
    · rename_i r1 A1 e
      obtain ⟨x, hx, e'⟩ := Option.map_eq_some_iff.1 h
      obtain ⟨rfl, rfl⟩ := Prod.mk.inj e'
      rw [Randomizer.randomize] at e
      obtain ⟨y, hy, e'⟩ := Option.map_eq_some_iff.1 e
      obtain ⟨rfl, rfl⟩ := Prod.mk.inj e'
      obtain ⟨d1, _, e1⟩ := CyclicRand.randomize_state (R' := y.1) (A' := y.2) hy hs
      rw [e1] at hx
      obtain ⟨d2, e2⟩ := ih (r := x.1) (As := x.2) hx rfl
      refine ⟨d2, e2.trans ?_⟩
      have : R.invocations + 1 + BitVec.ofNat 32 cs.length = R.invocations + BitVec.ofNat 32 ((indices, A) :: cs).length := by
        rw [List.length_cons, BitVec.ofNat_add, BitVec.add_assoc, BitVec.add_comm 1]
        rfl
      simp only [this]

/-- The strategy has drawn `d` numbers so far. -/
def Randomizer.HasDrawn : Randomizer → Nat → Prop
  | .simple s, d => s = randAfter 0xFFFF d
  | .cyclic R, d => R.state = randAfter 0xFFFF d
  | .alternating .., _ => False

theorem cyclic_step (R : CyclicRand) {k : BitVec 32} (hk : R.bias = some k) {d : Nat}
    (hs : R.state = randAfter 0xFFFF d) {indices : List Nat} (hnd : indices.Nodup) {A : SimVectors}
    (hA : ∀ v ∈ indices, v < A.size) :
    ∃ r' A' d d', (Randomizer.cyclic R).randomize indices A = some (r', A') ∧ (Randomizer.cyclic R).HasDrawn d ∧ r'.HasDrawn d' ∧
      d ≤ d' ∧ A'.size = A.size ∧ (∀ v, v ∉ indices → A'.vec v = A.vec v) ∧ Drawn R.toTrue (max k.toNat 1) d d' indices A' := by
  obtain ⟨A', d', e, s, f, hd, hdr⟩ := R.randomize_spec hk hs hnd hA
  refine ⟨.cyclic { R with state := randAfter 0xFFFF d', invocations := R.invocations + 1 }, A', d, d', ?_, hs, rfl, hd, s, f, hdr⟩
  rw [Randomizer.randomize, e]
  rfl

/-- **C66.** For all parameters, all histories and all vectors: a call of a cyclically biased strategy is defined, changes
only the given vectors, and makes them the disjunctions or conjunctions of `k` numbers that were not used before, with
`k = k_i` for the call with number `i`, or `k = 1` if `k_i = 0`.

Missing: the parameters must be small enough for `k_i` to be computed without overflow (`C66_wrap_fails`,
`C66_max_fails`), and `k_i = 0` is treated like `1` (`C66_zero_fails`). -/
theorem C66_cyclic_partial (minBias maxBias step : BitVec 32) (disj : Bool) (cs : List (List Nat × SimVectors)) (r : Randomizer)
    (As : List SimVectors) (h : (Randomizer.newCyclic minBias maxBias step disj).calls cs = some (r, As))
    (hmax : maxBias.toNat + 1 < 2 ^ 32) (hlen : cs.length < 2 ^ 32)
    (hw : minBias.toNat + cs.length * step.toNat < 2 ^ 32)
    (indices : List Nat) (hnd : indices.Nodup) (A : SimVectors) (hA : ∀ v ∈ indices, v < A.size) :
    ∃ r' A' d d', r.randomize indices A = some (r', A') ∧ r.HasDrawn d ∧ r'.HasDrawn d' ∧ d ≤ d' ∧ A'.size = A.size ∧
      (∀ v, v ∉ indices → A'.vec v = A.vec v) ∧
      Drawn disj (max (biasAt minBias.toNat maxBias.toNat step.toNat cs.length) 1) d d' indices A' := by
  obtain ⟨d, rfl⟩ := calls_cyclic (d := 0) h rfl
  have hinv : (BitVec.ofNat 32 cs.length).toNat = cs.length := by
    rw [BitVec.toNat_ofNat]; exact Nat.mod_eq_of_lt hlen
  have hinv' : (0 : BitVec 32) + BitVec.ofNat 32 cs.length = BitVec.ofNat 32 cs.length := BitVec.zero_add _
  obtain ⟨k, hk, ek⟩ := CyclicRand.bias_eq
    ⟨randAfter 0xFFFF d, minBias, maxBias, step, disj, (0 : BitVec 32) + BitVec.ofNat 32 cs.length⟩
    hmax (by dsimp only; rw [hinv', hinv]; exact hw)
  dsimp only at ek
  rw [hinv', hinv] at ek
  rw [← ek]
  exact cyclic_step ⟨randAfter 0xFFFF d, minBias, maxBias, step, disj, (0 : BitVec 32) + BitVec.ofNat 32 cs.length⟩
    hk (d := d) rfl hnd hA

/-- **C66 (constant bias).** The strategies with a constant bias `k`, after any history: `k` numbers for each field. -/
theorem C66_biased (bias : BitVec 32) (disj : Bool) (cs : List (List Nat × SimVectors)) (r : Randomizer)
    (As : List SimVectors) (h : (Randomizer.newBiased bias disj).calls cs = some (r, As))
    (hpos : 1 ≤ bias.toNat) (hmax : bias.toNat + 1 < 2 ^ 32)
    (indices : List Nat) (hnd : indices.Nodup) (A : SimVectors) (hA : ∀ v ∈ indices, v < A.size) :
    ∃ r' A' d d', r.randomize indices A = some (r', A') ∧ r.HasDrawn d ∧ r'.HasDrawn d' ∧ d ≤ d' ∧ A'.size = A.size ∧
      (∀ v, v ∉ indices → A'.vec v = A.vec v) ∧ Drawn disj bias.toNat d d' indices A' := by
  obtain ⟨d, rfl⟩ := calls_cyclic (d := 0) h rfl
  obtain ⟨k, hk, ek⟩ := CyclicRand.bias_eq
    ⟨randAfter 0xFFFF d, bias, bias, 0, disj, (0 : BitVec 32) + BitVec.ofNat 32 cs.length⟩
    hmax (by
      show bias.toNat + ((0 : BitVec 32) + BitVec.ofNat 32 cs.length).toNat * 0 < _
      omega)
  have hkb : k.toNat = bias.toNat := by
    rw [ek]
    show (bias.toNat + ((0 : BitVec 32) + BitVec.ofNat 32 cs.length).toNat * 0) % (bias.toNat + 1) = bias.toNat
    rw [Nat.mul_zero, Nat.add_zero]
    exact Nat.mod_eq_of_lt (by omega)
  have := cyclic_step ⟨randAfter 0xFFFF d, bias, bias, 0, disj, (0 : BitVec 32) + BitVec.ofNat 32 cs.length⟩
    hk (d := d) rfl hnd hA
  rw [hkb, Nat.max_eq_left hpos] at this
  exact this

/-- What a history of calls of the simple strategy leaves behind. -/
theorem calls_simple : ∀ {cs : List (List Nat × SimVectors)} {d : Nat} {r : Randomizer} {As : List SimVectors},
    (Randomizer.simple (randAfter 0xFFFF d)).calls cs = some (r, As) → ∃ d', r = .simple (randAfter 0xFFFF d') := by
  intro cs
  induction cs with
  | nil => intro d r As h; cases h; exact ⟨d, rfl⟩
  | cons c cs ih =>
    obtain ⟨indices, A⟩ := c
    intro d r As h
    rw [Randomizer.calls] at h
    split at h
    · cases h
    · rename_i r1 A1 e
      obtain ⟨x, hx, e'⟩ := Option.map_eq_some_iff.1 h
      obtain ⟨rfl, rfl⟩ := Prod.mk.inj e'
      rw [Randomizer.randomize] at e
      obtain ⟨y, hy, e'⟩ := Option.map_eq_some_iff.1 e
      obtain ⟨rfl, rfl⟩ := Prod.mk.inj e'
      obtain ⟨A2, e2, _⟩ := Randomization.fill_spec _ _ A (Randomization.fill_range hy)
      rw [hy] at e2
      rw [Option.some.inj e2, ← randAfter_add] at hx
      exact ih (r := x.1) (As := x.2) hx

theorem CyclicRand.bias_one (s : BitVec 64) (disj : Bool) : CyclicRand.bias ⟨s, 1, 1, 0, disj, 0⟩ = some 1 := by
  show (if (1 : BitVec 32) + 1 = 0 then none else some (((1 : BitVec 32) + 0 * 0) % (1 + 1))) = some 1
  decide

open Randomization in
/-- **C66 (simple).** The simple strategy, after any history: one number for each field, a fair chance for every bit. -/
theorem C66_simple (cs : List (List Nat × SimVectors)) (r : Randomizer) (As : List SimVectors)
    (h : Randomizer.newSimple.calls cs = some (r, As))
    (indices : List Nat) (hnd : indices.Nodup) (A : SimVectors) (hA : ∀ v ∈ indices, v < A.size) (disj : Bool) :
    ∃ r' A' d d', r.randomize indices A = some (r', A') ∧ r.HasDrawn d ∧ r'.HasDrawn d' ∧ d ≤ d' ∧ A'.size = A.size ∧
      (∀ v, v ∉ indices → A'.vec v = A.vec v) ∧ Drawn disj 1 d d' indices A' := by
  obtain ⟨d, rfl⟩ := calls_simple (d := 0) h
  -- the first loop is that of a strategy with bias 1
  obtain ⟨A', d', e, s, f, hd, hdr⟩ := CyclicRand.randomize_spec ⟨randAfter 0xFFFF d, 1, 1, 0, disj, 0⟩ (k := 1)
    (CyclicRand.bias_one _ _) (d := d) rfl hnd hA
  refine ⟨.simple (randAfter 0xFFFF d'), A', d, d', ?_, rfl, rfl, hd, s, f, hdr⟩
  unfold CyclicRand.randomize at e
  split at e
  · cases e
  · rename_i s1 A1 e1
    have hm : CyclicRand.mixAll ⟨randAfter 0xFFFF d, 1, 1, 0, disj, 0⟩ indices s1 A1 = some (s1, A1) := by
      unfold CyclicRand.mixAll
      rw [CyclicRand.bias_one]
      exact if_neg (by decide)
    rw [hm] at e
    dsimp only at e
    have e := Prod.mk.inj (Option.some.inj e)
    have es : s1 = randAfter 0xFFFF d' := congrArg CyclicRand.state e.1
    rw [Randomizer.randomize, e1, es, e.2]
    rfl

/-- The numbers drawn are never zero, for any strategy and any history. -/
theorem C66_nonzero (n : Nat) : randWord 0xFFFF n ≠ 0 := randAfter_ne_zero (by decide) _

/-! ### Values of the variables -/

/-- **C66 (values).** A set bit of a vector stands for the value false. So a variable is *false* in a lane iff one of
the `k` bits is set, for the strategies biased to true, and false iff all of them are set, for those biased to
false. -/
theorem C66_values {disj : Bool} {k d d' : Nat} {indices : List Nat} {A : SimVectors} (h : Drawn disj k d d' indices A) :
    ∃ draw : Nat → Fin 32 → Nat → Nat, ∀ v ∈ indices, ∀ i b, b < 64 → (A.lane i b v = false ↔
      if disj then ∃ j < k, (randWord 0xFFFF (draw v i j)).getLsbD b = true
      else ∀ j < k, (randWord 0xFFFF (draw v i j)).getLsbD b = true) := by
  obtain ⟨draw, _, _, h⟩ := h
  refine ⟨draw, fun v hv i b hb => ?_⟩
  unfold SimVectors.lane
  rw [h v hv i b hb]
  cases disj <;> simp

/-- The number of lanes in which a variable is true. -/
def trueLanes (A : SimVectors) (v : Nat) : Nat :=
  ((List.finRange 32).flatMap fun i => (List.range 64).map fun b => A.lane i b v).countP id

/-- Vectors without contents. -/
def exBlank (n : Nat) : SimVectors := ⟨n, fun _ _ => 0⟩

/-- **Finding.** The strategies promise that variables become true with a chance of `1 - 2^-n` (biased to true) and
`2^-n` (biased to false), but it is the other way round. With `n = 3`, of the 2048 lanes of the first call the
variable is true in less than a quarter if the bias is to true, and in more than three quarters if it is to false. -/
theorem C66_polarity_fails :
    (((Randomizer.newBiased 3 true).randomize [0] (exBlank 1)).any fun x => decide (trueLanes x.2 0 * 4 < 2048)) = true ∧
    (((Randomizer.newBiased 3 false).randomize [0] (exBlank 1)).any fun x => decide (2048 * 3 < trueLanes x.2 0 * 4)) = true := by
  decide +kernel

/-- **Finding.** If `k_i` is zero, the chances promised are 0 and 1, but the variable has either value in more than a
quarter of the lanes. Here `k_0 = 1` and `k_1 = 0`. -/
theorem C66_zero_fails : biasAt 1 1 1 1 = 0 ∧ ∀ disj : Bool,
    (((Randomizer.newCyclic 1 1 1 disj).calls [([0], exBlank 1), ([0], exBlank 1)]).any fun x =>
      x.2.length == 2 && x.2.all fun A => decide (2048 < trueLanes A 0 * 4 ∧ trueLanes A 0 * 4 < 3 * 2048)) = true := by
  decide +kernel

/-- **Finding.** The multiplication wraps around: `k_2` is 2 but the bias is 1. -/
theorem C66_wrap_fails : biasAt 1 2 (2 ^ 31) 2 = 2 ∧
    ((Randomizer.newCyclic 1 2 (2 ^ 31) true).calls [([], exBlank 0), ([], exBlank 0)]).map (fun x =>
      match x.1 with | .cyclic R => R.bias | _ => none) = some (some 1) := by decide +kernel

/-- **Finding.** With the largest bias every call divides by zero, whatever the other parameters and the vectors
are. -/
theorem C66_max_fails (minBias step : BitVec 32) (disj : Bool) (indices : List Nat) (A : SimVectors) :
    (Randomizer.newCyclic minBias (BitVec.allOnes 32) step disj).randomize indices A = none := by
  rw [Randomizer.newCyclic, Randomizer.randomize, CyclicRand.randomize]
  split
  · rfl
  · have hb : (CyclicRand.new minBias (BitVec.allOnes 32) step disj).bias = none :=
      if_pos (show BitVec.allOnes 32 + 1 = 0 by decide)
    unfold CyclicRand.mixAll
    rw [hb]
    rfl

/-! ### Alternation -/

/-- Calls made by two strategies in turn, starting with call number `i`. -/
def alternately (period : Nat) : Nat → Randomizer → Randomizer → List (List Nat × SimVectors) → Option (List SimVectors)
  | _, _, _, [] => some []
  | i, a, b, (indices, A) :: cs =>
    if firstTurn period i then
      match a.randomize indices A with
      | none => none
      | some (a, A) => (alternately period (i + 1) a b cs).map (A :: ·)
    else
      match b.randomize indices A with
      | none => none
      | some (b, A) => (alternately period (i + 1) a b cs).map (A :: ·)

/-- **Finding.** The counter of the calls is never increased, so the second strategy is never used: the calls behave
as if the first strategy was called, for all strategies, periods and histories. -/
theorem C66_alternate_fails (a b : Randomizer) (period : BitVec 32) (hp : period ≠ 0) (cs : List (List Nat × SimVectors)) :
    (Randomizer.alternate a b period).calls cs = (a.calls cs).map fun x => (Randomizer.alternate x.1 b period, x.2) := by
  unfold Randomizer.alternate
  induction cs generalizing a with
  | nil => rfl
  | cons c cs ih =>
    obtain ⟨indices, A⟩ := c
    rw [Randomizer.calls, Randomizer.calls, Randomizer.randomize, if_neg hp]
    have h0 : (0 : BitVec 32) / period % 2 = 0 := by
      have : (0 : BitVec 32) / period = 0 := BitVec.zero_udiv
      rw [this]
      decide
    rw [if_pos h0]
    cases e : a.randomize indices A with
    | none => rfl
    | some x =>
      simp only [Option.map_some]
      rw [ih]
      cases x.1.calls cs <;> rfl

/-- **C66 (alternation).** The first `period` calls are made by the first strategy, as promised.

Missing: all later calls (`C66_alternate_fails`, `C66_alternate_witness`). -/
theorem C66_alternate_partial (a b : Randomizer) (period : BitVec 32) (hp : period ≠ 0) (cs : List (List Nat × SimVectors))
    (hlen : cs.length ≤ period.toNat) :
    ((Randomizer.alternate a b period).calls cs).map (·.2) = alternately period.toNat 0 a b cs := by
  rw [C66_alternate_fails a b period hp, Option.map_map]
  suffices ∀ (cs : List (List Nat × SimVectors)) (a : Randomizer) (i : Nat), i + cs.length ≤ period.toNat →
      (a.calls cs).map (·.2) = alternately period.toNat i a b cs by
    have := this cs a 0 (by omega)
    rw [← this]
    rfl
  intro cs
  induction cs with
  | nil => intro a i _; rfl
  | cons c cs ih =>
    obtain ⟨indices, A⟩ := c
    intro a i hi
    rw [List.length_cons] at hi
    have ht : firstTurn period.toNat i = true := by
      unfold firstTurn
      rw [Nat.div_eq_of_lt (by omega)]
      rfl
    rw [Randomizer.calls, alternately, if_pos ht]
    cases e : a.randomize indices A with
    | none => rfl
    | some x =>
      dsimp only
      rw [← ih x.1 (i + 1) (by omega), Option.map_map, Option.map_map]
      rfl

/-- The first words of the vectors of variable 0, to compare results. -/
def firstWords (As : List SimVectors) : List (BitVec 64) := As.map fun A => A.vec 0 0

/-- **Finding.** The strategy used by default: the sixth call should be made by the second strategy, but is not. -/
theorem C66_alternate_witness : let cs := List.replicate 6 ([0], exBlank 1)
    ((Randomizer.default.calls cs).map fun x => firstWords x.2).isSome = true ∧
    ((alternately 5 0 (.newCyclic 1 5 1 true) (.newCyclic 1 5 1 false) cs).map firstWords).isSome = true ∧
    (Randomizer.default.calls cs).map (fun x => firstWords x.2) ≠
      (alternately 5 0 (.newCyclic 1 5 1 true) (.newCyclic 1 5 1 false) cs).map firstWords := by
  decide +kernel

/-- **Finding.** A period of zero divides by zero. -/
theorem C66_period_fails (a b : Randomizer) (indices : List Nat) (A : SimVectors) :
    (Randomizer.alternate a b 0).randomize indices A = none := by
  rw [Randomizer.alternate, Randomizer.randomize, if_pos rfl]

/-! ### Examples -/

/-- The hypotheses are met: three calls of the strategy that is part of the default, with `k` = 1, 2, 3, then one with
`k` = 4. -/
example : ((Randomizer.newCyclic 1 5 1 true).calls (List.replicate 3 ([0, 2], exBlank 3))).isSome = true ∧
    (5 : BitVec 32).toNat + 1 < 2 ^ 32 ∧ (1 : BitVec 32).toNat + 3 * (1 : BitVec 32).toNat < 2 ^ 32 ∧ [0, 2].Nodup ∧
    (∀ v ∈ [0, 2], v < (exBlank 3).size) ∧ (List.range 7).map (biasAt 1 5 1) = [1, 2, 3, 4, 5, 0, 1] := by decide +kernel

example : ((Randomizer.newBiased 2 false).calls (List.replicate 3 ([0, 2], exBlank 3))).isSome = true ∧
    (Randomizer.newSimple.calls (List.replicate 3 ([0, 2], exBlank 3))).isSome = true := by decide +kernel

end Candy
