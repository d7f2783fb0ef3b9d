import Verif.Model.RandomSimulator
import Verif.Props.Randomization
import Verif.Props.Simulation
import Verif.Props.Partition

/-!
# C67: random simulation as a whole

A simulator is created for the gates found by the analysis of any problem and then run any number of times, with any
bounds, any strategy of randomisation, and any heuristic and time limits. The conjectures it returns are those that
no assignment simulated so far refutes, and all these assignments are evaluations of the circuit.
-/

namespace Candy

/-! ### Randomisation is defined -/

/-- No division by zero. -/
def Randomizer.Ok : Randomizer → Prop
  | .simple _ => True
  | .cyclic R => R.maxBias + 1 ≠ 0
  | .alternating a b period _ => period ≠ 0 ∧ a.Ok ∧ b.Ok

open Randomization in
theorem Randomizer.randomize_ok : ∀ (r : Randomizer), r.Ok → ∀ (indices : List Nat) (A : SimVectors), (∀ v ∈ indices, v < A.size) →
    ∃ r' A', r.randomize indices A = some (r', A') ∧ r'.Ok ∧ A'.size = A.size ∧ ∀ v, v ∉ indices → A'.vec v = A.vec v := by
  intro r
  induction r with
  | simple s =>
    intro _ indices A hA
    obtain ⟨A1, e1, s1, f1, _⟩ := fill_spec (slots indices) s A
      (fun p hp => hA _ (mem_slots.1 (show (p.1, p.2) ∈ _ from hp)))
    refine ⟨.simple (randAfter s (slots indices).length), A1, ?_, trivial, s1, fun v hv => ?_⟩
    · rw [randomize, e1]; rfl
    · funext i
      exact f1 v i fun h => hv (mem_slots.1 h)
  | cyclic R =>
    intro hok indices A hA
    have hps : ∀ p ∈ slots indices, p.1 < A.size := fun p hp => hA _ (mem_slots.1 (show (p.1, p.2) ∈ _ from hp))
    obtain ⟨A1, e1, s1, f1, _⟩ := fill_spec (slots indices) R.state A hps
    have hb : R.bias = some ((R.minBias + R.invocations * R.step) % (R.maxBias + 1)) := if_neg hok
    generalize (R.minBias + R.invocations * R.step) % (R.maxBias + 1) = k at hb
    by_cases h1 : 1 < k.toNat
    · obtain ⟨A2, e2, s2, f2, _⟩ := mix_spec R.toTrue (k.toNat - 1) (slots indices) (randAfter R.state (slots indices).length) A1
        (fun p hp => by rw [s1]; exact hps p hp)
      refine ⟨.cyclic { R with state := randAfter (randAfter R.state (slots indices).length) ((slots indices).length * (k.toNat - 1)), invocations := R.invocations + 1 },
        A2, ?_, hok, s2.trans s1, fun v hv => ?_⟩
      · rw [randomize, CyclicRand.randomize, e1]
        dsimp only
        rw [CyclicRand.mixAll, hb]
        dsimp only
        rw [if_pos h1, e2]
        rfl
      · funext i
        have : (v, i) ∉ slots indices := fun h => hv (mem_slots.1 h)
        rw [f2 v i this, f1 v i this]
    · refine ⟨.cyclic { R with state := randAfter R.state (slots indices).length, invocations := R.invocations + 1 },
        A1, ?_, hok, s1, fun v hv => ?_⟩
      · rw [randomize, CyclicRand.randomize, e1]
        dsimp only
        rw [CyclicRand.mixAll, hb]
        dsimp only
        rw [if_neg h1]
        rfl
      · funext i
        exact f1 v i fun h => hv (mem_slots.1 h)
  | alternating a b period n iha ihb =>
    intro hok indices A hA
    rw [randomize, if_neg hok.1]
    split
    · obtain ⟨r', A', e, o, s, f⟩ := iha hok.2.1 indices A hA
      exact ⟨.alternating r' b period n, A', by rw [e]; rfl, ⟨hok.1, o, hok.2.2⟩, s, f⟩
    · obtain ⟨r', A', e, o, s, f⟩ := ihb hok.2.2 indices A hA
      exact ⟨.alternating a r' period n, A', by rw [e]; rfl, ⟨hok.1, hok.2.1, o⟩, s, f⟩

/-! ### What a simulator has done so far -/

theorem Partition.run_append (sched : Nat → Bool) : ∀ (As : List SimVectors) (A : SimVectors) (P : Partition),
    P.run sched (As ++ [A]) = (P.run sched As).bind fun P => P.update sched A := by
  intro As A
  induction As with
  | nil => intro P; simp only [List.nil_append, run, Option.bind_some]; cases P.update sched A <;> rfl
  | cons B As ih =>
    intro P
    rw [List.cons_append, run, run]
    cases P.update sched B with
    | none => rfl
    | some P => exact ih P

/-- The vectors `As` have the values of inputs that successive calls of the strategy give them, and `rand'` is the state
of the strategy after these calls. -/
def InputsDrawn (rand rand' : Randomizer) (inputs : List Nat) (As : List SimVectors) : Prop :=
  ∃ Ws Bs : List SimVectors, rand.calls (Ws.map fun W => (inputs, W)) = some (rand', Bs) ∧ Bs.length = As.length ∧
    ∀ v ∈ inputs, As.map (fun A => A.vec v) = Bs.map fun B => B.vec v

theorem Randomizer.calls_append : ∀ (cs : List (List Nat × SimVectors)) (r : Randomizer) {r1 : Randomizer} {Bs : List SimVectors},
    r.calls cs = some (r1, Bs) → ∀ {inputs : List Nat} {A B : SimVectors} {r2 : Randomizer},
    r1.randomize inputs A = some (r2, B) → r.calls (cs ++ [(inputs, A)]) = some (r2, Bs ++ [B]) := by
  intro cs
  induction cs with
  | nil =>
    intro r r1 Bs h inputs A B r2 h'
    cases h
    simp only [List.nil_append, calls, h', Option.map_some]
  | cons c cs ih =>
    obtain ⟨i, A0⟩ := c
    intro r r1 Bs h inputs A B r2 h'
    rw [calls] at h
    rw [List.cons_append, calls]
    split at h
    · cases h
    · obtain ⟨x, hx, e⟩ := Option.map_eq_some_iff.1 h
      obtain ⟨rfl, rfl⟩ := Prod.mk.inj e
      rw [ih _ (r1 := x.1) (Bs := x.2) hx h']
      rfl

/-- The vectors after the steps made so far are `As`. -/
structure SimInv (cons : SimVectors → Prop) (sched : Nat → Bool) (O : ClauseOrder) (rand : Randomizer) (S : RandSim)
    (As : List SimVectors) : Prop where
  drawn : InputsDrawn rand S.rand O.inputs As
  order : S.order = O
  size : S.vectors.size = O.numVars
  ok : S.rand.Ok
  part : (Partition.new (O.outputs.map Lit.var)).run sched As = some S.partition
  cons : ∀ A ∈ As, cons A

variable {rand : Randomizer} {cons : SimVectors → Prop} {cls : Nat → Clause} {sched : Nat → Bool} {O : ClauseOrder}

theorem SimInv.step {S : RandSim} {As : List SimVectors} (h : SimInv cons sched O rand S As) (hin : ∀ v ∈ O.inputs, v < O.numVars)
    (hc : ∀ A : SimVectors, A.size = O.numVars → ∃ A', A.propagate cls O = some A' ∧ A'.size = A.size ∧
      (∀ v ∈ O.inputs, A'.vec v = A.vec v) ∧ cons A') :
    ∃ A, cons A ∧ match S.step cls sched with
      | none => (Partition.new (O.outputs.map Lit.var)).run sched (As ++ [A]) = none
      | some S' => SimInv cons sched O rand S' (As ++ [A]) := by
  obtain ⟨r, A1, e1, o1, s1, _⟩ := S.rand.randomize_ok h.ok S.order.inputs S.vectors
    (by rw [h.order, h.size]; exact hin)
  obtain ⟨A2, e2, s2, k2, c2⟩ := hc A1 (s1.trans h.size)
  refine ⟨A2, c2, ?_⟩
  unfold RandSim.step
  rw [e1]
  dsimp only
  rw [h.order, e2]
  dsimp only
  have hr := Partition.run_append sched As A2 (Partition.new (O.outputs.map Lit.var))
  rw [h.part, Option.bind_some] at hr
  cases e3 : S.partition.update sched A2 with
  | none => exact hr.trans e3
  | some P =>
    obtain ⟨Ws, Bs, hcalls, hlen, hval⟩ := h.drawn
    rw [h.order] at e1
    refine ⟨⟨Ws ++ [S.vectors], Bs ++ [A1], ?_, by simp [hlen], fun v hv => ?_⟩, rfl, (s2.trans s1).trans h.size, o1, hr.trans e3, fun A hA => ?_⟩
    · rw [List.map_append, List.map_singleton]
      exact Randomizer.calls_append _ _ hcalls e1
    · rw [List.map_append, List.map_append, hval v hv, List.map_singleton, List.map_singleton, k2 v hv]
    rcases List.mem_append.1 hA with hA | hA
    · exact h.cons A hA
    · rw [List.mem_singleton.1 hA]; exact c2

/-- How many steps are made, depending on how the loop is left. -/
def StepsMade (stop late : Nat → Bool) (n i : Nat) : SimEnd → Nat → Prop
  | .steps, k => k = n
  | .worthless, k => 0 < k ∧ k ≤ n ∧ 10 < i + k - 1 ∧ stop (i + k - 1) = true
  | .outOfTime, k => 0 < k ∧ k ≤ n ∧ late (i + k - 1) = true

theorem SimInv.loop {stop late : Nat → Bool} (hin : ∀ v ∈ O.inputs, v < O.numVars)
    (hc : ∀ A : SimVectors, A.size = O.numVars → ∃ A', A.propagate cls O = some A' ∧ A'.size = A.size ∧
      (∀ v ∈ O.inputs, A'.vec v = A.vec v) ∧ cons A') :
    ∀ (n i : Nat) {S : RandSim} {As : List SimVectors}, SimInv cons sched O rand S As →
    match S.loop cls sched stop late n i with
    | none => ∃ Bs, Bs ≠ [] ∧ (∀ A ∈ Bs, cons A) ∧ (Partition.new (O.outputs.map Lit.var)).run sched Bs = none
    | some (e, S') => ∃ Bs, SimInv cons sched O rand S' (As ++ Bs) ∧ StepsMade stop late n i e Bs.length := by
  intro n
  induction n with
  | zero => intro i S As h; exact ⟨[], by rw [List.append_nil]; exact h, rfl⟩
  | succ n ih =>
    intro i S As h
    obtain ⟨A, hA, hs⟩ := h.step (cls := cls) hin hc
    rw [RandSim.loop]
    cases e : S.step cls sched with
    | none =>
      rw [e] at hs
      refine ⟨As ++ [A], by simp, fun B hB => ?_, hs⟩
      rcases List.mem_append.1 hB with hB | hB
      · exact h.cons B hB
      · rw [List.mem_singleton.1 hB]; exact hA
    | some S1 =>
      rw [e] at hs
      dsimp only at hs ⊢
      by_cases h1 : (decide (10 < i) && stop i) = true
      · rw [if_pos h1]
        simp only [Bool.and_eq_true, decide_eq_true_eq] at h1
        refine ⟨[A], hs, ?_⟩
        simp only [StepsMade, List.length_singleton, Nat.add_sub_cancel]
        exact ⟨by omega, by omega, h1.1, h1.2⟩
      · rw [if_neg h1]
        by_cases h2 : late i = true
        · rw [if_pos h2]
          refine ⟨[A], hs, ?_⟩
          simp only [StepsMade, List.length_singleton, Nat.add_sub_cancel]
          exact ⟨by omega, by omega, h2⟩
        · rw [if_neg h2]
          have := ih (i + 1) hs
          split at this
          · exact this
          · rename_i e' S' e1
            obtain ⟨Bs, hB, hk⟩ := this
            refine ⟨A :: Bs, by simpa using hB, ?_⟩
            rw [List.length_cons]
            cases e' <;> simp only [StepsMade] at hk ⊢
            · omega
            · rw [show i + (Bs.length + 1) - 1 = i + 1 + Bs.length - 1 by omega]
              exact ⟨by omega, by omega, hk.2.2⟩
            · rw [show i + (Bs.length + 1) - 1 = i + 1 + Bs.length - 1 by omega]
              exact ⟨by omega, by omega, hk.2.2⟩

/-- Sum of the steps of several runs. -/
def stepSum (cs : List RandSim.RunCall) : Nat := (cs.map fun c => RandSim.realSteps c.nSteps).sum

theorem SimInv.runs (hin : ∀ v ∈ O.inputs, v < O.numVars)
    (hc : ∀ A : SimVectors, A.size = O.numVars → ∃ A', A.propagate cls O = some A' ∧ A'.size = A.size ∧
      (∀ v ∈ O.inputs, A'.vec v = A.vec v) ∧ cons A') :
    ∀ (cs : List RandSim.RunCall) {S : RandSim} {As : List SimVectors}, SimInv cons sched O rand S As →
    match S.runs cls sched cs with
    | none => ∃ Bs, Bs ≠ [] ∧ (∀ A ∈ Bs, cons A) ∧ (Partition.new (O.outputs.map Lit.var)).run sched Bs = none
    | some S' => ∃ Bs, SimInv cons sched O rand S' (As ++ Bs) ∧ Bs.length ≤ stepSum cs ∧
        ((∃ c ∈ cs, 0 < c.nSteps) → Bs ≠ []) ∧
        ((∀ c ∈ cs, ∀ i, c.stop i = false ∧ c.late i = false) → Bs.length = stepSum cs) := by
  intro cs
  induction cs with
  | nil => intro S As h; exact ⟨[], by rw [List.append_nil]; exact h, by simp, by simp, fun _ => rfl⟩
  | cons c cs ih =>
    intro S As h
    have h1 := h.loop (cls := cls) (stop := c.stop) (late := c.late) hin hc (RandSim.realSteps c.nSteps) 0
    rw [RandSim.runs, RandSim.run]
    have hsum : stepSum (c :: cs) = RandSim.realSteps c.nSteps + stepSum cs := by simp [stepSum]
    cases e : S.loop cls sched c.stop c.late (RandSim.realSteps c.nSteps) 0 with
    | none => rw [e] at h1; exact h1
    | some x =>
      obtain ⟨e', S1⟩ := x
      rw [e] at h1
      obtain ⟨Bs, hB, hk⟩ := h1
      dsimp only
      have h2 := ih hB
      split at h2
      · exact h2
      · obtain ⟨Cs, hC, hl, hne, heq⟩ := h2
        have hBs : Bs.length ≤ RandSim.realSteps c.nSteps := by
          cases e' <;> simp only [StepsMade] at hk <;> omega
        refine ⟨Bs ++ Cs, by rw [← List.append_assoc]; exact hC, by rw [List.length_append, hsum]; omega, ?_, ?_⟩
        · rintro ⟨c', hc', hpos⟩ hnil
          obtain ⟨rfl, rfl⟩ := List.append_eq_nil_iff.1 hnil
          rcases List.mem_cons.1 hc' with rfl | hc'
          · have : 0 < RandSim.realSteps c'.nSteps := by
              unfold RandSim.realSteps
              split <;> omega
            cases e' <;> simp only [StepsMade, List.length_nil] at hk <;> omega
          · exact hne ⟨c', hc', hpos⟩ rfl
        · intro hno
          rw [List.length_append, hsum, heq fun c' hc' => hno c' (List.mem_cons_of_mem _ hc')]
          have hno := hno c (List.mem_cons_self ..)
          cases e'
          · simp only [StepsMade] at hk; omega
          · exact absurd hk.2.2.2 (by simp [hno])
          · exact absurd hk.2.2 (by simp [hno])

/-! ### The properties -/

/-- **C67 (steps).** The number of assignments simulated is the bound, rounded up to a multiple of 2048. -/
theorem C67_steps (nSteps : Nat) : nSteps ≤ RandSim.realSteps nSteps * 2048 ∧ RandSim.realSteps nSteps * 2048 < nSteps + 2048 := by
  unfold RandSim.realSteps
  split <;> omega

/-- The assignment is an evaluation of the circuit: it satisfies the clauses of all gates reached from the roots. -/
def Evaluation (p : Problem) (R : Analyzer) (a : Assign) : Prop :=
  ∀ v, Reached R.gp p.clauseAt (fun _ => false) v → Sat a (gateClauses p R v)

/-- The assignments simulated in all steps are evaluations of the circuit. -/
def Evaluations (p : Problem) (R : Analyzer) (As : List SimVectors) : Prop :=
  ∀ A ∈ As, ∀ (i : Fin 32) (j : Nat), j < 64 → Evaluation p R (A.lane i j)

theorem sim_inv (f : CNF) (m : GateMethod) (hm : m.Sound) (fuel count n : Nat) (R : Analyzer) (O : ClauseOrder) :
    let p := Problem.empty.readClauses f
    p.nVars < fuel → Analyzer.analyze m fuel count p = some R →
    ClauseOrder.readGates R.gp p.clauseAt false n = some O →
    (hb : ∀ v, (R.gp.gates v).notMono = false → (R.gp.gates v).bwd.length < (R.gp.gates v).fwd.length →
      ∀ i ∈ (R.gp.gates v).bwd, ∀ l ∈ p.clauseAt i, AmongInputs (R.gp.gates v) v l.var) →
    (∀ v ∈ O.inputs, v < O.numVars) ∧
    ∀ A : SimVectors, A.size = O.numVars → ∃ A', A.propagate p.clauseAt O = some A' ∧ A'.size = A.size ∧
      (∀ v ∈ O.inputs, A'.vec v = A.vec v) ∧ ∀ (i : Fin 32) (j : Nat), j < 64 → Evaluation p R (A'.lane i j) := by
  dsimp only
  intro hf hR hO hb
  obtain ⟨_, _, h3, _, _, h6⟩ := readGates_spec hm hf hR hO
  refine ⟨fun v hv => ?_, fun A hA => ?_⟩
  · obtain ⟨_, u, hu, l, hl, rfl⟩ := (h6 v).1 hv
    exact (h3 u hu).2.1 l hl
  · obtain ⟨A', e, hk, hs⟩ := C40_consistent_partial f m hm fuel count n R O hf hR hO hb A hA
    refine ⟨A', e, (SimVectors.propagateGates_frame _ e).1, fun v hv => hk v fun hr => ?_, fun i j hj v hv => hs v hv i j hj⟩
    exact (GateProblem.reached_defined hr).1 ((h6 v).1 hv).1

/-- **C67.** For every problem, every contents of uninitialised memory, every strategy that does not divide by zero,
and all sequences of runs of the simulator: there are evaluations `As` of the circuit, 2048 for every step, with values of the inputs drawn by the strategy, such that
the conjectured backbones are exactly the literals of gate outputs that were true in all of them, and literals are
conjectured to be equivalent only if they had the same value in all of them or their hashes collide.

Missing: `hb` as in `C40_consistent_partial`. -/
theorem C67_conjectures_partial (f : CNF) (m : GateMethod) (hm : m.Sound) (fuel count n : Nat) (R : Analyzer) (O : ClauseOrder)
    (rand : Randomizer) (hrand : rand.Ok) (memory : Nat → SimVec) (sched : Nat → Bool) (cs : List RandSim.RunCall) (S : RandSim) :
    let p := Problem.empty.readClauses f
    p.nVars < fuel → Analyzer.analyze m fuel count p = some R →
    ClauseOrder.readGates R.gp p.clauseAt false n = some O → O.numVars ≤ 2 ^ 28 →
    (hb : ∀ v, (R.gp.gates v).notMono = false → (R.gp.gates v).bwd.length < (R.gp.gates v).fwd.length →
      ∀ i ∈ (R.gp.gates v).bwd, ∀ l ∈ p.clauseAt i, AmongInputs (R.gp.gates v) v l.var) →
    (RandSim.new O memory rand).runs p.clauseAt sched cs = some S →
    ∃ As, Evaluations p R As ∧ InputsDrawn rand S.rand O.inputs As ∧ As.length ≤ stepSum cs ∧
      ((∀ c ∈ cs, ∀ i, c.stop i = false ∧ c.late i = false) → As.length = stepSum cs) ∧
      ((∃ c ∈ cs, 0 < c.nSteps) → As ≠ [] ∧
        (∀ l, l ∈ S.conjectures.backbones ↔ Reached R.gp p.clauseAt (fun _ => false) l.var ∧ TrueInAll As l) ∧
        (∀ c ∈ S.conjectures.equivalences, 2 ≤ c.length ∧ ∀ p' ∈ c, Reached R.gp p.clauseAt (fun _ => false) p'.var ∧
          ∀ q ∈ c, Partition.NoCollision (O.outputs.map Lit.var) As → SameInAll As p' q) ∧
        (Partition.NoCollision (O.outputs.map Lit.var) As → ∀ p' q : Lit, Reached R.gp p.clauseAt (fun _ => false) p'.var →
          Reached R.gp p.clauseAt (fun _ => false) q.var → p'.var ≠ q.var → SameInAll As p' q →
          (p' ∈ S.conjectures.backbones ∧ q ∈ S.conjectures.backbones) ∨
          (p'.neg ∈ S.conjectures.backbones ∧ q.neg ∈ S.conjectures.backbones) ∨
          ∃ c ∈ S.conjectures.equivalences, (p' ∈ c ∧ q ∈ c) ∨ (p'.neg ∈ c ∧ q.neg ∈ c))) := by
  dsimp only
  intro hf hR hO hn hb hS
  obtain ⟨hin, hc⟩ := sim_inv f m hm fuel count n R O hf hR hO hb
  obtain ⟨h1, _, h3, _⟩ := readGates_spec hm hf hR hO
  have h := SimInv.runs (sched := sched) hin hc cs (S := RandSim.new O memory rand) (As := []) ⟨⟨[], [], rfl, rfl, fun _ _ => rfl⟩, rfl, rfl, hrand, rfl, by simp⟩
  rw [hS] at h
  obtain ⟨As, hI, hl, hne, heq⟩ := h
  rw [List.nil_append] at hI
  have hlt : ∀ v ∈ O.outputs.map Lit.var, v < 2 ^ 28 := fun v hv => Nat.lt_of_lt_of_le (h3 v ((h1 v).1 hv)).1 hn
  refine ⟨As, hI.cons, hI.drawn, hl, heq, fun hpos => ?_⟩
  have hne := hne hpos
  have hbb : ∀ l, l ∈ S.conjectures.backbones ↔ Reached R.gp (Problem.empty.readClauses f).clauseAt (fun _ => false) l.var ∧ TrueInAll As l :=
    fun l => (Partition.C41_backbones hlt sched hne hI.part l).trans (and_congr_left' (h1 l.var))
  refine ⟨hne, hbb, fun c hc => ?_, fun hno p' q hp hq hpq hsame => ?_⟩
  · obtain ⟨a, b⟩ := Partition.C41_equivalences hlt sched hne hI.part c hc
    exact ⟨a, fun p' hp => ⟨(h1 _).1 (b p' hp).1, fun q hq => ((b p' hp).2 q hq).2⟩⟩
  · by_cases t1 : TrueInAll As p'
    · exact .inl ⟨(hbb p').2 ⟨hp, t1⟩, (hbb q).2 ⟨hq, t1.same hsame⟩⟩
    · by_cases t2 : TrueInAll As p'.neg
      · exact .inr (.inl ⟨(hbb p'.neg).2 ⟨hp, t2⟩, (hbb q.neg).2 ⟨hq, t2.same hsame.neg⟩⟩)
      · exact .inr (.inr (Partition.C41_complete hlt sched hne hI.part hno ((h1 _).2 hp) ((h1 _).2 hq) hpq ⟨t1, t2⟩ hsame))

/-- **C67 (nothing is missed).** A literal of a gate output that is true in all evaluations of the circuit is
conjectured to be in the backbone, after every sequence of runs with at least one step. -/
theorem C67_backbones_found_partial (f : CNF) (m : GateMethod) (hm : m.Sound) (fuel count n : Nat) (R : Analyzer) (O : ClauseOrder)
    (rand : Randomizer) (hrand : rand.Ok) (memory : Nat → SimVec) (sched : Nat → Bool) (cs : List RandSim.RunCall) (S : RandSim) :
    let p := Problem.empty.readClauses f
    p.nVars < fuel → Analyzer.analyze m fuel count p = some R →
    ClauseOrder.readGates R.gp p.clauseAt false n = some O → O.numVars ≤ 2 ^ 28 →
    (hb : ∀ v, (R.gp.gates v).notMono = false → (R.gp.gates v).bwd.length < (R.gp.gates v).fwd.length →
      ∀ i ∈ (R.gp.gates v).bwd, ∀ l ∈ p.clauseAt i, AmongInputs (R.gp.gates v) v l.var) →
    (RandSim.new O memory rand).runs p.clauseAt sched cs = some S → (∃ c ∈ cs, 0 < c.nSteps) →
    ∀ l : Lit, Reached R.gp p.clauseAt (fun _ => false) l.var → (∀ a, Evaluation p R a → l.holds a) → l ∈ S.conjectures.backbones := by
  dsimp only
  intro hf hR hO hn hb hS hpos l hl ha
  obtain ⟨As, hE, _, _, _, h⟩ := C67_conjectures_partial f m hm fuel count n R O rand hrand memory sched cs S hf hR hO hn hb hS
  obtain ⟨_, hbb, _⟩ := h hpos
  exact (hbb l).2 ⟨hl, fun A hA i j hj => ha _ (hE A hA i j hj)⟩

/-- **C67 (defined).** Every sequence of runs is free of undefined behaviour, unless the hash of a gate output and
that of its negation collide after some of the steps. -/
theorem C67_defined_partial (f : CNF) (m : GateMethod) (hm : m.Sound) (fuel count n : Nat) (R : Analyzer) (O : ClauseOrder)
    (rand : Randomizer) (hrand : rand.Ok) (memory : Nat → SimVec) (sched : Nat → Bool) (cs : List RandSim.RunCall) :
    let p := Problem.empty.readClauses f
    p.nVars < fuel → Analyzer.analyze m fuel count p = some R →
    ClauseOrder.readGates R.gp p.clauseAt false n = some O → O.numVars ≤ 2 ^ 28 →
    (hb : ∀ v, (R.gp.gates v).notMono = false → (R.gp.gates v).bwd.length < (R.gp.gates v).fwd.length →
      ∀ i ∈ (R.gp.gates v).bwd, ∀ l ∈ p.clauseAt i, AmongInputs (R.gp.gates v) v l.var) →
    (∃ S, (RandSim.new O memory rand).runs p.clauseAt sched cs = some S) ∨
    ∃ As, As ≠ [] ∧ Evaluations p R As ∧ ∃ v, Reached R.gp p.clauseAt (fun _ => false) v ∧
      Partition.hist As v true = Partition.hist As v false := by
  dsimp only
  intro hf hR hO hn hb
  obtain ⟨hin, hc⟩ := sim_inv f m hm fuel count n R O hf hR hO hb
  obtain ⟨h1, h2, h3, _⟩ := readGates_spec hm hf hR hO
  have h := SimInv.runs (sched := sched) hin hc cs (S := RandSim.new O memory rand) (As := []) ⟨⟨[], [], rfl, rfl, fun _ _ => rfl⟩, rfl, rfl, hrand, rfl, by simp⟩
  have hlt : ∀ v ∈ O.outputs.map Lit.var, v < 2 ^ 28 := fun v hv => Nat.lt_of_lt_of_le (h3 v ((h1 v).1 hv)).1 hn
  split at h
  · obtain ⟨Bs, hne, hB, hnone⟩ := h
    right
    rcases Classical.em (∃ k, 0 < k ∧ k ≤ Bs.length ∧ ∃ v ∈ O.outputs.map Lit.var,
        Partition.hist (Bs.take k) v true = Partition.hist (Bs.take k) v false) with ⟨k, hk, hk', v, hv, e⟩ | hno
    · refine ⟨Bs.take k, ?_, fun A hA => hB A (List.mem_of_mem_take hA), v, (h1 v).1 hv, e⟩
      intro h0
      have := congrArg List.length h0
      rw [List.length_take, List.length_nil] at this
      omega
    · obtain ⟨P, hP⟩ := Partition.C41_defined hlt h2 sched (As := Bs) fun k hk hk' v hv e => hno ⟨k, hk, hk', v, hv, e⟩
      rw [hP] at hnone
      cases hnone
  · rename_i S e
    exact .inl ⟨S, e⟩

/-- The strategy used by default does not divide by zero. -/
theorem C67_default_ok : Randomizer.default.Ok := ⟨by decide, by show (5 : BitVec 32) + 1 ≠ 0; decide, by show (5 : BitVec 32) + 1 ≠ 0; decide⟩

/-! ### Examples -/

/-- The hypotheses are met for `exSim` with the default strategy: the simulator exists and its runs are defined or there
is a collision. -/
example : ∃ R O, let p := Problem.empty.readClauses exSim
    Analyzer.analyze exPatterns (p.nVars + 1) 1 p = some R ∧ ClauseOrder.readGates R.gp p.clauseAt false 30 = some O ∧
    O.numVars ≤ 2 ^ 28 ∧ Randomizer.default.Ok ∧
    ∀ v, (R.gp.gates v).notMono = false → (R.gp.gates v).bwd.length < (R.gp.gates v).fwd.length →
      ∀ i ∈ (R.gp.gates v).bwd, ∀ l ∈ p.clauseAt i, AmongInputs (R.gp.gates v) v l.var := by
  obtain ⟨R, O, h1, h2, _, _, h5, h6⟩ := exSim_met
  exact ⟨R, O, h1, h2, by rw [h5]; decide, C67_default_ok, h6⟩

/-- `1` and `2` are both the exclusive or of `3` and `4`, and `0` is their conjunction. -/
def exTwice : CNF := [pos 0] :: (andGate (pos 0) (pos 1) (pos 2) ++ xorGate (pos 1) (pos 3) (pos 4) ++ xorGate (pos 2) (pos 3) (pos 4))

/-- Two steps of the default strategy find that the three gates are equivalent. -/
example : let p := Problem.empty.readClauses exTwice
    ((Analyzer.analyze exPatterns (p.nVars + 1) 1 p).bind fun R => (ClauseOrder.readGates R.gp p.clauseAt false 30).bind
      fun O => ((RandSim.new O (fun _ _ => 7) .default).runs p.clauseAt (fun _ => true) [⟨3000, fun _ => false, fun _ => false⟩]).map
        fun S => S.conjectures) = some ⟨[], [[neg 2, neg 1, neg 0]]⟩ := by decide +kernel

/-! ### Conjectures -/

theorem foldl_max_lits : ∀ (L : List Lit) (r : Nat), r ≤ L.foldl (fun r l => max r l.var) r ∧
    (∀ l ∈ L, l.var ≤ L.foldl (fun r l => max r l.var) r) ∧
    (L.foldl (fun r l => max r l.var) r = r ∨ ∃ l ∈ L, L.foldl (fun r l => max r l.var) r = l.var) := by
  intro L
  induction L with
  | nil => intro r; simp
  | cons x L ih =>
    intro r
    obtain ⟨a, b, c⟩ := ih (max r x.var)
    rw [List.foldl_cons]
    refine ⟨by omega, fun l hl => ?_, ?_⟩
    · rcases List.mem_cons.1 hl with rfl | hl
      · omega
      · exact b l hl
    · rcases c with c | ⟨l, hl, c⟩
      · rcases Nat.le_total r x.var with h | h
        · exact .inr ⟨x, List.mem_cons_self .., by rw [c]; omega⟩
        · exact .inl (by rw [c]; omega)
      · exact .inr ⟨l, List.mem_cons_of_mem _ hl, c⟩

/-- **C67 (largest variable).** `maxVar` is the largest variable of the conjectures, or 0 if there are none. -/
theorem C67_max_var (c : Conjectures) (L : List Lit) (hL : L = c.backbones ++ c.equivalences.flatten) :
    (∀ l ∈ L, l.var ≤ c.maxVar) ∧ (L = [] → c.maxVar = 0) ∧ (L ≠ [] → ∃ l ∈ L, l.var = c.maxVar) := by
  have e : ∀ (E : List (List Lit)) (r : Nat), E.foldl (fun r e => e.foldl (fun r l => max r l.var) r) r =
      E.flatten.foldl (fun r l => max r l.var) r := by
    intro E
    induction E with
    | nil => intro r; rfl
    | cons x E ih => intro r; simp only [List.foldl_cons, List.flatten_cons, List.foldl_append]; exact ih _
  have hm : c.maxVar = L.foldl (fun r l => max r l.var) 0 := by
    unfold Conjectures.maxVar
    rw [e, ← List.foldl_append, hL]
  obtain ⟨_, a, b⟩ := foldl_max_lits L 0
  rw [hm]
  refine ⟨a, fun h => by rw [h]; rfl, fun h => ?_⟩
  rcases b with b | ⟨l, hl, b⟩
  · obtain ⟨l, hl⟩ := List.exists_mem_of_ne_nil L h
    exact ⟨l, hl, by have := a l hl; omega⟩
  · exact ⟨l, hl, b.symm⟩

/-- **C67 (filters).** The size filter keeps the backbones and exactly the equivalences that are small enough; the
backbone filter keeps the equivalences only. -/
theorem C67_filters (c : Conjectures) (k : Nat) :
    (c.filterSize k).backbones = c.backbones ∧ (∀ e, e ∈ (c.filterSize k).equivalences ↔ e ∈ c.equivalences ∧ e.length ≤ k) ∧
    (c.filterSize k).equivalences.Sublist c.equivalences ∧
    c.removeBackbones.backbones = [] ∧ c.removeBackbones.equivalences = c.equivalences :=
  ⟨rfl, fun e => by simp [Conjectures.filterSize], List.filter_sublist, rfl, rfl⟩

/-- The pairs of different positions of a list. -/
def posPairs (e : List Lit) : List (Nat × Nat) :=
  (List.range e.length).flatMap fun i => (List.range i).map fun j => (j, i)

theorem posPairs_length (n : Nat) : ((List.range n).flatMap fun i => (List.range i).map fun j => (j, i)).length = n * (n - 1) / 2 := by
  have key : ∀ n, ((List.range n).flatMap fun i => (List.range i).map fun j => (j, i)).length * 2 = n * (n - 1) := by
    intro n
    induction n with
    | zero => rfl
    | succ n ih =>
      rw [List.range_succ, List.flatMap_append, List.length_append, Nat.add_mul, ih]
      simp only [List.flatMap_cons, List.flatMap_nil, List.append_nil, List.length_map, List.length_range, Nat.add_sub_cancel]
      cases n with
      | zero => rfl
      | succ n =>
        rw [Nat.add_sub_cancel, ← Nat.mul_add, Nat.mul_comm]
  have := key n
  omega

/-- **C67 (number of equivalences).** `count` is the number of pairs of literals in the same class, if the classes
have less than `2 ^ 32` literals and the sum is less than `2 ^ 64`. -/
theorem C67_count (c : Conjectures) (hs : ∀ e ∈ c.equivalences, e.length < 2 ^ 32)
    (hsum : (c.equivalences.map fun e => (posPairs e).length).sum < 2 ^ 64) :
    c.count.toNat = (c.equivalences.map fun e => (posPairs e).length).sum := by
  unfold Conjectures.count
  suffices ∀ (E : List (List Lit)) (r : BitVec 64), (∀ e ∈ E, e.length < 2 ^ 32) →
      r.toNat + (E.map fun e => (posPairs e).length).sum < 2 ^ 64 →
      (E.foldl (fun r e => r + (BitVec.ofNat 64 e.length * BitVec.ofNat 64 e.length - BitVec.ofNat 64 e.length) / 2) r).toNat =
        r.toNat + (E.map fun e => (posPairs e).length).sum by
    rw [this _ _ hs (by simpa using hsum)]
    simp
  intro E
  induction E with
  | nil => intro r _ _; simp
  | cons e E ih =>
    intro r hs hr
    have he := hs e (List.mem_cons_self ..)
    rw [List.map_cons, List.sum_cons] at hr ⊢
    have hpl : (posPairs e).length = e.length * (e.length - 1) / 2 := posPairs_length e.length
    have h1 : (BitVec.ofNat 64 e.length).toNat = e.length := by
      rw [BitVec.toNat_ofNat]; exact Nat.mod_eq_of_lt (by omega)
    have hsq : e.length * e.length < 2 ^ 64 := Nat.lt_of_lt_of_le
      (Nat.mul_lt_mul_of_lt_of_lt he he) (by decide)
    have hle : e.length ≤ e.length * e.length := Nat.le_mul_self _
    have h2 : ((BitVec.ofNat 64 e.length * BitVec.ofNat 64 e.length - BitVec.ofNat 64 e.length) / 2).toNat = (posPairs e).length := by
      rw [BitVec.toNat_udiv, BitVec.toNat_sub, BitVec.toNat_mul, h1, Nat.mod_eq_of_lt hsq, hpl, Nat.mul_sub, Nat.mul_one]
      have : (2 ^ 64 - e.length + e.length * e.length) % 2 ^ 64 = e.length * e.length - e.length := by
        rw [show 2 ^ 64 - e.length + e.length * e.length = e.length * e.length - e.length + 2 ^ 64 by omega, Nat.add_mod_right]
        exact Nat.mod_eq_of_lt (by omega)
      rw [this]
      rfl
    have h3 : (r + (BitVec.ofNat 64 e.length * BitVec.ofNat 64 e.length - BitVec.ofNat 64 e.length) / 2).toNat =
        r.toNat + (posPairs e).length := by
      rw [BitVec.toNat_add, h2]
      exact Nat.mod_eq_of_lt (by omega)
    rw [List.foldl_cons, ih _ (fun e he => hs e (List.mem_cons_of_mem _ he)) (by rw [h3]; omega), h3]
    omega

example : (Conjectures.mk [pos 9] [[pos 1, neg 2, pos 3], [pos 4, pos 5]]).count = 4 ∧
    (Conjectures.mk [pos 9] [[pos 1, neg 2, pos 3], [pos 4, pos 5]]).maxVar = 9 ∧
    (Conjectures.mk [pos 9] [[pos 1, neg 2, pos 3], [pos 4, pos 5]]).filterSize 2 = ⟨[pos 9], [[pos 4, pos 5]]⟩ := by decide

end Candy
