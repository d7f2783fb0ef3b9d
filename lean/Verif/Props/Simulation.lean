import Verif.Proofs.Simulation

/-!
# C40: bit-parallel simulation

`A.lane i j` is the assignment of all variables that bit `j` of field `i` of the vectors represents; there are
32 fields of 64 bits. `ClauseOrder.readGates` computes the order of evaluation for the gates found by the
analysis, `SimVectors.propagate` evaluates them; `none` is undefined behaviour, an access outside the array of
vectors, which has `O.numVars` elements.
-/

namespace Candy

/-- The clause at a position of the problem. -/
def Problem.clauseAt (p : Problem) (i : Nat) : Clause := p.problem.getD i []

/-- The variable occurs in the forward clauses of the gate, or is its output. -/
def AmongInputs (g : Gate) (v w : Nat) : Prop := w = v ∨ w ∈ g.inp.map Lit.var

/-- What the order of evaluation looks like, for the gates found by the analysis. -/
theorem readGates_spec {f : CNF} {m : GateMethod} (hm : m.Sound) {fuel count n : Nat} {R : Analyzer} {O : ClauseOrder} :
    let p := Problem.empty.readClauses f
    p.nVars < fuel → Analyzer.analyze m fuel count p = some R →
    ClauseOrder.readGates R.gp p.clauseAt false n = some O →
    (∀ v, v ∈ O.outputs.map Lit.var ↔ Reached R.gp p.clauseAt (fun _ => false) v) ∧ (O.outputs.map Lit.var).Nodup ∧
    (∀ v, Reached R.gp p.clauseAt (fun _ => false) v → v < O.numVars ∧
      (∀ l ∈ (R.gp.gates v).inp, l.var < O.numVars) ∧
      O.clauses v = some (if usedFwd (R.gp.gates v) then (R.gp.gates v).fwd else (R.gp.gates v).bwd)) ∧
    (O.outputs.map Lit.var).Pairwise (fun v w => ∀ l ∈ (R.gp.gates v).inp, l.var ≠ w) ∧
    (∀ u ∈ O.outputs, (R.gp.gates u.var).out = some (if usedFwd (R.gp.gates u.var) then u.neg else u)) ∧
    (∀ v, v ∈ O.inputs ↔ (R.gp.gates v).out = none ∧
      ∃ u, Reached R.gp p.clauseAt (fun _ => false) u ∧ ∃ l ∈ (R.gp.gates u).inp, l.var = v) := by
  dsimp only
  intro hf hR hO
  unfold ClauseOrder.readGates at hO
  obtain ⟨T, hT, rfl⟩ := Option.map_eq_some_iff.1 hO
  clear hO
  obtain ⟨hnd, hv⟩ := C39_visits _ _ hT
  have hmem : ∀ v, v ∈ backtracked T ↔ Reached R.gp (Problem.empty.readClauses f).clauseAt (fun _ => false) v := fun v =>
    mem_backtracked.trans (hv v).2.1
  obtain ⟨rank, hrank⟩ := C52_acyclic f m hm fuel count R hf hR
  have hord := C39_order rank (fun v _ l hl hd _ => by
    obtain ⟨h1, h2, c, hc, hlc⟩ := recognised_inp hm hf hR hl
    exact hrank v h1 c hc l hlc h2 hd) _ _ hT
  have hdef : ∀ v ∈ backtracked T, ∃ o : Lit, o.var = v ∧ (R.gp.gates v).out = some o := by
    intro v hvT
    have hdv := (GateProblem.reached_defined ((hmem v).1 hvT)).1
    obtain ⟨A, cur, order, rfl, h⟩ := analyze_result hm hf hR
    obtain ⟨o, h1, h2, _⟩ := h.defd v ((h.defined_iff v).1 hdv)
    exact ⟨o, h1, h2⟩
  obtain ⟨e1, e2, e3, os, e4, e5, e6⟩ := foldl_backtrack R.gp (backtracked T) hdef
    { ClauseOrder.new with inputs := collectedInputs T
                           numVars := T.foldl (fun n c => max n (ClauseOrder.callVar c + 1)) 0 }
  simp only [ClauseOrder.new, List.nil_append] at e4
  simp only [Bool.false_eq_true, if_false]
  have hout := e4
  simp only [ClauseOrder.new] at e1 e2 e3 hout ⊢
  rw [hout, e5, e1, e2]
  refine ⟨hmem, nodup_backtracked hnd, fun v hr => ⟨?_, ?_, ?_⟩, ?_, e6, ?_⟩
  · exact (foldl_max T 0).2 _ ((hv v).2.1.2 hr)
  · intro l hl
    by_cases hd : (R.gp.gates l.var).out = none
    · exact (foldl_max T 0).2 _ ((hv l.var).2.2.2.2 ⟨hd, v, hr, l, hl, rfl⟩)
    · exact (foldl_max T 0).2 _ ((hv l.var).2.1.2 (.input hr hl hd rfl))
  · rw [e3, if_pos ((hmem v).2 hr)]
  · refine (List.Pairwise.and_mem.1 (pairwise_backtracked hnd)).imp ?_
    rintro v w ⟨hvT, hwT, hb⟩ l hl e
    subst e
    exact hb (hord v ((hmem v).1 hvT) l hl (GateProblem.reached_defined ((hmem _).1 hwT)).1 rfl)
  · intro v
    rw [mem_collectedInputs]
    exact (hv v).2.2.2

/-- The forward clauses mention only the output and the inputs. -/
theorem fwd_among {f : CNF} {m : GateMethod} (hm : m.Sound) {fuel count : Nat} {R : Analyzer}
    (hf : (Problem.empty.readClauses f).nVars < fuel)
    (hR : Analyzer.analyze m fuel count (Problem.empty.readClauses f) = some R) {v : Nat} (hd : (R.gp.gates v).out ≠ none)
    {i : Nat} (hi : i ∈ (R.gp.gates v).fwd) {l : Lit} (hl : l ∈ (Problem.empty.readClauses f).clauseAt i) :
    AmongInputs (R.gp.gates v) v l.var := by
  obtain ⟨A, cur, order, rfl, h⟩ := analyze_result hm hf hR
  obtain ⟨o, ho, _, hg, hinp, _⟩ := h.defd v ((h.defined_iff v).1 hd)
  by_cases e : l = o.neg
  · left; rw [e]; exact ho
  · right
    refine List.mem_map.2 ⟨l, ?_, rfl⟩
    change l ∈ (A.gp.gates v).inp
    rw [hinp]
    simp only [fwdInputs, litSet, mem_uniqueEq, mem_sortLits, List.mem_flatMap, List.mem_filter, bne_iff_ne, ne_eq]
    exact ⟨_, List.mem_map.2 ⟨i, hi, rfl⟩, hl, e⟩

/-- **C40.** For the gates of any problem, any values of the vectors and every lane: propagation does not access
anything outside the array, leaves the variables that are not outputs of gates alone, and the lane satisfies all
clauses of all gates that are reached from the roots.

Missing: the hypothesis `hb` is not always met. It says that the variables of the backward clauses of a gate are
among its inputs, for gates that are evaluated by their backward clauses. -/
theorem C40_consistent_partial (f : CNF) (m : GateMethod) (hm : m.Sound) (fuel count n : Nat) (R : Analyzer) (O : ClauseOrder) :
    let p := Problem.empty.readClauses f
    p.nVars < fuel → Analyzer.analyze m fuel count p = some R →
    ClauseOrder.readGates R.gp p.clauseAt false n = some O →
    (hb : ∀ v, (R.gp.gates v).notMono = false → (R.gp.gates v).bwd.length < (R.gp.gates v).fwd.length →
      ∀ i ∈ (R.gp.gates v).bwd, ∀ l ∈ p.clauseAt i, AmongInputs (R.gp.gates v) v l.var) →
    ∀ A : SimVectors, A.size = O.numVars → ∃ A', A.propagate p.clauseAt O = some A' ∧
      (∀ v, ¬ Reached R.gp p.clauseAt (fun _ => false) v → A'.vec v = A.vec v) ∧
      ∀ v, Reached R.gp p.clauseAt (fun _ => false) v → ∀ (i : Fin 32) (j : Nat), j < 64 →
        Sat (A'.lane i j) (gateClauses p R v) := by
  dsimp only
  intro hf hR hO hb A hA
  obtain ⟨h1, h2, h3, h4, h5, _⟩ := readGates_spec hm hf hR hO
  have hused : ∀ v, Reached R.gp (Problem.empty.readClauses f).clauseAt (fun _ => false) v → ∀ is,
      O.clauses v = some is → ∀ c ∈ is.map (Problem.empty.readClauses f).clauseAt, ∀ l ∈ c,
      AmongInputs (R.gp.gates v) v l.var := by
    intro v hr is his c hc l hl
    rw [(h3 v hr).2.2] at his
    cases his
    obtain ⟨i, hi, rfl⟩ := List.mem_map.1 hc
    by_cases hu : usedFwd (R.gp.gates v) = true
    · rw [if_pos hu] at hi
      exact fwd_among hm hf hR (GateProblem.reached_defined hr).1 hi hl
    · rw [if_neg hu] at hi
      unfold usedFwd at hu
      simp only [Bool.or_eq_true, decide_eq_true_eq, not_or, Bool.not_eq_true, Nat.not_le] at hu
      exact hb v hu.1 hu.2 i hi l hl
  obtain ⟨A', hA'⟩ := SimVectors.propagateGates_total (cls := (Problem.empty.readClauses f).clauseAt) (O := O) O.outputs hA (by
    intro o ho
    have hr := (h1 o.var).1 (List.mem_map.2 ⟨o, ho, rfl⟩)
    obtain ⟨a1, a2, a3⟩ := h3 o.var hr
    refine ⟨a1, _, a3, fun c hc l hl hne => ?_⟩
    rcases hused o.var hr _ a3 c hc l hl with e | e
    · exact absurd e hne
    · obtain ⟨l', hl', e⟩ := List.mem_map.1 e
      rw [← e]
      exact a2 l' hl')
  refine ⟨A', hA', fun v hv => ?_, fun v hr i j hj => ?_⟩
  · refine (SimVectors.propagateGates_frame _ hA').2 v fun hmem => hv ((h1 v).1 hmem)
  · obtain ⟨o, ho, rfl⟩ := List.mem_map.1 ((h1 v).2 hr)
    obtain ⟨is, his, he⟩ := SimVectors.propagateGates_eqn _ hA' h2 (by
      refine (List.Pairwise.and_mem.1 (List.pairwise_map.1 (List.Pairwise.and_mem.1 (h4.and h2)))).imp ?_
      rintro u w ⟨_, _, hu, hw, hp, hne⟩ is his c hc l hl e
      rcases hused u.var ((h1 _).1 hu) is his c hc l hl with e' | e'
      · exact hne (e'.symm.trans e)
      · obtain ⟨l', hl', e'⟩ := List.mem_map.1 e'
        exact hp l' hl' (e'.trans e)) o ho
    have he := he i j hj
    rw [(h3 _ hr).2.2] at his
    cases his
    have hout := h5 o ho
    clear hb hused h3 h4 h5
    obtain ⟨B, cur, order, rfl, h⟩ := analyze_result hm hf hR
    obtain ⟨o', ho', hout', hg, _⟩ := h.defd o.var ((h.defined_iff o.var).1 (GateProblem.reached_defined hr).1)
    have e : o' = if usedFwd (B.gp.gates o.var) then o.neg else o := by
      have := hout'.symm.trans hout
      exact Option.some.inj this
    unfold gateClauses GateProblem.at
    rw [clausesAt_append]
    refine hg.sat_of_eval (u := usedFwd (B.gp.gates o.var)) ?_
    have he : o.neg.holds (A'.lane i j) ↔ ∀ c ∈ (if usedFwd (B.gp.gates o.var) then (B.gp.gates o.var).fwd else (B.gp.gates o.var).bwd).map
      (Problem.empty.readClauses f).clauseAt, ∃ l ∈ c, l.var ≠ o.var ∧ l.holds (A'.lane i j) := he
    rw [ho']
    have hcl : ∀ is, is.map (Problem.empty.readClauses f).clauseAt = clausesAt (Problem.empty.readClauses f) is := fun _ => rfl
    rw [hcl] at he
    cases hu : usedFwd (B.gp.gates o.var) with
    | true =>
      simp only [hu, if_true] at he e
      rw [e]
      simpa [Lit.neg_neg] using he
    | false =>
      simp only [hu, Bool.false_eq_true, if_false] at he e
      rw [e]
      simpa using he

/-- **C40 (lanes).** Lanes do not interfere, for any order of evaluation: the final values in a lane are a function
of the initial values in this lane, the same function for all lanes. -/
theorem C40_lanes (cls : Nat → Clause) (O : ClauseOrder) (A A' B B' : SimVectors)
    (hA : A.propagate cls O = some A') (hB : B.propagate cls O = some B') (i i' : Fin 32) (j j' : Nat)
    (hj : j < 64) (hj' : j' < 64) (h : A.lane i j = B.lane i' j') : A'.lane i j = B'.lane i' j' :=
  SimVectors.propagateGates_lane hj hj' _ hA hB h

/-- **C40 (gates covered).** The outputs evaluated are exactly the gates reached from the roots, each once; the
inputs that are randomised are exactly the variables without gate among their inputs. -/
theorem C40_gates (f : CNF) (m : GateMethod) (hm : m.Sound) (fuel count n : Nat) (R : Analyzer) (O : ClauseOrder) :
    let p := Problem.empty.readClauses f
    p.nVars < fuel → Analyzer.analyze m fuel count p = some R →
    ClauseOrder.readGates R.gp p.clauseAt false n = some O →
    (O.outputs.map Lit.var).Nodup ∧
    (∀ v, v ∈ O.outputs.map Lit.var ↔ Reached R.gp p.clauseAt (fun _ => false) v) ∧
    (∀ v, v ∈ O.inputs ↔ (R.gp.gates v).out = none ∧
      ∃ u, Reached R.gp p.clauseAt (fun _ => false) u ∧ ∃ l ∈ (R.gp.gates u).inp, l.var = v) := by
  dsimp only
  intro hf hR hO
  obtain ⟨h1, h2, _, _, _, h6⟩ := readGates_spec hm hf hR hO
  exact ⟨h2, h1, h6⟩

/-- **Finding.** With a gate filter nothing is simulated at all, whatever the gates are. -/
theorem C40_filter_fails (G : GateProblem) (cls : Nat → Clause) (n : Nat) (O : ClauseOrder)
    (h : ClauseOrder.readGates G cls true n = some O) : O.outputs = [] := by
  unfold ClauseOrder.readGates at h
  obtain ⟨T, _, rfl⟩ := Option.map_eq_some_iff.1 h
  suffices ∀ (L : List Nat) (s : ClauseOrder), s.outputs = [] →
      (L.foldl (fun s v => ClauseOrder.backtrack G (if true then some [] else none) v s) s).outputs = [] from this _ _ rfl
  intro L
  induction L with
  | nil => intro s hs; exact hs
  | cons v L ih =>
    intro s hs
    refine ih _ ?_
    simp only [if_true]
    cases ho : (G.gates v).out <;> simp [ClauseOrder.backtrack, ClauseOrder.passes, ho, hs]

/-! ### Examples -/

/-- `0` is the conjunction of `1` and `2`, `1` the exclusive or of `3` and `4`, and `0` holds. -/
def exSim : CNF := [pos 0] :: (andGate (pos 0) (pos 1) (pos 2) ++ xorGate (pos 1) (pos 3) (pos 4))

/-- Vectors with the field `x v` of the variable `v` everywhere. -/
def exVectors (size : Nat) (x : Nat → BitVec 64) : SimVectors := ⟨size, fun v _ => x v⟩

/-- The hypotheses of `C40_consistent_partial` are met: gate 0 is evaluated by its backward clause, whose variables
are inputs. -/
theorem exSim_met : let p := Problem.empty.readClauses exSim
    ∃ R O, Analyzer.analyze exPatterns (p.nVars + 1) 1 p = some R ∧ ClauseOrder.readGates R.gp p.clauseAt false 30 = some O ∧
    O.outputs = [neg 1, pos 0] ∧ O.inputs = [2, 3, 4] ∧ O.numVars = 5 ∧
    (∀ v, (R.gp.gates v).notMono = false → (R.gp.gates v).bwd.length < (R.gp.gates v).fwd.length →
      ∀ i ∈ (R.gp.gates v).bwd, ∀ l ∈ p.clauseAt i, AmongInputs (R.gp.gates v) v l.var) := by
  obtain ⟨R, hR⟩ := C51_terminates exSim exPatterns exPatterns_sound 1
  dsimp only at hR ⊢
  have key : (Analyzer.analyze exPatterns ((Problem.empty.readClauses exSim).nVars + 1) 1
      (Problem.empty.readClauses exSim)).bind (fun R => (ClauseOrder.readGates R.gp (Problem.empty.readClauses exSim).clauseAt false 30).map
        fun O => (O.outputs, O.inputs, O.numVars)) = some ([neg 1, pos 0], [2, 3, 4], 5) := by decide +kernel
  have key2 : (Analyzer.analyze exPatterns ((Problem.empty.readClauses exSim).nVars + 1) 1
      (Problem.empty.readClauses exSim)).map (fun R => ((R.gp.gates 0).bwd, (R.gp.gates 0).inp, (R.gp.gates 1).bwd.length,
        (R.gp.gates 1).fwd.length)) = some ([3], [pos 1, pos 2], 2, 2) := by decide +kernel
  rw [hR] at key key2
  simp only [Option.map_some, Option.some.injEq, Prod.mk.injEq] at key2
  simp only [Option.bind_some] at key
  obtain ⟨O, hO, e⟩ := Option.map_eq_some_iff.1 key
  simp only [Prod.mk.injEq] at e
  refine ⟨R, O, hR, hO, e.1, e.2.1, e.2.2, fun v _ hlt i hi l hl => ?_⟩
  have hv : v < (Problem.empty.readClauses exSim).nVars := by
    obtain ⟨A, cur, order, rfl, h⟩ := analyze_result exPatterns_sound (Nat.lt_succ_self _) hR
    refine h.orderLt v ((h.defined_iff v).1 fun hn => ?_)
    have := h.undef v fun hm => (h.defined_iff v).2 hm hn
    change (A.gp.gates v).bwd.length < (A.gp.gates v).fwd.length at hlt
    rw [this] at hlt
    simp at hlt
  have hn : (Problem.empty.readClauses exSim).nVars = 5 := by decide +kernel
  have key3 : (Analyzer.analyze exPatterns ((Problem.empty.readClauses exSim).nVars + 1) 1
      (Problem.empty.readClauses exSim)).map (fun R => ((R.gp.gates 2).fwd, (R.gp.gates 3).fwd, (R.gp.gates 4).fwd)) =
        some ([], [], []) := by decide +kernel
  rw [hR] at key3
  simp only [Option.map_some, Option.some.injEq, Prod.mk.injEq] at key3
  rw [hn] at hv
  match v, hv with
  | 0, _ =>
    rw [key2.1] at hi
    simp only [List.mem_singleton] at hi
    subst hi
    have hc : (Problem.empty.readClauses exSim).clauseAt 3 = [pos 0, neg 1, neg 2] := by decide +kernel
    rw [hc] at hl
    unfold AmongInputs
    rw [key2.2.1]
    revert l
    decide
  | 1, _ => rw [key2.2.2.1, key2.2.2.2] at hlt; omega
  | 2, _ => rw [key3.1] at hlt; simp at hlt
  | 3, _ => rw [key3.2.1] at hlt; simp at hlt
  | 4, _ => rw [key3.2.2] at hlt; simp at hlt

/-- A concrete evaluation. Set bits are false: 3 and 4 have the values 1100 and 1010 in the last four lanes. -/
example : let p := Problem.empty.readClauses exSim
    ((Analyzer.analyze exPatterns (p.nVars + 1) 1 p).bind fun R => (ClauseOrder.readGates R.gp p.clauseAt false 30).bind
      fun O => ((exVectors O.numVars fun v => if v = 2 then ~~~ 0xE else if v = 3 then ~~~ 0xC else ~~~ 0xA).propagate
        p.clauseAt O).map fun A => (~~~ (A.vec 1 7), ~~~ (A.vec 0 7))) = some (0x6#64, 0x6#64) := by
  decide +kernel

/-- A gate whose backward clause mentions a variable that is not an input and has a larger number than all
inputs. -/
def exOutside : CNF := [[pos 0], [neg 0, pos 1, pos 2], [neg 0, pos 1, pos 3], [pos 0, neg 1, pos 4]]

/-- **Finding.** Propagation reads outside the array of vectors: the gate is evaluated by its backward clause, but
the array is only large enough for the inputs of the forward clauses. -/
theorem C40_outside_fails : ∃ (f : CNF) (R : Analyzer) (O : ClauseOrder), let p := Problem.empty.readClauses f
    Analyzer.analyze exPatterns (p.nVars + 1) 1 p = some R ∧ ClauseOrder.readGates R.gp p.clauseAt false 30 = some O ∧
    ∀ A : SimVectors, A.size = O.numVars → A.propagate p.clauseAt O = none := by
  obtain ⟨R, hR⟩ := C51_terminates exOutside exPatterns exPatterns_sound 1
  have key : (Analyzer.analyze exPatterns ((Problem.empty.readClauses exOutside).nVars + 1) 1
      (Problem.empty.readClauses exOutside)).bind (fun R => (ClauseOrder.readGates R.gp (Problem.empty.readClauses exOutside).clauseAt
        false 30).map fun O => (O.outputs, O.clauses 0, O.numVars)) = some ([pos 0], some [3], 4) := by decide +kernel
  rw [hR] at key
  simp only [Option.bind_some] at key
  obtain ⟨O, hO, e⟩ := Option.map_eq_some_iff.1 key
  simp only [Prod.mk.injEq] at e
  refine ⟨exOutside, R, O, hR, hO, fun A hA => ?_⟩
  rw [e.2.2] at hA
  have hc : (Problem.empty.readClauses exOutside).clauseAt 3 = [pos 0, neg 1, pos 4] := by decide +kernel
  unfold SimVectors.propagate
  rw [e.1]
  simp [SimVectors.propagateGates, SimVectors.propagateGate, pos, e.2.1, hc, SimVectors.gateVec, SimVectors.clauseVec,
    neg, SimVectors.get, hA]

/-- The gate 1 is evaluated by its backward clause, which mentions the output of gate 5. -/
def exUnordered : CNF :=
  [[pos 0], [pos 1], [neg 0, pos 5], [neg 1, pos 2, pos 3], [neg 1, pos 2, pos 4], [pos 1, neg 2, pos 5], [neg 5, pos 6]]

/-- **Finding.** A lane need not be an evaluation of the circuit: gate 1 is evaluated with the value gate 5 has
before its own evaluation. -/
theorem C40_fails : ∃ (f : CNF) (R : Analyzer) (O : ClauseOrder) (A A' : SimVectors), let p := Problem.empty.readClauses f
    Analyzer.analyze exPatterns (p.nVars + 1) 1 p = some R ∧ ClauseOrder.readGates R.gp p.clauseAt false 30 = some O ∧
    A.size = O.numVars ∧ A.propagate p.clauseAt O = some A' ∧ Reached R.gp p.clauseAt (fun _ => false) 1 ∧
    ¬ Sat (A'.lane 0 0) (gateClauses p R 1) := by
  obtain ⟨R, hR⟩ := C51_terminates exUnordered exPatterns exPatterns_sound 1
  have key : (Analyzer.analyze exPatterns ((Problem.empty.readClauses exUnordered).nVars + 1) 1
      (Problem.empty.readClauses exUnordered)).bind (fun R => (ClauseOrder.readGates R.gp (Problem.empty.readClauses exUnordered).clauseAt
        false 30).bind fun O => ((exVectors O.numVars fun _ => 0).propagate (Problem.empty.readClauses exUnordered).clauseAt O).map
          fun A => (A.vec 1 0, A.vec 2 0, A.vec 5 0)) = some (BitVec.allOnes 64, 0, BitVec.allOnes 64) := by decide +kernel
  have key2 : (Analyzer.analyze exPatterns ((Problem.empty.readClauses exUnordered).nVars + 1) 1
      (Problem.empty.readClauses exUnordered)).map (fun R => (R.gp.roots, (R.gp.gates 1).out, (R.gp.gates 1).bwd)) =
        some ([0, 1], some (pos 1), [5]) := by decide +kernel
  rw [hR] at key key2
  simp only [Option.map_some, Option.some.injEq, Prod.mk.injEq] at key2
  simp only [Option.bind_some] at key
  obtain ⟨O, hO, key⟩ := Option.bind_eq_some_iff.1 key
  obtain ⟨A', hA', e⟩ := Option.map_eq_some_iff.1 key
  simp only [Prod.mk.injEq] at e
  have hc : (Problem.empty.readClauses exUnordered).clauseAt 1 = [pos 1] := by decide +kernel
  have hc5 : (Problem.empty.readClauses exUnordered).problem.getD 5 [] = [pos 1, neg 2, pos 5] := by decide +kernel
  refine ⟨exUnordered, R, O, _, A', hR, hO, rfl, hA', ?_, fun hs => ?_⟩
  · exact .root (l := pos 1) (i := 1) (by rw [key2.1]; simp) (by rw [hc]; simp) (by change (R.gp.gates 1).out ≠ none; rw [key2.2.1]; simp) rfl
  · obtain ⟨l, hl, hh⟩ := hs [pos 1, neg 2, pos 5] (by
      unfold gateClauses clausesAt GateProblem.at
      rw [key2.2.2, ← hc5]
      simp)
    simp only [List.mem_cons, List.not_mem_nil, or_false] at hl
    rcases hl with rfl | rfl | rfl <;> simp [Lit.holds, SimVectors.lane, pos, neg, e.1, e.2.1, e.2.2] at hh

end Candy
