import Verif.Proofs.AigSat

/-!
# C57: the circuit of cnf2aig

`cnf2aig` recognises the gates of a formula and prints an and-inverter circuit. A user relies on two things:
the file is a circuit in the format AIGER, and its output can be true exactly if the formula is satisfiable.
-/

namespace Candy

/-- What one gate in memory says; a missing right input is the constant true. -/
def BinaryAnd.Holds (v : Assign) (a : BinaryAnd) : Prop :=
  a.output.holds v ↔ a.left.holds v ∧ ∀ r, a.right = some r → r.holds v

theorem BinaryAnd.holds_iff {v : Assign} {a : BinaryAnd} : a.Holds v ↔ a.gate.Ok v := by
  unfold BinaryAnd.Holds AndGate.Ok BinaryAnd.gate
  cases h : a.right with
  | none => simp
  | some r => simp

theorem aig_facts {f : CNF} {m : GateMethod} (hm : m.Sound) {fuel count : Nat} {R : Analyzer}
    (hf : (Problem.empty.readClauses f).nVars < fuel) (hR : Analyzer.analyze m fuel count (Problem.empty.readClauses f) = some R)
    (hne : [] ∉ (Problem.empty.readClauses f).problem) (hp : (Problem.empty.readClauses f).problem ≠ []) :
    ∃ order, (normalizeRoots (Problem.empty.readClauses f) R.gp).Wf order ∧
      ∀ C fuel', createAIG (normalizeRoots (Problem.empty.readClauses f) R.gp) fuel' = .ok C →
        (∃ vis, CircuitOf (normalizeRoots (Problem.empty.readClauses f) R.gp) C vis) ∧
        ((∃ v, (∀ a ∈ C.ands, a.gate.Ok v) ∧ C.root.holds v) ↔ Satisfiable f) := by
  have hr := analyze_roots hR
  obtain ⟨A, cur, order, rfl, h⟩ := analyze_result hm hf hR
  have W := h.aigWf hr hne hp
  refine ⟨_, W, fun C fuel' hC => ?_⟩
  obtain ⟨vis, hC⟩ := createAIG_spec W hC
  refine ⟨⟨vis, hC⟩, ?_⟩
  have hsat : Satisfiable f ↔ Satisfiable (Problem.empty.readClauses f).problem :=
    exists_congr fun a => (C03_meaning f a).symm
  rw [hsat, hC.rootEq]
  exact ⟨fun ⟨v, h1, h2⟩ => h.circuit_sat hne hC h1 h2, fun hs => h.sat_circuit W hC hs⟩

/-- **C57 (circuit in memory).** Let `f` have no empty clause and a clause that is not a tautology. Whatever gates
are recognised, if the conversion is free of undefined behaviour, the output of the circuit can be true exactly
if `f` is satisfiable. -/
theorem C57_in_memory_partial (f : CNF) (m : GateMethod) (hm : m.Sound) (fuel count : Nat) (R : Analyzer) (C : AigCircuit) :
    let p := Problem.empty.readClauses f
    p.nVars < fuel → Analyzer.analyze m fuel count p = some R → [] ∉ f → (∃ c ∈ f, ∀ l ∈ c, l.neg ∉ c) →
    createAIG (normalizeRoots p R.gp) fuel = .ok C →
    ((∃ v : Assign, (∀ a ∈ C.ands, a.Holds v) ∧ C.root.holds v) ↔ Satisfiable f) := by
  dsimp only
  intro hf hR hne hc hC
  have hp : (Problem.empty.readClauses f).problem ≠ [] := by
    obtain ⟨c, hc, ht⟩ := hc
    obtain ⟨g, hg, _⟩ := C03_clauses f
    rw [hg]
    intro e
    have : c ∈ f.filter fun c => !decide (∃ l ∈ c, l.neg ∈ c) := List.mem_filter.2 ⟨hc, by
      simpa using ht⟩
    rw [List.map_eq_nil_iff] at e
    rw [e] at this
    simp at this
  obtain ⟨order, W, key⟩ := aig_facts hm hf hR (fun h => hne ((C03_empty f).1 h)) hp
  rw [← (key C fuel hC).2]
  exact exists_congr fun v => and_congr_left fun _ => forall_congr' fun a => imp_congr_right fun _ => BinaryAnd.holds_iff

theorem aig_noZero {f : CNF} {R : Analyzer} {order : List Nat} {C : AigCircuit} {vis : Lit → Prop}
    (W : (normalizeRoots (Problem.empty.readClauses f) R.gp).Wf order)
    (hC : CircuitOf (normalizeRoots (Problem.empty.readClauses f) R.gp) C vis)
    (h0 : ∀ c ∈ f, ∀ l ∈ c, l.var ≠ 0) (hn : (Problem.empty.readClauses f).nVars ≠ 0) : NoZero C := by
  have hcl : ∀ i, ∀ x ∈ (Problem.empty.readClauses f).problem.getD i [], x.var ≠ 0 := by
    intro i x hx
    obtain ⟨g, hg, hm⟩ := C03_clauses f
    by_cases hi : i < (Problem.empty.readClauses f).problem.length
    · rw [BlockList.getD_lt hi] at hx
      have hmem := List.getElem_mem hi
      generalize (Problem.empty.readClauses f).problem[i] = d at hx hmem
      rw [hg] at hmem
      obtain ⟨c, hc, rfl⟩ := List.mem_map.1 hmem
      exact h0 c (List.mem_filter.1 hc).1 x ((hm c x).1 hx)
    · rw [BlockList.getD_ge (Nat.le_of_not_lt hi)] at hx
      simp at hx
  have hgl : ∀ w g, (normalizeRoots (Problem.empty.readClauses f) R.gp).gates w = some g → ∀ c ∈ g.2, ∀ x ∈ c, x.var ≠ 0 := by
    intro w g hg c hc x hx
    rcases normalizeRoots_gate hg with ⟨_, rfl⟩ | ⟨_, o, _, rfl⟩
    · obtain ⟨i, _, rfl⟩ := List.mem_map.1 hc
      rcases List.mem_append.1 hx with hx | hx
      · exact hcl i x hx
      · rw [List.mem_singleton] at hx
        rw [hx]; exact hn
    · obtain ⟨i, _, rfl⟩ := List.mem_map.1 hc
      exact hcl i x hx
  have hout : ∀ a ∈ C.ands, a.output.var ≠ 0 := by
    intro a ha
    rcases (hC.outs a ha).1 with ⟨l, hl, e⟩ | h1
    · obtain ⟨g, hg, e'⟩ := hC.gate l hl
      cases hcs : g.2 with
      | nil => exact (W.nonempty hg hcs).elim
      | cons c cs =>
        have hc : c ∈ g.2 := by rw [hcs]; exact List.mem_cons_self
        have := hgl _ g hg c hc _ (W.fwd hg c hc)
        rw [Lit.var_neg, ← e', e] at this
        exact this
    · omega
  have hin : 0 ∉ C.inputs := by
    intro h
    obtain ⟨_, w, g, hg, c, hc, x, hx, e⟩ := hC.inputs 0 h
    exact hgl w g hg c hc x hx e
  refine ⟨hin, by rw [hC.rootEq]; exact hn, hout, fun a ha x hx e => ?_⟩
  rcases hC.used a ha x hx with h | ⟨b, hb, h⟩
  · exact hin (e ▸ h)
  · exact hout b hb (by rw [h, e])

/-- **C57 (file).** If no clause mentions variable 0, the variable 1 of the DIMACS file, and the program runs
without undefined behaviour, then the file printed is in the format, the circuit computes a function of its
inputs, and its output can be true exactly if the formula is satisfiable. What is missing: formulas with
variable 0 (`C57_fails_constant`) and runs with undefined behaviour (`C57_fails_negate`, `C57_fails_strip`). -/
theorem C57_file_partial (f : CNF) (m : GateMethod) (hm : m.Sound) (fuel count : Nat) (X : Aiger)
    (hf : (Problem.empty.readClauses f).nVars < fuel) (h0 : ∀ c ∈ f, ∀ l ∈ c, l.var ≠ 0)
    (h : cnf2aig m fuel count f = .ok X) : X.Format ∧ X.Functional ∧ (X.CanBeTrue ↔ Satisfiable f) := by
  have hsat : Satisfiable f ↔ Satisfiable (Problem.empty.readClauses f).problem :=
    exists_congr fun a => (C03_meaning f a).symm
  unfold cnf2aig at h
  dsimp only at h
  have htriv : ∀ n, n / 2 = 0 → (⟨0, [], n, []⟩ : Aiger).Format ∧ (⟨0, [], n, []⟩ : Aiger).Functional := by
    intro n hn
    refine ⟨⟨by simp, by simp, by simp, by simp, ?_⟩, fun w => ⟨fun _ => false, ⟨rfl, by simp⟩, by simp⟩, fun v v' hv hv' _ => ?_⟩
    · rintro k (rfl | ⟨g, hg, _⟩)
      · exact .inl hn
      · simp at hg
    · unfold Aiger.value
      dsimp only
      rw [hn, hv.const, hv'.const]
  by_cases hz : (Problem.empty.readClauses f).problem.length = 0
  · rw [if_pos hz] at h
    cases h
    refine ⟨(htriv 1 (by decide)).1, (htriv 1 (by decide)).2, ?_⟩
    rw [hsat, List.length_eq_zero_iff.1 hz]
    exact ⟨fun _ => ⟨fun _ => false, by simp [Sat]⟩, fun _ => ⟨fun _ => false, ⟨rfl, by simp⟩, rfl⟩⟩
  · rw [if_neg hz] at h
    have hp : (Problem.empty.readClauses f).problem ≠ [] := fun e => hz (by rw [e]; rfl)
    by_cases hu : (Problem.empty.readClauses f).nVars = 0 ∨ (Problem.empty.readClauses f).problem.any (fun c => c.length == 0) = true
    · rw [if_pos hu] at h
      cases h
      have hempty : [] ∈ f := by
        rcases hu with hu | hu
        · obtain ⟨g, hg, _⟩ := C03_clauses f
          rw [hg] at hp
          have hp' : f.filter (fun c => !decide (∃ l ∈ c, l.neg ∈ c)) ≠ [] := fun e => hp (by rw [e]; rfl)
          obtain ⟨c, hc⟩ := List.exists_mem_of_ne_nil _ hp'
          have hc' := (List.mem_filter.1 hc).1
          cases c with
          | nil => exact hc'
          | cons l ls =>
            have := (C03_nVars f).1 _ hc' l List.mem_cons_self
            omega
        · rw [List.any_eq_true] at hu
          obtain ⟨c, hc, hl⟩ := hu
          rw [beq_iff_eq, List.length_eq_zero_iff] at hl
          subst hl
          exact (C03_empty f).1 hc
      refine ⟨(htriv 0 (by decide)).1, (htriv 0 (by decide)).2, ?_⟩
      constructor
      · rintro ⟨v, h1, h2⟩
        have := h1.const
        simp [Aiger.value, this] at h2
      · rintro ⟨a, ha⟩
        exact (not_satClause_nil (ha [] hempty)).elim
    · rw [if_neg hu] at h
      rw [not_or] at hu
      have hne : [] ∉ (Problem.empty.readClauses f).problem := fun he => hu.2 (List.any_eq_true.2 ⟨[], he, rfl⟩)
      cases hR : Analyzer.analyze m fuel count (Problem.empty.readClauses f) with
      | none => rw [hR] at h; cases h
      | some R =>
        rw [hR] at h
        dsimp only at h
        cases hC : createAIG (normalizeRoots (Problem.empty.readClauses f) R.gp) fuel with
        | ub => rw [hC] at h; cases h
        | more => rw [hC] at h; cases h
        | ok C =>
          rw [hC] at h
          dsimp only at h
          cases hX : printAIG C with
          | none => rw [hX] at h; cases h
          | some Y =>
            rw [hX] at h
            cases h
            obtain ⟨order, W, key⟩ := aig_facts hm hf hR hne hp
            obtain ⟨⟨vis, hc⟩, hs⟩ := key C fuel hC
            have hz := aig_noZero W hc h0 hu.1
            exact ⟨hc.format W hX hz, hc.functional W hX hz, by rw [printed_canBeTrue hX hz, hs]⟩

/-- **C57 (termination).** The conversion takes finitely many steps for every formula. -/
theorem C57_terminates (f : CNF) (m : GateMethod) (hm : m.Sound) (count : Nat) (fuel : Nat) (R : Analyzer) :
    let p := Problem.empty.readClauses f
    p.nVars < fuel → Analyzer.analyze m fuel count p = some R → [] ∉ p.problem → p.problem ≠ [] →
    ∃ N, ∀ fuel', N ≤ fuel' → createAIG (normalizeRoots p R.gp) fuel' ≠ .more := by
  dsimp only
  intro hf hR hne hp
  obtain ⟨order, W, _⟩ := aig_facts hm hf hR hne hp
  exact createAIG_total W

/-! ### Examples and findings -/

/-- `a = b ∧ c` and `c = d ∧ ¬ e`, with `a` true. -/
def exAig : CNF := [[pos 1], [neg 1, pos 2], [neg 1, pos 3], [neg 3, pos 4], [neg 3, neg 5]]

/-- The hypotheses of `C57_file_partial` are met by a formula with two gates. -/
example : cnf2aig exPatterns 20 1 exAig = .ok ⟨7, [4, 8, 10], 12, [(12, 2, 1), (2, 4, 6), (6, 8, 11)]⟩ ∧
    (∀ c ∈ exAig, ∀ l ∈ c, l.var ≠ 0) ∧ (Problem.empty.readClauses exAig).nVars < 20 :=
  ⟨by decide +kernel, by decide, by decide +kernel⟩

/-- And by an unsatisfiable one: its output is the conjunction of an input and its negation. -/
example : cnf2aig exPatterns 20 1 [[pos 1], [neg 1]] = .ok ⟨3, [2], 4, [(4, 2, 3)]⟩ := by decide +kernel

/-- The circuit in memory of a formula on which printing is undefined. -/
example : let p := Problem.empty.readClauses [[pos 1, pos 2]]
    ∃ R C, Analyzer.analyze exPatterns 20 1 p = some R ∧ createAIG (normalizeRoots p R.gp) 20 = .ok C ∧ C.ands.length = 2 := by
  dsimp only
  have key : ((Analyzer.analyze exPatterns 20 1 (Problem.empty.readClauses [[pos 1, pos 2]])).map fun R =>
      createAIG (normalizeRoots (Problem.empty.readClauses [[pos 1, pos 2]]) R.gp) 20) =
      some (.ok ⟨5, [1, 2], [⟨neg 5, neg 1, some (neg 2)⟩, ⟨pos 3, pos 5, none⟩], pos 3⟩) := by decide +kernel
  cases hR : Analyzer.analyze exPatterns 20 1 (Problem.empty.readClauses [[pos 1, pos 2]]) with
  | none => rw [hR] at key; cases key
  | some R =>
    rw [hR] at key
    exact ⟨R, _, rfl, Option.some.inj key, rfl⟩

/-- **Finding.** Variables are printed without an offset, so that variable 0, the variable 1 of the DIMACS file,
becomes the constant false: the circuit printed for the formula with the single clause `x` has the constant
among its inputs and its output is never true. -/
theorem C57_fails_constant : ∃ X, cnf2aig exPatterns 20 1 [[pos 0]] = .ok X ∧ Satisfiable [[pos 0]] ∧ ¬ X.CanBeTrue ∧ ¬ X.Format := by
  refine ⟨⟨2, [0], 2, [(2, 0, 1)]⟩, by decide +kernel, ⟨fun _ => true, by simp [Sat, SatClause, Lit.holds, pos]⟩, ?_, ?_⟩
  · rintro ⟨v, h1, h2⟩
    have := h1.ands (2, 0, 1) (by simp)
    dsimp only at this h2
    rw [h2] at this
    simp [Aiger.value, h1.const] at this
  · intro h
    have := h.inputEven 0 (by simp)
    omega

/-- **Finding.** New variables are numbered from `var_count + 1`, but the vector `negate` has `var_count` entries: as
soon as the circuit needs a variable of its own, printing reads and writes behind the vector. One clause with
two literals is enough, and so are three clauses. -/
theorem C57_fails_negate : cnf2aig exPatterns 20 1 [[pos 1, pos 2]] = .ub ∧
    cnf2aig exPatterns 20 1 [[pos 1], [pos 2], [pos 3]] = .ub := by
  constructor <;> decide +kernel

/-- In general: a circuit with a gate whose output is the last variable created cannot be printed. -/
theorem C57_fails_negate_all (C : AigCircuit) (a : BinaryAnd) (ha : a ∈ C.ands) (hv : C.varCount ≤ a.output.var) : printAIG C = none := by
  cases h : printAIG C with
  | none => rfl
  | some X =>
    have := (printAIG_eq h).2.2 a ha
    omega

/-- `a` is true, `a = (g ∨ b) ∧ (¬ g ∨ c)`, and `g = d ∧ e`. -/
def exBoth : CNF :=
  [[pos 1], [neg 1, pos 2, pos 3], [neg 1, neg 2, pos 4], [neg 2, pos 5], [neg 2, pos 6], [pos 2, neg 5, neg 6]]

/-- **Finding.** A gate whose output is used in both signs is reached through the negated output as well; its
clauses contain the negation of the output, so nothing is removed from them, and the copy is written to a
vector that is one entry too short. -/
theorem C57_fails_strip : ∃ R, let p := Problem.empty.readClauses exBoth
    Analyzer.analyze exPatterns 20 1 p = some R ∧ (R.gp.gates 2).out = some (pos 2) ∧
      createAIG (normalizeRoots p R.gp) 50 = .ub := by
  dsimp only
  have key : ((Analyzer.analyze exPatterns 20 1 (Problem.empty.readClauses exBoth)).map fun R =>
      ((R.gp.gates 2).out, createAIG (normalizeRoots (Problem.empty.readClauses exBoth) R.gp) 50)) = some (some (pos 2), .ub) := by
    decide +kernel
  cases hR : Analyzer.analyze exPatterns 20 1 (Problem.empty.readClauses exBoth) with
  | none => rw [hR] at key; cases key
  | some R =>
    rw [hR] at key
    have := Option.some.inj key
    exact ⟨R, rfl, congrArg Prod.fst this, congrArg Prod.snd this⟩

end Candy
