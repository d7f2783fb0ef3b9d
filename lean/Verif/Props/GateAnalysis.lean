import Verif.Proofs.GateAnalysis

/-!
# C38, C51, C52: gate recognition

`Analyzer.analyze m fuel count p` is the result of the analysis of the problem `p` with the options `m` and at
most `count` rounds (the limit of tries and the time limit decide). Gates are clause positions in `p`. The
solver that is used for semantic checks is only assumed to be right when it answers UNSAT (C19).
-/

namespace Candy

/-- For all assignments that satisfy `E`, exactly one value of the variable `v` satisfies the clauses `G`,
whatever the values of the other variables. -/
def DefinesOutput (E G : CNF) (v : Nat) : Prop :=
  ∀ a : Assign, Sat a E → ∃ b, ∀ b', Sat (upd a v b') G ↔ b' = b

/-- The solver of the semantic check answers UNSAT only for unsatisfiable formulas. -/
def GateMethod.Sound (m : GateMethod) : Prop := ∀ k F, m.unsat k F = true → ¬ Satisfiable F

/-- The clauses of the gate with output variable `v`. -/
def gateClauses (p : Problem) (R : Analyzer) (v : Nat) : CNF := clausesAt p (R.gp.at v)

theorem definesOutput_of {E G : CNF} {v : Nat} (h1 : LeftTotal G v) (h2 : AtMostOne E G v) : DefinesOutput E G v := by
  intro a ha
  obtain ⟨b, hb⟩ := h1 a
  refine ⟨b, fun b' => ⟨fun hb' => ?_, fun e => e ▸ hb⟩⟩
  refine Classical.not_not.1 fun hne => h2 a ha ?_
  cases b <;> cases b' <;> simp_all

/-- The analysis ends, with any number of rounds: the breadth-first searches need at most one iteration per
gate and one more. -/
theorem C51_terminates (f : CNF) (m : GateMethod) (hm : m.Sound) (count : Nat) :
    let p := Problem.empty.readClauses f
    ∃ R, Analyzer.analyze m (p.nVars + 1) count p = some R := by
  obtain ⟨A, cur, order, h, _⟩ := analyze_inv (readClauses_wf f) (m := m) hm (Nat.lt_succ_self _) count
  exact ⟨_, h⟩

theorem analyze_result {f : CNF} {m : GateMethod} (hm : m.Sound) {fuel count : Nat} {R : Analyzer}
    (hf : (Problem.empty.readClauses f).nVars < fuel)
    (hR : Analyzer.analyze m fuel count (Problem.empty.readClauses f) = some R) :
    ∃ A cur order, R = A.finish ∧ GInv (Problem.empty.readClauses f) m A cur order := by
  obtain ⟨A, cur, order, h1, h2⟩ := analyze_inv (readClauses_wf f) (m := m) hm hf count
  rw [hR] at h1
  cases h1
  exact ⟨A, cur, order, rfl, h2⟩

theorem GInv.defined_iff {p : Problem} {m : GateMethod} {A : Analyzer} {cur order : List Nat} (h : GInv p m A cur order)
    (v : Nat) : (A.gp.gates v).out ≠ none ↔ v ∈ order := by
  constructor
  · intro ho
    refine Classical.not_not.1 fun hn => ho ?_
    rw [h.undef v hn]
  · intro hv
    obtain ⟨o, _, ho, _⟩ := h.defd v hv
    rw [ho]
    simp

/-- **C38 (left-total).** Whatever the values of the other variables, the output of every recognised gate has a
value that satisfies the clauses of the gate. All clauses of the gate contain the output. -/
theorem C38_leftTotal (f : CNF) (m : GateMethod) (hm : m.Sound) (fuel count : Nat) (R : Analyzer) :
    let p := Problem.empty.readClauses f
    p.nVars < fuel → Analyzer.analyze m fuel count p = some R →
    ∀ v, (R.gp.gates v).out ≠ none →
      (∃ o, (R.gp.gates v).out = some o ∧ o.var = v ∧
        (∀ c ∈ clausesAt p (R.gp.gates v).fwd, o.neg ∈ c) ∧ (∀ c ∈ clausesAt p (R.gp.gates v).bwd, o ∈ c)) ∧
      ∀ a : Assign, ∃ b, Sat (upd a v b) (gateClauses p R v) := by
  intro p hf hR v hv
  obtain ⟨A, cur, order, rfl, h⟩ := analyze_result hm hf hR
  obtain ⟨o, rfl, ho, hg, _⟩ := h.defd v ((h.defined_iff v).1 hv)
  refine ⟨⟨o, ho, rfl, hg.fwdOut, hg.bwdOut⟩, ?_⟩
  have := hg.leftTotal
  rw [← clausesAt_append] at this
  exact this

/-- The number of distinct input variables. -/
def inputVars (g : Gate) : Nat := (uniqueBy (fun a b => a.var == b.var) g.inp).length

/-- The clauses of a gate for which the check of `2 ^ n` clauses means what the comment in the code says: all
of them contain all inputs and no clause is repeated; or the gate was not recognised by that check. -/
def ProperShape (p : Problem) (m : GateMethod) (g : Gate) : Prop :=
  m.patterns = false ∨ g.fwd.length ≠ g.bwd.length ∨ g.fwd.length = 1 ∨
    (DistinctClauses (clausesAt p (g.fwd ++ g.bwd)) ∧
      ∀ c ∈ clausesAt p (g.fwd ++ g.bwd), c.length = inputVars g + 1)

/-- **C38 (full gates).** A gate that was recognised although its output is used in both signs defines its
output: every assignment of the other variables leaves exactly one value. Missing: the case of `2 ^ n` clauses
with repetitions or different lengths, for which it is wrong (`C38_fails`). With holistic checks the claim is
restricted to models of the problem. -/
theorem C38_full_partial (f : CNF) (m : GateMethod) (hm : m.Sound) (fuel count : Nat) (R : Analyzer) :
    let p := Problem.empty.readClauses f
    p.nVars < fuel → Analyzer.analyze m fuel count p = some R →
    ∀ v, (R.gp.gates v).out ≠ none → (R.gp.gates v).notMono = true → ProperShape p m (R.gp.gates v) →
      DefinesOutput (if m.holistic then f else []) (gateClauses p R v) v := by
  intro p hf hR v hv hnm hshape
  obtain ⟨A, cur, order, rfl, h⟩ := analyze_result hm hf hR
  obtain ⟨o, rfl, ho, hg, hinp, hu⟩ := h.defd v ((h.defined_iff v).1 hv)
  change (A.gp.gates o.var).notMono = true at hnm
  change ProperShape _ m (A.gp.gates o.var) at hshape
  have hu := hu hnm
  have hlt := hg.leftTotal
  rw [← clausesAt_append] at hlt
  refine definesOutput_of hlt ?_
  have key : ∀ a, (m.holistic = true → Sat a (Problem.empty.readClauses f).problem) → ¬ Sat a (outputFree o
      (clausesAt (Problem.empty.readClauses f) (A.gp.gates o.var).fwd) (clausesAt (Problem.empty.readClauses f) (A.gp.gates o.var).bwd)) := by
    rcases hu with hu | ⟨hpat, h1, h2, h3, h4, h5⟩
    · exact hu
    · rcases hshape with hs | hs | hs | ⟨hs1, hs2⟩
      · rw [hpat] at hs; simp at hs
      · exact absurd (by simpa [clausesAt] using h1) hs
      · exact absurd (by simpa [clausesAt] using hs) h2
      · intro a _
        rw [clausesAt_append] at hs1 hs2
        have hV : inputVars (A.gp.gates o.var) = ((uniqueBy (fun a b => a.var == b.var)
            (fwdInputs o (clausesAt (Problem.empty.readClauses f) (A.gp.gates o.var).fwd))).map Lit.var).length := by
          unfold inputVars; rw [hinp, List.length_map]
        rw [hV] at hs2
        refine hg.power_pattern _ ?_ ?_ hs2 hs1 a
        · intro c hc l hl hlv
          have : l ∈ fwdInputs o (clausesAt (Problem.empty.readClauses f) (A.gp.gates o.var).fwd) ∨
              l.neg ∈ fwdInputs o (clausesAt (Problem.empty.readClauses f) (A.gp.gates o.var).fwd) := by
            rcases List.mem_append.1 hc with hc | hc
            · exact .inl (mem_fwdInputs.2 ⟨c, hc, hl, fun e => hlv (by rw [e]; rfl)⟩)
            · rw [h3]
              exact .inr (mem_bwdInputs.2 ⟨c, hc, by rw [Lit.neg_neg]; exact hl,
                fun e => hlv (by rw [← e]; rfl)⟩)
          rcases this with hm | hm
          · obtain ⟨y, hy, he⟩ := exists_uniqueVar hm
            exact List.mem_map.2 ⟨y, hy, he⟩
          · obtain ⟨y, hy, he⟩ := exists_uniqueVar hm
            exact List.mem_map.2 ⟨y, hy, he⟩
        · rw [List.length_map, List.length_append, ← h1]
          have : (uniqueBy (fun a b => a.var == b.var) (fwdInputs o (clausesAt (Problem.empty.readClauses f) (A.gp.gates o.var).fwd))).length =
            (fwdInputs o (clausesAt (Problem.empty.readClauses f) (A.gp.gates o.var).fwd)).length / 2 := by omega
          rw [this, ← h4]
          omega
  intro a ha hb
  refine key a (fun hh => ?_) (hg.outputFree_sat (a := a) ?_ ?_)
  · rw [hh] at ha
    exact (C03_meaning f a).2 ha
  · rw [← clausesAt_append]; exact hb.1
  · rw [← clausesAt_append]; exact hb.2

/-! ### C51: partition of the clauses -/

theorem perm_flatMap_range {order : List Nat} {n : Nat} {g : Nat → List Nat} (hn : order.Nodup) (hlt : ∀ v ∈ order, v < n)
    (hg : ∀ v, v ∉ order → g v = []) : ((List.range n).flatMap g).Perm (order.flatMap g) := by
  have h1 : ∀ xs : List Nat, xs.flatMap g = (xs.filter (order.contains ·)).flatMap g := by
    intro xs
    induction xs with
    | nil => rfl
    | cons x xs ih =>
      by_cases hx : x ∈ order
      · simp [hx, ih]
      · simp [hx, ih, hg x hx]
  rw [h1]
  refine List.Perm.flatMap_right g ((List.perm_ext_iff_of_nodup (List.nodup_range.sublist List.filter_sublist) hn).2 fun v => ?_)
  simp only [List.mem_filter, List.mem_range, List.contains_eq_mem, decide_eq_true_eq]
  exact ⟨fun h => h.2, fun h => ⟨hlt v h, h⟩⟩

/-- **C51.** The roots, the clauses of the gates and the remainder are together exactly the non-empty clauses
of the problem, each at one place. Missing: an empty clause is at no place (`C51_fails`). -/
theorem C51_partition_partial (f : CNF) (m : GateMethod) (hm : m.Sound) (fuel count : Nat) (R : Analyzer) :
    let p := Problem.empty.readClauses f
    p.nVars < fuel → Analyzer.analyze m fuel count p = some R →
    (R.gp.roots ++ (List.range p.nVars).flatMap (fun v => (R.gp.gates v).fwd ++ (R.gp.gates v).bwd)
      ++ R.gp.remainder).Perm
      ((List.range p.problem.length).filter fun i => decide (p.problem.getD i [] ≠ [])) := by
  dsimp only
  intro hf hR
  obtain ⟨A, cur, order, rfl, h⟩ := analyze_result hm hf hR
  have e1 : ((List.range (Problem.empty.readClauses f).nVars).flatMap A.gp.at).Perm (order.flatMap A.gp.at) :=
    perm_flatMap_range h.orderNodup h.orderLt fun v hv => by
      unfold GateProblem.at; rw [h.undef v hv]; rfl
  have hnd : (A.gp.roots ++ order.flatMap A.gp.at ++ cur).Nodup := h.part.nodup_iff.2 List.nodup_range
  have hmem : ∀ i, i ∈ A.gp.roots ++ order.flatMap A.gp.at ++ cur ↔ i < (Problem.empty.readClauses f).problem.length :=
    fun i => by rw [h.part.mem_iff, List.mem_range]
  have hgne : ∀ i ∈ order.flatMap A.gp.at, (Problem.empty.readClauses f).problem.getD i [] ≠ [] := by
    intro i hi he
    obtain ⟨v, hv, hi⟩ := List.mem_flatMap.1 hi
    obtain ⟨o, _, _, hg, _⟩ := h.defd v hv
    rcases List.mem_append.1 hi with hi | hi
    · have := hg.fwdOut _ (List.mem_map.2 ⟨i, hi, rfl⟩)
      rw [he] at this; simp at this
    · have := hg.bwdOut _ (List.mem_map.2 ⟨i, hi, rfl⟩)
      rw [he] at this; simp at this
  show (A.gp.roots ++ (List.range _).flatMap A.gp.at ++ A.finish.gp.remainder).Perm _
  refine (((List.Perm.refl _).append e1).append (List.Perm.refl _)).trans ?_
  refine (List.perm_ext_iff_of_nodup ?_ (List.nodup_range.sublist List.filter_sublist)).2 fun i => ?_
  · rw [List.nodup_append] at hnd ⊢
    refine ⟨hnd.1, h.nodup_remainder, fun a ha b hb => ?_⟩
    exact hnd.2.2 a ha b ((h.mem_remainder b).1 hb).1
  · rw [List.mem_filter, List.mem_range, ← hmem, decide_eq_true_eq, List.mem_append, List.mem_append, List.mem_append,
      h.mem_remainder, List.mem_append]
    constructor
    · rintro ((h1 | h1) | h1)
      · exact ⟨.inl (.inl h1), h.rootsNe i h1⟩
      · exact ⟨.inl (.inr h1), hgne i h1⟩
      · exact ⟨.inr h1.1, h1.2⟩
    · rintro ⟨(h1 | h1) | h1, h2⟩
      · exact .inl (.inl h1)
      · exact .inl (.inr h1)
      · exact .inr ⟨h1, h2⟩

/-- **C51 (meaning).** Without empty clauses, the roots, the gates and the remainder have together the same
models as the clauses that were read. -/
theorem C51_meaning_partial (f : CNF) (m : GateMethod) (hm : m.Sound) (fuel count : Nat) (R : Analyzer) :
    let p := Problem.empty.readClauses f
    p.nVars < fuel → Analyzer.analyze m fuel count p = some R → [] ∉ f →
    ∀ a, Sat a f ↔ Sat a (clausesAt p R.gp.roots) ∧ Sat a (clausesAt p R.gp.remainder) ∧
      ∀ v < p.nVars, Sat a (gateClauses p R v) := by
  dsimp only
  intro hf hR hne a
  have hp := C51_partition_partial f m hm fuel count R hf hR
  have hne' : ∀ i < (Problem.empty.readClauses f).problem.length, (Problem.empty.readClauses f).problem.getD i [] ≠ [] := by
    intro i hi he
    rw [BlockList.getD_lt hi] at he
    obtain ⟨g, hg, hm⟩ := C03_clauses f
    have hx := List.getElem_mem hi
    rw [he, hg] at hx
    obtain ⟨c, hc, hc'⟩ := List.mem_map.1 hx
    have : c = [] := List.eq_nil_iff_forall_not_mem.2 fun l hl => by
      have := (hm c l).2 hl
      rw [hc'] at this
      simp at this
    exact hne (this ▸ (List.mem_filter.1 hc).1)
  rw [← C03_meaning f a]
  constructor
  · intro hs
    have key : ∀ is : List Nat, (∀ i ∈ is, i < (Problem.empty.readClauses f).problem.length) →
        Sat a (clausesAt (Problem.empty.readClauses f) is) := by
      intro is his c hc
      obtain ⟨i, hi, rfl⟩ := List.mem_map.1 hc
      rw [BlockList.getD_lt (his i hi)]
      exact hs _ (List.getElem_mem _)
    have hlt : ∀ i ∈ R.gp.roots ++ (List.range (Problem.empty.readClauses f).nVars).flatMap
        (fun v => (R.gp.gates v).fwd ++ (R.gp.gates v).bwd) ++ R.gp.remainder,
        i < (Problem.empty.readClauses f).problem.length := fun i hi => by
      have := hp.mem_iff.1 hi
      exact List.mem_range.1 (List.mem_filter.1 this).1
    refine ⟨key _ fun i hi => hlt i (by simp [hi]), key _ fun i hi => hlt i (by simp [hi]), fun v hv => key _ fun i hi => hlt i ?_⟩
    refine List.mem_append_left _ (List.mem_append_right _ (List.mem_flatMap.2 ⟨v, List.mem_range.2 hv, hi⟩))
  · rintro ⟨h1, h2, h3⟩ c hc
    obtain ⟨i, hi, rfl⟩ := List.getElem_of_mem hc
    have : i ∈ (List.range (Problem.empty.readClauses f).problem.length).filter
        fun i => decide ((Problem.empty.readClauses f).problem.getD i [] ≠ []) :=
      List.mem_filter.2 ⟨List.mem_range.2 hi, by simpa using hne' i hi⟩
    rw [← hp.mem_iff, List.mem_append, List.mem_append] at this
    have hget : (Problem.empty.readClauses f).problem[i] = (Problem.empty.readClauses f).problem.getD i [] :=
      (BlockList.getD_lt hi).symm
    rw [hget]
    rcases this with (h4 | h4) | h4
    · exact h1 _ (List.mem_map.2 ⟨i, h4, rfl⟩)
    · obtain ⟨v, hv, h4⟩ := List.mem_flatMap.1 h4
      exact h3 v (List.mem_range.1 hv) _ (List.mem_map.2 ⟨i, h4, rfl⟩)
    · exact h2 _ (List.mem_map.2 ⟨i, h4, rfl⟩)

/-- The empty clause is lost: the analysis of an unsatisfiable problem returns nothing at all. -/
theorem C51_fails : ∃ (f : CNF) (m : GateMethod) (R : Analyzer),
    let p := Problem.empty.readClauses f
    m.Sound ∧ Analyzer.analyze m (p.nVars + 1) 2 p = some R ∧ ¬ Satisfiable f ∧
      R.gp.roots = [] ∧ R.gp.remainder = [] ∧ ∀ v < p.nVars, gateClauses p R v = [] := by
  refine ⟨[[]], ⟨true, false, false, fun _ _ => false⟩, ?_⟩
  obtain ⟨R, hR⟩ := C51_terminates [[]] ⟨true, false, false, fun _ _ => false⟩ (by simp [GateMethod.Sound]) 2
  refine ⟨R, by simp [GateMethod.Sound], hR, ?_, ?_, ?_, ?_⟩
  · rintro ⟨a, ha⟩
    exact not_satClause_nil (ha [] (by simp))
  · have : (Analyzer.analyze ⟨true, false, false, fun _ _ => false⟩ ((Problem.empty.readClauses [[]]).nVars + 1) 2
        (Problem.empty.readClauses [[]])).map (fun R => R.gp.roots) = some [] := by decide +kernel
    rw [hR] at this
    simpa using this
  · have : (Analyzer.analyze ⟨true, false, false, fun _ _ => false⟩ ((Problem.empty.readClauses [[]]).nVars + 1) 2
        (Problem.empty.readClauses [[]])).map (fun R => R.gp.remainder) = some [] := by decide +kernel
    rw [hR] at this
    simpa using this
  · have : (Problem.empty.readClauses [[]]).nVars = 0 := by decide +kernel
    intro v hv
    omega

/-! ### C52: the gates form an acyclic circuit -/

theorem sat_congr_vars {a b : Assign} {G : CNF} (h : ∀ c ∈ G, ∀ l ∈ c, a l.var = b l.var) : Sat a G ↔ Sat b G := by
  have key : ∀ a b : Assign, (∀ c ∈ G, ∀ l ∈ c, a l.var = b l.var) → Sat a G → Sat b G := by
    intro a b h hs c hc
    obtain ⟨l, hl, hh⟩ := hs c hc
    refine ⟨l, hl, ?_⟩
    unfold Lit.holds at *
    rw [← h c hc l hl]; exact hh
  exact ⟨key a b h, key b a fun c hc l hl => (h c hc l hl).symm⟩

theorem extend_order {p : Problem} {g : Nat → List Nat} : ∀ {order : List Nat}, order.Nodup →
    (order.Pairwise fun w v => ∀ i ∈ g w, Absent p v i) → (∀ v ∈ order, LeftTotal (clausesAt p (g v)) v) →
    ∀ a : Assign, ∃ a' : Assign, (∀ v, v ∉ order → a' v = a v) ∧ ∀ v ∈ order, Sat a' (clausesAt p (g v)) := by
  intro order
  induction order with
  | nil => intro _ _ _ a; exact ⟨a, fun _ _ => rfl, by simp⟩
  | cons w rest ih =>
    intro hn hp hl a
    rw [List.nodup_cons] at hn
    rw [List.pairwise_cons] at hp
    obtain ⟨b, hb⟩ := hl w (by simp) a
    obtain ⟨a', h1, h2⟩ := ih hn.2 hp.2 (fun v hv => hl v (List.mem_cons_of_mem _ hv)) (upd a w b)
    refine ⟨a', fun v hv => ?_, fun v hv => ?_⟩
    · rw [List.mem_cons, not_or] at hv
      rw [h1 v hv.2]
      simp [upd, hv.1]
    · rcases List.mem_cons.1 hv with rfl | hv
      · refine (sat_congr_vars fun c hc l hl => ?_).1 hb
        obtain ⟨i, hi, rfl⟩ := List.mem_map.1 hc
        rw [h1]
        intro hm
        exact hp.1 _ hm i hi l hl rfl
      · exact h2 v hv

/-- **C52.** The gates are acyclic: there is a ranking of the variables in which every input of a gate that is
itself the output of a gate has a smaller rank than the output. -/
theorem C52_acyclic (f : CNF) (m : GateMethod) (hm : m.Sound) (fuel count : Nat) (R : Analyzer) :
    let p := Problem.empty.readClauses f
    p.nVars < fuel → Analyzer.analyze m fuel count p = some R →
    ∃ rank : Nat → Nat, ∀ v, (R.gp.gates v).out ≠ none → ∀ c ∈ gateClauses p R v, ∀ l ∈ c,
      l.var ≠ v → (R.gp.gates l.var).out ≠ none → rank l.var < rank v := by
  dsimp only
  intro hf hR
  obtain ⟨A, cur, order, rfl, h⟩ := analyze_result hm hf hR
  refine ⟨fun v => order.idxOf v, fun v hv c hc l hl hne hlv => ?_⟩
  have hv := (h.defined_iff v).1 hv
  have hlv := (h.defined_iff l.var).1 hlv
  obtain ⟨i, hi, rfl⟩ := List.mem_map.1 hc
  change i ∈ A.gp.at v at hi
  have h1 : order.idxOf v < order.length := List.idxOf_lt_length_iff.2 hv
  have h2 : order.idxOf l.var < order.length := List.idxOf_lt_length_iff.2 hlv
  refine Nat.lt_of_not_le fun hle => ?_
  have hle : order.idxOf v ≤ order.idxOf l.var := hle
  have hne' : order.idxOf v ≠ order.idxOf l.var := by
    intro e
    have e1 := List.getElem_idxOf h1
    have e2 := List.getElem_idxOf h2
    apply hne
    rw [← e1, ← e2]
    simp only [e]
  have := List.pairwise_iff_getElem.1 h.later _ _ h1 h2 (by omega)
  rw [List.getElem_idxOf h1, List.getElem_idxOf h2] at this
  exact this i hi l hl rfl

/-- **C52 (evaluation).** Every assignment of the variables that are not outputs extends to an assignment that
satisfies the clauses of all gates. -/
theorem C52_extension (f : CNF) (m : GateMethod) (hm : m.Sound) (fuel count : Nat) (R : Analyzer) :
    let p := Problem.empty.readClauses f
    p.nVars < fuel → Analyzer.analyze m fuel count p = some R →
    ∀ a : Assign, ∃ a' : Assign, (∀ v, (R.gp.gates v).out = none → a' v = a v) ∧
      ∀ v, Sat a' (gateClauses p R v) := by
  dsimp only
  intro hf hR a
  obtain ⟨A, cur, order, rfl, h⟩ := analyze_result hm hf hR
  obtain ⟨a', h1, h2⟩ := extend_order (g := A.gp.at) h.orderNodup h.later (fun v hv => by
    obtain ⟨o, rfl, _, hg, _⟩ := h.defd v hv
    have := hg.leftTotal
    rw [← clausesAt_append] at this
    exact this) a
  refine ⟨a', fun v hv => h1 v fun hm => (h.defined_iff v).2 hm hv, fun v => ?_⟩
  by_cases hv : v ∈ order
  · exact h2 v hv
  · intro c hc
    change c ∈ clausesAt _ (A.gp.at v) at hc
    unfold GateProblem.at at hc
    rw [h.undef v hv] at hc
    simp [clausesAt] at hc

theorem unique_order {p : Problem} {g : Nat → List Nat} : ∀ {order : List Nat},
    (order.Pairwise fun w v => ∀ i ∈ g w, Absent p v i) → (∀ v ∈ order, AtMostOne [] (clausesAt p (g v)) v) →
    ∀ a b : Assign, (∀ v, v ∉ order → a v = b v) → (∀ v ∈ order, Sat a (clausesAt p (g v)) ∧ Sat b (clausesAt p (g v))) →
      ∀ v, a v = b v := by
  intro order
  induction order with
  | nil => intro _ _ a b h _ v; exact h v (by simp)
  | cons w rest ih =>
    intro hp hu a b h hs
    rw [List.pairwise_cons] at hp
    refine ih hp.2 (fun v hv => hu v (List.mem_cons_of_mem _ hv)) a b ?_ (fun v hv => hs v (List.mem_cons_of_mem _ hv))
    intro v hv
    by_cases hvw : v = w
    · subst hvw
      refine Classical.not_not.1 fun hne => hu v (by simp) a (by simp [Sat]) ?_
      obtain ⟨h1, h2⟩ := hs v (by simp)
      have k1 : Sat (upd a v (a v)) (clausesAt p (g v)) := by
        have : upd a v (a v) = a := by funext x; simp only [upd]; split <;> simp_all
        rw [this]; exact h1
      have k2 : Sat (upd a v (b v)) (clausesAt p (g v)) := by
        refine (sat_congr_vars fun c hc l hl => ?_).1 h2
        obtain ⟨i, hi, rfl⟩ := List.mem_map.1 hc
        unfold upd
        split
        · rename_i e; rw [e]
        · rename_i e
          refine (h l.var ?_).symm
          intro hm
          rcases List.mem_cons.1 hm with hm | hm
          · exact e hm
          · exact hp.1 _ hm i hi l hl rfl
      cases ha : a v <;> cases hb : b v
      · exact absurd (ha.trans hb.symm) hne
      · exact ⟨hb ▸ k2, ha ▸ k1⟩
      · exact ⟨ha ▸ k1, hb ▸ k2⟩
      · exact absurd (ha.trans hb.symm) hne
    · exact h v (by simp [hvw, hv])

/-- **C52 (determinism).** If every gate defines its output, then the values of the variables that are not
outputs determine the values of all outputs. -/
theorem C52_unique (f : CNF) (m : GateMethod) (hm : m.Sound) (fuel count : Nat) (R : Analyzer) :
    let p := Problem.empty.readClauses f
    p.nVars < fuel → Analyzer.analyze m fuel count p = some R →
    (∀ v, (R.gp.gates v).out ≠ none → DefinesOutput [] (gateClauses p R v) v) →
    ∀ a b : Assign, (∀ v, (R.gp.gates v).out = none → a v = b v) →
      (∀ v, Sat a (gateClauses p R v)) → (∀ v, Sat b (gateClauses p R v)) → ∀ v, a v = b v := by
  dsimp only
  intro hf hR hd a b hab ha hb
  obtain ⟨A, cur, order, rfl, h⟩ := analyze_result hm hf hR
  refine unique_order (g := A.gp.at) h.later (fun v hv x hx hs => ?_) a b (fun v hv => hab v ?_) (fun v _ => ⟨ha v, hb v⟩)
  · obtain ⟨c, hc⟩ := hd v ((h.defined_iff v).2 hv) x hx
    have := (hc true).1 hs.1
    have := (hc false).1 hs.2
    simp_all
  · exact Classical.not_not.1 fun hn => hv ((h.defined_iff v).1 hn)

/-! ### Examples -/

/-- `r` is the exclusive or of `o` and `c`, `o` the exclusive or of `a` and `b`, and `r` holds. -/
def exCircuit : CNF := [pos 0] :: (xorGate (pos 0) (pos 1) (pos 2) ++ xorGate (pos 1) (pos 3) (pos 4))

def exPatterns : GateMethod := ⟨true, false, false, fun _ _ => false⟩

theorem exPatterns_sound : exPatterns.Sound := by simp [GateMethod.Sound, exPatterns]

/-- The hypotheses are met: both gates are recognised, the second one by its pattern, and it has the proper
shape. -/
example : let p := Problem.empty.readClauses exCircuit
    ∃ R, Analyzer.analyze exPatterns (p.nVars + 1) 1 p = some R ∧ R.gp.roots = [0] ∧
      (R.gp.gates 0).out = some (pos 0) ∧ (R.gp.gates 1).out = some (pos 1) ∧ (R.gp.gates 1).notMono = true ∧
      ProperShape p exPatterns (R.gp.gates 1) ∧ R.gp.remainder = [] := by
  obtain ⟨R, hR⟩ := C51_terminates exCircuit exPatterns exPatterns_sound 1
  have key : (Analyzer.analyze exPatterns ((Problem.empty.readClauses exCircuit).nVars + 1) 1
      (Problem.empty.readClauses exCircuit)).map (fun R => (R.gp.roots, (R.gp.gates 0).out, (R.gp.gates 1).out,
        R.gp.remainder)) = some ([0], some (pos 0), some (pos 1), []) := by
    decide +kernel
  have key2 : (Analyzer.analyze exPatterns ((Problem.empty.readClauses exCircuit).nVars + 1) 1
      (Problem.empty.readClauses exCircuit)).map (fun R => ((R.gp.gates 1).notMono, (R.gp.gates 1).fwd,
        (R.gp.gates 1).bwd, (R.gp.gates 1).inp)) = some (true, [5, 6], [7, 8], [pos 3, neg 3, pos 4, neg 4]) := by
    decide +kernel
  dsimp only
  rw [hR] at key key2
  simp only [Option.map_some, Option.some.injEq, Prod.mk.injEq] at key key2
  obtain ⟨k1, k2, k3, k8⟩ := key
  obtain ⟨k4, k5, k6, k7⟩ := key2
  refine ⟨R, hR, k1, k2, k3, k4, .inr (.inr (.inr ?_)), k8⟩
  unfold inputVars
  rw [k5, k6, k7]
  have hcl : clausesAt (Problem.empty.readClauses exCircuit) ([5, 6] ++ [7, 8]) = exCircuit.drop 5 := by decide +kernel
  rw [hcl]
  refine ⟨?_, by decide⟩
  refine List.Pairwise.imp (R := fun c d : Clause => ∃ l ∈ c, l ∉ d) (fun {c d} ⟨l, h1, h2⟩ he => h2 ((he l).1 h1)) ?_
  decide

/-- The clauses of `C38_fails`: variable 1 is used in both signs by the gate of variable 0, which is a root. -/
def exRepeated : CNF :=
  [[pos 0], [neg 0, pos 1, pos 2], [neg 0, neg 1, pos 2],
   [neg 1, pos 3, pos 4], [neg 1, pos 3, pos 4, pos 5], [neg 1, pos 3, pos 4, neg 5], [neg 1, neg 3, neg 4, pos 5],
   [pos 1, pos 3, neg 4, pos 5], [pos 1, pos 3, neg 4, neg 5], [pos 1, neg 3, pos 4, pos 5], [pos 1, neg 3, pos 4, neg 5]]

/-- **Finding.** The pattern check for `2 ^ n` clauses accepts clauses that do not define the output: with the
variables 3, 4 and 5 true, both values of variable 1 satisfy all clauses of its gate. -/
theorem C38_fails : ∃ R, let p := Problem.empty.readClauses exRepeated
    Analyzer.analyze exPatterns (p.nVars + 1) 1 p = some R ∧ (R.gp.gates 1).out = some (pos 1) ∧
      (R.gp.gates 1).notMono = true ∧ ¬ DefinesOutput [] (gateClauses p R 1) 1 := by
  obtain ⟨R, hR⟩ := C51_terminates exRepeated exPatterns exPatterns_sound 1
  have key : (Analyzer.analyze exPatterns ((Problem.empty.readClauses exRepeated).nVars + 1) 1
      (Problem.empty.readClauses exRepeated)).map (fun R => ((R.gp.gates 1).out, (R.gp.gates 1).notMono,
        (R.gp.gates 1).fwd ++ (R.gp.gates 1).bwd)) = some (some (pos 1), true, [3, 4, 5, 6, 7, 8, 9, 10]) := by
    decide +kernel
  rw [hR] at key
  simp only [Option.map_some, Option.some.injEq, Prod.mk.injEq] at key
  obtain ⟨k1, k2, k3⟩ := key
  refine ⟨R, hR, k1, k2, fun hd => ?_⟩
  have hcl : gateClauses (Problem.empty.readClauses exRepeated) R 1 = exRepeated.drop 3 := by
    unfold gateClauses GateProblem.at
    rw [k3]
    decide +kernel
  rw [hcl] at hd
  obtain ⟨b, hb⟩ := hd (fun _ => true) (by simp [Sat])
  have h1 := (hb true).1 (by simp [exRepeated, Sat, SatClause, Lit.holds, upd])
  have h2 := (hb false).1 (by simp [exRepeated, Sat, SatClause, Lit.holds, upd])
  simp_all

end Candy
