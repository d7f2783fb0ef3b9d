import Verif.Proofs.Builder

/-!
# Selection of the solver (property C63)

`Fulfils` and `portfolioHeuristic` are defined in `SpecBuilder.lean`.
-/

namespace Candy.Builder
open Candy Candy.Options

/-- **C63** With one thread, `main` makes the solver that the options ask for, whatever the problem is. Missing: the modes
`vanishing` and `implicationbudgeted` of implicit learning (`C63_modes_fail`), abstraction refinement
(`C63_rsar_fails`), advice sizes other than 2 and 3 (`C63_size_fails`). -/
theorem C63_selection_partial (limited : Bool) (a : Analysis) (o : Settings) (hr : o.rsar = false)
    (hs : o.size = 2 ∨ o.size = 3) (hm : o.rsil = true → o.lrb = false → o.mode = "unrestricted".toList) :
    ∃ k, mainSolver limited a o = .solver k ∧ Fulfils o k := by
  obtain ⟨_, static, _, _, lrb, vsidsc, _, _, _, _, _, rsil, mode, size, rsar, _, _⟩ := o
  dsimp only at hr hs hm
  subst hr
  have hg : rsil = true → lrb = false → getRSILMode mode = some .unrestricted := fun h1 h2 => by rw [hm h1 h2]; rfl
  rcases hs with rfl | rfl <;> cases static <;> cases lrb <;> cases rsil <;> cases vsidsc <;>
    simp only [mainSolver, createSolver, Bool.false_eq_true, if_false, if_true, hg] <;>
    (refine ⟨_, rfl, ?_⟩) <;>
    constructor <;>
    simp_all [Kind.default, Kind.branchWithLRB, Kind.branchWithVSIDSC, Kind.propagateStaticClauses,
      Kind.branchWithRSILUnrestricted2, Kind.branchWithRSILUnrestricted3, Heuristic.Implicit]

/-- **C63** An unknown mode of implicit learning ends the program instead of being replaced. -/
theorem C63_unknown_mode_rejected (limited : Bool) (a : Analysis) (o : Settings) (hr : o.rsar = false)
    (hl : o.lrb = false) (hi : o.rsil = true)
    (hm : o.mode ∉ ["unrestricted".toList, "vanishing".toList, "implicationbudgeted".toList]) :
    mainSolver limited a o = .terminated := by
  have hg : getRSILMode o.mode = none := by
    simp only [List.mem_cons, List.not_mem_nil, or_false, not_or] at hm
    unfold getRSILMode
    rw [if_neg hm.1, if_neg hm.2.1, if_neg hm.2.2]
  simp only [mainSolver, createSolver, hr, hl, hi, hg, Bool.false_eq_true, if_false, if_true]

/-- **C63** From the command line to the solver: the arguments are admissible, one thread, no abstraction refinement, and
if implicit learning is used, its mode is `unrestricted`. Then `main` reads the values that the arguments give, and makes
the solver they ask for. (`junk`: see `C62_parse_partial`.) -/
theorem C63_command_line_partial {X : Doubles} {args : List Arg} (hf : ∀ a ∈ args, a.Fits X (candyOptions X))
    (prog : Str) {junk : Int} (hj : junk = args.length + 1)
    (hr : finalValue X (candyOptions X) args "rsar-enable".toList = some (.bool false))
    (hm : finalValue X (candyOptions X) args "rsil-mode".toList = some (.text "unrestricted".toList))
    (limited : Bool) (an : Analysis) :
    ∃ opts' argv' argc o k, parseOptions X junk true (prog :: args.map Arg.text) (candyOptions X) = .done opts' argv' argc ∧
      readSettings opts' = some o ∧
      finalValue X (candyOptions X) args "static-propagate".toList = some (.bool o.static) ∧
      finalValue X (candyOptions X) args "use-lrb".toList = some (.bool o.lrb) ∧
      finalValue X (candyOptions X) args "use-vsidsc".toList = some (.bool o.vsidsc) ∧
      finalValue X (candyOptions X) args "rsil-enable".toList = some (.bool o.rsil) ∧
      finalValue X (candyOptions X) args "advice-size".toList = some (.int o.size) ∧
      o.mode = "unrestricted".toList ∧
      mainSolver limited an o = .solver k ∧ Fulfils o k := by
  have hN := candy_Names X
  obtain ⟨opts', argv', h1, h2, -⟩ := C62_parse_partial hN hf true prog hj
  have B : ∀ (n : String) (i : Nat) (b : Bool), (candyOptions X)[i]? = some ⟨n.toList, .bool b⟩ →
      ∃ b', finalValue X (candyOptions X) args n.toList = some (.bool b') := fun n i b h =>
    finalValue_bool hN hf (List.mem_of_getElem? h) rfl
  have I : ∀ (n : String) (i : Nat) (lo hi v : Int), (candyOptions X)[i]? = some ⟨n.toList, .int lo hi v⟩ →
      lo ≤ v ∧ v ≤ hi → ∃ v', finalValue X (candyOptions X) args n.toList = some (.int v') ∧ lo ≤ v' ∧ v' ≤ hi :=
    fun n i lo hi v h hr => finalValue_int hN hf (List.mem_of_getElem? h) rfl hr
  obtain ⟨threads, e1, -⟩ := I "threads" 0 1 16 1 rfl (by omega)
  obtain ⟨static, e2⟩ := B "static-propagate" 2 _ rfl
  obtain ⟨staticDb, e3⟩ := B "static-database" 3 _ rfl
  obtain ⟨recalc, e4⟩ := B "recalculate-lbd" 6 _ rfl
  obtain ⟨lrb, e5⟩ := B "use-lrb" 38 _ rfl
  obtain ⟨vsidsc, e6⟩ := B "use-vsidsc" 30 _ rfl
  obtain ⟨sort, e7⟩ := B "sort-variables" 41 _ rfl
  obtain ⟨pre, e8⟩ := B "pre" 42 _ rfl
  obtain ⟨inproc, e9, -⟩ := I "inprocessing" 43 (-2147483648) 2147483647 0 rfl (by omega)
  obtain ⟨elim, e10⟩ := B "elim" 48 _ rfl
  obtain ⟨rsil, e11⟩ := B "rsil-enable" 59 _ rfl
  obtain ⟨size, e12, hs⟩ := I "advice-size" 61 2 3 3 rfl (by omega)
  obtain ⟨minGates, e13, -⟩ := I "rsar-min-gatecount" 71 1 2147483647 100 rfl (by omega)
  have hidc : (candyOptions X)[70]? = some ⟨"rsar-heur-idc".toList, .string (strncpy256 "".toList)⟩ := rfl
  obtain ⟨idc, e14⟩ := finalValue_text (t := "".toList) hN hf (List.mem_of_getElem? hidc) rfl (by decide +kernel)
  dsimp only at e14
  let o : Settings := ⟨threads, static, staticDb, recalc, lrb, vsidsc, sort, pre, inproc, elim, false, rsil,
    "unrestricted".toList, size, false, minGates, idc⟩
  obtain ⟨k, hk, hF⟩ := C63_selection_partial limited an o rfl (show size = 2 ∨ size = 3 by omega) (fun _ _ => rfl)
  refine ⟨opts', argv', _, o, k, h1, ?_, e2, e5, e6, e11, e12, rfl, hk, hF⟩
  simp only [readSettings, h2, e1, e2, e3, e4, e5, e6, e7, e8, e9, e10, e11, e12, e13, e14, hr, hm]
  rfl

/-- **C63** Several threads: whatever the schedule, the solver of thread `i` has the heuristic that belongs to the number
of the thread, and the other options meant for this thread, although all threads read the same variables and gate analysis
changes them. Missing: advice sizes other than 3 (`C63_thread_size_fails`), and `vanishing` and `implicationbudgeted`. -/
theorem C63_portfolio_partial {n : Nat} {pm : Bool} {p : Problem} {runs : Nat → Candy.Result → Prop} {o₀ o : Settings}
    {s : PfState} {made : Nat → Option Member} (h : OReach n pm p runs o₀ s o made)
    (hm : o₀.mode = "unrestricted".toList) (hv : o₀.vsidsc = false) (hs : o₀.size = 3) (i : Nat) (m : Member)
    (hi : made i = some m) :
    m.kind.branch = portfolioHeuristic o₀.size.toNat i ∧ (m.kind.propagate = .static ↔ o₀.static = true) ∧
    (m.pre = true ↔ i = 0) ∧ 2 * m.inproc = 2 * o₀.inproc + i * (i + 1) ∧ (m.elim = true ↔ o₀.staticDb = false) ∧
    (m.asymm = true ↔ i ∈ [6, 7, 14, 15]) ∧ m.recalc = false := by
  obtain ⟨c, I⟩ := h.inv
  have ht := I.solver i m hi
  have C := confs_conf o₀ i
  generalize confs o₀ (i + 1) = q at ht C
  unfold threadSolver at ht
  obtain ⟨k, hk, rfl⟩ := Option.map_eq_some_iff.1 ht
  have hg : getRSILMode q.mode = some .unrestricted := by rw [C.mode, hm]; rfl
  have hp : k.branch = portfolioHeuristic 3 i ∧ k.propagate = (if q.static then .static else .dynamic) := by
    unfold createSolver at hk
    rw [hg, C.vsidsc, hv, C.lrb, C.rsil] at hk
    generalize q.static = st at hk ⊢
    by_cases h16 : i < 16
    · have : i = 0 ∨ i = 1 ∨ i = 2 ∨ i = 3 ∨ i = 4 ∨ i = 5 ∨ i = 6 ∨ i = 7 ∨ i = 8 ∨ i = 9 ∨ i = 10 ∨ i = 11 ∨ i = 12 ∨
          i = 13 ∨ i = 14 ∨ i = 15 := by omega
      rcases this with rfl | rfl | rfl | rfl | rfl | rfl | rfl | rfl | rfl | rfl | rfl | rfl | rfl | rfl | rfl | rfl <;>
        cases st <;> cases hk <;> exact ⟨rfl, rfl⟩
    · rw [decide_eq_false (by omega), decide_eq_false (by omega)] at hk
      have hd : portfolioHeuristic 3 i = .vsids := by
        unfold portfolioHeuristic
        rw [List.getD_eq_getElem?_getD, List.getElem?_eq_none (by simp only [List.length_cons, List.length_nil]; omega)]
        rfl
      rw [hd]
      cases st <;> cases hk <;> exact ⟨rfl, rfl⟩
  refine ⟨by rw [hs]; exact hp.1, ?_, ?_, C.inproc, ?_, ?_, C.recalc⟩
  · show k.propagate = .static ↔ _
    rw [hp.2, C.static]
    cases o₀.static <;> simp
  · show q.pre = true ↔ _
    rw [C.pre]; simp
  · show q.elim = true ↔ _
    rw [C.elim]; simp
  · show q.asymm = true ↔ _
    rw [C.asymm]; simp

/-! ## Abstraction refinement -/

/-- **C63** Abstraction refinement is used if it is asked for, a limit for the input dependencies is given, and the
analysis of the problem succeeds with enough gates and some conjecture. Missing: all other cases (`C63_rsar_fails`). -/
theorem C63_rsar_partial (limited : Bool) (a : Analysis) (o : Settings) (hr : o.rsar = true) (ht : a.timeout = false)
    (hg : 0 ≤ o.minGates ∧ o.minGates ≤ a.gates) (ho : a.outOfTime = false) (hc : 0 < a.equivalences ∨ 0 < a.backbones)
    {ds rest : Str} (hi : o.idc = ds ++ rest) (hrest : ∀ c, rest.head? = some c → isDigitC c = false) (hd : ds ≠ []) (hds : ∀ c ∈ ds, isDigitC c = true)
    (hl : digitsVal ds < 2 ^ 64) : mainSolver limited a o = .arSolver := by
  have hread : readsSize o.idc = true := by
    obtain ⟨d, ds', rfl⟩ := List.exists_cons_of_ne_nil hd
    have h1 : isDigitC d = true := hds d (by simp)
    have h2 : isSpaceC d = false := by
      cases e : isSpaceC d with
      | false => rfl
      | true =>
        simp only [isSpaceC, Bool.or_eq_true, beq_iff_eq] at e
        simp only [isDigitC, Bool.and_eq_true, decide_eq_true_eq] at h1
        have : d.toNat = 32 ∨ d.toNat ≤ 13 := by
          rcases e with ((((e | e) | e) | e) | e) | e <;> subst e <;> decide
        omega
    have hne : d ≠ '-' ∧ d ≠ '+' := by
      refine ⟨?_, ?_⟩ <;> rintro rfl <;> exact absurd h1 (by decide)
    have htake : (d :: ds' ++ rest).takeWhile isDigitC = d :: ds' := by
      rw [List.takeWhile_append_of_pos hds]
      cases rest with
      | nil => simp
      | cons c rest => rw [List.takeWhile_cons_of_neg (by rw [hrest c rfl]; simp)]; simp
    unfold readsSize
    rw [hi, List.cons_append, List.dropWhile_cons_of_neg (by rw [h2]; simp)]
    have hskip : skipSign (d :: (ds' ++ rest)) = d :: (ds' ++ rest) := by
      show (if d = '-' ∨ d = '+' then _ else _) = _
      rw [if_neg (by simp [hne.1, hne.2])]
    rw [hskip]
    rw [List.cons_append] at htake
    rw [htake]
    simp [hl]
  have hmin : ¬ a.gates < (o.minGates % 2 ^ 64).toNat := by
    omega
  have hc' : ¬ (a.equivalences = 0 ∧ a.backbones = 0) := by omega
  cases limited <;>
    simp only [mainSolver, createRSARSolver, completed, hr, ht, ho, hread, hmin, hc', Bool.false_eq_true, if_false, if_true]

/-! ## Findings -/

/-- **C63** (finding) The modes `vanishing` and `implicationbudgeted` are swapped. -/
theorem C63_modes_fail (limited : Bool) (a : Analysis) (o : Settings) (hr : o.rsar = false) (hl : o.lrb = false)
    (hi : o.rsil = true) (hs : o.size = 2 ∨ o.size = 3) :
    (o.mode = "vanishing".toList → ∃ k, mainSolver limited a o = .solver k ∧ k.branch = .budget o.size.toNat ∧ ¬ Fulfils o k) ∧
    (o.mode = "implicationbudgeted".toList →
      ∃ k, mainSolver limited a o = .solver k ∧ k.branch = .vanishing o.size.toNat ∧ ¬ Fulfils o k) := by
  refine ⟨fun hm => ?_, fun hm => ?_⟩
  · have hg : getRSILMode o.mode = some .vanishing := by rw [hm]; rfl
    have hn : ∀ k : Kind, k.branch = .budget o.size.toNat → ¬ Fulfils o k := fun k hk hF => by
      rcases hF.mode (by rw [hk]; trivial) with h | h | h
      · rw [hk] at h; cases h.2
      · rw [hk] at h; cases h.2
      · rw [hm] at h; exact absurd h.1 (by decide)
    rcases hs with hs | hs <;> cases hst : o.static <;>
      simp only [mainSolver, createSolver, hr, hl, hi, hs, hst, hg, Bool.false_eq_true, if_false, if_true] <;>
      exact ⟨_, rfl, rfl, hn _ (by rw [hs]; rfl)⟩
  · have hg : getRSILMode o.mode = some .implicationbudgeted := by rw [hm]; rfl
    have hn : ∀ k : Kind, k.branch = .vanishing o.size.toNat → ¬ Fulfils o k := fun k hk hF => by
      rcases hF.mode (by rw [hk]; trivial) with h | h | h
      · rw [hk] at h; cases h.2
      · rw [hm] at h; exact absurd h.1 (by decide)
      · rw [hk] at h; cases h.2
    rcases hs with hs | hs <;> cases hst : o.static <;>
      simp only [mainSolver, createSolver, hr, hl, hi, hs, hst, hg, Bool.false_eq_true, if_false, if_true] <;>
      exact ⟨_, rfl, rfl, hn _ (by rw [hs]; rfl)⟩

/-- **C63** (finding) With an advice size outside the range, which the command line does not reject
(`C62_range_ignored`), implicit learning and static propagation are both dropped: the solver is the default one. -/
theorem C63_size_fails (limited : Bool) (a : Analysis) (o : Settings) (hr : o.rsar = false) (hl : o.lrb = false)
    (hi : o.rsil = true) (hm : o.mode = "unrestricted".toList) (hs : 3 < o.size ∧ o.size < 2 ^ 31) :
    mainSolver limited a o = .solver ⟨.dynamic, .vsids⟩ ∧ ¬ Fulfils o ⟨.dynamic, .vsids⟩ := by
  have hg : getRSILMode o.mode = some .unrestricted := by rw [hm]; rfl
  have h3 : ¬ (o.size % 2 ^ 32).toNat = 3 := by omega
  have h2 : ¬ (o.size % 2 ^ 32).toNat = 2 := by omega
  refine ⟨?_, fun hF => ?_⟩
  · cases hst : o.static <;>
      simp only [mainSolver, createSolver, hr, hl, hi, hg, hst, h2, h3, Bool.false_eq_true, if_false, if_true] <;> rfl
  · have := (hF.some.1 rfl).2.1
    rw [hi] at this; cases this

/-- **C63** (finding) The threads ignore the advice size. -/
theorem C63_thread_size_fails (o : Settings) (hl : o.lrb = false) (hi : o.rsil = true)
    (hm : o.mode = "unrestricted".toList) (hs : o.size = 2) :
    ∃ m, threadSolver o = some m ∧ m.kind.branch = .unrestricted 3 ∧ ¬ Fulfils o m.kind := by
  have hg : getRSILMode o.mode = some .unrestricted := by rw [hm]; rfl
  have hn : ∀ k : Kind, k.branch = .unrestricted 3 → ¬ Fulfils o k := fun k hk hF => by
    rcases hF.mode (by rw [hk]; trivial) with h | h | h
    · rw [hk, hs] at h; cases h.2
    · rw [hk] at h; cases h.2
    · rw [hk] at h; cases h.2
  cases hst : o.static <;>
    simp only [threadSolver, createSolver, hl, hi, hst, hg, Bool.false_eq_true, if_false, if_true] <;>
    exact ⟨_, rfl, rfl, hn _ rfl⟩

/-- **C63** (finding) Abstraction refinement: if the analysis runs out of time, finds too few gates or no conjecture,
`main` uses a null pointer, and never an ordinary solver. If `rsar-heur-idc` has its default, the empty text, it fails for
every problem: with a null pointer, or with an exception, since the pointer to the text is compared with 0, not the text
with the empty one. -/
theorem C63_rsar_fails (limited : Bool) (a : Analysis) (o : Settings) (hr : o.rsar = true) :
    (a.timeout = true ∨ (a.gates < o.minGates ∧ o.minGates < 2 ^ 31) ∨ a.outOfTime = true ∨
      (a.equivalences = 0 ∧ a.backbones = 0) → mainSolver limited a o = .ub) ∧
    (o.idc = [] → mainSolver true a o = .ub ∨ mainSolver true a o = .terminated) := by
  refine ⟨fun h => ?_, fun h => ?_⟩
  · have : completed o.minGates a = false := by
      unfold completed
      by_cases h1 : a.timeout = true
      · rw [if_pos h1]
      · rw [if_neg h1]
        by_cases h2 : a.gates < (o.minGates % 2 ^ 64).toNat
        · rw [if_pos h2]
        · rw [if_neg h2]
          by_cases h3 : a.outOfTime = true
          · rw [if_pos h3]
          · rw [if_neg h3, if_pos]
            rcases h with h | h | h | h
            · exact absurd h h1
            · omega
            · exact absurd h h3
            · exact h
    simp only [mainSolver, createRSARSolver, hr, if_true, this, Bool.false_eq_true, if_false]
  · have e : readsSize o.idc = false := by rw [h]; rfl
    cases hc : completed o.minGates a <;>
      simp only [mainSolver, createRSARSolver, hr, e, hc, if_true, Bool.false_eq_true, if_false, true_or, or_true]

/-! ## Non-vacuity -/

/-- The settings without any argument. -/
def exSettings : Settings :=
  ⟨1, false, false, true, false, false, false, true, 0, true, false, false, "unrestricted".toList, 3, false, 100, []⟩

example (X : Doubles) : readSettings (candyOptions X) = some exSettings := rfl

/-- A suitable problem. -/
def exAnalysis : Analysis := ⟨false, 200, false, 5, 1⟩

example : ∃ k, mainSolver true exAnalysis { exSettings with rsil := true, static := true, size := 2 } = .solver k ∧
    Fulfils { exSettings with rsil := true, static := true, size := 2 } k ∧ k = ⟨.static, .unrestricted 2⟩ := by
  obtain ⟨k, h, hF⟩ := C63_selection_partial true exAnalysis { exSettings with rsil := true, static := true, size := 2 } rfl
    (.inl rfl) (fun _ _ => rfl)
  refine ⟨k, h, hF, ?_⟩
  have : mainSolver true exAnalysis { exSettings with rsil := true, static := true, size := 2 } =
      .solver ⟨.static, .unrestricted 2⟩ := by decide +kernel
  rw [this] at h
  cases h; rfl

/-- `candy -use-lrb -static-propagate -rsil-enable -no-rsil-enable a.cnf` -/
def exLine : List Arg :=
  [.flag "use-lrb".toList true, .flag "static-propagate".toList true, .flag "rsil-enable".toList true,
    .flag "rsil-enable".toList false, .file "a.cnf".toList]

theorem exLine_fit (X : Doubles) : ∀ a ∈ exLine, a.Fits X (candyOptions X) := by
  have m38 := List.mem_of_getElem? (show (candyOptions X)[38]? = some ⟨"use-lrb".toList, .bool false⟩ from rfl)
  have m2 := List.mem_of_getElem? (show (candyOptions X)[2]? = some ⟨"static-propagate".toList, .bool false⟩ from rfl)
  have m59 := List.mem_of_getElem? (show (candyOptions X)[59]? = some ⟨"rsil-enable".toList, .bool false⟩ from rfl)
  intro a ha
  simp only [exLine, List.mem_cons, List.not_mem_nil, or_false] at ha
  rcases ha with rfl | rfl | rfl | rfl | rfl
  · exact ⟨by decide +kernel, _, m38, rfl, _, rfl⟩
  · exact ⟨by decide +kernel, _, m2, rfl, _, rfl⟩
  · exact ⟨by decide +kernel, _, m59, rfl, _, rfl⟩
  · exact ⟨by decide +kernel, _, m59, rfl, _, rfl⟩
  · exact ⟨by decide +kernel, show "a.cnf".toList.head? ≠ some '-' by decide⟩

example (X : Doubles) : ∃ opts' argv' argc o k,
    parseOptions X 6 true ("candy".toList :: exLine.map Arg.text) (candyOptions X) = .done opts' argv' argc ∧
      readSettings opts' = some o ∧ mainSolver true exAnalysis o = .solver k ∧ k.branch = .lrb ∧ k.propagate = .static := by
  obtain ⟨opts', argv', argc, o, k, h1, h2, s1, s2, s3, s4, s5, s6, h3, hF⟩ :=
    C63_command_line_partial (exLine_fit X) "candy".toList (junk := 6) rfl rfl rfl true exAnalysis
  rw [show finalValue X (candyOptions X) exLine "use-lrb".toList = some (.bool true) from rfl] at s2
  rw [show finalValue X (candyOptions X) exLine "static-propagate".toList = some (.bool true) from rfl] at s1
  rw [show finalValue X (candyOptions X) exLine "use-vsidsc".toList = some (.bool false) from rfl] at s3
  rw [show finalValue X (candyOptions X) exLine "rsil-enable".toList = some (.bool false) from rfl] at s4
  simp only [Option.some.injEq, Value.bool.injEq] at s1 s2 s3 s4
  exact ⟨opts', argv', argc, o, k, h1, h2, h3, hF.lrb s2.symm s4.symm s3.symm, hF.propagate.2 s1.symm⟩

/-- A schedule with two threads: the first makes its solver and analyses gates, the second one makes its solver. -/
example (p : Problem) (runs : Nat → Candy.Result → Prop) : ∃ s o made m0 m1,
    OReach 4 false p runs { exSettings with threads := 4 } s o made ∧ made 0 = some m0 ∧ made 1 = some m1 ∧
    m0.kind.branch = .vsids ∧ m0.pre = true ∧ m1.kind.branch = .vsids ∧ m1.pre = false ∧ m1.inproc = 1 := by
  have r0 := OReach.start (n := 4) (pm := false) (p := p) (runs := runs) (o₀ := { exSettings with threads := 4 })
  have r1 := OReach.main r0 rfl
  have r2 := OReach.make r1 0 rfl rfl rfl
  have r3 := OReach.analyse r2 0 rfl (by simp [upd_same])
  have r4 := OReach.thread r3 (.register _ 0 rfl) rfl (fun i h1 h2 => by
    by_cases e : i = 0
    · subst e; simp [upd_same]
    · exact absurd (show upd _ 0 ThreadPc.solving i = .starting by rw [upd_ne _ _ e]; exact h1) h2)
  have r5 := OReach.main r4 rfl
  have r6 := OReach.main r5 rfl
  have r7 := OReach.make r6 1 rfl rfl rfl
  exact ⟨_, _, _, _, _, r7, rfl, rfl, rfl, rfl, rfl, rfl, rfl⟩

example : mainSolver true exAnalysis { exSettings with rsar := true, idc := "3 5".toList } = .arSolver :=
  C63_rsar_partial true exAnalysis _ rfl rfl (by decide) rfl (.inl (by decide)) (ds := ['3']) (rest := [' ', '5']) rfl (by decide) (by simp)
    (by decide) (by decide)

/-- Without further options, abstraction refinement fails even for a suitable problem. -/
example : mainSolver true exAnalysis { exSettings with rsar := true } = .terminated := by decide +kernel

example : mainSolver true exAnalysis { exSettings with rsil := true, static := true, size := 4 } =
    .solver ⟨.dynamic, .vsids⟩ :=
  (C63_size_fails true exAnalysis { exSettings with rsil := true, static := true, size := 4 } rfl rfl rfl rfl (by decide)).1

example : mainSolver true exAnalysis { exSettings with rsil := true, mode := "vanish".toList } = .terminated :=
  C63_unknown_mode_rejected true exAnalysis _ rfl rfl rfl (by decide)

end Candy.Builder
