import Verif.SpecOptions
import Verif.Model.Portfolio
import Verif.Model.Dimacs

/-!
# Model of the selection of the solver

`CandyBuilder` and `createSolver` (src/candy/frontend/CandyBuilder.h, CandyBuilder.cc), `createRSARSolver`
(src/candy/frontend/SolverFactory.h) and the parts of `main` that configure and build solvers
(src/candy/Main.cc:159-180, 224-306). A solver is represented by the template parameters of its class and by the
options its constructor stores.
-/

namespace Candy.Builder
open Candy Candy.Options

/-- The classes for `TPropagate`. -/
inductive Propagator where
  /-- `Propagate` -/
  | dynamic
  /-- `StaticPropagate` -/
  | static
deriving DecidableEq

/-- The classes for `TBranching`, with the advice size of those for implicit learning,
BranchingHeuristics.h:246-253, 315-322, 401-408. -/
inductive Heuristic where
  | vsids
  | vsidsc
  | lrb
  /-- `RSILBranchingHeuristic2`, `3` -/
  | unrestricted (size : Nat)
  /-- `RSILBudgetBranchingHeuristic2`, `3` -/
  | budget (size : Nat)
  /-- `RSILVanishingBranchingHeuristic2`, `3` -/
  | vanishing (size : Nat)
deriving DecidableEq

/-- The template parameters of a builder and of the solver it builds, CandyBuilder.h:35-37; `TLearning` is always
`ConflictAnalysis`. -/
structure Kind where
  propagate : Propagator
  branch : Heuristic
deriving DecidableEq

/-- `CandyBuilder<>`, CandyBuilder.h:35. -/
def Kind.default : Kind := ⟨.dynamic, .vsids⟩

/-- CandyBuilder.h:44-46 -/
def Kind.branchWithVSIDSC (k : Kind) : Kind := ⟨k.propagate, .vsidsc⟩

/-- CandyBuilder.h:48-50 -/
def Kind.branchWithLRB (k : Kind) : Kind := ⟨k.propagate, .lrb⟩

/-- CandyBuilder.h:52-54 -/
def Kind.branchWithRSILUnrestricted3 (k : Kind) : Kind := ⟨k.propagate, .unrestricted 3⟩

/-- CandyBuilder.h:56-58 -/
def Kind.branchWithRSILBudgeted3 (k : Kind) : Kind := ⟨k.propagate, .vanishing 3⟩

/-- CandyBuilder.h:60-62 -/
def Kind.branchWithRSILVanishing3 (k : Kind) : Kind := ⟨k.propagate, .budget 3⟩

/-- CandyBuilder.h:64-66 -/
def Kind.branchWithRSILUnrestricted2 (k : Kind) : Kind := ⟨k.propagate, .unrestricted 2⟩

/-- CandyBuilder.h:68-70 -/
def Kind.branchWithRSILBudgeted2 (k : Kind) : Kind := ⟨k.propagate, .vanishing 2⟩

/-- CandyBuilder.h:72-74 -/
def Kind.branchWithRSILVanishing2 (k : Kind) : Kind := ⟨k.propagate, .budget 2⟩

/-- CandyBuilder.h:76-78 -/
def Kind.propagateStaticClauses (k : Kind) : Kind := ⟨.static, k.branch⟩

/-- CandyBuilder.cc:32-36 -/
inductive Mode where
  | unrestricted
  | vanishing
  | implicationbudgeted

/-- `getRSILMode`, CandyBuilder.cc:38-52; `none`: an exception. -/
def getRSILMode (mode : Str) : Option Mode :=
  if mode = "unrestricted".toList then some .unrestricted
  else if mode = "vanishing".toList then some .vanishing
  else if mode = "implicationbudgeted".toList then some .implicationbudgeted
  else none

/-- The values of the options that `main` and `createSolver` read, or that `main` changes for the threads
(CLIOptions.cc). Real-valued options of the heuristics and the options of the gate analysis and simulation
(Main.cc:266-296) are left out. -/
structure Settings where
  /-- `opt_threads` -/
  threads : Int
  /-- `opt_static_propagate` -/
  static : Bool
  /-- `opt_static_database` -/
  staticDb : Bool
  /-- `opt_recalculate_lbd` -/
  recalc : Bool
  /-- `opt_use_lrb` -/
  lrb : Bool
  /-- `opt_use_vsidsc` -/
  vsidsc : Bool
  /-- `opt_sort_variables` -/
  sort : Bool
  /-- `opt_preprocessing` -/
  pre : Bool
  /-- `opt_inprocessing` -/
  inproc : Int
  /-- `opt_use_elim` -/
  elim : Bool
  /-- `opt_use_asymm` -/
  asymm : Bool
  /-- `opt_rsil_enable` -/
  rsil : Bool
  /-- `opt_rsil_mode` -/
  mode : Str
  /-- `opt_rsil_advice_size` -/
  size : Int
  /-- `opt_rsar_enable` -/
  rsar : Bool
  /-- `opt_rsar_minGateCount` -/
  minGates : Int
  /-- `opt_rsar_inputDepCountHeurConf` -/
  idc : Str

/-- `createSolver`, CandyBuilder.cc:59-139; `size` is a number without sign; `none`: an exception. -/
def createSolver (mode : Str) (static lrb vsidsc rsil : Bool) (size : Nat) : Option Kind :=
  let builder := Kind.default
  if lrb then
    if static then some builder.branchWithLRB.propagateStaticClauses else some builder.branchWithLRB
  else if rsil then
    match getRSILMode mode with
    | none => none
    | some m =>
      if static then
        if size = 3 then
          match m with
          | .unrestricted => some builder.propagateStaticClauses.branchWithRSILUnrestricted3
          | .vanishing => some builder.propagateStaticClauses.branchWithRSILVanishing3
          | .implicationbudgeted => some builder.propagateStaticClauses.branchWithRSILBudgeted3
        else if size = 2 then
          match m with
          | .unrestricted => some builder.propagateStaticClauses.branchWithRSILUnrestricted2
          | .vanishing => some builder.propagateStaticClauses.branchWithRSILVanishing2
          | .implicationbudgeted => some builder.propagateStaticClauses.branchWithRSILBudgeted2
        else some builder
      else
        if size = 3 then
          match m with
          | .unrestricted => some builder.branchWithRSILUnrestricted3
          | .vanishing => some builder.branchWithRSILVanishing3
          | .implicationbudgeted => some builder.branchWithRSILBudgeted3
        else if size = 2 then
          match m with
          | .unrestricted => some builder.branchWithRSILUnrestricted2
          | .vanishing => some builder.branchWithRSILVanishing2
          | .implicationbudgeted => some builder.branchWithRSILBudgeted2
        else some builder
  else if vsidsc then
    if static then some builder.branchWithVSIDSC.propagateStaticClauses else some builder.branchWithVSIDSC
  else
    if static then some builder.propagateStaticClauses else some builder

/-- What the analysis of the problem gives, SolverFactory.h:33-57. -/
structure Analysis where
  /-- `analyzer.hasTimeout()` -/
  timeout : Bool
  /-- `getGateCount()` -/
  gates : Nat
  /-- the simulation ran out of time -/
  outOfTime : Bool
  /-- numbers of conjectures about equivalences and about the backbone -/
  equivalences : Nat
  backbones : Nat

/-- The sign that reading a number accepts. -/
def skipSign : Str → Str
  | [] => []
  | c :: r => if c = '-' ∨ c = '+' then r else c :: r

/-- `tokenizeByWhitespace<size_t>(t).size() != 0`, StringUtils.h:38-50: the text begins, after blanks, with a number
of 64 bits. -/
def readsSize (t : Str) : Bool :=
  let ds := (skipSign (t.dropWhile isSpaceC)).takeWhile isDigitC
  decide (ds ≠ []) && decide (digitsVal ds < 2 ^ 64)

/-- Result of `createRSARSolver`. -/
inductive Rsar where
  /-- `nullptr` -/
  | null
  /-- `std::invalid_argument` -/
  | threw
  /-- `new ARSolver` -/
  | arSolver
deriving DecidableEq

/-- `initializationComleted` of `createRSARSolver`, SolverFactory.h:34, 40-58. The number of gates has 64 bits without
sign, so the option is converted. -/
def completed (minGates : Int) (a : Analysis) : Bool :=
  if a.timeout then false
  else if a.gates < (minGates % 2 ^ 64).toNat then false
  else if a.outOfTime then false
  else if a.equivalences = 0 ∧ a.backbones = 0 then false
  else true

/-- `createRSARSolver`, SolverFactory.h:33-79. `limited` is the result of comparing the pointer to the text with a null
pointer by `>` (line 63), which C++ leaves open; common compilers give true. -/
def createRSARSolver (limited : Bool) (minGates : Int) (idc : Str) (a : Analysis) : Rsar :=
  if completed minGates a then
    if limited then
      if readsSize idc then .arSolver else .threw
    else .arSolver
  else .null

/-- How the part of `main` that makes the solver ends. -/
inductive Made where
  /-- a solver made by `createSolver` -/
  | solver (k : Kind)
  /-- a solver that refines abstractions -/
  | arSolver
  /-- an exception, which nobody catches -/
  | terminated
  /-- a null pointer is used -/
  | ub
deriving DecidableEq

/-- The options that `main` sets for thread number `count`, Main.cc:250-298. -/
def configure (count : Nat) (o : Settings) : Settings :=
  let o := { o with
    recalc := false
    sort := decide (count % 2 = 0)
    pre := decide (count = 0)
    inproc := count + o.inproc
    elim := !o.staticDb
    asymm := decide (count = 6 ∨ count = 7 ∨ count = 14 ∨ count = 15) }
  match count with
  | 0 => { o with lrb := false, rsil := false }
  | 1 => { o with lrb := false, rsil := false }
  | 2 => { o with lrb := true, rsil := false }
  | 3 => { o with lrb := true, rsil := false }
  | 4 => { o with lrb := false, rsil := true }
  | 5 => { o with lrb := false, rsil := true }
  | 6 => { o with lrb := false, rsil := false }
  | 7 => { o with lrb := false, rsil := false }
  | 8 => { o with lrb := false, rsil := false }
  | 9 => { o with lrb := false, rsil := false }
  | 10 => { o with lrb := true, rsil := false }
  | 11 => { o with lrb := true, rsil := false }
  | 12 => { o with lrb := false, rsil := true }
  | 13 => { o with lrb := false, rsil := true }
  | 14 => { o with lrb := false, rsil := false }
  | 15 => { o with lrb := false, rsil := false }
  | _ => o

/-- Main.cc:228-236, one thread. The advice size is converted to a number without sign. -/
def mainSolver (limited : Bool) (a : Analysis) (o : Settings) : Made :=
  if o.rsar then
    match createRSARSolver limited o.minGates o.idc a with
    | .null => .ub
    | .threw => .terminated
    | .arSolver => .arSolver
  else
    match createSolver o.mode o.static o.lrb o.vsidsc o.rsil (o.size % 2 ^ 32).toNat with
    | some k => .solver k
    | none => .terminated

/-- A solver of a thread: its class, and the options its constructor stores (Solver.h:307-308,
VariableElimination.h:90, AsymmetricVariableReduction.h:102, ClauseDatabase.h:87). -/
structure Member where
  kind : Kind
  pre : Bool
  inproc : Int
  elim : Bool
  asymm : Bool
  recalc : Bool
deriving DecidableEq

/-- Main.cc:164: the advice size is not passed, so it is 3 (CandyBuilder.h:84). -/
def threadSolver (o : Settings) : Option Member :=
  (createSolver o.mode o.static o.lrb o.vsidsc o.rsil 3).map fun k =>
    ⟨k, o.pre, o.inproc, o.elim, o.asymm, o.recalc⟩

/-- The program with several threads, and with its options: `made i` is the solver of thread `i`. The options are not
protected by locks. Making a solver is one step. -/
inductive OReach (n : Nat) (pm : Bool) (p : Problem) (runs : Nat → Candy.Result → Prop) (o₀ : Settings) :
    PfState → Settings → (Nat → Option Member) → Prop
  | start : OReach n pm p runs o₀ PfState.start o₀ (fun _ => none)
  /-- a step of `main`; at the head of the loop it sets the options of the next thread -/
  | main {s s' : PfState} {o : Settings} {made : Nat → Option Member} (h : OReach n pm p runs o₀ s o made)
      (hs : pfMain n pm p s = some s') :
      OReach n pm p runs o₀ s'
        (match s.main with
          | .spawn c => if c < n ∧ s.result = none then configure c o else o
          | _ => o) made
  /-- Main.cc:164 -/
  | make {s : PfState} {o : Settings} {made : Nat → Option Member} (h : OReach n pm p runs o₀ s o made) (i : Nat)
      (hi : s.threads i = .starting) (hm : made i = none) {m : Member} (ht : threadSolver o = some m) :
      OReach n pm p runs o₀ s o (upd made i (some m))
  /-- Main.cc:166: reading the problem may analyse gates, which changes options (GateAnalyzer.cc:48-49) -/
  | analyse {s : PfState} {o : Settings} {made : Nat → Option Member} (h : OReach n pm p runs o₀ s o made) (i : Nat)
      (hi : s.threads i = .starting) (hm : made i ≠ none) :
      OReach n pm p runs o₀ s { o with sort := false, pre := false } made
  /-- the other steps of threads; a thread registers its solver once it has one -/
  | thread {s s' : PfState} {o : Settings} {made : Nat → Option Member} (h : OReach n pm p runs o₀ s o made)
      (hs : PfStep n pm p runs s s') (hmain : s'.main = s.main)
      (hreg : ∀ i, s.threads i = .starting → s'.threads i ≠ .starting → made i ≠ none) :
      OReach n pm p runs o₀ s' o made

/-- The settings as `main` reads them after `parseOptions`; `none`: an option is missing, has another kind, or its text
cannot be read. `asymm` is not an option of the command line (CLIOptions.cc), its value is false. -/
def readSettings {D : Type} (opts : List (Opt D)) : Option Settings :=
  let int (n : String) : Option Int :=
    match valueOf opts n.toList with
    | some (.int v) => some v
    | _ => none
  let bool (n : String) : Option Bool :=
    match valueOf opts n.toList with
    | some (.bool b) => some b
    | _ => none
  let text (n : String) : Option Str :=
    match valueOf opts n.toList with
    | some (.text t) => some t
    | _ => none
  do
    let threads ← int "threads"
    let static ← bool "static-propagate"
    let staticDb ← bool "static-database"
    let recalc ← bool "recalculate-lbd"
    let lrb ← bool "use-lrb"
    let vsidsc ← bool "use-vsidsc"
    let sort ← bool "sort-variables"
    let pre ← bool "pre"
    let inproc ← int "inprocessing"
    let elim ← bool "elim"
    let rsil ← bool "rsil-enable"
    let mode ← text "rsil-mode"
    let size ← int "advice-size"
    let rsar ← bool "rsar-enable"
    let minGates ← int "rsar-min-gatecount"
    let idc ← text "rsar-heur-idc"
    pure ⟨threads, static, staticDb, recalc, lrb, vsidsc, sort, pre, inproc, elim, false, rsil, mode, size, rsar, minGates,
      idc⟩

end Candy.Builder
