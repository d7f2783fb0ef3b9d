import Verif.Model.Dimacs

/-!
# Model of command line options (src/candy/utils/Options.{h,cc}, src/candy/frontend/CLIOptions.cc)

A C string is the list of its characters without the final NUL. Numbers of type `double` are a parameter
(`Doubles`): any type with any function `strtod` and any comparison. Printing of help is not modelled. The
patterns (`char pattern[100]`, written by `sprintf`) are long enough for the names of CLIOptions.cc; that is
not modelled for other names.
-/

namespace Candy.Options
open Candy

abbrev Str := List Char

/-- Floating point numbers: `strtod` and `<`. -/
structure Doubles where
  D : Type
  strtod : Str → D
  lt : D → D → Bool

/-- Kind, range and value of an option: Options.h:133-134, 193-194, 263-264, 326, 375. The value of a
string option is an array of 256 characters. -/
inductive Cell (D : Type) where
  | int (lo hi v : Int)
  | int64 (lo hi v : Int)
  | double (lo hi v : D)
  | string (buf : List Char)
  | bool (v : Bool)

/-- An option in the list `getOptionList()`. -/
structure Opt (D : Type) where
  name : Str
  cell : Cell D

/-- `strstr(s, p)`: position of the first occurrence. -/
def strstr : Str → Str → Option Nat
  | [], p => if p.isEmpty then some 0 else none
  | c :: s, p => if p.isPrefixOf (c :: s) then some 0 else (strstr s p).map (· + 1)

/-- Value of `strtol(s, &end, 10)` and `strtoll` for a 64-bit `long`: 0 if there is no number, the nearest
representable number if the number is too large. -/
def strtolVal (s : Str) : Int :=
  match strtol (s ++ ['\x00']) with
  | some (some (n, _)) => max (-(2 ^ 63)) (min (2 ^ 63 - 1) n)
  | _ => 0

/-- Conversion from `long` to `int32_t`. -/
def toInt32 (n : Int) : Int := (n + 2 ^ 31) % 2 ^ 32 - 2 ^ 31

/-- `strncpy(value, val, 256)`: at most 256 characters, filled up with NUL. -/
def strncpy256 (s : Str) : List Char := s.take 256 ++ List.replicate (256 - s.length) '\x00'

/-- Reading an array as a C string; `none`: there is no NUL in the array (undefined behaviour). -/
def readC (buf : List Char) : Option Str :=
  if buf.contains '\x00' then some (buf.takeWhile fun c => c != '\x00') else none

/-- Result of `parse`: not this option, `exit(1)`, or the option with its new value. -/
inductive Parsed (α : Type) where
  | no
  | exit1
  | set (o : α)

variable {D : Type}

/-- The pattern `-name=`, Options.h:140, 199, 269, 331. -/
def Opt.pattern (o : Opt D) : Str := '-' :: (o.name ++ ['='])

/-- `parse`, Options.h:146-165 (double), 205-224 (int), 275-294 (int64), 339-348 (string), 388-403 (bool).
The test `end != nullptr` is always true: `strtol` and `strtod` set `end`. -/
def parse (X : Doubles) (o : Opt X.D) (str : Str) : Parsed (Opt X.D) :=
  match o.cell with
  | .int lo hi _ =>
    if strstr str o.pattern = some 0 then
      let tmp := toInt32 (strtolVal (str.drop o.pattern.length))
      if tmp > hi ∧ tmp < lo then .exit1 else .set { o with cell := .int lo hi tmp }
    else .no
  | .int64 lo hi _ =>
    if strstr str o.pattern = some 0 then
      let tmp := strtolVal (str.drop o.pattern.length)
      if tmp > hi ∧ tmp < lo then .exit1 else .set { o with cell := .int64 lo hi tmp }
    else .no
  | .double lo hi _ =>
    if strstr str o.pattern = some 0 then
      let tmp := X.strtod (str.drop o.pattern.length)
      if X.lt hi tmp = true ∧ X.lt tmp lo = true then .exit1 else .set { o with cell := .double lo hi tmp }
    else .no
  | .string _ =>
    if strstr str o.pattern = some 0 then .set { o with cell := .string (strncpy256 (str.drop o.pattern.length)) }
    else .no
  | .bool _ =>
    if strstr str ('-' :: o.name) = some 0 ∧ str.length = ('-' :: o.name).length then
      .set { o with cell := .bool true }
    else if strstr str ("-no-".toList ++ o.name) = some 0 ∧ str.length = ("-no-".toList ++ o.name).length then
      .set { o with cell := .bool false }
    else .no

/-- The loop over all options, Options.cc:45-47. -/
def tryOptions (X : Doubles) (str : Str) : List (Opt X.D) → Parsed (List (Opt X.D))
  | [] => .no
  | o :: os =>
    match parse X o str with
    | .set o' => .set (o' :: os)
    | .exit1 => .exit1
    | .no =>
      match tryOptions X str os with
      | .set os' => .set (o :: os')
      | .exit1 => .exit1
      | .no => .no

/-- Result of `parseOptions`: `exit(0)` after printing help, `exit(1)`, or the options, the array `argv`, and
`argc`. `ub`: `argv` is read outside its bounds. -/
inductive Result (D : Type) where
  | ub
  | exit0
  | exit1
  | done (opts : List (Opt D)) (argv : List Str) (argc : Int)

/-- The loop over the arguments, Options.cc:37-58; `n` is `argc - i`. The result carries `j`. -/
def parseLoop (X : Doubles) (strict : Bool) : Nat → Nat → Nat → List Str → List (Opt X.D) → Result X.D
  | 0, _, j, argv, opts => .done opts argv j
  | n + 1, i, j, argv, opts =>
    match argv[i]? with
    | none => .ub
    | some str =>
      if (strstr str "--help".toList).isSome then .exit0
      else
        match tryOptions X str opts with
        | .exit1 => .exit1
        | .set opts => parseLoop X strict n (i + 1) j argv opts
        | .no =>
          if strict = true ∧ str.head? = some '-' then .exit1
          else parseLoop X strict n (i + 1) (j + 1) (argv.set j str) opts

/-- `parseOptions`, Options.cc:35-60. The variable `i` of line 59 is not the variable `i` of the loop (which
is declared in line 37) and has not been given a value: its value is the parameter `junk`. -/
def parseOptions (X : Doubles) (junk : Int) (strict : Bool) (argv : List Str) (opts : List (Opt X.D)) : Result X.D :=
  match parseLoop X strict (argv.length - 1) 1 1 argv opts with
  | .done opts argv' j => .done opts argv' (argv.length - (junk - j))
  | r => r

/-- Where `main` reads the formula from, Main.cc:192-199. -/
inductive Input where
  | stdin
  | file (name : Str)
deriving DecidableEq

/-- Main.cc:192-199; `none`: `argv[1]` is a null pointer. -/
def mainInput (argc : Int) (argv : List Str) : Option Input :=
  if argc = 1 then some .stdin else argv[1]?.map .file

/-- The options of `candy` in the order of their definition, CLIOptions.cc:26-138. `asymm` is disabled and not
in the list. -/
def candyOptions (X : Doubles) : List (Opt X.D) :=
  let opt (n : String) (c : Cell X.D) : Opt X.D := ⟨n.toList, c⟩
  let num (s : String) : X.D := X.strtod s.toList
  [opt "threads" (.int 1 16 1),
   opt "thread-initialization-delay" (.int 10 2147483647 10000),
   opt "static-propagate" (.bool false),
   opt "static-database" (.bool false),
   opt "static_database_size_bound" (.int 0 32767 6),
   opt "persistentLBD" (.int 0 127 3),
   opt "recalculate-lbd" (.bool true),
   opt "keep-median-lbd" (.bool false),
   opt "firstReduceDB" (.int 0 32767 3000),
   opt "incReduceDB" (.int 0 32767 1300),
   opt "minimize" (.bool false),
   opt "minimize-pruned" (.bool false),
   opt "minimize-minimal" (.bool false),
   opt "minimize-project" (.bool false),
   opt "test-model" (.bool false),
   opt "test-proof" (.bool false),
   opt "test-limit" (.int 0 1000 0),
   opt "verb" (.int 0 2 1),
   opt "model" (.bool false),
   opt "certified-output" (.string (strncpy256 "".toList)),
   opt "gate-stats" (.bool false),
   opt "memory-limit" (.int 0 2147483647 2147483647),
   opt "time-limit" (.int 0 2147483647 2147483647),
   opt "K" (.double (num "0") (num "1") (num "0.8")),
   opt "R" (.double (num "1") (num "5") (num "1.4")),
   opt "szLBDQueue" (.int 10 32767 50),
   opt "szTrailQueue" (.int 10 32767 5000),
   opt "var-decay" (.double (num "0") (num "1") (num "0.8")),
   opt "max-var-decay" (.double (num "0") (num "1") (num "0.95")),
   opt "extra-bump" (.bool false),
   opt "use-vsidsc" (.bool false),
   opt "vsidsc-mult" (.int 1 32767 1),
   opt "vsidsc-bump" (.bool true),
   opt "vsidsc-lwcc" (.bool false),
   opt "vsidsc-sample-size" (.double (num "0.0") (num "1.0") (num "1.0")),
   opt "vsidsc-sample-size-decay" (.double (num "0.0") (num "1.0") (num "1.0")),
   opt "vsidsc-dbsize-recalc" (.double (num "0.0") (num "10.0") (num "0.0")),
   opt "vsidsc-debug" (.bool false),
   opt "use-lrb" (.bool false),
   opt "lrb-step-size" (.double (num "0") (num "1") (num "0.4")),
   opt "lrb-min-step-size" (.double (num "0") (num "1") (num "0.06")),
   opt "sort-variables" (.bool false),
   opt "pre" (.bool true),
   opt "inprocessing" (.int (-2147483648) 2147483647 0),
   opt "sonification-host" (.string (strncpy256 "127.0.0.1".toList)),
   opt "sonification-port" (.int 1 99999 7000),
   opt "sonification-delay" (.int 0 32767 0),
   opt "cl-lim" (.int 0 2147483647 20),
   opt "elim" (.bool true),
   opt "gate-recognition-method" (.int 0 30 10),
   opt "gate-tries" (.int 0 2147483647 0),
   opt "gate-timeout" (.int 0 2147483647 0),
   opt "rs-rounds" (.int 1 2147483647 1048576),
   opt "rs-abort-by-rrat" (.bool false),
   opt "rs-rrat" (.double (num "0.0") (num "1.0") (num "0.01")),
   opt "rs-max-conj-size" (.int 0 2147483647 0),
   opt "rs-remove-backbone-conj" (.bool false),
   opt "rs-only-nonmono-gates" (.bool false),
   opt "rs-time-limit" (.int (-1) 2147483647 (-1)),
   opt "rsil-enable" (.bool false),
   opt "rsil-mode" (.string (strncpy256 "unrestricted".toList)),
   opt "advice-size" (.int 2 3 3),
   opt "rsil-van-halflife" (.int 1 2147483647 16777216),
   opt "rsil-imp-budgets" (.int 1 2147483647 1048576),
   opt "rsil-filter-by-input-dependencies" (.int 0 2147483647 0),
   opt "rsil-filter-only-backbone" (.bool false),
   opt "rsil-min-gate-frac" (.double (num "0.0") (num "1.0") (num "0.1")),
   opt "rsil-only-miters" (.bool false),
   opt "rsar-enable" (.bool false),
   opt "rsar-max-refinements" (.int 1 2147483647 10),
   opt "rsar-heur-idc" (.string (strncpy256 "".toList)),
   opt "rsar-min-gatecount" (.int 1 2147483647 100)]

end Candy.Options
