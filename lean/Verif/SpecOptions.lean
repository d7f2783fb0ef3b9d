import Verif.Model.Options
import Verif.SpecDimacs

/-!
# Specification of the command line

What the arguments of the program mean. Taken from the model: names, kinds and values of options.
-/

namespace Candy.Options
open Candy

/-- The value of an option as the program reads it. -/
inductive Value (D : Type) where
  | int (n : Int)
  | double (d : D)
  | text (s : Str)
  | bool (b : Bool)
deriving DecidableEq

/-- `none`: reading the value is undefined behaviour. -/
def Cell.value {D : Type} : Cell D → Option (Value D)
  | .int _ _ n => some (.int n)
  | .int64 _ _ n => some (.int n)
  | .double _ _ d => some (.double d)
  | .string b => (readC b).map .text
  | .bool b => some (.bool b)

/-- Value of the option with the given name. -/
def valueOf {D : Type} (opts : List (Opt D)) (name : Str) : Option (Value D) :=
  (opts.find? fun o => o.name == name).bind fun o => o.cell.value

/-- What a user may want to say with one argument. -/
inductive Arg where
  | int (name text : Str) (n : Int)
  | double (name text : Str)
  | string (name text : Str)
  | flag (name : Str) (b : Bool)
  | file (name : Str)

/-- How it is written. -/
def Arg.text : Arg → Str
  | .int name t _ => '-' :: (name ++ '=' :: t)
  | .double name t => '-' :: (name ++ '=' :: t)
  | .string name t => '-' :: (name ++ '=' :: t)
  | .flag name true => '-' :: name
  | .flag name false => "-no-".toList ++ name
  | .file s => s

/-- What it sets. -/
def Arg.setting (X : Doubles) : Arg → Option (Str × Value X.D)
  | .int name _ n => some (name, .int n)
  | .double name t => some (name, .double (X.strtod t))
  | .string name t => some (name, .text t)
  | .flag name b => some (name, .bool b)
  | .file _ => none

/-- The file names among the arguments. -/
def Arg.fileName : Arg → Option Str
  | .file s => some s
  | _ => none

/-- The argument is admissible: the option exists and has the right kind, the text of a number is a number in
the range of the option, other texts are C strings that fit into the array, file names do not begin with `-`,
and the argument is not a request for help. -/
structure Arg.Fits (X : Doubles) (opts : List (Opt X.D)) (a : Arg) : Prop where
  help : ¬ "--help".toList <:+: a.text
  kind : match a with
    | .int name t n => IntText t n ∧ ∃ o ∈ opts, o.name = name ∧
        ((∃ lo hi v, o.cell = .int lo hi v ∧ lo ≤ n ∧ n ≤ hi ∧ -(2 ^ 31) ≤ n ∧ n < 2 ^ 31) ∨
         (∃ lo hi v, o.cell = .int64 lo hi v ∧ lo ≤ n ∧ n ≤ hi ∧ -(2 ^ 63) ≤ n ∧ n < 2 ^ 63))
    | .double name t => ∃ o ∈ opts, o.name = name ∧ ∃ lo hi v, o.cell = .double lo hi v ∧
        X.lt (X.strtod t) lo = false ∧ X.lt hi (X.strtod t) = false
    | .string name t => t.length < 256 ∧ '\x00' ∉ t ∧ ∃ o ∈ opts, o.name = name ∧ ∃ b, o.cell = .string b
    | .flag name _ => ∃ o ∈ opts, o.name = name ∧ ∃ b, o.cell = .bool b
    | .file s => s.head? ≠ some '-'

/-- The names of the options are different, contain no `=` and do not begin with `no-`. -/
structure Names {D : Type} (opts : List (Opt D)) : Prop where
  nodup : (opts.map Opt.name).Nodup
  noEq : ∀ o ∈ opts, '=' ∉ o.name
  noNo : ∀ o ∈ opts, ¬ "no-".toList <+: o.name

/-- The value an option has after the arguments: that of the last argument that names it. -/
def finalValue (X : Doubles) (opts : List (Opt X.D)) (args : List Arg) (name : Str) : Option (Value X.D) :=
  match (args.filterMap (Arg.setting X)).reverse.find? fun x => x.1 == name with
  | some x => some x.2
  | none => valueOf opts name

/-- The argument has the form of a setting of the option. -/
def Opt.Accepts {D : Type} (o : Opt D) (str : Str) : Prop :=
  match o.cell with
  | .bool _ => str = '-' :: o.name ∨ str = "-no-".toList ++ o.name
  | _ => ('-' :: (o.name ++ ['='])) <+: str

end Candy.Options
