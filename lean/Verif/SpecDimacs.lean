import Verif.Model.Dimacs

/-!
# Specification of DIMACS texts

Which texts represent which formulas. Only the character classes and the positional value of a string
of digits are shared with the model.
-/

namespace Candy

/-- A text denoting an integer: digits, with an optional sign. -/
inductive IntText : List Char → Int → Prop
  | digits {ds} : ds ≠ [] → (∀ x ∈ ds, isDigitC x = true) → IntText ds (digitsVal ds)
  | plus {ds} : ds ≠ [] → (∀ x ∈ ds, isDigitC x = true) → IntText ('+' :: ds) (digitsVal ds)
  | minus {ds} : ds ≠ [] → (∀ x ∈ ds, isDigitC x = true) → IntText ('-' :: ds) (-(digitsVal ds : Int))

/-- White space between tokens of one clause or header; newlines only if `multi` is set. -/
def Sep (multi : Bool) (s : List Char) : Prop :=
  s ≠ [] ∧ (∀ x ∈ s, isSpaceC x = true) ∧ (multi = false → '\n' ∉ s)

/-- A text denoting a clause: non-zero integers up to `2^30` in absolute value, and a final zero. -/
inductive ClauseText (multi : Bool) : List Char → Clause → Prop
  | zero {z} : IntText z 0 → ClauseText multi z []
  | lit {t s r : List Char} {n : Int} {c : Clause} : IntText t n → n ≠ 0 → n.natAbs ≤ 2 ^ 30 →
      Sep multi s → ClauseText multi r c →
      ClauseText multi (t ++ s ++ r) (⟨n.natAbs - 1, decide (n < 0)⟩ :: c)

/-- A text denoting a formula: clauses, white space, comment lines and headers in any order. With
`multi = false` every clause and header stays on one line. -/
inductive Layout (multi : Bool) : List Char → CNF → Prop
  | nil : Layout multi [] []
  | space {c t f} : isSpaceC c = true → Layout multi t f → Layout multi (c :: t) f
  | comment {body e t f} : (∀ x ∈ body, isSpaceC x = false ∨ isBlankC x = true) →
      isSpaceC e = true → isBlankC e = false → Layout multi t f →
      Layout multi ('c' :: (body ++ e :: t)) f
  | lastComment {body} : (∀ x ∈ body, isSpaceC x = false ∨ isBlankC x = true) →
      Layout multi ('c' :: body) []
  | header {s1 v s2 k e t f} {nv nk : Nat} : Sep multi s1 → IntText v nv → nv < 2 ^ 31 →
      Sep multi s2 → IntText k nk → nk < 2 ^ 31 → isSpaceC e = true → Layout multi t f →
      Layout multi (['p', ' ', 'c', 'n', 'f'] ++ s1 ++ v ++ s2 ++ k ++ e :: t) f
  | clause {txt c e t f} : ClauseText multi txt c → isSpaceC e = true → Layout multi t f →
      Layout multi (txt ++ e :: t) (c :: f)

end Candy
