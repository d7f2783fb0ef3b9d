import Verif.Spec

/-!
# Model of the 32-bit literal encoding and of lifted booleans (src/candy/core/SolverTypes.h)

A `Var` is an `int32_t`, a `Lit` is an `int32_t` `x`, an `lbool` a `uint8_t`. Signed overflow is
undefined behaviour in C++; the constructor returns `none` in that case.
-/

namespace Candy

/-- `struct Lit { int32_t x; }`, SolverTypes.h:97-98. -/
abbrev CLit := BitVec 32

/-- Addition of two `int`s: `none` is undefined behaviour (signed overflow). -/
def addInt32 (a b : BitVec 32) : Option (BitVec 32) :=
  if BitVec.saddOverflow a b then none else some (a + b)

namespace CLit

/-- `Lit(Var v, bool sign)`: `x = v.id + v.id + (sign ? 1 : 0)`, SolverTypes.h:104-106. -/
def mk (v : BitVec 32) (sign : Bool) : Option CLit :=
  (addInt32 v v).bind fun d => addInt32 d (if sign then 1 else 0)

/-- `Lit(Var v) : Lit(v, false)`, SolverTypes.h:102. -/
def ofVar (v : BitVec 32) : Option CLit := mk v false

/-- `Lit() : Lit(-1)`, SolverTypes.h:100. -/
def default : Option CLit := ofVar (-1)

/-- `sign()`: `x & 1`, SolverTypes.h:112-114. -/
def sign (x : CLit) : Bool := x &&& 1 != 0

/-- `var()`: `x >> 1` on a signed integer, SolverTypes.h:116-118. -/
def var (x : CLit) : BitVec 32 := x.sshiftRight 1

/-- `operator~`: `x ^ 1`, SolverTypes.h:120-124. -/
def compl (x : CLit) : CLit := x ^^^ 1

/-- `operator^(bool b)`: `x ^ (b ? 1 : 0)`, SolverTypes.h:126-130. -/
def xor (x : CLit) (b : Bool) : CLit := x ^^^ (if b then 1 else 0)

/-- `operator==`, SolverTypes.h:132-134. -/
def eq (x y : CLit) : Bool := x == y

/-- `operator!=`, SolverTypes.h:136-138. -/
def ne (x y : CLit) : Bool := x != y

/-- `operator<`: signed comparison of `x`, SolverTypes.h:140-142. -/
def lt (x y : CLit) : Bool := x.slt y

/-- `lit_Undef(-1, false)` and `lit_Error(-1, true)`, SolverTypes.h:155-156. -/
def undef : Option CLit := mk (-1) false
def error : Option CLit := mk (-1) true

end CLit

/-- The representation of a model literal (variable number, sign) as a 32-bit literal, built with
the constructor of the code. -/
def Lit.encode (l : Lit) : Option CLit := CLit.mk (BitVec.ofNat 32 l.var) l.sign

/-- The model literal a 32-bit literal stands for, read with the accessors of the code. -/
def CLit.decode (x : CLit) : Lit := ⟨(CLit.var x).toNat, CLit.sign x⟩

/-- `class lbool { uint8_t value; }`, SolverTypes.h:166-167. -/
abbrev LBool := BitVec 8

namespace LBool

/-- `l_True`, `l_False`, `l_Undef`, SolverTypes.h:162-164. -/
def T : LBool := 0
def F : LBool := 1
def U : LBool := 2

/-- `lbool(bool x) : value(!x)`, SolverTypes.h:171. -/
def ofBool (b : Bool) : LBool := if b then 0 else 1

/-- `operator==`: `((b.value & 2) & (value & 2)) | (!(b.value & 2) & (value == b.value))) != 0`,
SolverTypes.h:173-176. `!x` and `value == b.value` are `bool`s promoted to `int`. -/
def eq (v b : LBool) : Bool :=
  let notb : BitVec 8 := if b &&& 2 == 0 then 1 else 0
  let same : BitVec 8 := if v == b then 1 else 0
  (((b &&& 2) &&& (v &&& 2)) ||| (notb &&& same)) != 0

/-- `operator!=`, SolverTypes.h:177-179. -/
def ne (v b : LBool) : Bool := !(eq v b)

/-- `operator^`: `value == 2 ? l_Undef : lbool(value ^ b)`, SolverTypes.h:180-182. -/
def xor (v : LBool) (b : Bool) : LBool := if v == 2 then U else v ^^^ (if b then 1 else 0)

/-- The table lookups `(table >> sel) & 3` with `sel = (value << 1) | (b.value << 3)` truncated to
`uint8_t`; a shift by 32 or more is undefined (`none`), SolverTypes.h:184-194. -/
def lookup (table : BitVec 32) (v b : LBool) : Option LBool :=
  let sel : BitVec 8 := (v <<< 1) ||| (b <<< 3)
  if sel.toNat < 32 then some ((table >>> sel.toNat).setWidth 8 &&& 3) else none

/-- `operator&&`, SolverTypes.h:184-188. -/
def and (v b : LBool) : Option LBool := lookup 0xF7F755F4 v b

/-- `operator||`, SolverTypes.h:190-194. -/
def or (v b : LBool) : Option LBool := lookup 0xFCFCF400 v b

end LBool

end Candy
