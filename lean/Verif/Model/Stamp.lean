/-!
# Model of `Stamp<T>` (src/candy/mtl/Stamp.h)

`T` is an integer type with `numeric_limits<T>::min() = 0` and `numeric_limits<T>::max() = max`
(the instances used are `uint8_t` and `uint32_t`; a signed type is the same up to a shift of all
values). The array `stamped` is a list; an access outside of it is undefined behaviour (the
asserts are compiled out), here `none`.
-/

namespace Candy

/-- `Stamp<T>`, Stamp.h:37-40. -/
structure Stamp where
  stamped : List Nat
  stamp : Nat
deriving DecidableEq, Repr

namespace Stamp

/-- `Stamp::clear`, Stamp.h:70-78. -/
def clear (max : Nat) (s : Stamp) : Stamp :=
  if s.stamp < max then { s with stamp := s.stamp + 1 }
  else ⟨s.stamped.map fun _ => 0, 0 + 1⟩

/-- `Stamp::Stamp()`, Stamp.h:43-46. -/
def new (max : Nat) : Stamp := clear max ⟨[], 0⟩

/-- `Stamp::Stamp(size_t)`, Stamp.h:48-52. -/
def newSize (max size : Nat) : Stamp :=
  let s := new max
  clear max ⟨s.stamped ++ List.replicate (size - s.stamped.length) 0, 0⟩

/-- `Stamp::grow()`, Stamp.h:56-58. -/
def grow1 (s : Stamp) : Stamp := { s with stamped := s.stamped ++ [0] }

/-- `Stamp::grow(size_t)`, Stamp.h:60-64. -/
def grow (s : Stamp) (size : Nat) : Stamp :=
  if s.stamped.length < size then
    { s with stamped := s.stamped ++ List.replicate (size - s.stamped.length) 0 }
  else s

/-- `Stamp::unset`, Stamp.h:80-83. -/
def unset (s : Stamp) (i : Nat) : Option Stamp :=
  if i < s.stamped.length then some { s with stamped := s.stamped.set i 0 } else none

/-- `Stamp::set`, Stamp.h:85-88. -/
def set (s : Stamp) (i : Nat) : Option Stamp :=
  if i < s.stamped.length then some { s with stamped := s.stamped.set i s.stamp } else none

/-- `Stamp::isStamped`, `operator[]`, Stamp.h:90-97. -/
def isStamped (s : Stamp) (i : Nat) : Option Bool :=
  s.stamped[i]?.map fun x => x == s.stamp

/-- `Stamp<bool>::clear`, Stamp.h:100-104, with `false = 0`, `true = 1`. -/
def clearBool (s : Stamp) : Stamp := ⟨s.stamped.map fun _ => 0, 1⟩

/-- `Stamp<bool>::Stamp()`, Stamp.h:43-46 with the specialised `clear`. -/
def newBool : Stamp := clearBool ⟨[], 0⟩

end Stamp

end Candy
