import Verif.Model.Trail
import Verif.Model.Stamp

/-!
# `Trail::computeLBD` on the stamp array (src/candy/core/Trail.h)

`Trail.computeLBD` in `Model/Trail.lean` keeps the stamped levels in a list. Here the array of the code is
used: `stamp` has one entry per variable (`Trail::init`, Trail.h:92-101) and counts with `max = 2^32 - 1`.
-/

namespace Candy

/-- The loop of `computeLBD`, Trail.h:305-312. `none`: access outside the stamp array. -/
def lbdLoop (T : Trail) : List Lit → Stamp → Nat → Option (Nat × Stamp)
  | [], s, n => some (n, s)
  | l :: ls, s, n =>
    match s.isStamped (T.level l.var) with
    | none => none
    | some true => lbdLoop T ls s n
    | some false =>
      match s.set (T.level l.var) with
      | none => none
      | some s => lbdLoop T ls s (n + 1)

/-- `computeLBD`, Trail.h:300-315. -/
def lbdStamped (max : Nat) (T : Trail) (ls : List Lit) (s : Stamp) : Option (Nat × Stamp) :=
  lbdLoop T ls (s.clear max) 0

end Candy
