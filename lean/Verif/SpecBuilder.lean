import Verif.Model.Builder

/-!
# Which solver the options ask for
-/

namespace Candy.Builder
open Candy Candy.Options

/-- The heuristic uses implicit learning. -/
def Heuristic.Implicit : Heuristic → Prop
  | .unrestricted _ => True
  | .budget _ => True
  | .vanishing _ => True
  | _ => False

/-- The solver is of the kind that the options ask for: static propagation if and only if it is asked for; VSIDS if no
heuristic is asked for, the heuristic that is asked for if there is just one, in the mode and with the advice size that
are asked for, and one of those that are asked for if there are several. -/
structure Fulfils (o : Settings) (k : Kind) : Prop where
  propagate : k.propagate = .static ↔ o.static = true
  none : o.lrb = false → o.rsil = false → o.vsidsc = false → k.branch = .vsids
  lrb : o.lrb = true → o.rsil = false → o.vsidsc = false → k.branch = .lrb
  vsidsc : o.lrb = false → o.rsil = false → o.vsidsc = true → k.branch = .vsidsc
  rsil : o.lrb = false → o.rsil = true → o.vsidsc = false → k.branch.Implicit
  some : (k.branch = .vsids → o.lrb = false ∧ o.rsil = false ∧ o.vsidsc = false) ∧ (k.branch = .lrb → o.lrb = true) ∧
    (k.branch = .vsidsc → o.vsidsc = true) ∧ (k.branch.Implicit → o.rsil = true)
  mode : k.branch.Implicit →
    (o.mode = "unrestricted".toList ∧ k.branch = .unrestricted o.size.toNat) ∨
    (o.mode = "vanishing".toList ∧ k.branch = .vanishing o.size.toNat) ∨
    (o.mode = "implicationbudgeted".toList ∧ k.branch = .budget o.size.toNat)

/-- The heuristic of thread `i` of a portfolio, by the comments in Main.cc:257-297: pairs of threads use VSIDS, LRB,
implicit learning, VSIDS, VSIDS, LRB, implicit learning and VSIDS. The mode is `unrestricted`, `size` is the advice size
that is asked for. -/
def portfolioHeuristic (size : Nat) (i : Nat) : Heuristic :=
  [Heuristic.vsids, .lrb, .unrestricted size, .vsids, .vsids, .lrb, .unrestricted size, .vsids].getD (i / 2) .vsids

end Candy.Builder
