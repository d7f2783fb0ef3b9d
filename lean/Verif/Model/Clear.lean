import Verif.Model.History

/-!
# Model of `Solver::clear` (src/candy/core/Solver.h:319-325)
-/

namespace Candy

/-- `Solver::clear`, Solver.h:319-325: `ClauseDatabase::clear` (ClauseDatabase.h:95-102, with
`ClauseAllocator::clear`, ClauseAllocator.h:78-81), `Trail::clear` (Trail.h:103-112),
`Propagate::clear` (Propagate.h:74-76) and `branch.clear()` (branching is an input of `solve`).
The result object and the state of variable elimination are not touched.
Simplification: `log` and `sent` are the certificate and the callbacks since the last `clear`. -/
def Sys.clear (sys : Sys) : Sys :=
  { sys with sol := { sys.sol with
      db := DB.new
      watch := fun _ => []
      trail := Trail.empty 0
      sent := [] } }

/-- Several calls of `Solver::init` in a row. -/
def Sys.load (sys : Sys) (gs : List (Nat × CNF × Bool)) : Sys :=
  gs.foldl (fun s g => s.init g.1 g.2.1 g.2.2) sys

end Candy
