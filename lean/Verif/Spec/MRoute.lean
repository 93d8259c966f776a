import Verif.Spec.Route
import Verif.Spec.MNet

/-! # Vocabulary for the routes of cars and trucks -/

namespace Verif.MNet
open Net

/-- The path tables of cars and of trucks, if the routing has them. -/
def Routing.tables : Routing → Option (PathTable × PathTable)
  | .net r => r.table.map fun t => (t, t)
  | .biclass _ pc pt => some (pc, pt)

end Verif.MNet
