import Verif.Model.MmRoutes
import Verif.Spec.Io

/-!
# What the files of bus paths and of bus routes mean (C209)
-/

namespace Verif.MmRt
open Text Graph Io

/-- A bus route: the nodes of its ends, its number, the nodes and links that its buses drive along and its stops. -/
structure Route where
  o : ℤ
  d : ℤ
  route : ℤ
  nodes : List ℤ
  links : List ℤ
  stops : List ℤ

/-- Its row in the file of paths. -/
def Route.pathRow (r : Route) : List Str := (r.o :: r.d :: r.route :: r.nodes).map toStr

/-- Its row in the file of routes. -/
def Route.stopRow (r : Route) : List Str := (r.o :: r.d :: r.route :: r.stops).map toStr

/-- A file: a first line that says what the columns are, and the rows. -/
def fileOf (head : Str) (rows : List (List Str)) : Str := head ++ '\n' :: textOf rows

/-- The buses that leave in the first `n` intervals: in each interval the whole vehicles of the demand, `scalar` vehicles
standing for one bus. -/
def buses (scalar : ℚ) (n : ℕ) (v : List ℚ) : ℚ := ((v.take n).map fun x => (⌊x * scalar⌋ : ℚ) / scalar).sum

/-- A route that can be read: its nodes are those of a walk without parallel links, the numbers are of type `int`, and
(when the stops are to be told how many buses come) its ends are an origin and a destination with a demand for it, and
its stops are virtual stops. -/
structure RouteOk (E : Env) (r : Route) : Prop where
  walk : ∃ u v, PathOk E.g u v ⟨0, r.nodes, r.links⟩
  range : IntOk r.o ∧ IntOk r.d ∧ IntOk r.route ∧ ∀ k ∈ r.stops, IntOk k
  ends : 0 < E.num → E.kind.get r.o = some .origin ∧ E.kind.get r.d = some .dest ∧
    (∃ v, E.demand r.o r.d r.route = some v ∧ E.num ≤ v.length ∧ ∀ x ∈ v, 0 ≤ x) ∧
    ∀ k ∈ r.stops, E.virtualStop k = some true

end Verif.MmRt
