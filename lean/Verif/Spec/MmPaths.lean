import Verif.Model.MmPaths
import Verif.Spec.Io

/-!
# What it means that transit and park-and-ride paths survive saving and loading (C208)
-/

namespace Verif.MmPt
open Text Graph Io

/-- The paths of a table from `o` to `d`. -/
def pathsFor {P : Type} (t : Tab P) (o d : ℤ) : List P :=
  (t.filter fun e => e.1 = o).flatMap fun e => (e.2.filter fun f => f.1 = d).flatMap fun f => f.2

/-- A transit path that can be written and read back: a walk from `o` to `d` with at least one link and its node
sequence; the numbers are of type `int`.  Parallel links are allowed. -/
structure BusOk (g : G) (o d : ℤ) (p : PathRec) : Prop where
  walk : Sp.Walk g o p.links d
  long : p.links ≠ []
  nodes : p.nodes = Sp.walkNodes g o p.links
  range : IntOk o ∧ IntOk d ∧ ∀ l ∈ p.links, IntOk l

/-- A park-and-ride path that can be written and read back: a drive from `o` to the destination in the middle over at
least one link, without parallel links, that is at the destination in the middle only at its end, and a transit path
from there to `d`. -/
structure PnrOk (dg tg : G) (o d : ℤ) (p : PnrRec) : Prop where
  drive : PathOk dg o p.mid ⟨0, p.driveNodes, p.driveLinks⟩
  once : p.mid ∉ p.driveNodes.dropLast
  ride : BusOk tg p.mid d ⟨0, p.rideNodes, p.rideLinks⟩
  lot : IntOk p.lot

/-- Everything but the number. -/
def PnrRec.content (p : PnrRec) : ℤ × ℤ × List ℤ × List ℤ × List ℤ × List ℤ :=
  (p.lot, p.mid, p.driveNodes, p.driveLinks, p.rideNodes, p.rideLinks)

/-- `t'` has for every pair of nodes the paths that `t` has, in the same order and with the same content (a pair
without paths is not in the table), numbered anew from 0 on. -/
def SamePaths {P β : Type} (content : P → β) (id : P → ℕ) (t : Tab P) (t' : ℤ → ℤ → Option (List P)) : Prop :=
  ∀ o d, (t' o d = none ↔ pathsFor t o d = []) ∧
    ((t' o d).getD []).map content = (pathsFor t o d).map content ∧
    (((t' o d).getD []).map id).Pairwise (· < ·) ∧ ∀ p ∈ (t' o d).getD [], id p < (rowsOfTab t).length

end Verif.MmPt
