import Verif.Model.Trees
import Verif.Spec.Tables

/-! # Specification vocabulary for the trees of curves after a loading -/

namespace Verif.Net
open Tab

/-- What a tree should know of a movement: when, how much, on which path, departed in which assignment interval. -/
def itemOf (scalar : ℚ) (vehs : ℕ → Veh) (e : Event) : Item :=
  ⟨(e.t : ℚ) + 1, 1 / scalar, pathKey (vehs e.veh).path, (vehs e.veh).assign⟩

/-- The movements from some link onto link `l`. -/
def arrived (scalar : ℚ) (s : State) (l : ℕ) : List Item :=
  (s.log.filter fun e => decide (e.src ≠ none ∧ e.dst = some l)).map (itemOf scalar s.vehs)

/-- The movements from link `l` onto some link. -/
def departed (scalar : ℚ) (s : State) (l : ℕ) : List Item :=
  (s.log.filter fun e => decide (e.dst ≠ none ∧ e.src = some l)).map (itemOf scalar s.vehs)

end Verif.Net
