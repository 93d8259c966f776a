import Mathlib.Data.Nat.Notation
import Verif.Basic

/-!
# Random pairs of an origin and a destination (C222)
-/

namespace Verif.ROd

/-- The pair has demand. -/
def Demanded {α β : Type} (origins : List (α × List β)) (o : α) (d : β) : Prop := ∃ ds, (o, ds) ∈ origins ∧ d ∈ ds

/-- The random numbers come at, or after, the place `i` to an origin with demand. -/
def Hits {α β : Type} (origins : List (α × List β)) (rand : ℕ → ℕ) (i : ℕ) : Prop :=
  ∃ j ≥ i, ∃ o ds, origins[rand j % origins.length]? = some (o, ds) ∧ ds ≠ []

end Verif.ROd
