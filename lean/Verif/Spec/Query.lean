import Verif.Spec.TravelTime
import Verif.Spec.ShortestPath
import Verif.Model.Query

/-!
# Specification vocabulary for the queries after a loading
-/

namespace Verif.Query

/-- Number of intervals of a trip along the links `ls` that starts in interval `t`: every link takes a whole number of
intervals, that of the interval in which it is entered; the last of the `M` intervals stands for all later
ones. -/
def tripTime (M : ℕ) (τ : ℤ → ℕ → ℚ) : ℕ → List ℤ → ℕ
  | _, [] => 0
  | t, l :: ls => Sp.ticks (τ l (min t (M - 1))) + tripTime M τ (t + Sp.ticks (τ l (min t (M - 1)))) ls

/-- Cost of that trip. -/
def tripCost (M : ℕ) (τ w : ℤ → ℕ → ℚ) : ℕ → List ℤ → ℚ
  | _, [] => 0
  | t, l :: ls => w l (min t (M - 1)) + tripCost M τ w (t + Sp.ticks (τ l (min t (M - 1)))) ls

/-- The table holds the values `τ` for the links `ls` and the intervals before `T`. -/
def Table (tab : Tabs) (T : ℕ) (ls : List ℤ) (τ : ℤ → ℕ → ℚ) : Prop :=
  ∀ l ∈ ls, ∃ xs, tab l = some xs ∧ ∀ t < T, xs[t]? = some (τ l t)

end Verif.Query
