import Verif.Model.TourFiles
import Verif.Spec.Readers

/-!
# What the files of tours mean (C212)
-/

namespace Verif.TourF
open Text Io Rd

/-- A tour: its first trip, the others, and a decimal number for each interval. -/
structure Line where
  first : ℤ × ℤ
  rest : List (ℤ × ℤ)
  demand : List Str

/-- Its row in the file of trips. -/
def Line.trips (r : Line) : List Str := ((r.first :: r.rest).flatMap fun t => [t.1, t.2]).map toStr

/-- The trips are between origins and destinations that exist, and there is a decimal number for each interval. -/
structure Line.Ok (q : Str → ℚ) (m : ℕ) (os ds : List ℤ) (r : Line) : Prop where
  trips : ∀ t ∈ r.first :: r.rest, IntOk t.1 ∧ IntOk t.2 ∧ t.1 ∈ os ∧ t.2 ∈ ds
  demand : r.demand.length = m ∧ ∀ w ∈ r.demand, WordOk w ∧ w.head? ≠ some '#' ∧ stod w = .ok (q w)

end Verif.TourF
