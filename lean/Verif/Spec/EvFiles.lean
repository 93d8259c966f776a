import Verif.Model.EvFiles
import Verif.Spec.Readers

/-!
# What the files of charging stations mean (C210, C211)
-/

namespace Verif.EvF
open Text Io Rd

/-- A row of the file of stations: number of the node, slots, charging time and waiting time (seconds) and price as
decimal numbers. -/
structure StationLine where
  id : ℤ
  slots : ℤ
  charge : Str
  wait : Str
  price : Str

/-- Its words. -/
def StationLine.words (r : StationLine) : List Str := [toStr r.id, toStr r.slots, r.charge, r.wait, r.price]

/-- The numbers are of type `int`, the words for times and price are decimal numbers, and the times (in intervals) are
not negative and of type `int`. -/
structure StationLine.Ok (q : Str → ℚ) (unit : ℤ) (r : StationLine) : Prop where
  range : IntOk r.id ∧ IntOk r.slots
  charge : WordOk r.charge ∧ stod r.charge = .ok (q r.charge) ∧ 0 ≤ q r.charge ∧ q r.charge / unit < 2147483648
  wait : WordOk r.wait ∧ stod r.wait = .ok (q r.wait) ∧ 0 ≤ q r.wait ∧ q r.wait / unit < 2147483648
  price : WordOk r.price ∧ stod r.price = .ok (q r.price)

/-- A row of the file of candidates: origin, destination, stations. -/
structure CandLine where
  o : ℤ
  d : ℤ
  stations : List ℤ

/-- Its words. -/
def CandLine.words (r : CandLine) : List Str := (r.o :: r.d :: r.stations).map toStr

/-- It names an origin, a destination and charging stations. -/
structure CandLine.Ok (os ds : List ℤ) (m : Nodes) (r : CandLine) : Prop where
  range : IntOk r.o ∧ IntOk r.d ∧ ∀ k ∈ r.stations, IntOk k
  ends : r.o ∈ os ∧ r.d ∈ ds
  stations : ∀ k ∈ r.stations, ∃ c, m.get k = some (some c)

/-- A list without what has come before. -/
def firsts : List ℤ → List ℤ
  | [] => []
  | a :: l => a :: (firsts l).filter (· ≠ a)

/-- What the rows of a pair say, in their order. -/
def said (rows : List CandLine) (o d : ℤ) : List ℤ := (rows.filter fun r => decide (r.o = o ∧ r.d = d)).flatMap (·.stations)

end Verif.EvF
