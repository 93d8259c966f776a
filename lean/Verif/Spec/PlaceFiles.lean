import Verif.Model.PlaceFiles
import Verif.Spec.Readers

/-!
# What the files of origins and destinations of electrified and delivery traffic mean (C213)
-/

namespace Verif.PlF
open Text Io Rd

/-- A row of an origin: its number, its node and, if it says so, the waiting time (seconds) and the share of vehicles that
charge at the roadside. -/
structure OriginLine where
  id : ℤ
  node : ℤ
  more : Option (Str × Option Str)

def OriginLine.words (r : OriginLine) : List Str :=
  toStr r.id :: toStr r.node :: match r.more with
    | none => []
    | some (w, none) => [w]
    | some (w, some v) => [w, v]

/-- Seconds that vehicles wait. -/
def OriginLine.wait (q : Str → ℚ) (r : OriginLine) : ℚ :=
  match r.more with
  | none => 0
  | some (w, _) => q w

/-- The share. -/
def OriginLine.ratio (q : Str → ℚ) (r : OriginLine) : ℚ :=
  match r.more with
  | some (_, some v) => q v
  | _ => 0

/-- Its node is one for origins, and its words are decimal numbers; only electrified traffic has shares. -/
structure OriginLine.Ok (ev : Bool) (q : Str → ℚ) (unit : ℤ) (kind : ℤ → Option NodeKind) (r : OriginLine) : Prop where
  range : IntOk r.id ∧ IntOk r.node
  node : kind r.node = some .origin
  wait : ∀ w v, r.more = some (w, v) → WordOk w ∧ stod w = .ok (q w) ∧ 0 ≤ q w ∧ q w / unit < 2147483647
  ratio : ∀ w v, r.more = some (w, some v) → ev = true ∧ WordOk v ∧ stod v = .ok (q v)

/-- A file: a first line, the origins, another line, the destinations. -/
def placesFile (h1 h2 : Str) (os : List OriginLine) (ds : List (ℤ × ℤ)) : Str :=
  h1 ++ '\n' :: (textOf (os.map OriginLine.words) ++ (h2 ++ '\n' :: textOf (ds.map fun d => [toStr d.1, toStr d.2])))

end Verif.PlF
