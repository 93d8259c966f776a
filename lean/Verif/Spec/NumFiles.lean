import Verif.Model.NumFiles
import Verif.Spec.Io

/-!
# Files of numbers (C221)
-/

namespace Verif.NumF
open Text Io

/-- A file with the number of its rows in the first line, then the rows, then anything. -/
def counted (rows : List (List Str)) (rest : Str) : Str := toStr rows.length ++ '\n' :: (textOf rows ++ rest)

/-- The word is a decimal number, with value `x`. -/
def Decimal (w : Str) (x : ℚ) : Prop := WordOk w ∧ stod w = .ok x

end Verif.NumF
