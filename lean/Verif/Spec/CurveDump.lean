import Verif.Model.CurveDump

/-!
# The file of cumulative curves (C223)
-/

namespace Verif.CvD
open Text

/-- The records of a curve, ascending in time, with whole times; the curve keeps them in any order. -/
def Keeps (c : Curve.Curve) (xs : List (ℤ × ℚ)) : Prop :=
  xs ≠ [] ∧ (xs.map (·.1)).Pairwise (· < ·) ∧ c.Perm (xs.map fun x => ((x.1 : ℚ), x.2))

/-- The line of a record. -/
def recLine (x : ℤ × ℚ) : Str := toStr x.1 ++ ',' :: FlowF.dec x.2

/-- The lines of a curve: the first record comes after the link and the kind of the curve. -/
def curveLines (id : ℤ) (word : String) : List (ℤ × ℚ) → List Str
  | [] => []
  | x :: xs => (toStr id ++ ',' :: (word.toList ++ ',' :: recLine x)) :: xs.map recLine

/-- The records of both curves of a link; no records if the link does not have the curve. -/
structure Recs where
  ins : List (ℤ × ℚ)
  outs : List (ℤ × ℚ)

/-- A curve and its records. -/
def KeepsOpt : Option Curve.Curve → List (ℤ × ℚ) → Prop
  | none, xs => xs = []
  | some c, xs => Keeps c xs

/-- The lines of a link. -/
def linkLines (l : Lk) (r : Recs) : List Str := curveLines l.id "in" r.ins ++ curveLines l.id "out" r.outs

end Verif.CvD
