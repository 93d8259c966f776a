import Verif.Model.Tables
import Verif.Spec.Curve

/-! # Specification vocabulary for the tables -/

namespace Verif.Tab
open Curve

/-- One movement onto a link: when, how much flow, of which path and departure interval. -/
structure Item where
  time : ℚ
  flow : ℚ
  path : ℤ
  dep : ℤ

/-- Movements in order of time, at whole intervals up to 9999, with non-negative flow. -/
def LegalItems (h : List Item) : Prop :=
  (∀ x ∈ h, IntTime x.time ∧ 0 ≤ x.flow) ∧ h.Pairwise fun a b => a.time ≤ b.time

/-- The flow of a path and departure interval that moves onto the link after `s` and up to `e`. -/
def entering (h : List Item) (path dep : ℤ) (s e : ℚ) : ℚ :=
  ((h.filter fun x => decide (x.path = path ∧ x.dep = dep ∧ s < x.time ∧ x.time ≤ e)).map (·.flow)).sum

/-- All flow of a path and departure interval that moves onto the link. -/
def total (h : List Item) (path dep : ℤ) : ℚ :=
  ((h.filter fun x => decide (x.path = path ∧ x.dep = dep)).map (·.flow)).sum

/-- The tree of the link after these movements. -/
def record (h : List Item) : Res Tree :=
  Res.foldlM (fun tr x => addFlow tr x.time x.flow x.path x.dep) [] h

/-- An entry of the sparse matrix: triplets at the same place are added. -/
def coeff (ts : List Cell) (r c : ℤ) : ℚ :=
  ((ts.filter fun x => decide (x.row = r ∧ x.col = c)).map fun x => x.value.getD 0).sum

end Verif.Tab
