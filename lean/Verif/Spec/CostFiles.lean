import Verif.Model.CostFiles
import Verif.Spec.FlowFiles

/-!
# What it means that the costs of a path are in a line (C219)
-/

namespace Verif.CostF
open Text Rd FlowF

/-- The words of the line are the numbers, one for one, up to half a millionth. -/
def InLine (v : List ℚ) (line : Str) : Prop := ∃ w, stods (split line ' ') = .ok w ∧ List.Forall₂ Close v w

/-- The words of the line are the nodes, one for one. -/
def NodesInLine (v : List ℤ) (line : Str) : Prop := List.Forall₂ (fun w n => stoi w = .ok n) (split line ' ') v

end Verif.CostF
