import Verif.Spec.TravelTime
import Verif.Spec.Query
import Verif.Model.MQuery

/-!
# Specification vocabulary for the queries of networks with cars and trucks
-/

namespace Verif.MQuery
open Curve Tt

/-- The links `ls` of the state are the links `q`, and the vehicles of class `b` have the histories `ins b l` and
`outs b l` on link `l`; nothing has been asked yet. -/
def LoadedNet (σ : ℚ) (T : ℕ) (ins outs : Bool → ℤ → List (ℕ × ℕ)) (s : State) (ls : List ℤ) (q : ℤ → Link) : Prop :=
  ∀ l ∈ ls, s.net l = some (q l) ∧ ∀ b, Loaded σ T (ins b l) (outs b l) ((q l).cc b)

/-- The two states have the same links, as far as vehicles of class `b` are concerned: their curves, lengths, speeds and
tolls. -/
def SameFor (b : Bool) (s t : State) : Prop :=
  ∀ l, (s.net l = none ∧ t.net l = none) ∨ ∃ p q, s.net l = some p ∧ t.net l = some q ∧ p.cc b = q.cc b ∧
    p.length = q.length ∧ p.ffs b = q.ffs b ∧ p.toll b = q.toll b

/-- The class of a call that is answered from the curves, and not from tables built before. -/
def Ask.direct : Ask → Option Bool
  | .linkTt b _ _ => some b
  | .robust b _ _ _ => some b
  | .speed b _ => some b
  | .inflow b _ => some b
  | .avg b _ _ => some b
  | .build | .pathTt .. | .regPathTt .. => none

/-- No tables have been built. -/
def NoTables (s : State) : Prop := ∀ b l, s.tt b l = none ∧ s.cost b l = none

end Verif.MQuery
