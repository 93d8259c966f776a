import Verif.Model.Path
import Verif.Spec.ShortestPath

/-! # What a generated path set should be -/

namespace Verif.Path
open Graph Sp

/-- Origin node `o` has demand for a destination at node `d`. -/
def HasDemand (x : Inst) (o d : ℤ) : Prop :=
  ∃ p ∈ x.origins, p.1 = o ∧ ∃ e ∈ x.dests, e.2 = d ∧ p.2 e.1 = true

/-- Free-flow generalised cost of a link. -/
def freeW (x : Inst) (l : ℤ) : Cost := ((x.vot * x.tt l + x.toll l : ℚ) : Cost)

/-- Input the generation is meant for: different origins at different nodes of the graph, different
destinations likewise, non-negative generalised costs, free-flow and scaled, and no link -1. -/
structure GoodInst (x : Inst) : Prop where
  origins : (x.origins.map (·.1)).Nodup ∧ ∀ o ∈ x.origins, o.1 ∈ nodeIds x.g
  dests : (x.dests.map (·.2)).Nodup ∧ ∀ d ∈ x.dests, d.2 ∈ nodeIds x.g
  free : ∀ l ∈ linkIds x.g, 0 ≤ x.vot * x.tt l + x.toll l
  mid : ∀ l ∈ linkIds x.g, 0 ≤ x.vot * x.tt l * x.mid + x.toll l
  heavy : ∀ l ∈ linkIds x.g, 0 ≤ x.vot * x.tt l * x.heavy + x.toll l
  noLink : -1 ∉ linkIds x.g

/-- A path set for travelling from `o` to `d`: no two paths with the same links, each path a walk
from `o` to `d` with its node sequence and longer than the minimum. -/
def GoodSet (x : Inst) (o d : ℤ) (ps : List P) : Prop :=
  (ps.map (·.2)).Nodup ∧
    ∀ p ∈ ps, Walk x.g o p.2 d ∧ p.1 = walkNodes x.g o p.2 ∧ x.minLen < (p.2.map x.len).sum

end Verif.Path
