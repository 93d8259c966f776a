import Verif.Model.Check
import Verif.Spec.ShortestPath

/-!
# What a consistent scenario is (C217)
-/

namespace Verif.Chk
open Graph Sp

/-- Some link leaves the node. -/
def Leaves (g : G) (n : ℤ) : Prop := ∃ l t, getEndpoints g l = .ok (n, t)

/-- Some link enters the node. -/
def Enters (g : G) (n : ℤ) : Prop := ∃ l f, getEndpoints g l = .ok (f, n)

/-- The numbers in the configuration are those of what was read; links leave, and do not enter, the nodes of origins; links
enter, and do not leave, the nodes of destinations; from every origin there is a way to every destination. -/
structure Consistent (c : Scn) : Prop where
  nodes : (sizeNodes c.g : ℤ) = c.numNode ∧ sizeNodes c.g = c.nodes
  links : (sizeLinks c.g : ℤ) = c.numLink ∧ sizeLinks c.g = c.links.length
  ends : (c.origins.length : ℤ) = c.numO ∧ (c.dests.length : ℤ) = c.numD
  origins : ∀ o ∈ c.origins, Leaves c.g o ∧ ¬ Enters c.g o
  dests : ∀ d ∈ c.dests, Enters c.g d ∧ ¬ Leaves c.g d
  ways : ∀ o ∈ c.origins, ∀ d ∈ c.dests, ∃ ls, Walk c.g o ls d

end Verif.Chk
