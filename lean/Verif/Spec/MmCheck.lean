import Verif.Model.MmCheck
import Verif.Spec.Check

/-!
# What a consistent transit network is (C220)
-/

namespace Verif.MmChk
open Graph Chk

/-- The destination can be reached on foot: from the transit network or from its parking lot. -/
def MDest.onFoot (d : MDest) : Prop := d.walks ≠ 0 ∨ ∃ k, d.lot = some k ∧ k ≠ 0

/-- All parts of a bus stop are there: a physical stop has virtual stops and links to alight and to board, a virtual one has its
physical stop and is on a bus route. -/
def StopKind.Whole : StopKind → Prop
  | .physical v a b => 0 < v ∧ 0 < a ∧ 0 < b
  | .virtual p i o => p ≠ none ∧ (i ≠ none ∨ o ≠ none)
  | .other => False

/-- The objects that have to be in the transit network are nodes of its graph. -/
structure Present (c : TScn) : Prop where
  origins : ∀ o ∈ c.origins, o.bus = true → o.node ∈ nodeIds c.g
  dests : ∀ d ∈ c.dests, d.onFoot → d.node ∈ nodeIds c.g
  stops : ∀ s ∈ c.stops, s.id ∈ nodeIds c.g

/-- The numbers of the configuration are those of what was read; origins with bus demand are left, not entered, also by walking
links; destinations that are reached on foot are entered, not left; bus stops are on a driving link, are entered and left, and
are whole. -/
structure TConsistent (c : TScn) : Prop where
  nodes : c.numPhys + c.numVirt ≤ (sizeNodes c.g : ℤ) ∧ c.stops.length ≤ sizeNodes c.g
  links : (sizeLinks c.g : ℤ) = c.numBus + c.numWalk ∧ sizeLinks c.g = c.links
  ends : (c.origins.length : ℤ) = c.numO ∧ (c.dests.length : ℤ) = c.numD
  origins : ∀ o ∈ c.origins, o.bus = true → Leaves c.g o.node ∧ ¬ Enters c.g o.node ∧ 0 < o.walks
  dests : ∀ d ∈ c.dests, d.onFoot → Enters c.g d.node ∧ ¬ Leaves c.g d.node
  stops : ∀ s ∈ c.stops, s.link ≠ -1 ∧ Leaves c.g s.id ∧ Enters c.g s.id ∧ s.kind.Whole

end Verif.MmChk
