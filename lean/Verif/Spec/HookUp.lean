import Verif.Model.HookUp

/-!
# What nodes and links know of each other (C218)
-/

namespace Verif.Hook
open Graph

/-- Link `l` leads from `f` to `t`. -/
def Leads (g : G) (l f t : ℤ) : Prop := getEndpoints g l = .ok (f, t)

/-- Everything in the graph was read, and only point queues are at charging stations. -/
structure Complete (N : Net) : Prop where
  nodes : ∀ n ∈ nodeIds N.g, n ∈ N.nodes
  links : ∀ l ∈ linkIds N.g, l ∈ N.links
  stations : ∀ l f t, Leads N.g l f t → N.kind f = .station ∨ N.kind t = .station → N.pq l = true

/-- Nodes know the links that leave them and those that enter them, each once, but destinations know no links that leave and
origins none that enter; links know their two ends. -/
structure Hooked (N : Net) (s : St) : Prop where
  outsOnce : ∀ n, (s.outs n).Nodup
  insOnce : ∀ n, (s.ins n).Nodup
  outs : ∀ n l, l ∈ s.outs n ↔ N.kind n ≠ .dest ∧ ∃ t, Leads N.g l n t
  ins : ∀ n l, l ∈ s.ins n ↔ N.kind n ≠ .origin ∧ ∃ f, Leads N.g l f n
  ends : ∀ l f t, s.ends l = some (f, t) ↔ Leads N.g l f t

end Verif.Hook
