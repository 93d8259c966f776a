import Verif.Model.Cover
import Verif.Spec.ShortestPath

/-! # What paths that cover links should be -/

namespace Verif.Cover
open Graph Sp Path

/-- The origin at node `o` has demand for a destination at node `d`. -/
def HasDemand (x : Inst) (o d : ℤ) : Prop := ∃ p ∈ x.origins, p.1 = o ∧ d ∈ p.2

/-- Input the generation is meant for: the graph was built by calls of its interface, origins and destinations are
nodes of their type in the graph, free-flow travel times are not negative, no link is number -1, and the orders are
those of permutations. -/
structure Good (x : Inst) (orc : Orc) (ops : List Op) : Prop where
  graph : x.g = run empty ops
  origins : ∀ o ∈ x.origins, o.1 ∈ nodeIds x.g ∧ x.isOrigin o.1 = true
  dests : ∀ o ∈ x.origins, ∀ d ∈ o.2, d ∈ nodeIds x.g ∧ x.isDest d = true
  tt : ∀ l ∈ linkIds x.g, 0 ≤ x.tt l
  noLink : -1 ∉ linkIds x.g
  nodes : orc.nodes.Perm (nodeIds x.g)
  links : orc.links.Perm (linkIds x.g)
  shuffleO : ∀ i k l, (orc.origins i k l).Perm l
  shuffleD : ∀ i k o l, (orc.dests i k o l).Perm l

/-- The free-flow travel time of a sequence of links. -/
def time (x : Inst) (ls : List ℤ) : ℚ := (ls.map x.tt).sum

/-- A path from `o` to `d` that uses link `l`: its links lead from `o` to `d`, its nodes are those it passes, and no
other way from `o` to `d` over `l` is faster at free flow. -/
structure FastestOver (x : Inst) (l o d : ℤ) (p : P) : Prop where
  walk : Walk x.g o p.2 d
  nodes : p.1 = walkNodes x.g o p.2
  over : l ∈ p.2
  fastest : ∀ ls, Walk x.g o ls d → l ∈ ls → time x p.2 ≤ time x ls

/-- The table `t` with the paths `new` (origin, destination, path) added to their path sets, in this order. -/
def added (t : Table) (new : List (ℤ × ℤ × P)) : Table := fun o d =>
  (t o d).map fun ps => ps ++ (new.filter fun q => decide (q.1 = o ∧ q.2.1 = d)).map fun q => q.2.2

/-- A link that neither leaves an origin node nor leads to a destination node. -/
def Inner (x : Inst) (l : ℤ) : Prop := ∃ f t, getEndpoints x.g l = .ok (f, t) ∧ x.isOrigin f = false ∧ x.isDest t = false

/-- The outcome of covering `links` from the path table `table` and the registered paths `paths`: the paths `new` are
added, one after the other, each for a pair with demand and each the fastest one over some link that no path before it
uses; the flags say which links are on some path at the end; and a link that is still on no path is on no way between
any pair with demand. -/
structure Covers (x : Inst) (links : List ℤ) (table : Table) (paths : List P) (new : List (ℤ × ℤ × P)) (s : St Bool) :
    Prop where
  tableEnd : s.table = added table new
  pathsEnd : s.paths = paths ++ new.map (·.2.2)
  each : ∀ pre q post, new = pre ++ q :: post → HasDemand x q.1 q.2.1 ∧
    ∃ l ∈ links, (∀ p ∈ paths ++ pre.map (·.2.2), l ∉ p.2) ∧ FastestOver x l q.1 q.2.1 q.2.2
  marks : s.marks = links.map fun l => decide (∃ p ∈ s.paths, l ∈ p.2)
  missing : ∀ l ∈ links, (∀ p ∈ s.paths, l ∉ p.2) → ∀ o d ls, HasDemand x o d → Walk x.g o ls d → l ∉ ls

/-- The outcome of covering `links` again, at most `maxIter` times each: the paths `new` are added, each for a pair with
demand, each the fastest one over one of the links, and none with the links of a path that the path set has already;
the counters say how many new paths use each link; and a link without new path is on no way between any pair with
demand, or on a path that some pair has already. -/
structure CoversAgain (x : Inst) (links : List ℤ) (maxIter : ℕ) (table : Table) (paths : List P)
    (new : List (ℤ × ℤ × P)) (s : St ℕ) : Prop where
  tableEnd : s.table = added table new
  pathsEnd : s.paths = paths ++ new.map (·.2.2)
  each : ∀ pre q post, new = pre ++ q :: post → HasDemand x q.1 q.2.1 ∧
    (∃ l ∈ links, FastestOver x l q.1 q.2.1 q.2.2) ∧
    ∀ ps, added table pre q.1 q.2.1 = some ps → ∀ r ∈ ps, r.2 ≠ q.2.2.2
  few : new.length ≤ maxIter * links.length
  marks : s.marks = links.map fun l => new.countP fun q => decide (l ∈ q.2.2.2)
  missing : 0 < maxIter → ∀ l ∈ links, (∀ q ∈ new, l ∉ q.2.2.2) →
    (∀ o d ls, HasDemand x o d → Walk x.g o ls d → l ∉ ls) ∨
    ∃ o d ps, HasDemand x o d ∧ table o d = some ps ∧ ∃ p ∈ ps, l ∈ p.2

end Verif.Cover
