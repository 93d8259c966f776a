import Verif.Model.EvRoute
import Verif.Spec.ShortestPath

/-! # What routing with charging stations should do -/

namespace Verif.EvR
open Graph Sp

/-- The total cost of a sequence of links, each with cost `c`. -/
def total (c : ℤ → ℚ) (ls : List ℤ) : ℚ := (ls.map c).sum

/-- There is a way from `u` to `v`. -/
def Reach (g : G) (u v : ℤ) : Prop := ∃ ls, Walk g u ls v

/-- Link `l` begins a cheapest way from `u` to `v`. -/
def Begins (g : G) (c : ℤ → ℚ) (u v l : ℤ) : Prop :=
  ∃ ls, Walk g u (l :: ls) v ∧ ∀ ls', Walk g u ls' v → total c (l :: ls) ≤ total c ls'

/-- The cost of a link: travel time times the value of time, plus the toll.  A point queue that leads to a charging
station costs ten times the value of the time of waiting (the shortest queue) and charging plus the price in addition. -/
def CostOf (x : Inst) (l : ℤ) (v : ℚ) : Prop :=
  ∃ f t, getEndpoints x.g l = .ok (f, t) ∧
    match x.pq l, x.station t with
    | true, some s => ∃ q ∈ s.state.pool, (∀ r ∈ s.state.pool, q.length ≤ r.length) ∧
        v = x.tt l * x.vot + x.toll l +
          10 * (x.vot * (s.cfg.unit * ((q.length + 1) * s.cfg.time)) + s.price)
    | _, _ => v = x.tt l * x.vot + x.toll l

/-- The tree `t` says the first link of a cheapest way to `v` at every other node, or -1 where there is no way. -/
def TreeTo (g : G) (c : ℤ → ℚ) (v : ℤ) (t : Tree) : Prop :=
  ∀ u ∈ nodeIds g, u ≠ v →
    (Reach g u v → ∃ l, t u = some l ∧ Begins g c u v l) ∧ (¬ Reach g u v → t u = some (-1))

/-- The trees are those of the costs `c` to destinations and stations. -/
structure Current (g : G) (c : ℤ → ℚ) (dnode : ℕ → ℤ) (dests : List ℕ) (pois : List ℤ) (t : Tables) : Prop where
  dest : ∀ d ∈ dests, ∃ tree, t.dest d = some tree ∧ TreeTo g c (dnode d) tree
  poi : ∀ n ∈ pois, ∃ tree, t.poi n = some tree ∧ TreeTo g c n tree

/-- Station `n` is the best one for the way from `u` to `v`: over no other candidate is the way cheaper. -/
def IsBest (g : G) (c : ℤ → ℚ) (u v : ℤ) (nodes : List ℤ) (n : ℤ) : Prop :=
  n ∈ nodes ∧ ∃ a b, Walk g u a n ∧ Walk g n b v ∧
    ∀ m ∈ nodes, ∀ a' b', Walk g u a' m → Walk g m b' v → total c (a ++ b) ≤ total c (a' ++ b')

/-- Input routing is meant for: the graph was built by calls of its interface and has the nodes of origins,
destinations and stations; no link is number -1 or negative; numbers are not negative; stations have queues; the tables
have entries (`init_routing`). -/
structure Good (x : Inst) (ops : List Op) (links : List ℤ) (dnode : ℕ → ℤ) (dests : List ℕ) (pois : List ℤ)
    (pairs : List Pair) (k : Kept) : Prop where
  graph : x.g = run empty ops
  linkIds : ∀ l, l ∈ links ↔ l ∈ Graph.linkIds x.g
  positive : ∀ l ∈ Graph.linkIds x.g, 0 ≤ l
  vot : 0 ≤ x.vot
  tt : ∀ l ∈ Graph.linkIds x.g, 0 ≤ x.tt l
  toll : ∀ l ∈ Graph.linkIds x.g, 0 ≤ x.toll l
  station : ∀ n s, x.station n = some s → 0 ≤ s.cfg.time ∧ 0 ≤ s.cfg.unit ∧ 0 ≤ s.price ∧ s.state.pool ≠ []
  destsOk : ∀ d ∈ dests, dnode d ∈ nodeIds x.g ∧ ∃ t, k.trees.dest d = some t
  poisOk : ∀ n ∈ pois, n ∈ nodeIds x.g ∧ ∃ t, k.trees.poi n = some t
  pairsOk : ∀ p ∈ pairs, p.onode ∈ nodeIds x.g ∧ p.dest ∈ dests ∧ p.dnode = dnode p.dest
  nodes : ∀ p ∈ pairs, ∀ n ∈ p.nodes, n ∈ pois
  once : pairs.Pairwise fun p q => ¬ (p.origin = q.origin ∧ p.dest = q.dest)

/-- Where a vehicle should go, given the station it is to use: to the station if it needs charging, otherwise to its
destination. -/
def goal (dnode : ℕ → ℤ) (v : Veh) (s : Option ℤ) : ℤ :=
  match v.needs, s with
  | true, some s => s
  | _, _ => dnode v.dest

/-! ## Batteries -/

/-- What happens to a battery: a vehicle leaves a link of some length (in metres), which may be a point queue, through
a junction, or leaves a charging station. -/
inductive Use where
  | link (length : ℚ) (pq : Bool)
  | charge
deriving DecidableEq

/-- The vehicle after one use. -/
def Use.apply (v : Chg.Ev) : Use → Chg.Ev
  | .link length pq => v.drive length pq
  | .charge => v.charge

/-- The vehicle after some uses. -/
def after (v : Chg.Ev) (us : List Use) : Chg.Ev := us.foldl Use.apply v

/-- Miles driven in one use, not counting point queues. -/
def Use.miles : Use → ℚ
  | .link length false => length / 1600
  | _ => 0

/-- Miles driven, not counting point queues. -/
def miles (us : List Use) : ℚ := (us.map Use.miles).sum

end Verif.EvR
