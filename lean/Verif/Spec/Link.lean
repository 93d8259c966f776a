import Verif.Model.Link

/-!
# Vocabulary for the link properties

What happens to a link from the outside: vehicles arrive at its entrance, vehicles waiting at its
exit depart, and the simulator calls `clear_incoming_array` and `evolve` once per interval.
-/

namespace Verif.Lnk
variable {V : Type}

/-- What nodes do to a link: put a vehicle at the entrance, or take from the exit the first
waiting vehicle that satisfies a condition (for instance: continues on a given link). -/
inductive Move (V : Type) where
  | arrive (v : V)
  | depart (p : V → Bool)

/-- Everything that can happen to a link; `evolve` carries the random draws. -/
inductive LinkOp (V : Type) where
  | move (m : Move V)
  | clear
  | evolve (u : ℕ → ℚ)

/-- The first element satisfying `p`, and the list without it. -/
def removeFirst (p : V → Bool) : List V → Option (V × List V)
  | [] => none
  | v :: l => if p v then some (v, l) else (removeFirst p l).map fun r => (r.1, v :: r.2)

/-- Effect of a node's action; the second component is the vehicle that departs, if any. -/
def Link.doMove (l : Link V) : Move V → Link V × List V
  | .arrive v => (l.setIncoming (l.incoming ++ [v]), [])
  | .depart p =>
    match removeFirst p l.finished with
    | none => (l, [])
    | some (v, rest) => (l.setFinished rest, [v])

/-- Several actions of nodes in a row. -/
def Link.doMoves (l : Link V) : List (Move V) → Link V × List V
  | [] => (l, [])
  | m :: ms =>
    let r := l.doMove m
    let r' := r.1.doMoves ms
    (r'.1, r.2 ++ r'.2)

/-- One event; the second component lists the departing vehicles. -/
def Link.step (hasNext : V → Bool) (l : Link V) : LinkOp V → Res (Link V × List V)
  | .move m => .ok (l.doMove m)
  | .clear => l.clear.bind fun l' => .ok (l', [])
  | .evolve u => (l.evolve hasNext u).bind fun l' => .ok (l', [])

/-- A history of events; the second component lists the departures in order. -/
def Link.run (hasNext : V → Bool) (l : Link V) : List (LinkOp V) → Res (Link V × List V)
  | [] => .ok (l, [])
  | op :: ops =>
    (l.step hasNext op).bind fun r =>
      (r.1.run hasNext ops).bind fun r' => .ok (r'.1, r.2 ++ r'.2)

/-- The vehicles that arrive during a history, in order. -/
def arrivals (ops : List (LinkOp V)) : List V :=
  ops.filterMap fun op =>
    match op with
    | .move (.arrive v) => some v
    | _ => none

/-- All vehicles a link holds, nearest to the exit first: waiting at the exit, travelling,
waiting at the entrance. -/
def Link.holds (l : Link V) : List V := l.finished ++ l.travelling ++ l.incoming

/-- One simulation interval as seen by a link (`dta.cpp:538-689`): nodes act, then
`clear_incoming_array`, then `evolve`. -/
structure Interval (V : Type) where
  moves : List (Move V)
  draws : ℕ → ℚ

/-- What can be observed in one interval: the vehicles admitted to the travelling part by
`clear_incoming_array`, the vehicles that `evolve` appends to those waiting at the exit. -/
structure IntervalLog (V : Type) where
  admitted : List V
  ready : List V

/-- One interval and its log. -/
def Link.interval (hasNext : V → Bool) (l : Link V) (i : Interval V) :
    Res (Link V × IntervalLog V) :=
  let l1 := (l.doMoves i.moves).1
  l1.clear.bind fun l2 =>
    (l2.evolve hasNext i.draws).bind fun l3 =>
      .ok (l3, ⟨l2.travelling.drop l1.travelling.length, l3.finished.drop l2.finished.length⟩)

/-- Consecutive intervals and their logs. -/
def Link.intervals (hasNext : V → Bool) (l : Link V) : List (Interval V) →
    Res (Link V × List (IntervalLog V))
  | [] => .ok (l, [])
  | i :: is =>
    (l.interval hasNext i).bind fun r =>
      (r.1.intervals hasNext is).bind fun r' => .ok (r'.1, r.2 :: r'.2)

end Verif.Lnk
