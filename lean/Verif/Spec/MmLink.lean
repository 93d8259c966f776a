import Verif.Model.MmLink
import Verif.Spec.Link

/-!
# Vocabulary for the properties of driving links with bus stops
-/

namespace Verif.MmLnk
open MLnk

variable {V : Type} [DecidableEq V]

/-- The kinds of vehicles that keep their order on a link: cars, trucks that are not buses, and the
buses of each route. -/
inductive Cls where
  | car
  | truck
  | bus (r : ℤ)
deriving DecidableEq

/-- The kind of a vehicle. -/
def Kinds.cls (K : Kinds V) (v : V) : Cls :=
  match K.bus v with
  | some r => .bus r
  | none => if K.truck v then .truck else .car

/-- Buses have the class of trucks. -/
def Kinds.Wf (K : Kinds V) : Prop := ∀ v r, K.bus v = some r → K.truck v = true

/-- The vehicles of one kind. -/
def Kinds.only (K : Kinds V) (c : Cls) (l : List V) : List V := l.filter fun v => decide (K.cls v = c)

/-- The vehicles that came onto the link, in order. -/
def entered (log : List (ℕ × Ev V)) : List V :=
  log.filterMap fun e => match e.2 with | .enter v => some v | _ => none

/-- The vehicles that reached the exit, in order. -/
def reachedExit (log : List (ℕ × Ev V)) : List V :=
  log.filterMap fun e => match e.2 with | .leave v => some v | _ => none

/-- The event concerns vehicle `v`, and is not the holding or the boarding at a stop. -/
def Ev.moves (v : V) : Ev V → Bool
  | .enter w => decide (w = v)
  | .receive _ w => decide (w = v)
  | .release _ w => decide (w = v)
  | .leave w => decide (w = v)
  | .hold _ _ => false
  | .board _ _ => false

/-- The stop and the vehicle of an event at a stop. -/
def Ev.atStop : Ev V → Option (ℕ × V)
  | .receive i v => some (i, v)
  | .hold i v => some (i, v)
  | .board i v => some (i, v)
  | .release i v => some (i, v)
  | .enter _ => none
  | .leave _ => none

/-- What happened to vehicle `v`, in order: entering, being received and released by stops,
leaving. -/
def story (v : V) (log : List (ℕ × Ev V)) : List (Ev V) :=
  (log.map Prod.snd).filter (Ev.moves v)

/-- How often vehicle `v` was held by a stop. -/
def holds (v : V) (log : List (ℕ × Ev V)) : ℕ :=
  log.countP fun e => match e.2 with | .hold _ w => decide (w = v) | _ => false

/-- The numbers of the stops of route `r` at position `p`. -/
def here (stops : List Stop) (r : ℤ) (p : ℕ) : List ℕ :=
  (List.range stops.length).filter fun i => decide (stops[i]? = some ⟨r, p⟩)

/-- The stops of route `r` at the positions before `n`, each receiving and then releasing `v`, in
the order of the positions. -/
def served (stops : List Stop) (r : ℤ) (v : V) (n : ℕ) : List (Ev V) :=
  (List.range n).flatMap fun p => (here stops r p).flatMap fun i => [.receive i v, .release i v]

/-- A complete trip of a bus of route `r` over a link with positions `0, …, n - 1`. -/
def trip (stops : List Stop) (r : ℤ) (v : V) (n : ℕ) : List (Ev V) :=
  .enter v :: served stops r v n ++ [.leave v]

/-- The trip of a bus of route `r` that has come to position `p`. -/
def sofar (stops : List Stop) (r : ℤ) (v : V) (p : ℕ) : List (Ev V) :=
  .enter v :: served stops r v p ++ (here stops r p).map fun i => .receive i v

/-- Stops on a link with `n` positions: none beyond the end, and no two of one route at one
position. -/
structure StopsWf (stops : List Stop) (n : ℕ) : Prop where
  inside : ∀ s ∈ stops, s.pos < n
  apart : stops.Nodup

/-- A driving link of a multimodal network. -/
inductive Link (V : Type) where
  | ctm (l : Ctm V)
  | pq (l : Pq V)

namespace Link

/-- The arrays at the two ends. -/
def com : Link V → Common V
  | ctm l => l.base.com
  | pq l => l.base.com

/-- Writing them. -/
def setCom : Link V → Common V → Link V
  | ctm l, c => ctm { l with base := { l.base with com := c } }
  | pq l, c => pq { l with base := { l.base with com := c } }

/-- The stops. -/
def stops : Link V → List Stop
  | ctm l => l.stops
  | pq l => l.stops

/-- The state of stops and buses. -/
def bay : Link V → Bay V
  | ctm l => l.bay
  | pq l => l.bay

/-- The number of positions: cells, or intervals of the travel time. -/
def places : Link V → ℕ
  | ctm l => l.base.cells.length
  | pq l => (max 1 l.base.maxStamp).toNat

/-- The vehicles travelling at position `p`, those nearest to the exit first (cars before
trucks). -/
def at_ (p : ℕ) : Link V → List V
  | ctm l => match l.base.cells[p]? with
    | none => []
    | some c => c.queueCar ++ c.queueTruck
  | pq l => (l.queue.filter fun e => decide (e.2 = p)).map Prod.fst

/-- The vehicles travelling on the link; within a kind, those nearest to the exit first. -/
def travelling : Link V → List V
  | ctm l => (l.base.cells.reverse.map fun c => c.queueCar ++ c.queueTruck).flatten
  | pq l => l.queue.map Prod.fst

/-- The vehicles on the link or at one of its ends. -/
def present (l : Link V) : List V := l.com.incoming ++ l.travelling ++ l.com.finished

/-- Vehicles come onto the link in the order of their arrival: not so at an origin with point queue,
where vehicles to be parked wait for their travellers. -/
def InOrder : Link V → Prop
  | ctm _ => True
  | pq l => l.origin = false

end Link

/-- A new link (with the stops the reader has put there). -/
inductive Fresh (a : Args) (stops : List Stop) : Link V → Prop where
  | ctm (l : Ctm V) (h : Ctm.mk' a stops = .ok l) : Fresh a stops (.ctm l)
  | pq (origin : Bool) (wait : V → ℤ) (l : Pq V) (h : Pq.mk' a origin wait stops = .ok l) :
      Fresh a stops (.pq l)

/-- Everything that happens to a link.  `evolve`: with the timestamp, the draws for the rounding
and for the mixing of cars and trucks at the exit, and the wishes of the passengers. -/
inductive Op (V : Type) where
  | arrive (v : V)
  | depart (p : V → Bool)
  | clear (t : ℕ)
  | evolve (t : ℕ) (rnd : ℕ → ℚ) (ds : List ℚ) (orc : ℕ → ℤ × Bool)

/-- One event; the second component lists the departing vehicles.  A vehicle does not arrive while
it is still there. -/
def Link.step (K : Kinds V) (l : Link V) : Op V → Res (Link V × List V)
  | .arrive v =>
    if v ∈ l.present then .throw "not possible: the vehicle is on the link"
    else .ok (l.setCom { l.com with incoming := l.com.incoming ++ [v] }, [])
  | .depart p =>
    match Lnk.removeFirst p l.com.finished with
    | none => .ok (l, [])
    | some (v, rest) => .ok (l.setCom { l.com with finished := rest }, [v])
  | .clear t =>
    match l with
    | .ctm l => (l.clear K t).bind fun l' => .ok (.ctm l', [])
    | .pq l => (l.clear K t).bind fun l' => .ok (.pq l', [])
  | .evolve t rnd ds orc =>
    match l with
    | .ctm l => (l.evolve K t rnd ds orc).bind fun l' => .ok (.ctm l', [])
    | .pq l => (l.evolve K t orc).bind fun l' => .ok (.pq l', [])

/-- A history of events; the second component lists the departures in order. -/
def Link.run (K : Kinds V) (l : Link V) : List (Op V) → Res (Link V × List V)
  | [] => .ok (l, [])
  | op :: ops =>
    (l.step K op).bind fun r => (r.1.run K ops).bind fun r' => .ok (r'.1, r.2 ++ r'.2)

/-- The vehicles that arrive during a history, in order. -/
def arrivals (ops : List (Op V)) : List V :=
  ops.filterMap fun op => match op with | .arrive v => some v | _ => none

/-- The number of intervals of a history. -/
def intervals (ops : List (Op V)) : ℕ :=
  ops.countP fun op => match op with | .evolve _ _ _ _ => true | _ => false

end Verif.MmLnk
