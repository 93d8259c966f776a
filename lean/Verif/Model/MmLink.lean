import Verif.Model.MLink

/-!
# Model of the driving links with bus stops (`src/multimodal.cpp:3754-4735`)

Cell transmission and point queue links of a multimodal network.  They carry cars, trucks and
buses; a bus is a truck (`m_class` 1) with a route.  Virtual bus stops lie in a cell (cell
transmission) or at an interval of the travel time (point queue); a bus is received by a stop of
its route when it comes there, held while it dwells, and released when it goes on.

As for the other links the type `V` of vehicles is arbitrary.  What the passengers on board and at
the stop want when a stop decides whether to hold a bus is an oracle (the passengers themselves are
modelled in `Verif.Model.Transit`), and so are the draws.  The cumulative curves of the stops and
the routing of the waiting passengers are left out here (see `Verif.Model.Transit`).  The log is a
ghost: it records what happens and is never read by the program, except that its length selects
the answer of the oracle.
-/

namespace Verif.MmLnk
open Ults MLnk

variable {V : Type} [DecidableEq V]

/-- The members of a vehicle the links read: `m_class`, `m_bus_route_ID` (`none`: -1),
`m_boarding_lost_intervals`, `get_ispnr` and `has_next_link`. -/
structure Kinds (V : Type) where
  truck : V → Bool
  bus : V → Option ℤ
  lost : V → ℤ
  pnr : V → Bool
  hasNext : V → Bool

/-- A virtual stop on the link: `m_route_ID`, and `m_cell_ID` or the entry in
`m_busstop_timeloc_map`. -/
structure Stop where
  route : ℤ
  pos : ℕ
deriving DecidableEq

/-- What is recorded.  Stops are numbered by their place in `m_busstop_vec`.  `hold`: the answer of
`hold_bus` is true; `board`: `board_and_alight` is called; `leave`: the vehicle joins the finished
array. -/
inductive Ev (V : Type) where
  | enter (v : V)
  | receive (i : ℕ) (v : V)
  | hold (i : ℕ) (v : V)
  | board (i : ℕ) (v : V)
  | release (i : ℕ) (v : V)
  | leave (v : V)
deriving DecidableEq

/-- `m_stopped_intervals` of the vehicles, `m_passed_bus_counter` and `m_bus_queue` of the stops, and
the log (with timestamps). -/
structure Bay (V : Type) where
  stopped : V → ℤ
  counter : ℕ → ℤ
  queue : ℕ → List V
  log : List (ℕ × Ev V)

/-- Nothing has happened yet. -/
def Bay.empty : Bay V := ⟨fun _ => 0, fun _ => 0, fun _ => [], []⟩

/-- Recording (not part of the program). -/
def Bay.note (t : ℕ) (e : Ev V) (b : Bay V) : Bay V := { b with log := b.log ++ [(t, e)] }

/-- The searches through `m_busstop_vec` and `m_busstop_timeloc_map` (`multimodal.cpp:3881-3895,
3975-4028, 4179-4195, 4259-4270` and so on): the first stop of the route at the position.  The
order of the map is that of the list, any order. -/
def stopAt (stops : List Stop) (r : ℤ) (p : ℕ) : Option ℕ :=
  stops.findIdx? fun s => decide (s.pos = p ∧ s.route = r)

/-- `multimodal.cpp:707-796` `receive_bus`. -/
def receive (t i : ℕ) (v : V) (b : Bay V) : Bay V :=
  Bay.note t (.receive i v) { b with queue := upd b.queue i (b.queue i ++ [v]) }

/-- `multimodal.cpp:544-705` `release_bus`. -/
def release (t i : ℕ) (v : V) (b : Bay V) : Res (Bay V) :=
  if v ∈ b.queue i then
    .ok (Bay.note t (.release i v) { b with queue := upd b.queue i ((b.queue i).erase v) })
  else .throw "Bus not in m_bus_queue!"

/-- `multimodal.cpp:367-543` `hold_bus`.  `k` is `int (m_flow_scalar)`; `ask` is what lines 423-496
work out from the passengers: `_min_dwell_intervals`, and whether somebody gets off or can get
on. -/
def hold (k : ℤ) (ask : ℤ × Bool) (i : ℕ) (v : V) (b : Bay V) : Res (Bay V × Bool) :=
  if v ∉ b.queue i then .throw "Bus not captured in the m_bus_queue of the bus stop"
  else if b.stopped v > 0 ∧ b.counter i ≠ k then .throw "Something is wrong with m_passed_bus_counter"
  else if b.counter i < k - 1 ∧ b.stopped v = 0 then
    .ok ({ b with counter := upd b.counter i (b.counter i + 1) }, false)
  else if b.counter i = k ∧ b.stopped v = 0 then .ok (b, true)
  else if b.stopped v = 0 ∧ b.counter i ≠ k - 1 then .throw "m_passed_bus_counter is wrong"
  else if b.stopped v ≠ 0 ∧ b.counter i ≠ k then .throw "m_passed_bus_counter is wrong"
  else if b.stopped v < ask.1 ∨ ask.2 = true then
    .ok ({ b with counter := upd b.counter i k, stopped := upd b.stopped v (b.stopped v + 1) }, true)
  else .ok ({ b with counter := upd b.counter i 0 }, false)

/-- `multimodal.cpp:3971-4003` and `4256-4301` (also in the last cell, `4429-4470, 4520-4561`): a bus
at a stop of its route may be held; a bus held longer than the lost time lets passengers on and
off.  The answer says whether the vehicle is held. -/
def visit (K : Kinds V) (stops : List Stop) (k : ℤ) (orc : ℕ → ℤ × Bool) (t p : ℕ) (v : V)
    (b : Bay V) : Res (Bay V × Bool) :=
  match (K.bus v).bind fun r => stopAt stops r p with
  | none => .ok (b, false)
  | some i =>
    (hold k (orc b.log.length) i v b).bind fun x =>
      if x.2 then
        let b := Bay.note t (.hold i v) x.1
        .ok (if b.stopped v > K.lost v then Bay.note t (.board i v) b else b, true)
      else .ok (x.1, false)

/-- `multimodal.cpp:4007-4020, 4315-4338, 4479-4495`: a vehicle that goes on is released by the stop
of its route at its position, if there is one; line 4006, 4312: `m_stopped_intervals` is reset.
(The class is not tested here: a vehicle with a route has class 1.) -/
def goOn (K : Kinds V) (stops : List Stop) (t p : ℕ) (v : V) (b : Bay V) : Res (Bay V) :=
  let b := { b with stopped := upd b.stopped v 0 }
  match (K.bus v).bind fun r => stopAt stops r p with
  | none => .ok b
  | some i => release t i v b

/-- `multimodal.cpp:4021-4030, 4339-4351`: the stop of its route at position `p`, if there is one,
receives the vehicle. -/
def comeTo (K : Kinds V) (stops : List Stop) (t p : ℕ) (v : V) (b : Bay V) : Bay V :=
  match (K.bus v).bind fun r => stopAt stops r p with
  | none => b
  | some i => receive t i v b

/-- `multimodal.cpp:3876-3897, 4172-4196`: a vehicle comes onto the link. -/
def comeIn (K : Kinds V) (stops : List Stop) (t : ℕ) (v : V) (b : Bay V) : Res (Bay V) :=
  let b := Bay.note t (.enter v) b
  match (K.bus v).bind fun r => stopAt stops r 0 with
  | none => .ok b
  | some i =>
    if b.stopped v ≠ 0 then .throw "vehicle's m_stopped_intervals is not reset"
    else .ok (receive t i v b)

/-! ## Cell transmission -/

/-- `multimodal.h` `MNM_Dlink_Ctm_Multimodal`: a two-class link with stops. -/
structure Ctm (V : Type) where
  base : MLnk.Ctm V
  stops : List Stop
  bay : Bay V

/-- `multimodal.cpp:4228-4383` `move_veh_queue_in_cell` for cell `p` with `n` vehicles to move: the
vehicles that stay (held buses go back to the front, in their order), the vehicles that move on,
in order. -/
def moveCell (K : Kinds V) (stops : List Stop) (k : ℤ) (orc : ℕ → ℤ × Bool) (t p : ℕ) :
    ℕ → List V → Bay V → Res (List V × List V × Bay V)
  | _, [], b => .ok ([], [], b)
  | 0, v :: q, b => .ok (v :: q, [], b)
  | n + 1, v :: q, b =>
    (visit K stops k orc t p v b).bind fun x =>
      if x.2 then
        (moveCell K stops k orc t p (n + 1) q x.1).bind fun r => .ok (v :: r.1, r.2.1, r.2.2)
      else
        (goOn K stops t p v x.1).bind fun b =>
          (moveCell K stops k orc t p n q (comeTo K stops t (p + 1) v b)).bind fun r =>
            .ok (r.1, v :: r.2.1, r.2.2)

/-- `multimodal.cpp:4653-4670`: cars, then trucks, into the next cell, entrance first. -/
def moveFrom (K : Kinds V) (stops : List Stop) (k : ℤ) (orc : ℕ → ℤ × Bool) (t : ℕ) :
    ℕ → Cell V → List (Cell V) → Bay V → Res (List (Cell V) × Bay V)
  | _, c, [], b => .ok ([c], b)
  | p, c, d :: rest, b =>
    (moveCell K stops k orc t p c.outCar.toNat c.queueCar b).bind fun x =>
      (moveCell K stops k orc t p c.outTruck.toNat c.queueTruck x.2.2).bind fun y =>
        (moveFrom K stops k orc t (p + 1)
          { d with queueCar := d.queueCar ++ x.2.1, queueTruck := d.queueTruck ++ y.2.1 } rest
          y.2.2).bind fun r =>
            .ok ({ c with queueCar := x.1, queueTruck := y.1 } :: r.1, r.2)

/-- What is left of the last cell, the finished array and the bays. -/
structure Tail (V : Type) where
  cars : List V
  trucks : List V
  fin : List V
  bay : Bay V

/-- `multimodal.cpp:4385-4639` `move_veh_queue_in_last_cell`: the loop, with one draw per pass.  `nc`
and `nt` count the cars and trucks still to move; held buses do not count as moved, and the loop
ends early when only held buses are left.  A pass that picks a truck when there is none left does
nothing (`continue`).  With no draws left the loop is not at its end (`diverge`). -/
def lastLoop (K : Kinds V) (stops : List Stop) (k : ℤ) (orc : ℕ → ℤ × Bool) (t p : ℕ) (ps : ℚ) :
    List ℚ → ℕ → ℕ → List V → List V → List V → Bay V → Res (Tail V)
  | ds, nc, nt, qc, qt, fin, b =>
    if nc = 0 ∧ (nt = 0 ∨ qt = []) then .ok ⟨qc, qt, fin, b⟩
    else
      match ds with
      | [] => .diverge
      | d :: ds =>
        if (if d < ps then decide (nc > 0) else !decide (nt > 0)) then
          match qc with
          | [] => .ub
          | v :: qc =>
            if K.hasNext v then
              lastLoop K stops k orc t p ps ds (nc - 1) nt qc qt (fin ++ [v])
                (Bay.note t (.leave v) b)
            else .throw "car cannot move out CTM link"
        else
          match qt with
          | [] => lastLoop K stops k orc t p ps ds nc nt qc [] fin b
          | v :: qt =>
            (visit K stops k orc t p v b).bind fun x =>
              if x.2 then
                (lastLoop K stops k orc t p ps ds nc nt qc qt fin x.1).bind fun r =>
                  .ok { r with trucks := v :: r.trucks }
              else if K.hasNext v then
                (goOn K stops t p v x.1).bind fun b =>
                  lastLoop K stops k orc t p ps ds nc (nt - 1) qc qt (fin ++ [v])
                    (Bay.note t (.leave v) b)
              else .throw "Something wrong, truck cannot move out CTM link"

/-- `multimodal.cpp:4672-4674` and the loop: what happens in the last cell; the cells before it stay.
`p` is the number of the first cell. -/
def moveLast (K : Kinds V) (stops : List Stop) (k : ℤ) (orc : ℕ → ℤ × Bool) (t : ℕ) (ds : List ℚ) :
    ℕ → List (Cell V) → List V → Bay V → Res (List (Cell V) × List V × Bay V)
  | _, [], _, _ => .ub
  | p, [c], fin, b =>
    (lastLoop K stops k orc t p (c.outCar / (c.outCar + c.outTruck)) ds c.outCar.toNat
      c.outTruck.toNat c.queueCar c.queueTruck fin b).bind fun r =>
        .ok ([{ c with queueCar := r.cars, queueTruck := r.trucks }], r.fin, r.bay)
  | p, c :: d :: rest, fin, b =>
    (moveLast K stops k orc t ds (p + 1) (d :: rest) fin b).bind fun r => .ok (c :: r.1, r.2)

/-- `multimodal.cpp:4679-4716`: volumes and perceived densities. -/
def volumes (truck : V → Bool) (scalar : ℚ) (fin : List V) : List (Cell V) → List (Cell V)
  | [] => []
  | [c] => [Cell.updatePer scalar { c with
      volCar := c.queueCar.length + cars truck fin
      volTruck := c.queueTruck.length + trucks truck fin }]
  | c :: d :: rest => Cell.updatePer scalar { c with
      volCar := c.queueCar.length, volTruck := c.queueTruck.length } ::
        volumes truck scalar fin (d :: rest)

/-- `multimodal.cpp:4641-4735` `evolve`. -/
def Ctm.evolve (K : Kinds V) (t : ℕ) (rnd : ℕ → ℚ) (ds : List ℚ) (orc : ℕ → ℤ × Bool) (l : Ctm V) :
    Res (Ctm V) :=
  let a := l.base.args
  let k := trunc a.scalar
  (MLnk.Ctm.updateOut a.scalar a.unit rnd 0 l.base.cells).bind fun cs =>
    match cs with
    | [] => .ub
    | c :: rest =>
      (moveFrom K l.stops k orc t 0 c rest l.bay).bind fun m =>
        (moveLast K l.stops k orc t ds 0 m.1 l.base.com.finished m.2).bind fun r =>
          let cells := volumes K.truck a.scalar r.2.1 r.1
          let com := Common.addWait K.truck a.scalar a.unit { l.base.com with finished := r.2.1 }
          let full := decide ((spillCount a.factor cells 0 : ℚ) / a.scalar / a.length
            > a.holdCar * a.lanes)
          .ok { l with
            base := { l.base with cells := cells, com := { com with spill := com.spill || full } }
            bay := r.2.2 }

/-- `multimodal.cpp:4146-4226` `clear_incoming_array`. -/
def Ctm.clear (K : Kinds V) (t : ℕ) (l : Ctm V) : Res (Ctm V) :=
  match l.base.cells with
  | [] => .ub
  | c :: rest =>
    let inc := l.base.com.incoming
    (Res.foldlM (fun b v => comeIn K l.stops t v b) l.bay inc).bind fun b =>
      let qc := c.queueCar ++ inc.filter fun v => !K.truck v
      let qt := c.queueTruck ++ inc.filter K.truck
      .ok { l with
        base := { l.base with
          com := { l.base.com with incoming := [] }
          cells := Cell.updatePer l.base.args.scalar { c with
            queueCar := qc, queueTruck := qt, volCar := qc.length, volTruck := qt.length } :: rest }
        bay := b }

/-- `multimodal.cpp:4096-4119` constructor; the stops are set by the reader, see `readCtm`. -/
def Ctm.mk' (a : Args) (stops : List Stop) : Res (Ctm V) :=
  (MLnk.Ctm.mk' a).bind fun l => .ok ⟨l, stops, .empty⟩

/-! ## Point queue -/

/-- `multimodal.h` `MNM_Dlink_Pq_Multimodal`: a two-class point queue (whose pool `m_veh_pool` is not
used) with a deque of vehicles and the intervals they have travelled.  `origin`: the link starts
at an origin (`m_from_node`); `wait` is `m_waiting_time` of the vehicles. -/
structure Pq (V : Type) where
  base : MLnk.Pq V
  origin : Bool
  queue : List (V × ℕ)
  wait : V → ℤ
  stops : List Stop
  bay : Bay V

/-- `multimodal.cpp:3758-3779` constructor. -/
def Pq.mk' (a : Args) (origin : Bool) (wait : V → ℤ) (stops : List Stop) : Res (Pq V) :=
  (MLnk.Pq.mk' a).bind fun l => .ok ⟨l, origin, [], wait, stops, .empty⟩

/-- What the loop below yields: vehicles let in, vehicles that stay outside, waiting times, bays. -/
structure Door (V : Type) where
  inside : List V
  outside : List V
  wait : V → ℤ
  bay : Bay V

/-- The loop of `multimodal.cpp:3833-3898`: vehicles are let in while the remainder is positive; at
an origin a park-and-ride vehicle that waits for a passenger is passed over. -/
def letIn (K : Kinds V) (stops : List Stop) (t : ℕ) (origin : Bool) :
    ℚ → List V → (V → ℤ) → Bay V → Res (Door V)
  | _, [], w, b => .ok ⟨[], [], w, b⟩
  | x, v :: q, w, b =>
    if x > 0 then
      if origin = true ∧ K.pnr v = true ∧ w v > 0 then
        (letIn K stops t origin x q (upd w v (w v - 1)) b).bind fun r =>
          .ok { r with outside := v :: r.outside }
      else
        (comeIn K stops t v b).bind fun b =>
          (letIn K stops t origin (x - 1) q (if origin then upd w v 0 else w) b).bind fun r =>
            .ok { r with inside := v :: r.inside }
    else .ok ⟨[], v :: q, w, b⟩

/-- `multimodal.cpp:3802-3948` `clear_incoming_array`.  The volumes are those of `m_veh_pool` and of
the finished array. -/
def Pq.clear (K : Kinds V) (t : ℕ) (l : Pq V) : Res (Pq V) :=
  (letIn K l.stops t l.origin (l.base.supply * l.base.args.scalar) l.base.com.incoming l.wait
    l.bay).bind fun r =>
      .ok { l with
        base := { l.base with
          com := { l.base.com with incoming := r.outside }
          volCar := cars K.truck (l.base.pool.map Prod.fst) + cars K.truck l.base.com.finished
          volTruck := trucks K.truck (l.base.pool.map Prod.fst) + trucks K.truck l.base.com.finished }
        queue := l.queue ++ r.inside.map fun v => (v, 0)
        wait := r.wait
        bay := r.bay }

/-- The loop of `multimodal.cpp:3962-4058`: the deque and the finished array after it. -/
def scan (K : Kinds V) (stops : List Stop) (k : ℤ) (orc : ℕ → ℤ × Bool) (t : ℕ) (maxStamp : ℤ) :
    List (V × ℕ) → List V → Bay V → Res (List (V × ℕ) × List V × Bay V)
  | [], fin, b => .ok ([], fin, b)
  | e :: q, fin, b =>
    (visit K stops k orc t e.2 e.1 b).bind fun x =>
      if x.2 then
        (scan K stops k orc t maxStamp q fin x.1).bind fun r => .ok (e :: r.1, r.2)
      else
        (goOn K stops t e.2 e.1 x.1).bind fun b =>
          let b := comeTo K stops t (e.2 + 1) e.1 b
          if (e.2 : ℤ) ≥ max 0 (maxStamp - 1) then
            scan K stops k orc t maxStamp q (fin ++ [e.1]) (Bay.note t (.leave e.1) b)
          else
            (scan K stops k orc t maxStamp q fin b).bind fun r => .ok ((e.1, e.2 + 1) :: r.1, r.2)

/-- `multimodal.cpp:3950-4090` `evolve`. -/
def Pq.evolve (K : Kinds V) (t : ℕ) (orc : ℕ → ℤ × Bool) (l : Pq V) : Res (Pq V) :=
  let a := l.base.args
  (scan K l.stops (trunc a.scalar) orc t l.base.maxStamp l.queue l.base.com.finished l.bay).bind
    fun r => .ok { l with
      base := { l.base with
        com := Common.addWait K.truck a.scalar a.unit { l.base.com with finished := r.2.1 } }
      queue := r.1
      bay := r.2.2 }

/-- `get_link_flow_car` and `get_link_flow_truck` (`multimodal.cpp:3788-3800`, those of the two-class
point queue, `multiclass.cpp:2125-2135`). -/
def Pq.flowCar (l : Pq V) : ℚ := l.base.volCar / l.base.args.scalar

/-- See `Pq.flowCar`. -/
def Pq.flowTruck (l : Pq V) : ℚ := l.base.volTruck / l.base.args.scalar

/-! ## Where the reader puts the stops -/

/-- A virtual stop in the files: its route and the location of its physical stop on the link, in
meters (`multimodal.cpp:7765-7769`). -/
structure Row where
  route : ℤ
  loc : ℚ

/-- `multimodal.cpp:7799-7822`: the cell of a stop. -/
def cellOf (num : ℤ) (len loc : ℚ) : Res ℕ :=
  if num = 1 then .ok 0
  else if len = 0 then .ub
  else (toInt ⌈loc / len⌉).bind fun c =>
    let c := c - 1
    .ok (if c < 0 then 0 else if c + 1 > num then num - 1 else c).toNat

/-- `multimodal.cpp:7939-7950`: the interval of the travel time at which a stop lies. -/
def timeOf (maxStamp : ℤ) (ffs unit loc : ℚ) : Res ℕ :=
  if ffs = 0 ∨ unit = 0 then .ub
  else (toInt ⌈loc / ffs / unit⌉).bind fun c =>
    let c := c - 1
    let c := if c ≥ maxStamp then maxStamp - 1 else c
    .ok (if c < 0 then 0 else c).toNat

/-- `multimodal.cpp:7893-7937` and `7938-7974`: the stops of one link, in the order of the file, and
whether two of one route are too close. -/
def placeStops (pos : ℚ → Res ℕ) : List Row → List Stop × Bool → Res (List Stop × Bool)
  | [], s => .ok s
  | r :: rows, s =>
    (pos r.loc).bind fun p =>
      placeStops pos rows (s.1 ++ [⟨r.route, p⟩],
        s.2 || s.1.any fun x => decide (x.pos = p ∧ x.route = r.route))

/-- `multimodal.cpp:7881-7884` and `7984-7988`: a stop without route, or two stops too close, end the
program. -/
def readStops (pos : ℚ → Res ℕ) (rows : List Row) : Res (List Stop) :=
  if rows.any fun r => decide (r.route = -1) then .throw "busstop has no bus route"
  else (placeStops pos rows ([], false)).bind fun s =>
    if s.2 then .throw "some bus stops are too close, consider merging them" else .ok s.1

/-- The stops of a cell transmission link (the standard cell length is that of its first cell). -/
def readCtm (l : MLnk.Ctm V) (rows : List Row) : Res (List Stop) :=
  match l.cells with
  | [] => .ub
  | c :: _ => readStops (cellOf l.numCells c.length) rows

/-- The stops of a point queue link. -/
def readPq (l : MLnk.Pq V) (rows : List Row) : Res (List Stop) :=
  readStops (timeOf l.maxStamp l.args.ffsCar l.args.unit) rows

end Verif.MmLnk
