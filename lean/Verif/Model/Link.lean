import Verif.Model.Curve

/-!
# Model of the single-class links (`src/dlink.cpp`)

Point queue, cell transmission, link queue and link transmission links.  The type `V` of
vehicles is arbitrary; the only thing a link asks a vehicle is `has_next_link` (an argument).
Deques are lists, front first.  `rand ()` draws are an argument `u : ℕ → ℚ` (the `i`-th call of
`MNM_Ults::round` in one `evolve` uses `u i`).

Domain: the constructors are modelled for a positive flow scalar and a positive unit time;
outside of that, and where a constructor divides by zero into an `int`, the model answers `ub`
(the C++ code would go on with infinities, NaN or negative counts).
-/

namespace Verif.Lnk
open Ults Curve

variable {V : Type}

/-- `dlink.cpp:98-112` `move_veh_queue`: the loop runs `number` times; `front ()` of an empty
deque is undefined. -/
def moveQueue : ℕ → List V → List V → Res (List V × List V)
  | 0, src, dst => .ok (src, dst)
  | _ + 1, [], _ => .ub
  | n + 1, v :: src, dst => moveQueue n src (dst ++ [v])

/-- Moving from the back of one deque to the front of another, the loop of
`dlink.cpp:783-788` and `dlink.cpp:1503-1512`. -/
def pullBack : ℕ → List V → List V → Res (List V × List V)
  | 0, fin, q => .ok (fin, q)
  | n + 1, fin, q =>
    match fin.getLast? with
    | none => .ub
    | some v => pullBack n fin.dropLast (v :: q)

/-- `dlink.cpp:4-34` the checks of the `MNM_Dlink` constructor. -/
def checkBase (lanes : ℤ) (length ffs : ℚ) : Res Unit :=
  if ffs < 0 then .throw "negative link speed"
  else if lanes < 0 then .throw "negative number of lanes"
  else if length < 0 then .throw "negative length"
  else .ok ()

/-- The speed/density relation shared by all four `get_link_tt` (`dlink.cpp:440-469, 633-661,
830-858, 1381-1409` and the `_from_flow` variants); `lowest` is the relative speed floor, 0.001
for cell transmission links and `DBL_EPSILON` for the others.  `none`: a division by zero, the
result is not a finite number. -/
def linkTt (lowest : ℚ) (lanes : ℤ) (length ffs hold cap flow : ℚ) : Option ℚ :=
  if (lanes : ℚ) = 0 ∨ length = 0 ∨ ffs = 0 then none
  else
    let rho := flow / lanes / length
    let rhok := cap / ffs
    if rho ≥ hold then some 3600
    else if rho ≤ rhok then some (length / ffs)
    else if (hold - rhok) * rho = 0 then none
    else some (length / max (lowest * ffs) (cap * (hold - rho) / ((hold - rhok) * rho)))

/-! ## Point queue -/

/-- `dlink.h` `MNM_Dlink_Pq` with the constructor arguments it keeps. -/
structure Pq (V : Type) where
  lanes : ℤ
  length : ℚ
  ffs : ℚ
  hold : ℚ
  cap : ℚ
  scalar : ℚ
  unit : ℚ
  maxStamp : ℤ
  queue : List (V × ℤ)
  volume : ℕ
  incoming : List V
  finished : List V

/-- `dlink.cpp:509-527` constructor. -/
def Pq.mk' (hold cap : ℚ) (lanes : ℤ) (length ffs unit scalar : ℚ) : Res (Pq V) :=
  (checkBase lanes length ffs).bind fun _ =>
    if scalar ≤ 0 ∨ unit ≤ 0 ∨ ffs = 0 then .ub
    else (roundDownTime (length / (ffs * unit))).bind fun m =>
      .ok ⟨lanes, length, ffs, hold, cap, scalar, unit, m, [], 0, [], []⟩

/-- `dlink.cpp:531-535` `get_link_supply`. -/
def Pq.supply (l : Pq V) : ℚ := l.cap * l.lanes * l.unit

/-- `dlink.cpp:537-562` `clear_incoming_array`. -/
def Pq.clear (l : Pq V) : Res (Pq V) :=
  (toInt (l.supply * l.scalar)).bind fun s =>
    let n := min (l.incoming.length : ℤ) s
    let q := l.queue ++ (l.incoming.take n.toNat).map fun v => (v, 0)
    .ok { l with
      incoming := l.incoming.drop n.toNat
      queue := q
      volume := l.finished.length + q.length }

/-- The loop of `dlink.cpp:576-589`: the vehicles appended to the finished array and the queue
that is left. -/
def Pq.scan (maxStamp : ℤ) : List (V × ℤ) → List V × List (V × ℤ)
  | [] => ([], [])
  | (v, k) :: q =>
    let r := Pq.scan maxStamp q
    if k ≥ max 0 (maxStamp - 1) then (v :: r.1, r.2) else (r.1, (v, k + 1) :: r.2)

/-- `dlink.cpp:573-595` `evolve`. -/
def Pq.evolve (l : Pq V) : Pq V :=
  let r := Pq.scan l.maxStamp l.queue
  { l with finished := l.finished ++ r.1, queue := r.2 }

/-- `dlink.cpp:597-601` `get_link_flow`. -/
def Pq.flow (l : Pq V) : ℚ := l.volume / l.scalar

/-! ## Cell transmission -/

/-- `dlink.h` `Ctm_Cell`.  `wave = none` is a wave ratio that is not a finite number. -/
structure Cell (V : Type) where
  hold : ℚ
  cap : ℚ
  scalar : ℚ
  wave : Option ℚ
  volume : ℕ
  queue : List V
  outVeh : ℤ

/-- `dlink.cpp:349-365` constructor of a cell (`m_out_veh` is not initialised there; it is
written by `update_out_veh` before it is read). -/
def Cell.mk' (hold cap scalar : ℚ) (wave : Option ℚ) : Cell V :=
  ⟨hold, if cap * scalar < 1 then 1 / scalar else cap, scalar, wave, 0, [], 0⟩

/-- `dlink.cpp:369-374` `get_demand`. -/
def Cell.demand (c : Cell V) : ℚ := min (c.volume / c.scalar) c.cap

/-- `dlink.cpp:376-392` `get_supply`; the comparison of a non-finite wave ratio with 1 is
false. -/
def Cell.supply (c : Cell V) : ℚ :=
  let vol : ℚ := c.volume / c.scalar
  if vol ≥ c.hold then 0
  else
    match c.wave with
    | some w => if w ≤ 1 then (if c.cap > vol then c.cap else (c.hold - vol) * w)
                else min c.cap (c.hold - vol)
    | none => min c.cap (c.hold - vol)

/-- `dlink.h` `MNM_Dlink_Ctm`; `cells` is `m_cell_array`, entrance first. -/
structure Ctm (V : Type) where
  lanes : ℤ
  length : ℚ
  ffs : ℚ
  hold : ℚ
  cap : ℚ
  scalar : ℚ
  numCells : ℤ
  cells : List (Cell V)
  incoming : List V
  finished : List V

/-- A quotient, `none` when the divisor is zero. -/
def divO (a b : ℚ) : Option ℚ := if b = 0 then none else some (a / b)

/-- The capacity bounds of `dlink.cpp:125-131` and `139-145`. -/
def Ctm.clampHold (hold : ℚ) : ℚ := if hold > 300 / 1600 then 300 / 1600 else hold

/-- See `Ctm.clampHold`. -/
def Ctm.clampCap (cap : ℚ) : ℚ := if cap > 3500 / 3600 then 3500 / 3600 else cap

/-- `dlink.cpp:151-155`: the number of cells, at least one. -/
def Ctm.cellCount (n0 : ℤ) : ℤ := if n0 = 0 then 1 else n0

/-- `dlink.cpp:148-179` second half of the constructor and `dlink.cpp:191-230`
`init_cell_array`.  A link of length zero has `m_num_cells = 1` but an empty cell array. -/
def Ctm.build (hold cap : ℚ) (lanes : ℤ) (length ffs unit scalar : ℚ) (n : ℤ) : Res (Ctm V) :=
  let std := ffs * unit
  let holdLast := max ((length - (n - 1 : ℤ) * std) / std * hold) hold
  let wave := (divO cap (hold - cap / ffs)).map (· / ffs)
  let waveLast := (divO cap (holdLast - cap / ffs)).map (· / ffs)
  if ∃ w ∈ wave, w < 0 then .throw "negative wave ratio"
  else if ∃ w ∈ waveLast, w < 0 then .throw "negative last cell wave ratio"
  else
    let cell := Cell.mk' (lanes * std * hold) (lanes * cap * unit) scalar wave
    let last := Cell.mk' (lanes * std * holdLast) (lanes * cap * unit) scalar waveLast
    .ok ⟨lanes, length, ffs, hold, cap, scalar, n,
      List.replicate (n - 1).toNat cell ++ (if length > 0 then [last] else []), [], []⟩

/-- `dlink.cpp:114-180` constructor. -/
def Ctm.mk' (hold cap : ℚ) (lanes : ℤ) (length ffs unit scalar : ℚ) : Res (Ctm V) :=
  (checkBase lanes length ffs).bind fun _ =>
    if hold < 0 then .throw "negative lane_hold_cap"
    else if cap < 0 then .throw "negative lane_flow_cap"
    else if scalar ≤ 0 ∨ unit ≤ 0 ∨ ffs = 0 then .ub
    else
      (toInt ⌊length / (ffs * unit)⌋).bind fun n0 =>
        Ctm.build (Ctm.clampHold hold) (Ctm.clampCap cap) lanes length ffs unit scalar
          (Ctm.cellCount n0)

/-- `dlink.cpp:246-265` `update_out_veh`: the loop over the cells but the last, then the last
cell.  (`m_num_cells` is the size of the array except for a link of length zero, where the first
access is out of bounds.) -/
def Ctm.updateOut (scalar : ℚ) (u : ℕ → ℚ) : ℕ → List (Cell V) → Res (List (Cell V))
  | _, [] => .ub
  | _, [c] => .ok [{ c with outVeh := c.queue.length }]
  | i, c :: d :: rest =>
    (round (min c.demand d.supply * scalar) (u i)).bind fun r =>
      (Ctm.updateOut scalar u (i + 1) (d :: rest)).bind fun rest' =>
        .ok ({ c with outVeh := min (c.queue.length : ℤ) r } :: rest')

/-- `dlink.cpp:275-283`: moving vehicles into the next cell, entrance first; `c` is the cell
reached by the loop. -/
def Ctm.moveFrom : Cell V → List (Cell V) → Res (List (Cell V))
  | c, [] => .ok [c]
  | c, d :: rest =>
    (moveQueue c.outVeh.toNat c.queue d.queue).bind fun p =>
      (Ctm.moveFrom { d with queue := p.2 } rest).bind fun rest' =>
        .ok ({ c with queue := p.1 } :: rest')

/-- `dlink.cpp:275-283` on the whole cell array. -/
def Ctm.movePrev : List (Cell V) → Res (List (Cell V))
  | [] => .ub
  | c :: rest => Ctm.moveFrom c rest

/-- `dlink.cpp:326-347` `move_last_cell`: the loop over the vehicles of the last cell. -/
def Ctm.moveOut (hasNext : V → Bool) : ℕ → List V → List V → Res (List V × List V)
  | 0, q, fin => .ok (q, fin)
  | _ + 1, [], _ => .ub
  | n + 1, v :: q, fin =>
    if hasNext v then Ctm.moveOut hasNext n q (fin ++ [v]) else .throw "invalid vehicle state"

/-- `dlink.cpp:288-299`: `move_last_cell` and the update of the volumes. -/
def Ctm.moveLast (hasNext : V → Bool) : List (Cell V) → List V → Res (List (Cell V) × List V)
  | [], _ => .ub
  | [c], fin =>
    (Ctm.moveOut hasNext c.outVeh.toNat c.queue fin).bind fun p =>
      .ok ([{ c with queue := p.1, volume := p.1.length + p.2.length }], p.2)
  | c :: d :: rest, fin =>
    (Ctm.moveLast hasNext (d :: rest) fin).bind fun p =>
      .ok ({ c with volume := c.queue.length } :: p.1, p.2)

/-- `dlink.cpp:267-301` `evolve`. -/
def Ctm.evolve (hasNext : V → Bool) (u : ℕ → ℚ) (l : Ctm V) : Res (Ctm V) :=
  (Ctm.updateOut l.scalar u 0 l.cells).bind fun cs =>
    (Ctm.movePrev cs).bind fun cs =>
      (Ctm.moveLast hasNext cs l.finished).bind fun p =>
        .ok { l with cells := p.1, finished := p.2 }

/-- `dlink.cpp:303-307` `get_link_supply`. -/
def Ctm.supply (l : Ctm V) : Res ℚ :=
  match l.cells with
  | [] => .ub
  | c :: _ => .ok c.supply

/-- `dlink.cpp:309-324` `clear_incoming_array`. -/
def Ctm.clear (l : Ctm V) : Res (Ctm V) :=
  match l.cells with
  | [] => .ub
  | c :: rest =>
    if c.supply * l.scalar < l.incoming.length then .throw "wrong incoming array size"
    else
      (moveQueue l.incoming.length l.incoming c.queue).bind fun p =>
        .ok { l with
          incoming := p.1
          cells := { c with queue := p.2, volume := p.2.length } :: rest }

/-- `dlink.cpp:394-404` `get_link_flow`. -/
def Ctm.flow (l : Ctm V) : ℚ :=
  (((l.cells.map fun c => c.volume).sum + l.finished.length : ℕ) : ℚ) / l.scalar

/-! ## Link queue -/

/-- `dlink.h` `MNM_Dlink_Lq`. -/
structure Lq (V : Type) where
  lanes : ℤ
  length : ℚ
  ffs : ℚ
  hold : ℚ
  cap : ℚ
  scalar : ℚ
  unit : ℚ
  bigC : ℚ
  kc : ℚ
  queue : List V
  volume : ℕ
  incoming : List V
  finished : List V

/-- `dlink.cpp:702-724` constructor; zero length, speed or number of lanes (divisions by zero
now or in the calls below) are outside the modelled domain, and so is a fundamental diagram whose
critical density is the jam density. -/
def Lq.mk' (hold cap : ℚ) (lanes : ℤ) (length ffs unit scalar : ℚ) : Res (Lq V) :=
  (checkBase lanes length ffs).bind fun _ =>
    if scalar ≤ 0 ∨ unit ≤ 0 ∨ ffs = 0 ∨ lanes = 0 ∨ length = 0 then .ub
    else
      let c := cap * lanes
      let low := c * unit * scalar < 1
      let cap := if low then 1 / (lanes * unit * scalar) else cap
      let c := if low then 1 / (unit * scalar) else c
      if hold - cap / ffs = 0 then .ub
      else .ok ⟨lanes, length, ffs, hold, cap, scalar, unit, c, cap / ffs * lanes, [], 0, [], []⟩

/-- `dlink.cpp:797-801` `get_link_flow`. -/
def Lq.flow (l : Lq V) : ℚ := l.volume / l.scalar

/-- `dlink.cpp:890-907` `get_flow_from_density`. -/
def Lq.flowFromDensity (l : Lq V) (density : ℚ) : ℚ :=
  if density < l.kc then l.ffs * density
  else (l.hold * l.lanes - density) * (l.cap / (l.hold - l.cap / l.ffs))

/-- `dlink.cpp:728-735` `get_link_supply`. -/
def Lq.supply (l : Lq V) : ℚ :=
  let density := l.flow / l.length
  if density > l.kc then l.flowFromDensity density * l.unit else l.bigC * l.unit

/-- `dlink.cpp:909-923` `get_demand`. -/
def Lq.demand (l : Lq V) : ℚ :=
  let density := l.flow / l.length
  (if density < l.kc then l.flowFromDensity density else l.bigC) * l.unit

/-- `dlink.cpp:737-749` `clear_incoming_array`. -/
def Lq.clear (l : Lq V) : Res (Lq V) :=
  (toInt (l.supply * l.scalar)).bind fun s =>
    if (l.incoming.length : ℤ) > s then .throw "invalid incoming array size"
    else
      (moveQueue l.incoming.length l.incoming l.queue).bind fun p =>
        .ok { l with incoming := p.1, queue := p.2, volume := l.finished.length + p.2.length }

/-- `dlink.cpp:760-795` `evolve`; also the middle part of the link transmission model
(`dlink.cpp:1496-1534`).  Returns the finished array and the queue. -/
def releaseOrPull (scalar demand : ℚ) (u : ℚ) (fin q : List V) : Res (List V × List V) :=
  if demand < fin.length / scalar then
    (toInt (demand * scalar)).bind fun d =>
      let n := min ((fin.length : ℤ) - d) fin.length
      pullBack n.toNat fin q
  else
    (round (demand * scalar) u).bind fun r =>
      let n := min (r - (fin.length : ℤ)) q.length
      (moveQueue n.toNat q fin).bind fun p => .ok (p.2, p.1)

/-- `dlink.cpp:760-795` `evolve`. -/
def Lq.evolve (u : ℕ → ℚ) (l : Lq V) : Res (Lq V) :=
  (releaseOrPull l.scalar l.demand (u 0) l.finished l.queue).bind fun p =>
    .ok { l with finished := p.1, queue := p.2 }

/-! ## Link transmission -/

/-- `dlink.h:229` `MNM_Dlink_Ltm`. -/
structure Ltm (V : Type) where
  lanes : ℤ
  length : ℚ
  ffs : ℚ
  hold : ℚ
  cap : ℚ
  scalar : ℚ
  unit : ℚ
  w : ℚ
  recordSize : ℤ
  nIn2 : Curve
  nOut2 : Curve
  prevFinished : ℚ
  now : ℕ
  queue : List V
  volume : ℕ
  incoming : List V
  finished : List V

/-- `dlink.cpp:1313-1337` constructor.  It reads the uninitialised `m_lane_flow_cap` in line
1319, but whatever is written on the strength of that read is overwritten in line 1323, so it is
left out here.  Parameters that make a divisor zero are outside the modelled domain. -/
def Ltm.mk' (hold cap : ℚ) (lanes : ℤ) (length ffs unit scalar : ℚ) : Res (Ltm V) :=
  (checkBase lanes length ffs).bind fun _ =>
    if scalar ≤ 0 ∨ unit ≤ 0 ∨ ffs = 0 ∨ hold - cap / ffs = 0 ∨ cap = 0 then .ub
    else
      let w := cap / (hold - cap / ffs)
      (toInt (max (length / w) (length / ffs) / unit)).bind fun k =>
        .ok ⟨lanes, length, ffs, hold, cap, scalar, unit, w, k + 1, [], [], 0, 0, [], 0, [], []⟩

/-- `m_hold_cap`, `dlink.cpp:1325`. -/
def Ltm.holdCap (l : Ltm V) : ℚ := l.hold * l.lanes * l.length

/-- `dlink.cpp:1474-1485` `get_link_supply` (the inflow curve is queried at the interval number,
not at a time in seconds). -/
def Ltm.supply (l : Ltm V) : Res ℚ :=
  (getResult l.nOut2 ((l.now : ℚ) * l.unit + l.unit - l.length / l.w)).bind fun o =>
    (getResult l.nIn2 l.now).bind fun i =>
      .ok (max (min (o + l.holdCap - i) (l.cap * l.lanes * l.unit)) 0)

/-- `dlink.cpp:1451-1472` `clear_incoming_array`. -/
def Ltm.clear (l : Ltm V) : Res (Ltm V) :=
  l.supply.bind fun sup =>
    (toInt (sup * l.scalar)).bind fun s =>
      if (l.incoming.length : ℤ) > s then .throw "invalid incoming array size"
      else
        (addIncrement l.nIn2 ((l.now : ℚ) * l.unit, l.incoming.length / l.scalar)).bind fun c =>
          (moveQueue l.incoming.length l.incoming l.queue).bind fun p =>
            .ok { l with
              nIn2 := c
              incoming := p.1
              queue := p.2
              volume := l.finished.length + p.2.length }

/-- `dlink.cpp:1541-1556` `get_demand`, which also records the outflow. -/
def Ltm.demand (l : Ltm V) : Res (ℚ × Curve) :=
  let left := l.prevFinished - l.finished.length / l.scalar
  (addIncrement l.nOut2 ((l.now : ℚ) * l.unit, left)).bind fun nOut2 =>
    (getResult l.nIn2 ((l.now : ℚ) * l.unit + l.unit - l.length / l.ffs)).bind fun i =>
      (getResult nOut2 ((l.now : ℚ) * l.unit)).bind fun o =>
        .ok (min (i - o) (l.cap * l.lanes * l.unit), nOut2)

/-- `dlink.cpp:1487-1539` `evolve`. -/
def Ltm.evolve (u : ℕ → ℚ) (l : Ltm V) : Res (Ltm V) :=
  (shrink l.nIn2 l.recordSize).bind fun nIn2 =>
    (shrink l.nOut2 l.recordSize).bind fun nOut2 =>
      let l := { l with nIn2 := nIn2, nOut2 := nOut2 }
      l.demand.bind fun d =>
        (releaseOrPull l.scalar d.1 (u 0) l.finished l.queue).bind fun p =>
          .ok { l with
            nOut2 := d.2
            finished := p.1
            queue := p.2
            now := l.now + 1
            prevFinished := p.1.length / l.scalar }

/-! ## A link of any kind -/

/-- `MNM_Dlink` with its virtual functions (`dlink.h`). -/
inductive Link (V : Type) where
  | pq (l : Pq V)
  | ctm (l : Ctm V)
  | lq (l : Lq V)
  | ltm (l : Ltm V)

namespace Link

/-- `m_incoming_array`. -/
def incoming : Link V → List V
  | pq l => l.incoming
  | ctm l => l.incoming
  | lq l => l.incoming
  | ltm l => l.incoming

/-- `m_finished_array`. -/
def finished : Link V → List V
  | pq l => l.finished
  | ctm l => l.finished
  | lq l => l.finished
  | ltm l => l.finished

/-- The vehicles travelling on the link, nearest to the exit first (`m_veh_queue`, or the cells
of a cell transmission link). -/
def travelling : Link V → List V
  | pq l => l.queue.map Prod.fst
  | ctm l => (l.cells.reverse.map fun c => c.queue).flatten
  | lq l => l.queue
  | ltm l => l.queue

/-- Writing `m_incoming_array`. -/
def setIncoming : Link V → List V → Link V
  | pq l, a => pq { l with incoming := a }
  | ctm l, a => ctm { l with incoming := a }
  | lq l, a => lq { l with incoming := a }
  | ltm l, a => ltm { l with incoming := a }

/-- Writing `m_finished_array`. -/
def setFinished : Link V → List V → Link V
  | pq l, a => pq { l with finished := a }
  | ctm l, a => ctm { l with finished := a }
  | lq l, a => lq { l with finished := a }
  | ltm l, a => ltm { l with finished := a }

/-- `m_flow_scalar`. -/
def scalar : Link V → ℚ
  | pq l => l.scalar
  | ctm l => l.scalar
  | lq l => l.scalar
  | ltm l => l.scalar

/-- Virtual `get_link_supply`. -/
def supply : Link V → Res ℚ
  | pq l => .ok l.supply
  | ctm l => l.supply
  | lq l => .ok l.supply
  | ltm l => l.supply

/-- Virtual `get_link_flow`. -/
def flow : Link V → ℚ
  | pq l => l.flow
  | ctm l => l.flow
  | lq l => l.flow
  | ltm l => l.volume / l.scalar

/-- Virtual `clear_incoming_array`. -/
def clear : Link V → Res (Link V)
  | pq l => l.clear.bind fun l => .ok (pq l)
  | ctm l => l.clear.bind fun l => .ok (ctm l)
  | lq l => l.clear.bind fun l => .ok (lq l)
  | ltm l => l.clear.bind fun l => .ok (ltm l)

/-- Virtual `evolve`. -/
def evolve (hasNext : V → Bool) (u : ℕ → ℚ) : Link V → Res (Link V)
  | pq l => .ok (pq l.evolve)
  | ctm l => (l.evolve hasNext u).bind fun l => .ok (ctm l)
  | lq l => (l.evolve u).bind fun l => .ok (lq l)
  | ltm l => (l.evolve u).bind fun l => .ok (ltm l)

/-- Virtual `get_link_tt` (seconds), `dlink.cpp:440-469, 633-661, 830-858, 1381-1409`. -/
def tt : Link V → Option ℚ
  | pq l => linkTt dblEps l.lanes l.length l.ffs l.hold l.cap l.flow
  | ctm l => linkTt (1 / 1000) l.lanes l.length l.ffs l.hold l.cap l.flow
  | lq l => linkTt dblEps l.lanes l.length l.ffs l.hold l.cap l.flow
  | ltm l => linkTt dblEps l.lanes l.length l.ffs l.hold l.cap (l.volume / l.scalar)

/-- Virtual `get_link_freeflow_tt_loading` (`dlink.cpp:500-504, 692-696, 925-931,
1433-1439`). -/
def ffttLoading : Link V → Res ℤ
  | pq l => .ok l.maxStamp
  | ctm l => .ok l.numCells
  | lq l => roundUpTime (l.length / l.ffs) tol
  | ltm _ => .throw "get_link_freeflow_tt_loading NOT implemented"

end Link

/-- The constructor arguments shared by all link types, in the order of `factory.cpp:150-190`
`make_link`. -/
structure LinkArgs where
  hold : ℚ
  cap : ℚ
  lanes : ℤ
  length : ℚ
  ffs : ℚ
  unit : ℚ
  scalar : ℚ

/-- `enum.h:9-16` the link types. -/
inductive LinkKind where
  | ctm | pq | lq | ltm
deriving DecidableEq

/-- `factory.cpp:150-197` `make_link`. -/
def mkLink (k : LinkKind) (a : LinkArgs) : Res (Link V) :=
  match k with
  | .ctm => (Ctm.mk' a.hold a.cap a.lanes a.length a.ffs a.unit a.scalar).bind fun l => .ok (.ctm l)
  | .pq => (Pq.mk' a.hold a.cap a.lanes a.length a.ffs a.unit a.scalar).bind fun l => .ok (.pq l)
  | .lq => (Lq.mk' a.hold a.cap a.lanes a.length a.ffs a.unit a.scalar).bind fun l => .ok (.lq l)
  | .ltm => (Ltm.mk' a.hold a.cap a.lanes a.length a.ffs a.unit a.scalar).bind fun l => .ok (.ltm l)

end Verif.Lnk
