import Verif.Model.Link

/-!
# Model of the two-class links (`src/multiclass.cpp:1-2247`)

Cell transmission, link queue and point queue links carrying cars and trucks.  The type `V` of
vehicles is arbitrary; `truck v` says whether `m_class` of `v` is 1 (a truck) or 0 (a car), and
`hasNext` is `has_next_link`, as for the single-class links.  Positions within a link
(`m_visual_position_on_link`, drawing only) are left out.

A density that is not finite (division by zero) is `none`, standing for `+inf`: the numerators
are positive where that can happen.
-/

namespace Verif.MLnk
open Ults Curve Lnk

variable {V : Type}

/-- The arguments of the three constructors (`multiclass.cpp:144-157, 1347-1353, 1978-1983`). -/
structure Args where
  lanes : ℤ
  length : ℚ
  holdCar : ℚ
  holdTruck : ℚ
  capCar : ℚ
  capTruck : ℚ
  ffsCar : ℚ
  ffsTruck : ℚ
  unit : ℚ
  factor : ℚ
  scalar : ℚ

/-- The parameters of a cell (`multiclass.h:176-190`) or of a link queue (`multiclass.h:249-258`):
jam densities, critical densities, `m_rho_1_N`, capacities, free-flow speeds, wave speeds. -/
structure Diagram where
  holdCar : ℚ
  holdTruck : ℚ
  critCar : ℚ
  critTruck : ℚ
  rho1N : ℚ
  capCar : ℚ
  capTruck : ℚ
  ffsCar : ℚ
  ffsTruck : ℚ
  waveCar : ℚ
  waveTruck : ℚ
deriving DecidableEq

/-- `m_space_fraction_car`, `_truck`, `m_perceived_density_car`, `_truck`. -/
structure Percept where
  fracCar : ℚ
  fracTruck : ℚ
  densCar : Option ℚ
  densTruck : Option ℚ
deriving DecidableEq

/-- `multiclass.cpp:1205-1302` `Ctm_Cell_Multiclass::update_perceived_density` and
`multiclass.cpp:1439-1528` of the link queue (the same computation): volumes in vehicles and
densities of cars and trucks to the perceived densities.  The divisors of the first two cases are
positive critical densities, see `Ctm.mk'` and `Lq.mk'`. -/
def perceive (d : Diagram) (volCar volTruck : ℕ) (dc dt : ℚ) : Percept :=
  if dc / d.critCar + dt / d.critTruck ≤ 1 then
    let fc := dc / d.critCar
    let ft := dt / d.critTruck
    let frac := if fc + ft = 0 then (1, 0) else (fc / (fc + ft), ft / (fc + ft))
    ⟨frac.1, frac.2, some (dc + d.critCar * ft), some (dt + d.critTruck * fc)⟩
  else if dt / d.critTruck < 1 ∧ dc / (1 - dt / d.critTruck) ≤ d.rho1N then
    let ft := dt / d.critTruck
    ⟨1 - ft, ft, some (dc / (1 - ft)), some d.critTruck⟩
  else if volTruck = 0 then
    let u := (d.holdCar - dc) * d.waveCar / dc
    ⟨1, 0, some dc, divO (d.holdTruck * d.waveTruck) (u + d.waveTruck)⟩
  else if volCar = 0 then
    let u := (d.holdTruck - dt) * d.waveTruck / dt
    ⟨0, 1, divO (d.holdCar * d.waveCar) (u + d.waveCar), some dt⟩
  else
    let t1 := d.holdCar * d.waveCar * dt
    let t2 := d.holdTruck * d.waveTruck * dc
    let fc := (dc * dt * (d.waveCar - d.waveTruck) + t2) / (t2 + t1)
    let ft := (dc * dt * (d.waveTruck - d.waveCar) + t1) / (t2 + t1)
    ⟨fc, ft, divO dc fc, divO dt ft⟩

/-- `min (cap, speed * density) * unit`, see `multiclass.cpp:1305-1323`; an infinite density gives
the capacity. -/
def demandOf (cap speed unit : ℚ) : Option ℚ → ℚ
  | some ρ => min cap (speed * ρ) * unit
  | none => cap * unit

/-- `max (0, min (cap, wave * (hold - density))) * unit`, see `multiclass.cpp:1325-1343`. -/
def supplyOf (cap wave hold unit : ℚ) : Option ℚ → ℚ
  | some ρ => max 0 (min cap (wave * (hold - ρ))) * unit
  | none => 0

/-- The number of cars, and of trucks, in a deque. -/
def cars (truck : V → Bool) (l : List V) : ℕ := l.countP fun v => !truck v

/-- See `cars`. -/
def trucks (truck : V → Bool) (l : List V) : ℕ := l.countP truck

/-- What every two-class link has (`multiclass.h:20-80`): incoming and finished arrays, the total
waiting times at the intersection, the spill-back flag. -/
structure Common (V : Type) where
  incoming : List V
  finished : List V
  wait : ℚ
  waitCar : ℚ
  waitTruck : ℚ
  spill : Bool

/-- `multiclass.cpp:29-41`: the initial values. -/
def Common.empty : Common V := ⟨[], [], 0, 0, 0, false⟩

/-- Adding to the waiting times (`multiclass.cpp:682-683, 715-718, 1591-1597, 1693-1709,
2107-2121`). -/
def Common.addWait (truck : V → Bool) (scalar unit : ℚ) (c : Common V) : Common V :=
  { c with
    wait := c.wait + (c.finished.length : ℚ) / scalar * unit
    waitCar := c.waitCar + (cars truck c.finished : ℚ) / scalar * unit
    waitTruck := c.waitTruck + (trucks truck c.finished : ℚ) / scalar * unit }

/-- Draws of one `evolve`: for `MNM_Ults::round` and for the merging of the classes. -/
structure Draws where
  rnd : ℕ → ℚ
  pick : ℕ → ℚ

/-- One pass of the loops of `multiclass.cpp:746-815` and `1611-1682`: the front of a deque goes to
the finished array.  Returns the deque and the finished array. -/
def popOut (hasNext : V → Bool) (q fin : List V) : Res (List V × List V) :=
  match q with
  | [] => .ub
  | v :: q => if hasNext v then .ok (q, fin ++ [v]) else .throw "invalid state"

/-- The loop of `multiclass.cpp:746-815` and `1611-1682`; it runs once per vehicle.  `k` counts
the remaining passes, `nc` and `nt` the cars and trucks still to move; a draw below `p` picks a
car if there is one left, otherwise a truck, and the other way round. -/
def mergeOut (hasNext : V → Bool) (p : ℚ) (pick : ℕ → ℚ) :
    ℕ → ℕ → ℕ → List V → List V → List V → Res (List V × List V × List V)
  | 0, _, _, qc, qt, fin => .ok (qc, qt, fin)
  | k + 1, nc, nt, qc, qt, fin =>
    let car := if pick k < p then decide (nc > 0) else !decide (nt > 0)
    if car then
      (popOut hasNext qc fin).bind fun r => mergeOut hasNext p pick k (nc - 1) nt r.1 qt r.2
    else
      (popOut hasNext qt fin).bind fun r => mergeOut hasNext p pick k nc (nt - 1) qc r.1 r.2

/-! ## Cell transmission -/

/-- `multiclass.h:147-200` `Ctm_Cell_Multiclass`. -/
structure Cell (V : Type) where
  length : ℚ
  dia : Diagram
  per : Percept
  volCar : ℕ
  volTruck : ℕ
  outCar : ℤ
  outTruck : ℤ
  queueCar : List V
  queueTruck : List V

/-- `multiclass.h:100-203` `MNM_Dlink_Ctm_Multiclass`. -/
structure Ctm (V : Type) where
  args : Args            -- after the adjustments of the constructor
  wave : ℚ               -- `m_wave_speed_car`
  numCells : ℤ
  cells : List (Cell V)
  com : Common V

/-- `multiclass.cpp:306-408` and the constructor: what both compute from the attributes of the link.
The result is the link length, the cell lengths (standard and last), the number of cells, the
adjusted lane attributes and the diagram of one lane. -/
structure Derived where
  args : Args
  std : ℚ
  last : ℚ
  num : ℤ
  wave : ℚ
  dia : Diagram

/-- The bounds of `multiclass.cpp:168-181` and `189-202`. -/
def clampHold (h : ℚ) : ℚ := if h > 400 / 1600 then 400 / 1600 else h

/-- See `clampHold`. -/
def clampCap (c : ℚ) : ℚ := if c > 3500 / 3600 then 3500 / 3600 else c

/-- `multiclass.cpp:231-248`: the capacity lets at least one vehicle pass per interval. -/
def liftCap (unit scalar : ℚ) (lanes : ℤ) (c : ℚ) : ℚ :=
  if c * unit * scalar * lanes < 1 then 1 / (unit * scalar * lanes) else c

/-- `multiclass.cpp:1136-1148`: the same for a cell. -/
def liftCell (unit scalar : ℚ) (c : ℚ) : ℚ :=
  if c * unit * scalar < 1 then 1 / (unit * scalar) else c

/-- `multiclass.cpp:254-290` (constructor) and `371-411` (`modify_property`): cells and diagram.
Without lanes or without truck speed the critical densities are infinite, which the tests against
the jam densities reject. -/
def derive (a : Args) : Res Derived :=
  if a.ffsCar = 0 then .ub
  else
    (toInt ⌊a.length / (a.ffsCar * a.unit)⌋).bind fun n0 =>
      let std := a.ffsCar * a.unit
      let n := if n0 = 0 then 1 else n0
      let len := if n0 = 0 then std else a.length
      let capCar := liftCap a.unit a.scalar a.lanes a.capCar
      let capTruck := liftCap a.unit a.scalar a.lanes a.capTruck
      if a.lanes = 0 ∨ a.holdCar ≤ capCar / a.ffsCar then .throw "invalid car parameters for link"
      else if a.ffsTruck = 0 ∨ a.holdTruck ≤ capTruck / a.ffsTruck then
        .throw "invalid truck parameters for link"
      else
        let waveCar := capCar / (a.holdCar - capCar / a.ffsCar)
        let waveTruck := capTruck / (a.holdTruck - capTruck / a.ffsTruck)
        let k : ℚ := a.lanes
        .ok ⟨{ a with length := len, capCar := capCar, capTruck := capTruck }, std,
          len - ((n - 1 : ℤ) : ℚ) * std, n, waveCar,
          ⟨k * a.holdCar, k * a.holdTruck, k * (capCar / a.ffsCar), k * (capTruck / a.ffsTruck),
            k * (a.holdCar * (waveCar / (a.ffsTruck + waveCar))),
            liftCell a.unit a.scalar (k * capCar), liftCell a.unit a.scalar (k * capTruck),
            a.ffsCar, a.ffsTruck, waveCar, waveTruck⟩⟩

/-- The checks of `multiclass.cpp:161-209` and `320-360` on densities, capacities and speeds, with
the clipping.  (The messages also name the link.) -/
def checkAttrs (a : Args) : Res Args :=
  if a.holdCar < 0 ∨ a.holdTruck < 0 then .throw "negative lane_hold_cap for link"
  else if a.capCar < 0 ∨ a.capTruck < 0 then .throw "negative lane_flow_cap for link"
  else if a.ffsCar < 0 ∨ a.ffsTruck < 0 then .throw "negative ffs for link"
  else .ok { a with
    holdCar := clampHold a.holdCar, holdTruck := clampHold a.holdTruck
    capCar := clampCap a.capCar, capTruck := clampCap a.capTruck }

/-- `multiclass.cpp:1115-1163` the constructor of a cell. -/
def Cell.mk' (len : ℚ) (dia : Diagram) : Cell V :=
  ⟨len, dia, ⟨1, 0, some 0, some 0⟩, 0, 0, 0, 0, [], []⟩

/-- `multiclass.cpp:144-294` constructor and `506-574` `init_cell_array` (the length is positive
there: it is at least the standard cell length). -/
def Ctm.mk' (a : Args) : Res (Ctm V) :=
  (checkBase a.lanes a.length a.ffsCar).bind fun _ =>
    (checkAttrs a).bind fun a =>
      if a.factor < 1 then .throw "invalid veh_convert_factor for link"
      else if a.scalar < 1 then .throw "invalid flow_scalar for link"
      else if a.unit ≤ 0 then .throw "negative unit_time for link"
      else
        (derive a).bind fun r =>
          .ok ⟨r.args, r.wave, r.num,
            List.replicate (r.num - 1).toNat (Cell.mk' r.std r.dia) ++ [Cell.mk' r.last r.dia],
            .empty⟩

/-- `multiclass.cpp:306-480` `modify_property` (`unit`, `factor` and `scalar` of the argument are
not used).  The checks come after the base class has stored lanes, length and speeds, but every
failure is an exception. -/
def Ctm.modify (b : Args) (l : Ctm V) : Res (Ctm V) :=
  (checkAttrs { b with unit := l.args.unit, factor := l.args.factor, scalar := l.args.scalar }).bind
    fun a => (derive a).bind fun r =>
      if r.num ≠ l.cells.length then .throw "number of cells changed"
      else
        match l.cells.head?, l.cells.getLast? with
        | some f, some e =>
          if r.num = 1 then
            if approxEq r.last e.length tol then
              .ok { l with args := r.args, wave := r.wave
                           cells := l.cells.map fun c => { c with dia := r.dia } }
            else .throw "last cell length changed"
          else if approxEq r.std f.length tol ∧ approxEq r.last e.length tol then
            .ok { l with args := r.args, wave := r.wave
                         cells := l.cells.map fun c => { c with dia := r.dia } }
          else .throw "standard or last cell length changed"
        | _, _ => .ub

/-- `multiclass.cpp:1205-1302`: the densities of a cell and its perceived densities. -/
def Cell.updatePer (scalar : ℚ) (c : Cell V) : Cell V :=
  { c with per := perceive c.dia c.volCar c.volTruck ((c.volCar : ℚ) / scalar / c.length)
                    ((c.volTruck : ℚ) / scalar / c.length) }

/-- `multiclass.cpp:610-647` `update_out_veh`; cell `i` uses the draws `2 i` (car) and `2 i + 1`
(truck). -/
def Ctm.updateOut (scalar unit : ℚ) (u : ℕ → ℚ) : ℕ → List (Cell V) → Res (List (Cell V))
  | _, [] => .ub
  | _, [c] => .ok [{ c with outCar := c.queueCar.length, outTruck := c.queueTruck.length }]
  | i, c :: d :: rest =>
    let car := c.per.fracCar * min (demandOf c.dia.capCar c.dia.ffsCar unit c.per.densCar)
      (supplyOf d.dia.capCar d.dia.waveCar d.dia.holdCar unit d.per.densCar)
    let trk := c.per.fracTruck * min (demandOf c.dia.capTruck c.dia.ffsTruck unit c.per.densTruck)
      (supplyOf d.dia.capTruck d.dia.waveTruck d.dia.holdTruck unit d.per.densTruck)
    (round (car * scalar) (u (2 * i))).bind fun rc =>
      (round (trk * scalar) (u (2 * i + 1))).bind fun rt =>
        (Ctm.updateOut scalar unit u (i + 1) (d :: rest)).bind fun rest' =>
          .ok ({ c with outCar := min (c.queueCar.length : ℤ) rc
                        outTruck := min (c.queueTruck.length : ℤ) rt } :: rest')

/-- `multiclass.cpp:661-678`: cars, then trucks, into the next cell, entrance first. -/
def Ctm.moveFrom : Cell V → List (Cell V) → Res (List (Cell V))
  | c, [] => .ok [c]
  | c, d :: rest =>
    (moveQueue c.outCar.toNat c.queueCar d.queueCar).bind fun p =>
      (moveQueue c.outTruck.toNat c.queueTruck d.queueTruck).bind fun q =>
        (Ctm.moveFrom { d with queueCar := p.2, queueTruck := q.2 } rest).bind fun rest' =>
          .ok ({ c with queueCar := p.1, queueTruck := q.1 } :: rest')

/-- See `Ctm.moveFrom`. -/
def Ctm.movePrev : List (Cell V) → Res (List (Cell V))
  | [] => .ub
  | c :: rest => Ctm.moveFrom c rest

/-- `multiclass.cpp:736-817` `move_last_cell` and the update of volumes and perceived densities of
`685-713`. -/
def Ctm.moveLast (truck hasNext : V → Bool) (scalar : ℚ) (pick : ℕ → ℚ) :
    List (Cell V) → List V → Res (List (Cell V) × List V)
  | [], _ => .ub
  | [c], fin =>
    (mergeOut hasNext (c.outCar / (c.outCar + c.outTruck)) pick
      (c.outCar.toNat + c.outTruck.toNat) c.outCar.toNat c.outTruck.toNat
      c.queueCar c.queueTruck fin).bind fun r =>
      .ok ([Cell.updatePer scalar { c with
        queueCar := r.1, queueTruck := r.2.1
        volCar := r.1.length + cars truck r.2.2
        volTruck := r.2.1.length + trucks truck r.2.2 }], r.2.2)
  | c :: d :: rest, fin =>
    (Ctm.moveLast truck hasNext scalar pick (d :: rest) fin).bind fun p =>
      .ok (Cell.updatePer scalar
        { c with volCar := c.queueCar.length, volTruck := c.queueTruck.length } :: p.1, p.2)

/-- `multiclass.cpp:719-731`: the volume compared with the jam density; `_count_tot_vehs` is an
integer, so each addition truncates. -/
def spillCount (factor : ℚ) : List (Cell V) → ℤ → ℤ
  | [], n => n
  | c :: cs, n => spillCount factor cs (trunc ((n + c.volCar : ℤ) + c.volTruck * factor))

/-- `multiclass.cpp:650-733` `evolve`. -/
def Ctm.evolve (truck hasNext : V → Bool) (u : Draws) (l : Ctm V) : Res (Ctm V) :=
  (Ctm.updateOut l.args.scalar l.args.unit u.rnd 0 l.cells).bind fun cs =>
    (Ctm.movePrev cs).bind fun cs =>
      (Ctm.moveLast truck hasNext l.args.scalar u.pick cs l.com.finished).bind fun p =>
        let com := Common.addWait truck l.args.scalar l.args.unit { l.com with finished := p.2 }
        let full := decide ((spillCount l.args.factor p.1 0 : ℚ) / l.args.scalar / l.args.length
          > l.args.holdCar * l.args.lanes)
        .ok { l with cells := p.1, com := { com with spill := com.spill || full } }

/-- `multiclass.cpp:820-839` `get_link_supply`. -/
def Ctm.supply (l : Ctm V) : Res ℚ :=
  match l.cells with
  | [] => .ub
  | c :: _ =>
    let ρ := ((c.volTruck : ℚ) * l.args.factor + c.volCar) / l.args.scalar / c.length
    let x := min c.dia.capCar (l.wave * (c.dia.holdCar - ρ))
    let x := max x (l.wave * (1 / 4) * (c.dia.holdCar - ρ))
    .ok (max 0 x * l.args.unit)

/-- `multiclass.cpp:842-869` `clear_incoming_array`: each vehicle to the deque of its class. -/
def Ctm.clear (truck : V → Bool) (l : Ctm V) : Res (Ctm V) :=
  match l.cells with
  | [] => .ub
  | c :: rest =>
    let qc := c.queueCar ++ l.com.incoming.filter fun v => !truck v
    let qt := c.queueTruck ++ l.com.incoming.filter truck
    .ok { l with
      com := { l.com with incoming := [] }
      cells := Cell.updatePer l.args.scalar { c with
        queueCar := qc, queueTruck := qt, volCar := qc.length, volTruck := qt.length } :: rest }

/-- `multiclass.cpp:872-888` `get_link_flow_car`. -/
def Ctm.flowCar (truck : V → Bool) (l : Ctm V) : ℚ :=
  (((l.cells.map fun c => c.volCar).sum + cars truck l.com.finished : ℕ) : ℚ) / l.args.scalar

/-- `multiclass.cpp:890-908` `get_link_flow_truck`. -/
def Ctm.flowTruck (truck : V → Bool) (l : Ctm V) : ℚ :=
  (((l.cells.map fun c => c.volTruck).sum + trucks truck l.com.finished : ℕ) : ℚ) / l.args.scalar

/-- `multiclass.cpp:988-1001` `get_link_flow`. -/
def Ctm.flow (l : Ctm V) : ℚ :=
  (((l.cells.map fun c => c.volCar).sum + (l.cells.map fun c => c.volTruck).sum
    + l.com.finished.length : ℕ) : ℚ) / l.args.scalar

/-! ## Link queue -/

/-- `multiclass.h:208-267` `MNM_Dlink_Lq_Multiclass`.  `per = none`: the perceived densities have
not been computed yet; the constructor leaves them uninitialised. -/
structure Lq (V : Type) where
  args : Args
  dia : Diagram
  per : Option Percept
  volCar : ℕ
  volTruck : ℕ
  queueCar : List V
  queueTruck : List V
  bufCar : List V
  bufTruck : List V
  com : Common V

/-- `multiclass.cpp:1357-1377` and `1410-1434`.  Nothing is checked there; parameters that are not
positive where they should be, or a jam density below the critical density, are outside the
modelled domain (the code would go on with negative or infinite speeds). -/
def lqDiagram (a : Args) : Res Diagram :=
  let capCar := liftCell a.unit a.scalar (a.capCar * a.lanes)
  let capTruck := liftCell a.unit a.scalar (a.capTruck * a.lanes)
  let kjc := a.holdCar * a.lanes
  let kjt := a.holdTruck * a.lanes
  if a.unit ≤ 0 ∨ a.scalar ≤ 0 ∨ a.length ≤ 0 ∨ a.ffsCar ≤ 0 ∨ a.ffsTruck ≤ 0 ∨ a.factor ≤ 0
      ∨ kjc ≤ capCar / a.ffsCar ∨ kjt ≤ capTruck / a.ffsTruck then .ub
  else
    let wc := capCar / (kjc - capCar / a.ffsCar)
    let wt := capTruck / (kjt - capTruck / a.ffsTruck)
    .ok ⟨kjc, kjt, capCar / a.ffsCar, capTruck / a.ffsTruck, kjc * (wc / (a.ffsTruck + wc)),
      capCar, capTruck, a.ffsCar, a.ffsTruck, wc, wt⟩

/-- `multiclass.cpp:1347-1391` constructor. -/
def Lq.mk' (a : Args) : Res (Lq V) :=
  (checkBase a.lanes a.length a.ffsCar).bind fun _ =>
    (lqDiagram a).bind fun d => .ok ⟨a, d, none, 0, 0, [], [], [], [], .empty⟩

/-- `multiclass.cpp:1401-1436` `modify_property`. -/
def Lq.modify (b : Args) (l : Lq V) : Res (Lq V) :=
  let a := { b with unit := l.args.unit, factor := l.args.factor, scalar := l.args.scalar }
  (lqDiagram a).bind fun d => .ok { l with args := a, dia := d }

/-- `multiclass.cpp:1531-1712` `evolve`. -/
def Lq.evolve (truck hasNext : V → Bool) (u : Draws) (l : Lq V) : Res (Lq V) :=
  let vc := l.queueCar.length + cars truck l.com.finished
  let vt := l.queueTruck.length + trucks truck l.com.finished
  let a := l.args
  let full := decide ((trunc ((vc : ℚ) + vt * a.factor) : ℚ) / a.scalar / a.length > l.dia.holdCar)
  let per := perceive l.dia vc vt ((vc : ℚ) / a.scalar / a.length) ((vt : ℚ) / a.scalar / a.length)
  let dc := per.fracCar * demandOf l.dia.capCar l.dia.ffsCar a.unit per.densCar
  let dt := per.fracTruck * demandOf l.dia.capTruck l.dia.ffsTruck a.unit per.densTruck
  let dem := dc + a.factor * dt
  let move := dem * a.scalar - l.com.finished.length
  (round (move * divide dc dem) (u.rnd 0)).bind fun rc =>
    (round (move * divide (a.factor * dt) dem / a.factor) (u.rnd 1)).bind fun rt =>
      (moveQueue (min rc l.queueCar.length).toNat l.queueCar l.bufCar).bind fun pc =>
        (moveQueue (min rt l.queueTruck.length).toNat l.queueTruck l.bufTruck).bind fun pt =>
          (mergeOut hasNext ((pc.2.length : ℚ) / ((pc.2.length : ℚ) + pt.2.length)) u.pick
            (pc.2.length + pt.2.length) pc.2.length pt.2.length pc.2 pt.2 l.com.finished).bind
            fun r =>
              if r.1 ≠ [] ∨ r.2.1 ≠ [] then .throw "non-empty buffer"
              else
                let com := Common.addWait truck a.scalar a.unit
                  { l.com with finished := r.2.2, spill := l.com.spill || full }
                .ok { l with
                  per := some per, volCar := vc, volTruck := vt
                  queueCar := pc.1, queueTruck := pt.1, bufCar := r.1, bufTruck := r.2.1
                  com := com }

/-- `multiclass.cpp:1715-1739` `get_link_supply`; reading the perceived densities before they are
first computed is undefined. -/
def Lq.supply (l : Lq V) : Res ℚ :=
  match l.per with
  | none => .ub
  | some p =>
    let d := l.dia
    let raw := fun (cap wave hold : ℚ) (ρ : Option ℚ) =>
      match ρ with
      | some ρ => some (min cap (wave * (hold - ρ)))
      | none => none                                        -- minus infinity
    let one := fun (frac cap wave hold crit : ℚ) (ρ : Option ℚ) =>
      let low := frac * wave * (3 / 10) * (hold - crit) * l.args.unit
      match raw cap wave hold ρ with
      | some x => max 0 (max (frac * x * l.args.unit) low)
      | none => max 0 low
    .ok (one p.fracCar d.capCar d.waveCar d.holdCar d.critCar p.densCar
      + l.args.factor * one p.fracTruck d.capTruck d.waveTruck d.holdTruck d.critTruck p.densTruck)

/-- `multiclass.cpp:1742-1761` `clear_incoming_array`. -/
def Lq.clear (truck : V → Bool) (l : Lq V) : Lq V :=
  { l with
    com := { l.com with incoming := [] }
    queueCar := l.queueCar ++ l.com.incoming.filter fun v => !truck v
    queueTruck := l.queueTruck ++ l.com.incoming.filter truck }

/-! ## Point queue -/

/-- `multiclass.h:271-313` `MNM_Dlink_Pq_Multiclass`. -/
structure Pq (V : Type) where
  args : Args
  maxStamp : ℤ
  pool : List (V × ℤ)
  volCar : ℕ
  volTruck : ℕ
  com : Common V

/-- `multiclass.cpp:1978-2003` constructor. -/
def Pq.mk' (a : Args) : Res (Pq V) :=
  (checkBase a.lanes a.length a.ffsCar).bind fun _ =>
    if a.scalar ≤ 0 ∨ a.unit ≤ 0 ∨ a.ffsCar = 0 then .ub
    else (roundDownTime (a.length / (a.ffsCar * a.unit))).bind fun m =>
      .ok ⟨a, m, [], 0, 0, .empty⟩

/-- `multiclass.cpp:2008-2012` `get_link_supply`. -/
def Pq.supply (l : Pq V) : ℚ := l.args.capCar * l.args.lanes * l.args.unit

/-- The loop of `multiclass.cpp:2019-2052`: vehicles admitted while the remainder is positive, and
the rest. -/
def Pq.letIn : ℚ → List V → List V × List V
  | _, [] => ([], [])
  | x, v :: q => if x > 0 then ((v :: (Pq.letIn (x - 1) q).1), (Pq.letIn (x - 1) q).2) else ([], v :: q)

/-- `multiclass.cpp:2015-2073` `clear_incoming_array`. -/
def Pq.clear (truck : V → Bool) (l : Pq V) : Pq V :=
  let r := Pq.letIn (l.supply * l.args.scalar) l.com.incoming
  let pool := l.pool ++ r.1.map fun v => (v, 0)
  { l with
    pool := pool
    com := { l.com with incoming := r.2 }
    volCar := cars truck (pool.map Prod.fst) + cars truck l.com.finished
    volTruck := trucks truck (pool.map Prod.fst) + trucks truck l.com.finished }

/-- `multiclass.cpp:2086-2123` `evolve`; the loop is that of the single-class point queue. -/
def Pq.evolve (truck : V → Bool) (l : Pq V) : Pq V :=
  let r := Lnk.Pq.scan l.maxStamp l.pool
  { l with
    pool := r.2
    com := Common.addWait truck l.args.scalar l.args.unit
      { l.com with finished := l.com.finished ++ r.1 } }

/-- `multiclass.cpp:65-79`: the point queue inherits the `modify_property` of the base class, which
stores lanes, length and speeds (the free-flow time `m_max_stamp` stays). -/
def Pq.modify (b : Args) (l : Pq V) : Pq V :=
  { l with args := { l.args with
      lanes := b.lanes, length := b.length, ffsCar := b.ffsCar, ffsTruck := b.ffsTruck } }

/-! ## A two-class link of any kind -/

/-- `MNM_Dlink_Multiclass` with its virtual functions. -/
inductive Link (V : Type) where
  | ctm (l : Ctm V)
  | lq (l : Lq V)
  | pq (l : Pq V)

/-- `enum.h` the two-class link types of `multiclass.cpp:3461-3489`. -/
inductive Kind where
  | ctm | lq | pq
deriving DecidableEq

/-- `multiclass.cpp:3451-3490` `make_link_multiclass`. -/
def mkLink (k : Kind) (a : Args) : Res (Link V) :=
  match k with
  | .ctm => (Ctm.mk' a).bind fun l => .ok (.ctm l)
  | .lq => (Lq.mk' a).bind fun l => .ok (.lq l)
  | .pq => (Pq.mk' a).bind fun l => .ok (.pq l)

namespace Link

/-- The members every link has. -/
def com : Link V → Common V
  | ctm l => l.com
  | lq l => l.com
  | pq l => l.com

/-- Writing them. -/
def setCom : Link V → Common V → Link V
  | ctm l, c => ctm { l with com := c }
  | lq l, c => lq { l with com := c }
  | pq l, c => pq { l with com := c }

/-- `m_incoming_array`. -/
def incoming (l : Link V) : List V := l.com.incoming

/-- `m_finished_array`. -/
def finished (l : Link V) : List V := l.com.finished

/-- Writing `m_incoming_array`. -/
def setIncoming (l : Link V) (a : List V) : Link V := l.setCom { l.com with incoming := a }

/-- Writing `m_finished_array`. -/
def setFinished (l : Link V) (a : List V) : Link V := l.setCom { l.com with finished := a }

/-- The cars travelling on the link, nearest to the exit first (the deques of the cells from the
last to the first, the queue and the buffer of a link queue, the cars of the pool). -/
def travellingCars (truck : V → Bool) : Link V → List V
  | ctm l => (l.cells.reverse.map fun c => c.queueCar).flatten
  | lq l => l.bufCar ++ l.queueCar
  | pq l => (l.pool.map Prod.fst).filter fun v => !truck v

/-- The trucks travelling on the link, nearest to the exit first. -/
def travellingTrucks (truck : V → Bool) : Link V → List V
  | ctm l => (l.cells.reverse.map fun c => c.queueTruck).flatten
  | lq l => l.bufTruck ++ l.queueTruck
  | pq l => (l.pool.map Prod.fst).filter truck

/-- `m_flow_scalar`. -/
def scalar : Link V → ℚ
  | ctm l => l.args.scalar
  | lq l => l.args.scalar
  | pq l => l.args.scalar

/-- Virtual `get_link_supply`. -/
def supply : Link V → Res ℚ
  | ctm l => l.supply
  | lq l => l.supply
  | pq l => .ok l.supply

/-- Virtual `clear_incoming_array`. -/
def clear (truck : V → Bool) : Link V → Res (Link V)
  | ctm l => (l.clear truck).bind fun l => .ok (ctm l)
  | lq l => .ok (lq (l.clear truck))
  | pq l => .ok (pq (l.clear truck))

/-- Virtual `evolve`. -/
def evolve (truck hasNext : V → Bool) (u : Draws) : Link V → Res (Link V)
  | ctm l => (l.evolve truck hasNext u).bind fun l => .ok (ctm l)
  | lq l => (l.evolve truck hasNext u).bind fun l => .ok (lq l)
  | pq l => .ok (pq (l.evolve truck))

/-- Virtual `modify_property`, called through `update_link_attribute`
(`multiclass.cpp:3492-3515`). -/
def modify (b : Args) : Link V → Res (Link V)
  | ctm l => (l.modify b).bind fun l => .ok (ctm l)
  | lq l => (l.modify b).bind fun l => .ok (lq l)
  | pq l => .ok (pq (l.modify b))

/-- Virtual `get_link_flow_car` (`multiclass.cpp:872-888, 1774-1778, 2125-2129`). -/
def flowCar (truck : V → Bool) : Link V → ℚ
  | ctm l => l.flowCar truck
  | lq l => l.volCar / l.args.scalar
  | pq l => l.volCar / l.args.scalar

/-- Virtual `get_link_flow_truck` (`multiclass.cpp:890-908, 1780-1784, 2131-2135`). -/
def flowTruck (truck : V → Bool) : Link V → ℚ
  | ctm l => l.flowTruck truck
  | lq l => l.volTruck / l.args.scalar
  | pq l => l.volTruck / l.args.scalar

/-- Virtual `get_link_flow` (`multiclass.cpp:988-1001, 1786-1791, 2137-2142`). -/
def flow : Link V → ℚ
  | ctm l => l.flow
  | lq l => ((l.volCar + l.volTruck : ℕ) : ℚ) / l.args.scalar
  | pq l => ((l.volCar + l.volTruck : ℕ) : ℚ) / l.args.scalar

/-- `get_link_flow_emission_car` and `_truck` (`multiclass.cpp:910-985, 1793-1873, 2144-2225`): the
vehicles of one class on the link (travelling or waiting at the exit), split by whether they carry
the given label; not electric first. -/
def flowEmission (truck : V → Bool) (label : V → ℤ) (ev : ℤ) (cls : Bool) (l : Link V) : ℚ × ℚ :=
  let vs := (if cls then l.travellingTrucks truck else l.travellingCars truck)
    ++ l.finished.filter fun v => truck v == cls
  ((vs.countP fun v => label v ≠ ev : ℕ) / l.scalar, (vs.countP fun v => label v = ev : ℕ) / l.scalar)

/-- Virtual `get_link_tt_from_flow_car` (seconds, `multiclass.cpp:1036-1066, 1903-1930,
2234-2238`).  The link queue compares a density per lane with densities of the whole road. -/
def ttCar (flow : ℚ) : Link V → Option ℚ
  | ctm l => linkTt (1 / 1000) l.args.lanes l.args.length l.args.ffsCar l.args.holdCar l.args.capCar
      flow
  | lq l => linkTt dblEps l.args.lanes l.args.length l.dia.ffsCar l.dia.holdCar l.dia.capCar flow
  | pq l => divO l.args.length l.args.ffsCar

/-- Virtual `get_link_tt_from_flow_truck` (`multiclass.cpp:1068-1098, 1932-1960, 2240-2244`; the
point queue uses the speed of cars). -/
def ttTruck (flow : ℚ) : Link V → Option ℚ
  | ctm l => linkTt (1 / 1000) l.args.lanes l.args.length l.args.ffsTruck l.args.holdTruck
      l.args.capTruck flow
  | lq l => linkTt dblEps l.args.lanes l.args.length l.dia.ffsTruck l.dia.holdTruck l.dia.capTruck
      flow
  | pq l => divO l.args.length l.args.ffsCar

end Link

end Verif.MLnk
