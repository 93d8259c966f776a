import Verif.Model.Curve

/-!
# Model of the driving links followed by bus links

`src/multimodal.cpp` `MNM_Bus_Link::get_overlapped_driving_link_length_portion`, `MNM_Bus_Link::get_link_tt`,
`MNM_Dta_Multimodal::check_bus_path_table`, `MNM_Busstop_Virtual::get_waiting_time_snapshot`;
`macposts/_ext/mmdta.cpp` `get_links_overlapped_bus_driving`.  Distances are exact rationals; `IAssert` is compiled out;
printing is not modelled.
-/

namespace Verif.BusP
open Curve Ults

/-- A virtual bus stop (`multimodal.h:38-135`): `m_busstop_ID`, `m_link_ID`, `m_link_loc`, `m_route_ID`, `m_cell_ID`. -/
structure Stop where
  id : ℤ
  link : ℤ
  loc : ℚ
  route : ℤ
  cell : ℤ
  deriving DecidableEq

/-- The type of a driving link: `MNM_Dlink_Ctm_Multimodal`, `MNM_Dlink_Pq_Multimodal` or any other. -/
inductive Kind
  | ctm
  | pq
  | other
  deriving DecidableEq

/-- A driving link: `m_link_ID`, `m_length`, its type, and the stops on it with their `m_busstop_timeloc_map` entries
(which only a point queue has; the order of the map is any order). -/
structure DLink where
  id : ℤ
  len : ℚ
  kind : Kind
  stops : List (Stop × ℤ)
  deriving DecidableEq

/-- A bus link: `m_link_ID`, `m_from_busstop`, `m_to_busstop`, `m_overlapped_driving_link_vec`. -/
structure BLink where
  id : ℤ
  src : Stop
  dst : Stop
  over : List DLink
  deriving DecidableEq

/-- One turn of the loop of `get_overlapped_driving_link_length_portion`, `multimodal.cpp:3473-3500`. -/
def portion (b : BLink) (d : DLink) : ℚ :=
  if b.src.link = b.dst.link ∧ b.over.length = 1 ∧ b.src.link = d.id then (b.dst.loc - b.src.loc) / d.len
  else if b.src.link = d.id then 1 - b.src.loc / d.len
  else if b.dst.link = d.id then b.dst.loc / d.len
  else 1

/-- `multimodal.cpp:3458-3505` `MNM_Bus_Link::get_overlapped_driving_link_length_portion` (the `break` of the first case
is reached for a list of one link only). -/
def portions (b : BLink) : List ℚ := b.over.map (portion b)

/-- The loop of `MNM_Bus_Link::get_link_tt`, `multimodal.cpp:3605-3610`: `tt` is `get_link_tt` of the driving links. -/
def rideTime (tt : ℤ → ℚ) (b : BLink) : ℚ :=
  ((b.over.zip (portions b)).map fun x => tt x.1.id * x.2).sum

/-- `multimodal.cpp:3507-3613` `MNM_Bus_Link::get_link_tt`: `nIn` and `total` are `m_N_in_bus` and `m_total_bus` of the
stop at the start, `maxInt` and `freq` are of its origin. -/
def linkTt (tt : ℤ → ℚ) (countRuns : Bool) (nIn : Curve) (total : ℚ) (maxInt freq : ℤ) (b : BLink) : Res ℚ :=
  if countRuns then
    (back nIn).bind fun r =>
      if approxLt r.2 total tol then .ok (rideTime tt b) else .ok ((2 * maxInt * freq : ℤ) : ℚ)
  else .ok (rideTime tt b)

/-- `mmdta.cpp:1290-1340` `get_links_overlapped_bus_driving`: a row for every driving link of every registered bus
link. -/
def overlapRows (bs : List BLink) : Res (List (ℤ × ℤ × ℚ)) :=
  if bs = [] then .throw "Error, Mmdta::get_links_overlapped_bus_driving, bus links do not exist"
  else .ok (bs.flatMap fun b => (b.over.zip (portions b)).map fun x => (b.id, x.1.id, x.2))

/-! ## The check of the paths of buses -/

/-- `m_busstop_timeloc_map.find (stop)->second`. -/
def timeloc (d : DLink) (s : Stop) : Res ℤ :=
  match d.stops.find? (fun x => x.1.id == s.id) with
  | some x => .ok x.2
  | none => .ub

/-- The place of a stop on a driving link: the cell (`multimodal.cpp:9957-10040`) or the entry of the map
(`10063-10180`). -/
def place (d : DLink) (s : Stop) : Res ℤ := if d.kind = .ctm then .ok s.cell else timeloc d s

/-- The place of a stop `x` that is listed on a driving link. -/
def placeOf (d : DLink) (x : Stop × ℤ) : ℤ := if d.kind = .ctm then x.1.cell else x.2

/-- The test of one stop on a driving link of the bus link `b` from `a` to `z` (the IDs of the stops of the path),
`multimodal.cpp:9951-10062` and `10064-10200`: whether "another virtual bus stop exists on overlapped driving link". -/
def clash (r a z : ℤ) (b : BLink) (d : DLink) (x : Stop × ℤ) : Res Bool :=
  if x.1.route = r then
    if x.1.link = b.src.link ∧ x.1.link = b.dst.link then
      (place d b.src).bind fun p =>
        if placeOf d x ≥ p ∧ x.1.id ≠ a then
          (place d b.dst).bind fun q => .ok (decide (placeOf d x ≤ q ∧ x.1.id ≠ z))
        else .ok false
    else if x.1.link = b.src.link ∧ x.1.link ≠ b.dst.link then
      (place d b.src).bind fun p => .ok (decide (placeOf d x ≥ p ∧ x.1.id ≠ a))
    else if x.1.link ≠ b.src.link ∧ x.1.link = b.dst.link then
      (place d b.dst).bind fun q => .ok (decide (placeOf d x ≤ q ∧ x.1.id ≠ z))
    else .ok true
  else .ok false

/-- `_reconstructed_driving_link_seq`: a link is appended unless it is the last one, `multimodal.cpp:10207-10213`. -/
def append (seq : List ℤ) (l : ℤ) : List ℤ := if seq = [] ∨ seq.getLast? ≠ some l then seq ++ [l] else seq

/-- One driving link of a bus link, `multimodal.cpp:9933-10214`. -/
def checkDrive (r a z : ℤ) (b : BLink) (acc : Bool × List ℤ) (d : DLink) : Res (Bool × List ℤ) :=
  if d.kind = .other then .throw "Wrong link type"
  else
    (Res.foldlM (fun ok x => (clash r a z b d x).bind fun c => .ok (ok && !c)) acc.1 d.stops).bind fun ok =>
      .ok (ok, append acc.2 d.id)

/-- One pair of stops in a row, `multimodal.cpp:9919-10215`: `out` gives `m_bus_out_link` of a stop (`none` for a null
pointer), `known` the stops of the factory. -/
def checkPair (known : ℤ → Bool) (out : ℤ → Option BLink) (r : ℤ) (acc : Bool × List ℤ) (p : ℤ × ℤ) :
    Res (Bool × List ℤ) :=
  if known p.1 then
    match out p.1 with
    | none => .ub
    | some b => Res.foldlM (checkDrive r p.1 p.2 b) acc b.over
  else .throw "Error, MNM_Busstop_Factory::get_busstop, busstop does not exist"

/-- A path of a bus: origin, destination, route, `m_busstop_vec`, `m_link_vec`. -/
structure BPath where
  origin : ℤ
  dest : ℤ
  route : ℤ
  stops : List ℤ
  links : List ℤ
  deriving DecidableEq

/-- The check of one path, `multimodal.cpp:9912-10254`; a path without stops is read out of bounds. -/
def checkPath (known : ℤ → Bool) (out : ℤ → Option BLink) (p : BPath) : Res (Bool × BPath) :=
  if p.stops = [] then .ub
  else
    (Res.foldlM (checkPair known out p.route) (true, []) (p.stops.zip p.stops.tail)).bind fun r =>
      if r.2.length ≠ p.links.length then .ok (false, { p with links := r.2 })
      else if r.2 = p.links then .ok (r.1, p)
      else .ok (false, { p with links := r.2 })

/-- `multimodal.cpp:9898-10258` `MNM_Dta_Multimodal::check_bus_path_table` (the table as the list of its paths, in the
order of the maps). -/
def checkTable (known : ℤ → Bool) (out : ℤ → Option BLink) : List BPath → Res (Bool × List BPath)
  | [] => .ok (true, [])
  | p :: ps =>
    (checkPath known out p).bind fun a => (checkTable known out ps).bind fun b => .ok (a.1 && b.1, a.2 :: b.2)

/-! ## The waiting time by a snapshot of the network -/

/-- What the waiting time reads of a virtual bus stop: `m_N_in_bus`, `m_total_bus`, `m_max_assign_interval` and
`m_frequency` of its origin, and of `m_bus_in_link` the stop before and the travel times of the driving links with the
portions. -/
structure WStop where
  nIn : Curve
  total : ℚ
  maxInt : ℤ
  freq : ℤ
  up : Option (ℤ × List (ℚ × ℚ))

/-- The buses of a route released at its origin: `m_demand_bus` per minute and `m_flow_scalar`. -/
structure Runs where
  demand : List ℚ
  scalar : ℚ

/-- The time along one bus link, `multimodal.cpp:846-858`. -/
def legTime (parts : List (ℚ × ℚ)) : ℚ := (parts.map fun x => x.1 * x.2).sum

/-- The loop over the stops before, `multimodal.cpp:843-870`: the last stop and the time.  `n` bounds the number of
turns. -/
def climb (stop : ℤ → WStop) (ts : ℤ) (thr : ℚ) : ℕ → ℤ → ℚ → Res (ℤ × ℚ)
  | 0, _, _ => .diverge
  | n + 1, v, t =>
    match (stop v).up with
    | none => .ok (v, t)
    | some u =>
      (getResult (stop u.1).nIn ts).bind fun c =>
        if approxLt c thr tol then climb stop ts thr n u.1 (t + legTime u.2) else .ok (v, t + legTime u.2)

/-- The buses released in minute `i`: `floor (_demand[i] * m_flow_scalar) / m_flow_scalar`. -/
def released (r : Runs) (i : ℕ) : Res ℚ :=
  match r.demand[i]? with
  | some d => .ok (⌊d * r.scalar⌋ / r.scalar)
  | none => .ub

/-- The sum over minutes, `multimodal.cpp:880-885`. -/
def releasedSum (r : Runs) (is : List ℕ) : Res ℚ :=
  Res.foldlM (fun a i => (released r i).bind fun x => .ok (a + x)) 0 is

/-- The loop over later minutes, `multimodal.cpp:888-903`: the time added. -/
def nextRun (r : Runs) (thr : ℚ) (cur : ℕ) : List ℕ → ℚ → Res ℚ
  | [], _ => .ok 0
  | i :: is, tot =>
    (released r i).bind fun x =>
      if approxLt (tot + x) thr tol then nextRun r thr cur is (tot + x) else .ok (((i : ℚ) - cur) * 60)

/-- The wait for the release, `multimodal.cpp:872-904`: `_num_minute = m_frequency / 12`,
`_current_release_interval = timestamp / 12`. -/
def releaseWait (r : Runs) (thr : ℚ) (maxInt freq : ℤ) (ts : ℕ) : Res ℚ :=
  let cur := ts / 12
  (releasedSum r (List.range (cur + 1))).bind fun tot =>
    if approxLt tot thr tol then
      nextRun r thr cur (List.range' (cur + 1) ((maxInt * (freq.tdiv 12)).toNat - (cur + 1))) tot
    else .ok 0

/-- `multimodal.cpp:812-906` `MNM_Busstop_Virtual::get_waiting_time_snapshot`; `n` bounds the turns of the `while`
loop; `runs` gives the releases of the route at the origin of a stop. -/
def snapshotWait (stop : ℤ → WStop) (runs : ℤ → Runs) (n : ℕ) (v : ℤ) (ts : ℕ) : Res ℚ :=
  (getResult (stop v).nIn ts).bind fun cc =>
    if approxLt cc (stop v).total tol then
      (toInt cc).bind fun fl =>
        let thr : ℚ := if approxEq cc ((fl : ℚ) + 1) tol then (fl : ℚ) + 2 else (fl : ℚ) + 1
        (climb stop ts thr n v 0).bind fun r =>
          match (stop r.1).up with
          | none => (releaseWait (runs r.1) thr (stop r.1).maxInt (stop r.1).freq ts).bind fun w => .ok (r.2 + w)
          | some _ => .ok r.2
    else .ok ((2 * (stop v).maxInt * (stop v).freq : ℤ) : ℚ)

end Verif.BusP
