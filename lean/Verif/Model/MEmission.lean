import Verif.Model.MNet
import Verif.Model.Emission

/-! # Model of the emission report of a loading with cars and trucks

`multiclass.cpp:5946-6207` `MNM_Cumulative_Emission_Multiclass`, and its place in the loading loop
(`dta.cpp:645-676`). -/

namespace Verif.MEmis
open MNet Emis

/-- The choice of a conversion factor by speed, the same in all five functions
(`multiclass.cpp:5970-6076`). -/
def factor (slow mid fast v : ℚ) : ℚ := if v < 25 then slow else if v < 55 then mid else fast

/-- `multiclass.cpp:5972-5991` `calculate_fuel_rate_truck`. -/
def fuelTruck (v : ℚ) : Option ℚ := (fuelRate v).map (· * factor 1.53 1.50 1.55 v)

/-- `multiclass.cpp:5993-6012` `calculate_CO2_rate_truck`. -/
def co2Truck (v : ℚ) : Option ℚ := (co2Rate v).map (· * factor 1.53 1.50 1.55 v)

/-- `multiclass.cpp:6014-6033` `calculate_HC_rate_truck`. -/
def hcTruck (v : ℚ) : ℚ := hcRate v * factor 1.87 2.41 2.01 v

/-- `multiclass.cpp:6035-6054` `calculate_CO_rate_truck`. -/
def coTruck (v : ℚ) : ℚ := coRate v * factor 3.97 2.67 5.01 v

/-- `multiclass.cpp:6056-6075` `calculate_NOX_rate_truck`. -/
def noxTruck (v : ℚ) : ℚ := noxRate v * factor 7.32 6.03 5.75 v

/-- The members of the class.  `m_car_set` and `m_truck_set` are sets of pointers: lists of addresses
without repetition here. -/
structure Report where
  car : Totals
  truck : Totals
  vhtCar : ℚ
  vhtTruck : ℚ
  cars : List ℕ
  trucks : List ℕ
deriving DecidableEq

/-- `multiclass.cpp:5946-5966` the constructor. -/
def Report.zero : Report := ⟨.zero, .zero, 0, 0, [], []⟩

/-- What the report is made of.  `reg`: the registered links, in the order of `m_link_vector`;
`addr v`: the address of the object of vehicle `v`. -/
structure Setup where
  reg : List ℕ
  evCar : ℤ
  evTruck : ℤ
  unit : ℚ
  addr : ℕ → ℕ

/-- `multiclass.cpp:4464-4485`: every link of the network whose number is in the file, once. -/
def registered (linkIds file : List ℕ) : List ℕ := linkIds.filter fun l => decide (l ∈ file)

/-- Virtual `get_link_tt` (`multiclass.cpp:1003-1034, 1868-1897, 2226-2231`): the travel time of cars
at the current flow. -/
def linkTime (l : MLnk.Link ℕ) : Option ℚ := l.ttCar l.flow

/-- `m_length`. -/
def length : MLnk.Link ℕ → ℚ
  | .ctm l => l.args.length
  | .lq l => l.args.length
  | .pq l => l.args.length

/-- The additions to the totals of one class (`multiclass.cpp:6106-6135`); `d`: the distance driven by
one vehicle in the interval, `n`: vehicles that are not electric, `ev`: electric vehicles. -/
def addTotals (f c hc co nox d n ev : ℚ) (s : Totals) : Totals :=
  { fuel := s.fuel + f * d * n
    co2 := s.co2 + c * d * n
    hc := s.hc + hc * d * n
    co := s.co + co * d * n
    nox := s.nox + nox * d * n
    vmt := s.vmt + d * (n + ev)
    vmtEv := s.vmtEv + d * ev }

/-- `multiclass.cpp:6085-6139`, one link; `none` when a division by zero occurs. -/
def addLink (e : Setup) (s : State) (r : Report) (l : ℕ) : Option Report :=
  match linkTime (s.links l).link with
  | none => none
  | some tt =>
    if tt = 0 then none
    else
      let v := length (s.links l).link / tt
      let vc := min (max (v * 3600 / 1600) 5) 65
      let nc := (s.links l).link.flowEmission s.truck (fun x => (s.vehs x).label) e.evCar false
      let nt := (s.links l).link.flowEmission s.truck (fun x => (s.vehs x).label) e.evTruck true
      let d := v * e.unit / 1600
      (fuelRate vc).bind fun fc => (co2Rate vc).bind fun cc =>
        (fuelTruck vc).bind fun ft => (co2Truck vc).bind fun ct =>
          some { r with
            car := addTotals fc cc (hcRate vc) (coRate vc) (noxRate vc) d nc.1 nc.2 r.car
            truck := addTotals ft ct (hcTruck vc) (coTruck vc) (noxTruck vc) d nt.1 nt.2 r.truck
            vhtCar := r.vhtCar + e.unit * (nc.1 + nc.2) / 3600
            vhtTruck := r.vhtTruck + e.unit * (nt.1 + nt.2) / 3600 }

/-- `insert` of a set. -/
def insert (a : ℕ) (l : List ℕ) : List ℕ := if a ∈ l then l else l ++ [a]

/-- `multiclass.cpp:6143-6158`, one vehicle. -/
def addTrip (e : Setup) (s : State) (r : Report) (v : ℕ) : Report :=
  match (s.vehs v).cur with
  | none => r
  | some l =>
    if l ∈ e.reg then
      if s.truck v then { r with trucks := insert (e.addr v) r.trucks }
      else { r with cars := insert (e.addr v) r.cars }
    else r

/-- `multiclass.cpp:6077-6161` `update`. -/
def update (e : Setup) (s : State) (r : Report) : Option Report :=
  (e.reg.foldlM (addLink e s) r).map fun r => s.vehMap.foldl (addTrip e s) r

/-- `dta.cpp:538-689` `load_once` with the emission report, which is updated between the links and the
destinations. -/
def loadOnce (c : Cfg) (e : Setup) (o : StepOracle) (ts assign : ℕ) (x : State × Option Report) :
    Res (State × Option Report) :=
  (Res.foldlM (setAttr c) x.1 (c.attrs ts)).bind fun s =>
    (stepRelease c o ts assign s).bind fun s =>
      (o.routing.update c.net o.route s).bind fun s =>
        (stepNodes c o ts s).bind fun s =>
          (Res.foldlM (linkStep o) s c.net.linkIds).bind fun s =>
            let rep := x.2.bind (update e s)
            (Res.foldlM (receive c ts) s c.net.destIds).bind fun s => .ok (s, rep)

/-- `dta.cpp:692-715` the body of `loading`. -/
def loadMany (c : Cfg) (e : Setup) : List StepOracle → ℕ → ℕ → State × Option Report →
    Res ((State × Option Report) × ℕ × ℕ)
  | [], ts, assign, x => .ok (x, ts, assign)
  | o :: os, ts, assign, x =>
    (loadOnce c e o ts assign x).bind fun x =>
      loadMany c e os (ts + 1) (if (ts + 1) % c.net.assignFreq = 0 then assign + 1 else assign) x

/-- The numbers of trips printed by `output ()` (`multiclass.cpp:6163-6207`). -/
def Report.trips (r : Report) (truck : Bool) : ℕ := if truck then r.trucks.length else r.cars.length

/-- The hours printed. -/
def Report.hours (r : Report) (truck : Bool) : ℚ := if truck then r.vhtTruck else r.vhtCar

/-- The totals printed. -/
def Report.totals (r : Report) (truck : Bool) : Totals := if truck then r.truck else r.car

end Verif.MEmis
