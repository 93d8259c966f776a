import Verif.Model.Query

/-!
# Model of the travel times and costs of passenger paths, `src/multimodal.cpp:11515-12268`

The overloads that read the link travel times from the tables `m_link_tt_map` and `m_transitlink_tt_map`, which the
equilibrium uses, for departures at integer times; `M` is `m_current_loading_interval`.
-/

namespace Verif.MmCost
open Query Ults

/-- `m_vot`, `m_early_penalty`, `m_late_penalty`, `m_target_time`, per interval. -/
structure Prefs where
  vot : ℚ
  early : ℚ
  late : ℚ
  target : ℚ

/-- `multimodal.cpp:11531-11536` `get_wrongtime_penalty`. -/
def wrongtime (u : Prefs) (arrival : ℚ) : ℚ := max (u.late * (arrival - u.target)) (u.early * (u.target - arrival))

/-- A parking lot: `m_cruising_time_record`, `m_base_price`, `m_price_surge_coeff`. -/
structure Lot where
  cruise : Store ℤ ℚ
  price : ℚ
  surge : ℚ

/-- `multimodal.cpp:1400-1417` `get_cruise_time`. -/
def cruiseTime (r : Store ℤ ℚ) (t : ℤ) : Res ℚ :=
  match r.get t with
  | some x => .ok x
  | none =>
    if (r.length : ℤ) - 1 < t then
      match r.get ((r.length : ℤ) - 1) with
      | some x => .ok x
      | none => .ub
    else .throw "MNM_Parking_Lot::get_cruise_time, record does not exist in m_cruising_time_record!"

/-- `MNM_Passenger_Path_Driving`; walking times in intervals (`m_walking_time_before_driving / m_unit_time`),
`tolls` is `m_toll_car` of the links. -/
structure Drive where
  links : List ℤ
  people : ℕ
  lot : Option Lot
  walkBefore : ℚ
  walkAfter : ℚ
  carpool : ℚ

/-- `int (ceil (x))`. -/
def ceilInt (x : ℚ) : Res ℤ := if -2147483648 ≤ ⌈x⌉ ∧ ⌈x⌉ ≤ 2147483647 then .ok ⌈x⌉ else .ub

/-- Cruising for parking, `multimodal.cpp:11722-11727`. -/
def park (lot : Option Lot) (t : ℤ) : Res ℤ :=
  match lot with
  | none => .ok t
  | some lot => (cruiseTime lot.cruise t).bind fun x => (ceilInt x).bind fun k => addInt t k

/-- `multimodal.cpp:11707-11732` `MNM_Passenger_Path_Driving::get_travel_time` from tables. -/
def driveTime (tt : Tabs) (M start : ℤ) (d : Drive) : Res ℤ :=
  (ceilInt d.walkBefore).bind fun w => (addInt start w).bind fun t0 =>
    (Res.foldlM (timeStep tt M) t0 d.links).bind fun t1 =>
      (park d.lot t1).bind fun t2 =>
        (ceilInt d.walkAfter).bind fun w' => (addInt t2 w').bind fun t3 => .ok (t3 - start)

/-- `multimodal.cpp:11568-11572` `get_carpool_cost`. -/
def carpoolCost (d : Drive) : ℚ := d.carpool * ((d.people : ℚ) - 1)

/-- `multimodal.cpp:11574-11585` `get_amortized_parkingfee`: a fixed 8 without a parking lot. -/
def parkingFee (d : Drive) : ℚ :=
  match d.lot with
  | none => 8
  | some lot => lot.price * lot.surge / d.people

/-- `multimodal.cpp:11587-11598` `get_toll`. -/
def tollOf (toll : ℤ → ℚ) (d : Drive) : ℚ := (d.links.map toll).sum

/-- `multimodal.cpp:11747-11755` `get_travel_cost_with_tt`. -/
def driveCost (u : Prefs) (toll : ℤ → ℚ) (start tt : ℚ) (d : Drive) : ℚ :=
  u.vot * tt + wrongtime u (start + tt) + carpoolCost d + parkingFee d + tollOf toll d

/-- The loop of `multimodal.cpp:11948-11973` `MNM_Passenger_Path_Bus::get_travel_time` from tables: a link that takes
longer than the whole loading ends the computation. -/
def busLoop (tt : Tabs) (M start : ℤ) : ℤ → List ℤ → Res ℤ
  | cur, [] => .ok (cur - start)
  | cur, l :: ls =>
    (readAt tt l (slot M cur)).bind fun x =>
      if x > (M : ℚ) then .ok (2 * M)
      else (roundUpTime x Sp.prec).bind fun k => (addInt cur k).bind fun cur' => busLoop tt M start cur' ls

/-- The travel time of a transit path. -/
def busTime (tt : Tabs) (M start : ℤ) (links : List ℤ) : Res ℤ := busLoop tt M start start links

/-- The penalty of trips longer than the loading, `multimodal.cpp:11984-11996`. -/
def capped (M : ℤ) (tt cost : ℚ) : ℚ := if tt > (M : ℚ) then 1000 * cost else cost

/-- `multimodal.cpp:11977-11997` `MNM_Passenger_Path_Bus::get_travel_cost_with_tt`; the fare is paid once. -/
def busCost (u : Prefs) (M : ℤ) (fare inconvenience start tt : ℚ) : ℚ :=
  capped M tt (u.vot * tt + wrongtime u (start + tt) + fare + inconvenience)

/-- `multimodal.cpp:12237-12254` `MNM_Passenger_Path_PnR::get_travel_time`: the driving part has no parking lot and
no walk after driving. -/
def pnrTime (tt bt : Tabs) (M start : ℤ) (drive bus : List ℤ) (walkBefore : ℚ) : Res ℤ :=
  (driveTime tt M start ⟨drive, 1, none, walkBefore, 0, 0⟩).bind fun a =>
    (busTime bt M (start + a) bus).bind fun b => .ok (a + b)

/-- `multimodal.cpp:12210-12235` `MNM_Passenger_Path_PnR::get_travel_cost_with_tt`: neither parking nor tolls are
paid. -/
def pnrCost (u : Prefs) (M : ℤ) (fare inconvenience start tt : ℚ) : ℚ :=
  capped M tt (u.vot * tt + wrongtime u (start + tt) + fare + inconvenience)

end Verif.MmCost
