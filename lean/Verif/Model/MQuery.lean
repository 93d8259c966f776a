import Verif.Model.Query

/-!
# Model of the queries of the Python interface to networks with cars and trucks

`macposts/_ext/mcdta.cpp` `build_link_cost_map`, `get_car_link_tt`, `get_truck_link_tt`, `get_car_link_tt_robust`,
`get_truck_link_tt_robust`, `get_car_link_speed`, `get_truck_link_speed`, `get_link_car_inflow`,
`get_link_truck_inflow`, `get_avg_link_on_path_tt_car`, `get_avg_link_on_path_tt_truck`, `get_path_tt_car`,
`get_path_tt_truck`, `get_registered_path_tt_car`, `get_registered_path_tt_truck`; `src/multiclass.cpp`
`get_travel_time_car`, `get_travel_time_truck` and their robust variants.  A boolean stands for the class: `false` for
cars, `true` for trucks.  The functions for the two classes have the same text up to the names, and are modelled by one
definition with a parameter.  The conversions of numpy arrays by pybind11 and the dimension checks are not modelled.
-/

namespace Verif.MQuery
open Curve Ults Query

/-- One of two values, by class. -/
def byClass {A : Type} (b : Bool) (car truck : A) : A := if b then truck else car

/-- Replacing the part for class `b`. -/
def put {A : Type} (f : Bool → A) (b : Bool) (x : A) : Bool → A := fun b' => if b' = b then x else f b'

/-- What the queries use of a link: the curves of each class with the last valid times (`m_last_valid_time` of
`dlink.h:98` for cars, `m_last_valid_time_truck` of `multiclass.h:84`) and the free-flow times in intervals, `m_length`,
`m_ffs_car` and `m_ffs_truck`, `m_toll_car` and `m_toll_truck`. -/
structure Link where
  cc : Bool → LinkCc
  length : ℚ
  ffs : Bool → ℚ
  toll : Bool → ℚ

/-- What a query may change: the links of the link factory with their last valid times, and the tables of
`build_link_cost_map` for each class. -/
structure State where
  net : ℤ → Option Link
  tt : Bool → Tabs
  cost : Bool → Tabs

/-- What does not change: the number of intervals loaded, the length of an interval in seconds, the value of time per
second, the registered links and paths (by their links), and the link factory in the order of iteration. -/
structure Env where
  T : ℕ
  unit : ℚ
  vot : ℚ
  reg : List ℤ
  paths : List (List ℤ)
  ids : List ℤ

/-- An entry of a result; `none` is not a number. -/
abbrev Val := Option (WithTop ℚ)

/-- The state after a link has been replaced. -/
def State.set (s : State) (l : ℤ) (q : Link) : State :=
  { s with net := fun l' => if l' = l then some q else s.net l' }

/-- `factory.cpp` `get_link`. -/
def State.link (s : State) (l : ℤ) : Res Link :=
  match s.net l with
  | none => .throw "Error, MNM_Link_Factory::get_link, link does not exist"
  | some q => .ok q

/-- `multiclass.cpp:4796-4825` `get_travel_time_car` and `multiclass.cpp:4846-4876` `get_travel_time_truck`, on a link with
installed curves: each class keeps its own last valid time. -/
def travelTime (T : ℕ) (b : Bool) (l : ℤ) (start : ℚ) (s : State) : Res (ℚ × State) :=
  (s.link l).bind fun q => (getTravelTime (q.cc b) start T).bind fun r =>
    .ok (r.1, s.set l { q with cc := put q.cc b r.2 })

/-- `multiclass.cpp:4827-4844` `get_travel_time_car_robust`, `multiclass.cpp:4878-4895` `get_travel_time_truck_robust`. -/
def travelTimeRobust (T : ℕ) (b : Bool) (trials : ℤ) (l : ℤ) (p : ℚ × ℚ) (s : State) : Res (Option ℚ × State) :=
  (s.link l).bind fun q => (Curve.travelTimeRobust (q.cc b) p.1 p.2 T trials).bind fun r =>
    .ok (r.1, s.set l { q with cc := put q.cc b r.2 })

/-! ## Loops over links and times -/

/-- The inner loop of the queries: over links or paths, from row `i` on, for column `t` of `cols`. -/
def colLoop {R A : Type} (f : R → State → Res (A × State)) (cols t : ℕ) :
    ℕ → List R → Arr A → State → Res (Arr A × State)
  | _, [], a, s => .ok (a, s)
  | i, r :: rs, a, s => (f r s).bind fun x => colLoop f cols t (i + 1) rs (write a (i * cols + t) x.1) x.2

/-- The outer loop: over the requested times, from column `t` on. -/
def gridLoop {S R A : Type} (check : S → Res Unit) (f : S → R → State → Res (A × State)) (cols : ℕ) (rs : List R) :
    ℕ → List S → Arr A → State → Res (Arr A × State)
  | _, [], a, s => .ok (a, s)
  | t, x :: xs, a, s =>
    (check x).bind fun _ => (colLoop (f x) cols t 0 rs a s).bind fun w => gridLoop check f cols rs (t + 1) xs w.1 w.2

/-- The nested loops of the queries, a row per link or path and a column per time. -/
def grid {S R A : Type} (check : S → Res Unit) (f : S → R → State → Res (A × State)) (xs : List S) (rs : List R)
    (s : State) : Res (Arr A × State) := gridLoop check f xs.length rs 0 xs (fun _ => none) s

/-- The check of a start, as in `mcdta.cpp:1917-1922` (the text names the function). -/
def checkStart (name : String) (T : ℕ) (s : ℚ) : Res Unit :=
  if s ≥ T then
    .throw ("Error, Mcdta::" ++ name ++ ", input start intervals exceeds the total loading intervals - 1")
  else .ok ()

/-- The checks of a period, as in `mcdta.cpp:1976-1993`. -/
def checkPeriod (name : String) (T : ℕ) (p : ℚ × ℚ) : Res Unit :=
  if p.2 ≤ p.1 then .throw ("Error, Mcdta::" ++ name ++ ", end time is smaller than or equal to start time")
  else if p.1 ≥ T then
    .throw ("Error, Mcdta::" ++ name ++ ", input start intervals exceeds the total loading intervals - 1")
  else if p.2 > T then
    .throw ("Error, Mcdta::" ++ name ++ ", input end intervals exceeds the total loading intervals")
  else .ok ()

/-! ## Queries -/

/-- Cutting off large travel times (in seconds), `mcdta.cpp:1928-1944` and `2051-2067`.  (The division by the length of an
interval and the later multiplication cancel; a free-flow speed of zero is not modelled.) -/
def cap (q : Link) (b inf : Bool) (x : ℚ) : WithTop ℚ :=
  let bound := ttUpperBound * q.length / q.ffs b
  if x > bound then (if inf then ⊤ else ((bound : ℚ) : WithTop ℚ)) else ((x : ℚ) : WithTop ℚ)

/-- One entry of `get_car_link_tt`, `get_truck_link_tt`, `mcdta.cpp:1925-1945`. -/
def linkTtOne (e : Env) (b inf : Bool) (start : ℚ) (l : ℤ) (s : State) : Res (Val × State) :=
  (s.link l).bind fun q => (travelTime e.T b l (start + 1) s).bind fun r =>
    .ok (some (cap q b inf (r.1 * e.unit)), r.2)

/-- One entry of the robust variants, `mcdta.cpp:1996-2018`. -/
def robustOne (e : Env) (b inf : Bool) (trials : ℤ) (p : ℚ × ℚ) (l : ℤ) (s : State) : Res (Val × State) :=
  (s.link l).bind fun q => (travelTimeRobust e.T b trials l (p.1 + 1, p.2 + 1) s).bind fun r =>
    .ok (r.1.map fun x => cap q b inf (x * e.unit), r.2)

/-- `m_length / _tt * 3600 / 1600`, `mcdta.cpp:2178-2179`: dividing by zero gives infinity, or no number. -/
def speedOf (length tt : ℚ) : Val :=
  if tt = 0 then (if 0 < length then some ⊤ else none) else some ((length / tt * 3600 / 1600 : ℚ) : WithTop ℚ)

/-- One entry of `get_car_link_speed`, `get_truck_link_speed`, `mcdta.cpp:2172-2180`. -/
def speedOne (e : Env) (b : Bool) (start : ℚ) (l : ℤ) (s : State) : Res (Val × State) :=
  (s.link l).bind fun q => (travelTime e.T b l (start + 1) s).bind fun r => .ok (speedOf q.length (r.1 * e.unit), r.2)

/-- One entry of `get_link_car_inflow`, `get_link_truck_inflow`, `mcdta.cpp:2266-2273`. -/
def inflowOne (b : Bool) (p : ℚ × ℚ) (l : ℤ) (s : State) : Res (Val × State) :=
  (s.link l).bind fun q => (flowBetween (q.cc b).nIn p.1 p.2).bind fun x => .ok (some ((x : ℚ) : WithTop ℚ), s)

/-- The sum of the travel times of a link for the listed starts, `mcdta.cpp:1525-1546`. -/
def avgSum (e : Env) (b : Bool) (l : ℤ) : List ℚ → ℚ → State → Res (ℚ × State)
  | [], acc, s => .ok (acc, s)
  | x :: xs, acc, s =>
    (checkStart (byClass b "get_avg_link_on_path_tt_car" "get_avg_link_on_path_tt_truck") e.T x).bind fun _ =>
      (s.link l).bind fun q => (travelTime e.T b l (x + 1) s).bind fun r =>
        let bound := ttUpperBound * q.length / q.ffs b
        let y := r.1 * e.unit
        avgSum e b l xs (acc + if y > bound then bound else y) r.2

/-- `get_avg_link_on_path_tt_car`, `get_avg_link_on_path_tt_truck`, `mcdta.cpp:1497-1557`, for the link of row `i` on: an
average over no starts is not a number. -/
def avgLoop (e : Env) (b : Bool) (starts : List ℚ) : ℕ → List ℤ → Arr Val → State → Res (Arr Val × State)
  | _, [], a, s => .ok (a, s)
  | i, l :: ls, a, s =>
    (s.link l).bind fun _ => (avgSum e b l starts 0 s).bind fun r =>
      avgLoop e b starts (i + 1) ls
        (write a i (if starts.length = 0 then none else some ((r.1 / starts.length : ℚ) : WithTop ℚ))) r.2

/-- The loop over the intervals in `build_link_cost_map`, `mcdta.cpp:914-928`: first the time for cars, then the one for
trucks. -/
def ttRows (T : ℕ) : (Bool → LinkCc) → List ℕ → Res ((List ℚ × List ℚ) × (Bool → LinkCc))
  | cc, [] => .ok (([], []), cc)
  | cc, i :: is =>
    (getTravelTime (cc false) ((i : ℚ) + 1) T).bind fun r =>
      (getTravelTime (cc true) ((i : ℚ) + 1) T).bind fun r' =>
        (ttRows T (put (put cc false r.2) true r'.2) is).bind fun w =>
          .ok ((r.1 :: w.1.1, r'.1 :: w.1.2), w.2)

/-- One link of `build_link_cost_map`, `mcdta.cpp:869-972`.  (The rows are stored after they have been computed, and the
congestion marks are not modelled here.) -/
def buildOne (e : Env) (s : State) (l : ℤ) : Res State :=
  (s.link l).bind fun q =>
    (ttRows e.T q.cc (List.range e.T)).bind fun r =>
      (store (s.tt false) l r.1.1).bind fun t0 =>
        (store (s.cost false) l (r.1.1.map fun x => e.vot * e.unit * x + q.toll false)).bind fun c0 =>
          (store (s.tt true) l r.1.2).bind fun t1 =>
            (store (s.cost true) l (r.1.2.map fun x => e.vot * e.unit * x + q.toll true)).bind fun c1 =>
              .ok ⟨(s.set l { q with cc := r.2 }).net, fun b => byClass b t0 t1, fun b => byClass b c0 c1⟩

/-- `build_link_cost_map`, `mcdta.cpp:861-975`. -/
def build (e : Env) (s : State) : Res State := Res.foldlM (buildOne e) s e.ids

/-- `get_path_tt_car`, `get_path_tt_truck`, `mcdta.cpp:1621-1759`: first row travel times in seconds, second row costs. -/
def pathTt (e : Env) (b : Bool) (links starts : List ℤ) (s : State) : Res (Arr Val × State) :=
  if links.all fun l => (s.net l).isSome then
    (pathTtLoop (fun x : ℤ => checkStart (byClass b "get_path_tt_car" "get_path_tt_truck") e.T x) (s.tt b) (s.cost b) e.T
      e.unit links starts.length 0 starts fun _ => none).bind fun a => .ok (fun i => (a i).map some, s)
  else .throw "Error, MNM_Link_Factory::get_link, link does not exist"

/-- One entry of `get_registered_path_tt_car`, `get_registered_path_tt_truck`, `mcdta.cpp:1793-1799`. -/
def regOne (e : Env) (b : Bool) (start : ℤ) (p : List ℤ) (s : State) : Res (Val × State) :=
  (pathTime (s.tt b) e.T start p).bind fun x => .ok (some ((x * e.unit : ℚ) : WithTop ℚ), s)

/-- A call of a method of the Python interface. -/
inductive Ask where
  | linkTt (b inf : Bool) (starts : List ℚ)
  | robust (b inf : Bool) (trials : ℤ) (periods : List (ℚ × ℚ))
  | speed (b : Bool) (starts : List ℚ)
  | inflow (b : Bool) (periods : List (ℚ × ℚ))
  | avg (b : Bool) (links : List ℤ) (starts : List ℚ)
  | build
  | pathTt (b : Bool) (links starts : List ℤ)
  | regPathTt (b : Bool) (starts : List ℤ)

/-- What a call returns, and the state after it. -/
def answer (e : Env) : Ask → State → Res (Arr Val × State)
  | .linkTt b inf starts, s =>
    grid (checkStart (byClass b "get_car_link_tt" "get_truck_link_tt") e.T) (linkTtOne e b inf) starts e.reg s
  | .robust b inf trials periods, s =>
    grid (checkPeriod (byClass b "get_car_link_tt_robust" "get_truck_link_tt_robust") e.T)
      (robustOne e b inf trials) periods e.reg s
  | .speed b starts, s =>
    grid (checkStart (byClass b "get_car_link_speed" "get_truck_link_speed") e.T) (speedOne e b) starts e.reg s
  | .inflow b periods, s =>
    grid (checkPeriod (byClass b "get_link_car_inflow" "get_link_truck_inflow") e.T) (inflowOne b) periods e.reg s
  | .avg b links starts, s => avgLoop e b starts 0 links (fun _ => none) s
  | .build, s => (build e s).bind fun s => .ok (fun _ => none, s)
  | .pathTt b links starts, s => pathTt e b links starts s
  | .regPathTt b starts, s =>
    grid (fun x : ℤ => checkStart (byClass b "get_registered_path_tt_car" "get_registered_path_tt_truck") e.T x)
      (regOne e b) starts e.paths s

/-- A sequence of successful calls. -/
def session (e : Env) : List Ask → State → Res State
  | [], s => .ok s
  | q :: qs, s => (answer e q s).bind fun r => session e qs r.2

end Verif.MQuery
