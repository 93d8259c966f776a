import Verif.Model.Curve

/-!
# Model of the travel times of bus and walking links

`src/dta_gradient_utls.cpp` `get_last_valid_time_bus`; `src/multimodal.cpp` `get_bus_waiting_time`,
`get_travel_time_walking`, `get_travel_time_bus`, `get_travel_time_bus_robust`;
`macposts/_ext/mmdta.cpp`
`get_bus_link_tt`, `get_bus_link_tt_robust`, `get_passenger_walking_link_tt`.  Infinity is `⊤`.  The pointers to stops
and links are not null and their curves are installed (the exceptions thrown otherwise are not modelled).  Conversions
of numpy arrays and dimension checks are not modelled, and a table is given by its columns.
-/

namespace Verif.MmQ
open Curve Ults

/-- A virtual bus stop: `m_N_in_bus`, `m_N_out_bus`, `m_last_valid_time` (`multimodal.h`), -1 until computed. -/
structure Stop where
  nIn : Curve
  nOut : Curve
  last : ℚ

/-- A driving link that is followed by a bus link, with `m_overlapped_driving_link_length_portion_vec`: the curves of
trucks (`get_travel_time_truck`, `multiclass.cpp:4846-4876`). -/
structure Part where
  link : ℤ
  portion : ℚ

/-- A bus link: `m_from_busstop`, `m_to_busstop` (by their numbers), `m_last_valid_time_bus`, `m_last_valid_time`,
`m_overlapped_driving_link_vec`. -/
structure BusLink where
  src : ℤ
  dst : ℤ
  lastBus : ℚ
  last : ℚ
  parts : List Part

/-- What the queries may change: stops, bus links, driving links (curves of trucks) and walking links. -/
structure State where
  stop : ℤ → Stop
  bus : ℤ → BusLink
  drive : ℤ → LinkCc
  walk : ℤ → LinkCc

/-- What does not change: the number of intervals loaded, the length of an interval in seconds, `m_explicit_bus`,
`m_historical_waiting_time` of the stops, the registered bus links and walking links. -/
structure Env where
  T : ℕ
  unit : ℚ
  explicitBus : Bool
  histWait : ℤ → ℚ
  regBus : List ℤ
  regWalk : List ℤ

/-- `int (round (x))`, `round` of the C library: half away from zero. -/
def cround (x : ℚ) : ℤ := if 0 ≤ x then ⌊x + 1 / 2⌋ else ⌈x - 1 / 2⌉

/-- `dta_gradient_utls.cpp:107-163` `get_last_valid_time_bus`. -/
def lastValidBus (nIn nOut : Curve) : Res ℚ :=
  (back nIn).bind fun bi => (back nOut).bind fun bo =>
    if approxLt bi.2 bo.2 tol && !approxEq bi.2 bo.2 tol then .throw "invalid state of cumulative curve"
    else
      (getTime nIn bo.2 false).bind fun lv => (getResult nIn lv).bind fun cc =>
        (toInt cc).bind fun fl =>
          if fl = 0 ∧ approxEq cc 1 tol = false then .ok 0
          else if approxEq cc fl tol then .ok lv
          else if approxEq cc ((fl : ℚ) + 1) tol then .ok lv
          else
            (getTime nIn fl false).bind fun lv2 => (getResult nIn lv2).bind fun f2 =>
              if approxEq f2 fl tol then .ok lv2 else .ok lv

/-- The value for "no bus": `return_inf ? infinity : 2 * end_loading_timestamp`. -/
def never (T : ℕ) (inf : Bool) : WithTop ℚ := if inf then ⊤ else ((2 * T : ℚ) : WithTop ℚ)

/-- The loops of `get_bus_waiting_time`, `multimodal.cpp:10867-10878`, `10898-10912` and `10926-10936`: the first of the
listed numbers of intervals after which the count reaches `level` and is more than `cc`. -/
def waitScan (nIn : Curve) (time : ℤ) (level cc : ℚ) (none : WithTop ℚ) : List ℕ → Res (WithTop ℚ)
  | [] => .ok none
  | i :: is =>
    (getResult nIn ((time : ℚ) + i)).bind fun c2 =>
      if approxLt c2 level tol = false ∧ approxLt cc c2 tol then .ok ((i : ℚ) : WithTop ℚ)
      else waitScan nIn time level cc none is

/-- `multimodal.cpp:10824-10942` `get_bus_waiting_time`: the waiting time in intervals, and the stop with the last valid
time. -/
def waiting (T : ℕ) (inf : Bool) (s : Stop) (start : ℚ) : Res (WithTop ℚ × Stop) :=
  (back s.nIn).bind fun bi =>
    if s.nIn.length = 1 ∨ approxEq bi.2 0 tol then .ok (never T inf, s)
    else
      (if s.last < 0 then lastValidBus s.nIn s.nOut else .ok s.last).bind fun lv =>
        let s : Stop := { s with last := lv }
        if approxEq lv 0 tol then .ok (never T inf, s)
        else
          let time := cround start
          if (time : ℚ) + 1 > lv then .ok (never T inf, s)
          else
            (toInt lv).bind fun k =>
              let steps := (List.range (k - time).toNat).map (· + 1)
              (getResult s.nIn time).bind fun ccIn => (getResult s.nOut time).bind fun ccOut =>
                (toInt ccIn).bind fun fl =>
                  let ceil : ℚ := (fl : ℚ) + 1
                  if fl = 0 ∧ approxEq ccIn 1 tol = false then
                    (waitScan s.nIn time 1 ccIn (never T inf) steps).bind fun w => .ok (w, s)
                  else if approxLt ccOut ccIn tol then
                    if approxEq ccIn fl tol then .ok (0, s)
                    else if approxEq ccIn ceil tol then .ok (0, s)
                    else
                      (getTime s.nIn fl false).bind fun tmp => (getResult s.nIn tmp).bind fun flow =>
                        if approxEq flow fl tol then
                          (waitScan s.nIn time ceil ccIn (never T inf) steps).bind fun w => .ok (w, s)
                        else .ok (0, s)
                  else if approxEq ccOut ccIn tol then
                    let level := if approxEq ccIn ceil tol then ceil + 1 else ceil
                    (waitScan s.nIn time level ccIn (never T inf) steps).bind fun w => .ok (w, s)
                  else .throw "Error, get_bus_waiting_time out cc larger than in cc"

/-- The ride on a bus that is driven explicitly, `multimodal.cpp:11041-11099`: from interval `x` (the start and the
finite waiting time) on; `wait` is the waiting time. -/
def ride (T : ℕ) (inf busTime : Bool) (nFrom nTo : Curve) (q : BusLink) (start wait : ℚ) :
    Res (WithTop ℚ × BusLink) :=
  (if q.lastBus < 0 then lastValidBus nFrom nTo else .ok q.lastBus).bind fun lv =>
    let q : BusLink := { q with lastBus := lv, last := if q.last < 0 then lv else q.last }
    if start + wait > lv then .ok (never T inf, q)
    else
      (getResult nFrom (start + wait)).bind fun cc =>
        if cc ≤ dblEps then .throw "Error, get_travel_time_bus no bus, check get_bus_waiting_time"
        else
          (travelTimeFromCc (start + wait) nFrom nTo lv (-1) true).bind fun b =>
            if b < 0 then .throw "Error, get_travel_time_bus no bus, check get_bus_waiting_time"
            else if busTime then .ok (if wait = 0 then ((b : ℚ) : WithTop ℚ) else ((-1 : ℚ) : WithTop ℚ), q)
            else .ok (((wait + b : ℚ) : WithTop ℚ), q)

/-- The state after the stop `i` has been replaced. -/
def State.setStop (s : State) (i : ℤ) (x : Stop) : State :=
  { s with stop := fun j => if j = i then x else s.stop j }

/-- The state after the bus link `i` has been replaced. -/
def State.setBus (s : State) (i : ℤ) (x : BusLink) : State :=
  { s with bus := fun j => if j = i then x else s.bus j }

/-- The state after the driving link `i` has been replaced. -/
def State.setDrive (s : State) (i : ℤ) (x : LinkCc) : State :=
  { s with drive := fun j => if j = i then x else s.drive j }

/-- The state after the walking link `i` has been replaced. -/
def State.setWalk (s : State) (i : ℤ) (x : LinkCc) : State :=
  { s with walk := fun j => if j = i then x else s.walk j }

/-- The loop over the driving links of a bus link when buses are not driven explicitly, `multimodal.cpp:11014-11022`:
`t` is the time reached. -/
def along (T : ℕ) : List Part → ℚ → State → Res (ℚ × State)
  | [], t, s => .ok (t, s)
  | p :: ps, t, s =>
    (getTravelTime (s.drive p.link) t T).bind fun r =>
      along T ps (t + r.1 * p.portion) (s.setDrive p.link r.2)

/-- `multimodal.cpp:10992-11080` `get_travel_time_bus`. -/
def busTt (e : Env) (inf busTime : Bool) (l : ℤ) (start : ℚ) (s : State) : Res (WithTop ℚ × State) :=
  let q := s.bus l
  if e.explicitBus then
    (waiting e.T inf (s.stop q.src) start).bind fun w =>
      let s := s.setStop q.src w.2
      match w.1 with
      | ⊤ => .ok (never e.T inf, s)
      | (x : ℚ) =>
        (ride e.T inf busTime (s.stop q.src).nIn (s.stop q.dst).nIn q start x).bind fun r =>
          .ok (r.1, s.setBus l r.2)
  else
    (along e.T q.parts (if busTime then start else start + e.histWait q.src) s).bind fun r =>
      .ok (((r.1 - start : ℚ) : WithTop ℚ), r.2)

/-- `multimodal.cpp:10943-10973` `get_travel_time_walking`: `LinkCc.fftt` is the free-flow time in intervals and the
historical bus waiting time. -/
def walkTt (T : ℕ) (l : ℤ) (start : ℚ) (s : State) : Res (ℚ × State) :=
  (getTravelTime (s.walk l) start T).bind fun r => .ok (r.1, s.setWalk l r.2)

/-- The sum over the trials of `get_travel_time_bus_robust`, `multimodal.cpp:11094-11111` (when `busTime`: only
intervals in which a bus stands at the stop count, if buses are driven explicitly) and `11130-11140`: the sum and the
number of terms. -/
def robustBusSum (e : Env) (inf busTime : Bool) (l : ℤ) (start delta : ℚ) :
    List ℕ → WithTop ℚ → ℕ → State → Res ((WithTop ℚ × ℕ) × State)
  | [], acc, n, s => .ok ((acc, n), s)
  | i :: is, acc, n, s =>
    (busTt e inf busTime l (start + i * delta) s).bind fun r =>
      if busTime && e.explicitBus then
        (if r.1 ≠ ⊤ ∧ 0 < r.1 then robustBusSum e inf busTime l start delta is (acc + r.1) (n + 1) r.2
         else robustBusSum e inf busTime l start delta is acc n r.2)
      else robustBusSum e inf busTime l start delta is (acc + r.1) (n + 1) r.2

/-- Division of a result by a number of trials. -/
def divN (x : WithTop ℚ) (n : ℕ) : WithTop ℚ := x.map fun q => q / n

/-- `multimodal.cpp:11082-11145` `get_travel_time_bus_robust`; `none` is a result that is not a number. -/
def busTtRobust (e : Env) (trials : ℤ) (inf busTime : Bool) (l : ℤ) (p : ℚ × ℚ) (s : State) :
    Res (Option (WithTop ℚ) × State) :=
  (toInt (p.2 - p.1)).bind fun d =>
    let n := if busTime then d else if trials > d then d else trials
    if n = 0 then .ok (if busTime && e.explicitBus then some ⊤ else none, s)
    else
      (robustBusSum e (busTime || inf) busTime l p.1 ((p.2 - p.1) / n) (List.range n.toNat) 0 0 s).bind fun r =>
        if busTime && e.explicitBus then
          .ok (some (if 0 < r.1.2 then divN r.1.1 r.1.2 else ⊤), r.2)
        else .ok (some (divN r.1.1 n.toNat), r.2)

/-- The product with the length of an interval. -/
def scale (u : ℚ) (x : WithTop ℚ) : WithTop ℚ := x.map fun q => q * u

/-- The loop over links for one time. -/
def column {A : Type} (f : ℤ → State → Res (A × State)) : List ℤ → State → Res (List A × State)
  | [], s => .ok ([], s)
  | l :: ls, s => (f l s).bind fun r => (column f ls r.2).bind fun w => .ok (r.1 :: w.1, w.2)

/-- The loop over times: the table by columns. -/
def columns {S A : Type} (check : S → Res Unit) (f : S → ℤ → State → Res (A × State)) (ls : List ℤ) :
    List S → State → Res (List (List A) × State)
  | [], s => .ok ([], s)
  | x :: xs, s =>
    (check x).bind fun _ => (column (f x) ls s).bind fun c =>
      (columns check f ls xs c.2).bind fun w => .ok (c.1 :: w.1, w.2)

/-- The check of a start, `mmdta.cpp:5302-5307`. -/
def checkStart (T : ℕ) (x : ℚ) : Res Unit :=
  if x ≥ T then .throw "input start intervals exceeds the total loading intervals - 1" else .ok ()

/-- The checks of a period, `mmdta.cpp:5356-5373`. -/
def checkPeriod (T : ℕ) (p : ℚ × ℚ) : Res Unit :=
  if p.2 ≤ p.1 then .throw "end time is smaller than or equal to start time"
  else if p.1 ≥ T then .throw "input start intervals exceeds the total loading intervals - 1"
  else if p.2 > T then .throw "input end intervals exceeds the total loading intervals"
  else .ok ()

/-- One entry of `get_bus_link_tt`, `mmdta.cpp:5310-5324`. -/
def busOne (e : Env) (inf busTime : Bool) (start : ℚ) (l : ℤ) (s : State) : Res (Option (WithTop ℚ) × State) :=
  (busTt e inf busTime l (start + 1) s).bind fun r => .ok (some (scale e.unit r.1), r.2)

/-- One entry of `get_bus_link_tt_robust`, `mmdta.cpp:5376-5395`. -/
def robustOne (e : Env) (trials : ℤ) (inf busTime : Bool) (p : ℚ × ℚ) (l : ℤ) (s : State) :
    Res (Option (WithTop ℚ) × State) :=
  (busTtRobust e trials inf busTime l (p.1 + 1, p.2 + 1) s).bind fun r => .ok (r.1.map (scale e.unit), r.2)

/-- One entry of `get_passenger_walking_link_tt`, `mmdta.cpp:5426-5433`. -/
def walkOne (e : Env) (start : ℚ) (l : ℤ) (s : State) : Res (Option (WithTop ℚ) × State) :=
  (walkTt e.T l (start + 1) s).bind fun r => .ok (some ((r.1 * e.unit : ℚ) : WithTop ℚ), r.2)

/-- A call of a method of the Python interface. -/
inductive Ask where
  | bus (inf busTime : Bool) (starts : List ℚ)
  | robust (trials : ℤ) (inf busTime : Bool) (periods : List (ℚ × ℚ))
  | walk (starts : List ℚ)

/-- What a call returns, by columns, and the state after it. -/
def answer (e : Env) : Ask → State → Res (List (List (Option (WithTop ℚ))) × State)
  | .bus inf busTime starts, s => columns (checkStart e.T) (busOne e inf busTime) e.regBus starts s
  | .robust trials inf busTime periods, s =>
    columns (checkPeriod e.T) (robustOne e trials inf busTime) e.regBus periods s
  | .walk starts, s => columns (checkStart e.T) (walkOne e) e.regWalk starts s

/-- Several calls, one after the other. -/
def session (e : Env) : List Ask → State → Res State
  | [], s => .ok s
  | a :: as, s => (answer e a s).bind fun r => session e as r.2

end Verif.MmQ
