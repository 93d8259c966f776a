import Verif.Model.Ults

/-!
# Model of `MNM_Cumulative_Curve` (`src/dlink.cpp:943-1308`)

`m_recorder` is a list of (time, count), front first.  Indexing outside the deque is
undefined behaviour.
-/

namespace Verif.Curve
open Ults

/-- `dlink.h:26` `m_recorder`. -/
abbrev Curve := List (ℚ × ℚ)

/-- Default tolerance of the approximate comparisons, `ults.h:23-24`. -/
def tol : ℚ := 1 / 10000

/-- `dlink.cpp:998-1003` `add_record`. -/
def addRecord (c : Curve) (r : ℚ × ℚ) : Curve := c ++ [r]

/-- `dlink.cpp:1019-1050` `add_increment`. -/
def addIncrement (c : Curve) (r : ℚ × ℚ) : Res Curve :=
  match c.getLast? with
  | none => .ok (addRecord c r)
  | some best =>
    if approxLt r.1 best.1 tol then .throw "early time index"
    else if approxEq r.1 best.1 tol then .ok (c.dropLast ++ [(best.1, best.2 + r.2)])
    else .ok (c ++ [(r.1, r.2 + best.2)])

/-- The curve after `install_cumulative_curve` (`dlink.cpp:64-80`). -/
def install : Curve := addRecord [] (0, 0)

/-- A call whose exception is caught: the recorder keeps its value. -/
def step (c : Curve) (r : ℚ × ℚ) : Curve := (addIncrement c r).stateOr c

/-- `std::lower_bound` with comparison `pred`: the partition point; on a range that is not
partitioned by `pred` the precondition of the library function is violated (undefined). -/
def lowerBound {α : Type} (pred : α → Bool) (l : List α) : Res ℕ :=
  if (l.dropWhile pred).all (fun x => !pred x) then .ok (l.takeWhile pred).length else .ub

/-- `m_recorder[i]`. -/
def at' (c : Curve) (i : ℕ) : Res (ℚ × ℚ) :=
  match c[i]? with
  | some r => .ok r
  | none => .ub

/-- `m_recorder.back ()` (undefined on an empty deque). -/
def back (c : Curve) : Res (ℚ × ℚ) :=
  match c.getLast? with
  | some r => .ok r
  | none => .ub

/-- `dlink.cpp:1081-1149` `get_result`. -/
def getResult (c : Curve) (t : ℚ) : Res ℚ :=
  match c with
  | [] => .ok 0
  | [r] => .ok r.2
  | r0 :: _ =>
    if r0.1 ≥ t then .ok r0.2
    else
      (lowerBound (fun r => approxLt r.1 t tol) c).bind fun j =>
        if j ≠ c.length then
          (at' c j).bind fun rj =>
            if approxEq rj.1 t tol then .ok rj.2
            else if rj.1 > t then
              (if j = 0 then .ub else (at' c (j - 1)).bind fun r => .ok r.2)
            else (back c).bind fun r => .ok r.2
        else (back c).bind fun r => .ok r.2

/-- The scan of `dlink.cpp:1068-1078`: `prev` is record `i - 1`. -/
def approxScan (t : ℚ) (prev : ℚ × ℚ) : Curve → Option ℚ
  | [] => some prev.2
  | r :: rest =>
    if r.1 ≥ t then
      (if r.1 - prev.1 = 0 then none
       else some (prev.2 + (r.2 - prev.2) / (r.1 - prev.1) * (t - prev.1)))
    else approxScan t r rest

/-- `dlink.cpp:1052-1079` `get_approximated_result`; `none` is a result that is not a finite
number (division by zero). -/
def getApproximatedResult (c : Curve) (t : ℚ) : Option ℚ :=
  match c with
  | [] => some 0
  | [r] => some r.2
  | r0 :: rest => if r0.1 ≥ t then some r0.2 else approxScan t r0 rest

/-- `dlink.cpp:1207-1294` `get_time`. -/
def getTime (c : Curve) (result : ℚ) (roundingUp : Bool) : Res ℚ :=
  match c with
  | [] => .ok (-1)
  | r0 :: rest =>
    if r0.2 ≥ result then .ok (-1)
    else if rest = [] then .ok (-1)
    else
      (lowerBound (fun r => approxLt r.2 result tol) c).bind fun j =>
        if roundingUp then (at' c j).bind fun r => .ok r.1
        else if j ≠ c.length then
          (at' c j).bind fun rj =>
            if approxEq rj.2 result tol then .ok rj.1
            else if rj.2 > result then
              (if j = 0 then .ub
               else (at' c (j - 1)).bind fun rp =>
                (lowerBound (fun r => approxLt r.2 rp.2 tol) (c.take j)).bind fun i =>
                  (at' c i).bind fun ri => .ok ri.1)
            else .ok (-1)
        else .ok (-1)

/-- `dlink.cpp:984-989` `arrange` (`std::sort` on the time; the order of equal times, which
the standard leaves open, is modelled as stable). -/
def arrange (c : Curve) : Curve := c.mergeSort (fun a b => decide (a.1 ≤ b.1))

/-- `dlink.cpp:1005-1017` `shrink`; popping from an empty deque (negative `number`) is
undefined. -/
def shrink (c : Curve) (number : ℤ) : Res Curve :=
  if (c.length : ℤ) > number then
    if number < 0 then .ub else .ok ((arrange c).take number.toNat)
  else .ok c

/-- `dta_gradient_utls.cpp:24-54` `get_link_inflow` / `get_link_outflow` on an installed
curve. -/
def flowBetween (c : Curve) (start stop : ℚ) : Res ℚ :=
  (getResult c stop).bind fun b => (getResult c start).bind fun a => .ok (b - a)

/-- The search loop of `dta_gradient_utls.cpp:89-101`: `i` runs over the listed offsets. -/
def lastValidScan (nIn : Curve) (cc t0 : ℚ) : List ℕ → Res ℚ
  | [] => .throw "cannot find last valid time in N_in"
  | i :: is =>
    (getResult nIn (t0 + i)).bind fun v =>
      if approxLt cc v tol then .ok (t0 + i - 1) else lastValidScan nIn cc t0 is

/-- `dta_gradient_utls.cpp:56-105` `get_last_valid_time`. -/
def getLastValidTime (nIn nOut : Curve) (endTs : ℤ) : Res ℚ :=
  (back nIn).bind fun bi => (back nOut).bind fun bo =>
    if approxLt bi.2 bo.2 tol && !approxEq bi.2 bo.2 tol then
      .throw "invalid state of cumulative curve"
    else if approxEq bo.2 bi.2 tol then .ok endTs
    else
      (getTime nIn bo.2 false).bind fun t0 =>
        if t0 < 0 then .ok 0
        else
          (toInt t0).bind fun k =>
            if k + 1 ≤ endTs then
              lastValidScan nIn bo.2 t0 ((List.range (endTs - k).toNat).map (· + 1))
            else .throw "cannot find last valid time in N_in"

/-- `DBL_EPSILON` = 2⁻⁵². -/
def dblEps : ℚ := 1 / 4503599627370496

/-- `dta_gradient_utls.cpp:166-201` `get_travel_time_from_cc`. -/
def travelTimeFromCc (start : ℚ) (nIn nOut : Curve) (lastValid fftt : ℚ) (roundingUp : Bool) :
    Res ℚ :=
  if lastValid ≤ 0 then .ok fftt
  else
    let start := if start > lastValid then lastValid else start
    (getResult nIn start).bind fun cc =>
      if cc ≤ dblEps then .ok fftt
      else
        (getTime nOut cc roundingUp).bind fun e =>
          if e < 0 ∨ e - start < 0 ∨ e - start < fftt then .ok fftt
          else .ok (e - start)

/-- The per-link state read by `get_travel_time`. -/
structure LinkCc where
  nIn : Curve
  nOut : Curve
  lastValid : ℚ        -- `m_last_valid_time`, -1 until computed
  fftt : ℚ             -- `TFlt (int (get_link_freeflow_tt_loading ()))`

/-- `dta_gradient_utls.cpp:214-244` `get_travel_time` on an existing link with installed
curves; returns the value and the link with the cached `m_last_valid_time`. -/
def getTravelTime (l : LinkCc) (start : ℚ) (endTs : ℤ) : Res (ℚ × LinkCc) :=
  let lv : Res ℚ := if l.lastValid < 0 then getLastValidTime l.nIn l.nOut endTs else .ok l.lastValid
  lv.bind fun lv =>
    (travelTimeFromCc start l.nIn l.nOut lv l.fftt false).bind fun r =>
      .ok (r, { l with lastValid := lv })

/-- Sum of `get_travel_time` over the listed trial indices (`dta_gradient_utls.cpp:259-263`). -/
def robustSum (l : LinkCc) (start delta : ℚ) (endTs : ℤ) : List ℕ → Res (ℚ × LinkCc)
  | [] => .ok (0, l)
  | i :: is =>
    (getTravelTime l (start + i * delta) endTs).bind fun p =>
      (robustSum p.2 start delta endTs is).bind fun q => .ok (p.1 + q.1, q.2)

/-- `dta_gradient_utls.cpp:246-265` `get_travel_time_robust`; `none` is a result that is not a
number (`0 / 0` when there are no trials). -/
def travelTimeRobust (l : LinkCc) (start stop : ℚ) (endTs numTrials : ℤ) : Res (Option ℚ × LinkCc) :=
  (toInt (stop - start)).bind fun d =>
    let n := if numTrials > d then d else numTrials
    if n = 0 then .ok (none, l)
    else
      (robustSum l start ((stop - start) / n) endTs (List.range n.toNat)).bind fun s =>
        .ok (some (s.1 / n), s.2)

end Verif.Curve
