import Verif.Model.Transit

/-!
# Model of the queries about passengers underway and about queues, `macposts/_ext/mmdta.cpp:6700-6846`

The totals are those that `Verif.Model.Transit` records.  An array that Python hands over is a list of 32-bit
integers; `get_queue_veh_each_link` and `get_queue_passenger_each_link` read its memory as 64-bit floating point
numbers.
-/

namespace Verif.MmStats
open Tr

/-- Row by row, first row first; a missing entry is an index out of bounds. -/
def rows (scalar : ℚ) (e : List ℤ) (q : List ℕ) : List ℕ → Res (List (ℚ × ℚ × ℚ))
  | [] => .ok []
  | i :: is =>
    match e[i]?, q[i]? with
    | some x, some y => (rows scalar e q is).bind fun r => .ok ((x / scalar, y / scalar, ((x - y : ℤ) : ℚ) / scalar) :: r)
    | _, _ => .ub

/-- `mmdta.cpp:6700-6744` `get_enroute_and_queue_passenger_stats_agg`; `now` is `get_cur_loading_interval ()`.  The
second test repeats the first. -/
def passengerStats (c : Cfg) (now : ℕ) (s : State) : Res (List (ℚ × ℚ × ℚ)) :=
  if s.enrouteNum.length ≠ now then .throw "enroute passenger missed for some intervals"
  else if s.enrouteNum.length ≠ now then .throw "queuing passenger missed for some intervals"
  else rows c.scalar s.enrouteNum s.queueNum (List.range now)

/-- The `t`-th number of the memory of an array of integers, read as numbers of twice the size: `decode` is what two
neighbouring integers mean then.  Beyond the array the read is undefined. -/
def readDouble (decode : ℤ → ℤ → ℚ) (a : List ℤ) (t : ℕ) : Res ℚ :=
  match a[2 * t]?, a[2 * t + 1]? with
  | some x, some y => .ok (decode x y)
  | _, _ => .ub

/-- One column of the result, `mmdta.cpp:6778-6791`, `6828-6844`: `record` is what is on record for a link. -/
def column (decode : ℤ → ℤ → ℚ) (scalar : ℚ) (record : ℤ → Option (List ℕ)) (links : List ℤ) (x : ℚ) :
    List ℕ → Res (List ℚ)
  | [] => .ok []
  | i :: is =>
    (readDouble decode links i).bind fun l =>
      match record (Ults.trunc l) with
      | none => .throw "can't find link ID"
      | some q =>
        if Ults.trunc x < 0 then .ub
        else
          match q[(Ults.trunc x).toNat]? with
          | none => .ub
          | some n => (column decode scalar record links x is).bind fun r => .ok ((n / scalar : ℚ) :: r)

/-- All columns. -/
def columns (decode : ℤ → ℤ → ℚ) (scalar : ℚ) (record : ℤ → Option (List ℕ)) (now : ℕ) (links intervals : List ℤ) :
    List ℕ → Res (List (List ℚ))
  | [] => .ok []
  | t :: ts =>
    (readDouble decode intervals t).bind fun x =>
      if x ≥ now then .throw "input intervals exceeds the total loading intervals - 1"
      else
        (column decode scalar record links x (List.range links.length)).bind fun col =>
          (columns decode scalar record now links intervals ts).bind fun r => .ok (col :: r)

/-- `mmdta.cpp:6746-6794` `get_queue_veh_each_link` and `6796-6846` `get_queue_passenger_each_link`: the columns of
the result. -/
def queueEach (decode : ℤ → ℤ → ℚ) (scalar : ℚ) (record : ℤ → Option (List ℕ)) (now : ℕ) (links intervals : List ℤ) :
    Res (List (List ℚ)) :=
  columns decode scalar record now links intervals (List.range intervals.length)

end Verif.MmStats
