import Verif.Model.Curve
import Verif.Model.ShortestPath
import Mathlib.Algebra.Order.Ring.WithTop

/-!
# Model of the queries of the Python interface after a loading

`macposts/_ext/dta.cpp` `build_link_cost_map`, `get_link_inflow`, `get_link_tt`, `get_path_tt`,
`get_registered_path_tt`; `src/dta_gradient_utls.cpp` `get_path_travel_time`, `get_path_travel_cost`.
The conversions of numpy arrays by pybind11 and the dimension checks are not modelled.
-/

namespace Verif.Query
open Curve Ults

/-- Heap arrays indexed by link, `m_link_tt_map` and the like: a missing link yields a null pointer. -/
abbrev Tabs := ℤ → Option (List ℚ)

/-- `map[link][i]`: dereferencing the null pointer that `operator[]` inserts for an unknown link, and reading
outside the array, are undefined. -/
def readAt (tab : Tabs) (l i : ℤ) : Res ℚ :=
  match tab l with
  | none => .ub
  | some xs =>
    if i < 0 then .ub
    else match xs[i.toNat]? with
      | none => .ub
      | some x => .ok x

/-- The index `_cur_time < end_loading_timestamp ? _cur_time : end_loading_timestamp - 1`,
`dta_gradient_utls.cpp:311-313`. -/
def slot (T cur : ℤ) : ℤ := if cur < T then cur else T - 1

/-- Addition of `int`. -/
def addInt (a b : ℤ) : Res ℤ := if a + b ≤ 2147483647 then .ok (a + b) else .ub

/-- The loop body of `dta_gradient_utls.cpp:308-314`. -/
def timeStep (tt : Tabs) (T : ℤ) (cur l : ℤ) : Res ℤ :=
  (readAt tt l (slot T cur)).bind fun x => (roundUpTime x Sp.prec).bind fun k => addInt cur k

/-- `dta_gradient_utls.cpp:298-317` `get_path_travel_time` from tables, for a departure at an integer time; the
path is not null. -/
def pathTime (tt : Tabs) (T start : ℤ) (links : List ℤ) : Res ℤ :=
  (Res.foldlM (timeStep tt T) start links).bind fun e => .ok (e - start)

/-- The loop body of `dta_gradient_utls.cpp:332-344`. -/
def costStep (tt cost : Tabs) (T : ℤ) (s : ℤ × ℚ) (l : ℤ) : Res (ℤ × ℚ) :=
  (readAt cost l (slot T s.1)).bind fun c => (timeStep tt T s.1 l).bind fun t => .ok (t, s.2 + c)

/-- `dta_gradient_utls.cpp:319-346` `get_path_travel_cost`. -/
def pathCost (tt cost : Tabs) (T start : ℤ) (links : List ℤ) : Res ℚ :=
  (Res.foldlM (costStep tt cost T) (start, 0) links).bind fun s => .ok s.2

/-- The loop body of `dta_gradient_utls.cpp:283-294`. -/
def ccStep (T : ℤ) (s : ℤ × (ℤ → Option LinkCc)) (l : ℤ) : Res (ℤ × (ℤ → Option LinkCc)) :=
  match s.2 l with
  | none => .throw "Error, MNM_Link_Factory::get_link, link does not exist"
  | some cc =>
    (getTravelTime cc (s.1 + 1 : ℤ) T).bind fun r => (roundUpTime r.1 Sp.prec).bind fun k =>
      (addInt s.1 k).bind fun t => .ok (t, fun l' => if l' = l then some r.2 else s.2 l')

/-- `dta_gradient_utls.cpp:267-296` `get_path_travel_time` from the curves of the links `net`, for a departure at an
integer time.  The links keep their last valid times. -/
def pathTimeCc (T : ℤ) (net : ℤ → Option LinkCc) (start : ℤ) (links : List ℤ) : Res (ℤ × (ℤ → Option LinkCc)) :=
  (Res.foldlM (ccStep T) (start, net) links).bind fun s => .ok (s.1 - start, s.2)

/-! ## Building the tables -/

/-- What the queries use of a link: `m_length`, `m_ffs`, `m_toll` and the curves. -/
structure QLink where
  cc : LinkCc
  length : ℚ
  ffs : ℚ
  toll : ℚ

/-- The travel times of one link, `_ext/dta.cpp:1033-1036`: `get_travel_time (link, i + 1)` for the listed `i`. -/
def ttRow (T : ℤ) : LinkCc → List ℕ → Res (List ℚ × LinkCc)
  | cc, [] => .ok ([], cc)
  | cc, i :: is =>
    (getTravelTime cc ((i : ℚ) + 1) T).bind fun r =>
      (ttRow T r.2 is).bind fun q => .ok (r.1 :: q.1, q.2)

/-- Writing `row` from index 0 on into the array of link `l`, which is allocated with exactly the needed size if it
does not exist and kept otherwise, `_ext/dta.cpp:1007-1015`; writing past its end is undefined. -/
def store (tab : Tabs) (l : ℤ) (row : List ℚ) : Res Tabs :=
  match tab l with
  | none => .ok fun l' => if l' = l then some row else tab l'
  | some xs =>
    if row.length ≤ xs.length then .ok fun l' => if l' = l then some (row ++ xs.drop row.length) else tab l'
    else .ub

/-- Tables and links during `build_link_cost_map`. -/
structure Built where
  tt : Tabs
  cost : Tabs
  net : ℤ → Option QLink

/-- One link of `_ext/dta.cpp:1003-1055`; `T` is `get_cur_loading_interval ()`, `vot` the value of time per
interval.  (The congestion marks are not modelled here.) -/
def buildOne (T : ℕ) (vot : ℚ) (s : Built) (l : ℤ) : Res Built :=
  match s.net l with
  | none => .ub      -- not reachable: the loop runs over the links of the factory
  | some q =>
    (ttRow T q.cc (List.range T)).bind fun r =>
      (store s.tt l r.1).bind fun tt =>
        (store s.cost l (r.1.map fun x => vot * x + q.toll)).bind fun cost =>
          .ok ⟨tt, cost, fun l' => if l' = l then some { q with cc := r.2 } else s.net l'⟩

/-- `_ext/dta.cpp:1003-1057` `build_link_cost_map` after the value of time has been read; `links` is the iteration
order of the link factory. -/
def build (T : ℕ) (vot : ℚ) (s : Built) (links : List ℤ) : Res Built := Res.foldlM (buildOne T vot) s links

/-- How the value of time is found, `_ext/dta.cpp:985-1001`: the routing type decides; `due` is the number in the
configuration (per hour), `hybrid` the one of the adaptive routing (per second). -/
def votOf (routing : String) (due hybrid unit : ℚ) : Res ℚ :=
  if routing = "Due" then .ok (due / 3600 * unit)
  else if routing = "Hybrid" then .ok (hybrid * unit)
  else .throw "unsupported routing type"

/-! ## Queries -/

/-- The result of a query: an array of the given numbers of rows and columns, stored row by row. -/
abbrev Arr (A : Type) := ℕ → Option A

/-- `result_ptr[i] = x`. -/
def write {A : Type} (a : Arr A) (i : ℕ) (x : A) : Arr A := fun j => if j = i then some x else a j

/-- The inner loop shared by the queries: over the registered links or paths, from number `i` on, for column `t` of
`l`; a query may change the state of a link. -/
def fillCol {Q A : Type} (f : Q → Res (A × Q)) (l t : ℕ) : ℕ → List Q → Arr A → Res (Arr A × List Q)
  | _, [], a => .ok (a, [])
  | i, q :: qs, a =>
    (f q).bind fun r =>
      (fillCol f l t (i + 1) qs (write a (i * l + t) r.1)).bind fun w => .ok (w.1, r.2 :: w.2)

/-- The outer loop shared by the queries: over the requested times, from column `t` on; each is checked before the
inner loop. -/
def fillLoop {S Q A : Type} (check : S → Res Unit) (f : S → Q → Res (A × Q)) (l : ℕ) :
    ℕ → List S → List Q → Arr A → Res (Arr A × List Q)
  | _, [], qs, a => .ok (a, qs)
  | t, s :: ss, qs, a =>
    (check s).bind fun _ => (fillCol (f s) l t 0 qs a).bind fun w => fillLoop check f l (t + 1) ss w.2 w.1

/-- The nested loops of `get_link_inflow`, `get_link_tt`, `get_link_tt_robust`, `get_registered_path_tt`. -/
def fill {S Q A : Type} (check : S → Res Unit) (f : S → Q → Res (A × Q)) (starts : List S) (qs : List Q) :
    Res (Arr A × List Q) := fillLoop check f starts.length 0 starts qs fun _ => none

/-- `TT_UPPER_BOUND`, `_ext/utils.h:17`. -/
def ttUpperBound : ℚ := 20

/-- Cutting off large travel times (in seconds), `_ext/dta.cpp:1761-1774`.  (A free-flow speed of zero is not
modelled.) -/
def capTt (q : QLink) (inf : Bool) (x : ℚ) : WithTop ℚ :=
  let b := ttUpperBound * q.length / q.ffs
  if x > b then (if inf then ⊤ else ((b : ℚ) : WithTop ℚ)) else ((x : ℚ) : WithTop ℚ)

/-- The check of a start, `_ext/dta.cpp:1742-1747` (the text names the function). -/
def checkStart (name : String) (T s : ℤ) : Res Unit :=
  if s ≥ T then
    .throw ("Error, Dta::" ++ name ++ ", input start intervals exceeds the total loading intervals - 1")
  else .ok ()

/-- The checks of a period, `_ext/dta.cpp:1654-1671`. -/
def checkPeriod (name : String) (T : ℤ) (p : ℚ × ℚ) : Res Unit :=
  if p.2 ≤ p.1 then .throw ("Error, Dta::" ++ name ++ ", end time is smaller than or equal to start time")
  else if p.1 ≥ T then
    .throw ("Error, Dta::" ++ name ++ ", input start intervals exceeds the total loading intervals - 1")
  else if p.2 > T then
    .throw ("Error, Dta::" ++ name ++ ", input end intervals exceeds the total loading intervals")
  else .ok ()

/-- One entry of `get_link_tt`, `_ext/dta.cpp:1750-1775`. -/
def linkTtOne (T : ℤ) (unit : ℚ) (inf : Bool) (s : ℤ) (q : QLink) : Res (WithTop ℚ × QLink) :=
  (getTravelTime q.cc (s + 1 : ℤ) T).bind fun r => .ok (capTt q inf (r.1 * unit), { q with cc := r.2 })

/-- `_ext/dta.cpp:1725-1779` `get_link_tt` for the registered links. -/
def getLinkTt (T : ℤ) (unit : ℚ) (inf : Bool) (starts : List ℤ) (links : List QLink) : Res (Arr (WithTop ℚ) × List QLink) :=
  fill (checkStart "get_link_tt" T) (linkTtOne T unit inf) starts links

/-- One entry of `get_link_tt_robust`, `_ext/dta.cpp:1825-1848`; `none` is a result that is not a number, which no bound
cuts off. -/
def robustOne (T : ℤ) (unit : ℚ) (trials : ℤ) (inf : Bool) (p : ℚ × ℚ) (q : QLink) :
    Res (Option (WithTop ℚ) × QLink) :=
  (travelTimeRobust q.cc (p.1 + 1) (p.2 + 1) T trials).bind fun r =>
    .ok (r.1.map fun x => capTt q inf (x * unit), { q with cc := r.2 })

/-- `_ext/dta.cpp:1782-1852` `get_link_tt_robust` for arrays of starts and ends of the same length, given as pairs. -/
def getLinkTtRobust (T : ℤ) (unit : ℚ) (trials : ℤ) (inf : Bool) (periods : List (ℚ × ℚ)) (links : List QLink) :
    Res (Arr (Option (WithTop ℚ)) × List QLink) :=
  fill (checkPeriod "get_link_tt_robust" T) (robustOne T unit trials inf) periods links

/-- One entry of `get_link_inflow`, `_ext/dta.cpp:1676-1679`. -/
def inflowOne (p : ℚ × ℚ) (c : Curve) : Res (WithTop ℚ × Curve) :=
  (flowBetween c p.1 p.2).bind fun x => .ok (((x : ℚ) : WithTop ℚ), c)

/-- `_ext/dta.cpp:1629-1686` `get_link_inflow` for arrays of starts and ends of the same length, given as pairs, and
the arrival curves of the registered links. -/
def getLinkInflow (T : ℤ) (periods : List (ℚ × ℚ)) (links : List Curve) : Res (Arr (WithTop ℚ) × List Curve) :=
  fill (checkPeriod "get_link_inflow" T) inflowOne periods links

/-- One entry of `get_registered_path_tt`, `_ext/dta.cpp:1886-1890`. -/
def regOne (tt : Tabs) (T : ℤ) (unit : ℚ) (s : ℤ) (p : List ℤ) : Res (WithTop ℚ × List ℤ) :=
  (pathTime tt T s p).bind fun x => .ok (((x * unit : ℚ) : WithTop ℚ), p)

/-- `_ext/dta.cpp:1854-1894` `get_registered_path_tt`; the paths are given by their links. -/
def getRegisteredPathTt (tt : Tabs) (T : ℤ) (unit : ℚ) (starts : List ℤ) (paths : List (List ℤ)) :
    Res (Arr (WithTop ℚ) × List (List ℤ)) :=
  fill (checkStart "get_registered_path_tt" T) (regOne tt T unit) starts paths

/-- The loop of `get_path_tt` over the starts, `_ext/dta.cpp:1925-1954`; `num` is their number, `check` the test of a
start. -/
def pathTtLoop (check : ℤ → Res Unit) (tt cost : Tabs) (T : ℤ) (unit : ℚ) (links : List ℤ) (num : ℕ) : ℕ → List ℤ → Arr (WithTop ℚ) → Res (Arr (WithTop ℚ))
  | _, [], a => .ok a
  | t, s :: ss, a =>
    (check s).bind fun _ =>
      (pathTime tt T s links).bind fun x => (pathCost tt cost T s links).bind fun c =>
        pathTtLoop check tt cost T unit links num (t + 1) ss
          (write (write a t ((x * unit : ℚ) : WithTop ℚ)) (t + num) ((c : ℚ) : WithTop ℚ))

/-- `_ext/dta.cpp:1896-1957` `get_path_tt`: first row travel times in seconds, second row costs.  `known` is membership
in the link factory. -/
def getPathTt (known : ℤ → Bool) (tt cost : Tabs) (T : ℤ) (unit : ℚ) (links starts : List ℤ) :
    Res (Arr (WithTop ℚ)) :=
  if links.all known then
    pathTtLoop (checkStart "get_path_tt" T) tt cost T unit links starts.length 0 starts fun _ => none
  else .throw "Error, MNM_Link_Factory::get_link, link does not exist"

/-! ## Trees of cheapest paths -/

/-- The arrays of costs as `update_tree` reads them (inside their bounds). -/
def asCost (tab : Tabs) : ℤ → Option (ℕ → Sp.Cost) := fun l => (tab l).map fun xs t => ((xs.getD t 0 : ℚ) : WithTop ℚ)

/-- The arrays of travel times as `update_tree` and `get_tdsp` read them (inside their bounds). -/
def asTime (tab : Tabs) : ℤ → Option (ℕ → ℚ) := fun l => (tab l).map fun xs t => xs.getD t 0

/-- `_ext/mcdta.cpp:1282-1314` `update_tdsp_tree` for one destination: `M` is `assign_frq * max_interval`, whatever the
length of the tables. -/
def tdspTree (fuel : ℕ) (links : List ℤ) (M : ℕ) (g : Graph.G) (dest : ℤ) (tt cost : Tabs) : Res Sp.Tree :=
  Sp.updateTree fuel links M g dest (asCost cost) (asTime tt)

/-- `_ext/mcdta.cpp:1355-1361` the path of `get_lowest_cost_path` for a departure at `start`, before cycles are
removed. -/
def lowestCostPath (fuel M : ℕ) (g : Graph.G) (dest : ℤ) (s : Sp.Tree) (tt : Tabs) (orig start : ℤ) :
    Res (List ℤ × List ℤ × Option ℚ) := Sp.getTdsp fuel M g dest s (asTime tt) orig start

end Verif.Query
