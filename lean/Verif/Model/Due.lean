import Verif.Basic
import Verif.Model.ShortestPath

/-!
# Model of `src/due.cpp`: path flows of the user-equilibrium iterations

A path of a path set is its link list, the buffer with the flow per assignment interval, and the
disutility per departure interval (`m_travel_disutility_vec`).  Buffers have `m_total_assign_inter = T`
entries; a column is a number below `T`.  The square root of the step rule is an argument.
-/

namespace Verif.Due

/-- `path.h` `MNM_Path` as far as the iterations use it: `m_link_vec`, `m_buffer`,
`m_travel_disutility_vec`. -/
structure DPath where
  links : List ℤ
  flow : ℕ → ℚ
  dis : ℕ → ℚ

/-- `m_buffer[c] += x`. -/
def DPath.add (p : DPath) (c : ℕ) (x : ℚ) : DPath := { p with flow := upd p.flow c (p.flow c + x) }

/-- `path.cpp:290-299` `is_in` with `operator==` of `path.h:40-51`. -/
def isIn (ps : List DPath) (best : List ℤ) : Bool := ps.any fun p => decide (p.links = best)

/-- `_best_path->m_buffer[c] += x`, where `_best_path` is the last path of the loop that equals the
best one. -/
def addLast (best : List ℤ) (c : ℕ) (x : ℚ) : List DPath → List DPath
  | [] => []
  | p :: ps =>
    if isIn ps best then p :: addLast best c x ps
    else if p.links = best then p.add c x :: ps
    else p :: ps

/-- `due.cpp:445-485` `init_path_flow` on one path set. -/
def initFlow (dmd : ℕ → ℚ) (dis : List ℤ → ℕ → ℚ) (paths : List (List ℤ)) : List DPath :=
  paths.map fun l => ⟨l, fun c => 1 / (paths.length : ℚ) * dmd c, dis l⟩

/-- `due.cpp:109-138` `update_demand_from_path_table`: the demand of an interval is the sum of the
path flows. -/
def demand (ps : List DPath) (c : ℕ) : ℚ := (ps.map fun p => p.flow c).sum

/-- `due.cpp:140-150` `compute_total_demand` after `update_demand_from_path_table`. -/
def totalDemand (T : ℕ) (ps : List DPath) : ℚ := ((List.range T).map (demand ps)).sum

/-! ## MSA with fixed departure times -/

/-- The amount taken from a path, `due.cpp:765-768`; `root` is `sqrt (TFlt (iter + 1))`. -/
def fixedChange (step root : ℚ) (best : List ℤ) (c : ℕ) (p : DPath) : ℚ :=
  if p.links = best then 0 else p.flow c * step / root

/-- `due.cpp:733-782`, one origin-destination pair and interval `c`; `dis` are the disutilities of the
path if it is new (here not computed). -/
def msaFixedCol (step root : ℚ) (best : List ℤ) (dis : ℕ → ℚ) (c : ℕ) (ps : List DPath) : List DPath :=
  let ps1 := if isIn ps best then ps else ps ++ [⟨best, fun _ => 0, dis⟩]
  let tot := (ps1.map (fixedChange step root best c)).sum
  addLast best c tot (ps1.map fun p => p.add c (-fixedChange step root best c p))

/-- `due.cpp:733-783`, one origin-destination pair: all intervals. -/
def msaFixed (T : ℕ) (step root : ℚ) (best : ℕ → List ℤ) (dis : List ℤ → ℕ → ℚ) (ps : List DPath) :
    List DPath :=
  (List.range T).foldl (fun ps c => msaFixedCol step root (best c) (dis (best c)) c ps) ps

/-! ## MSA with departure time choice -/

/-- The amount taken from a path, `due.cpp:611-621`. -/
def dtcChange (step : ℚ) (iter : ℕ) (tot : ℚ) (best : List ℤ) (bc : ℕ) (p : DPath) (c : ℕ) : ℚ :=
  if p.links ≠ best ∨ c ≠ bc then min (p.flow c) (tot * step / (iter + 1)) else 0

/-- `due.cpp:601-670`, one origin-destination pair; `best` and `bc` are the path and the assignment
interval of `get_best_route`. -/
def msaDtc (T : ℕ) (step : ℚ) (iter : ℕ) (best : List ℤ) (bc : ℕ) (dis : ℕ → ℚ) (ps : List DPath) :
    List DPath :=
  let tot := totalDemand T ps
  if isIn ps best then
    let change := (ps.map fun p => ((List.range T).map (dtcChange step iter tot best bc p)).sum).sum
    addLast best bc change
      (ps.map fun p =>
        { p with flow := fun c => if c < T then p.flow c - dtcChange step iter tot best bc p c else p.flow c })
  else
    ps.map (fun p => p.add bc (-(step / (iter + 1) / (ps.length : ℚ)))) ++
      [⟨best, upd (fun _ => 0) bc (step / (iter + 1)), dis⟩]

/-! ## Gradient projection -/

/-- `std::numeric_limits<double>::max ()`. -/
def dblMax : ℚ := (2 - 1 / 2 ^ 52) * 2 ^ 1023

/-- The paths that take part, `due.cpp:870, 900, 933`. -/
def active (best : List ℤ) (c : ℕ) (p : DPath) : Bool := decide (p.links = best) || decide (0 < p.flow c)

/-- `_tot_path_cost / _tot_nonzero_path`, `due.cpp:866-892`. -/
def meanDis (best : List ℤ) (c : ℕ) (ps : List DPath) : ℚ :=
  ((ps.filter (active best c)).map fun p => p.dis c).sum / ((ps.filter (active best c)).length : ℚ)

/-- `_min_flow`, `due.cpp:885-889`. -/
def minFlow (c : ℕ) (ps : List DPath) : ℚ :=
  ps.foldl (fun m p => if 0 < p.flow c ∧ m > p.flow c then p.flow c else m) dblMax

/-- `_tau` and `_flg`, `due.cpp:894-917`. -/
def tau (step : ℚ) (best : List ℤ) (c : ℕ) (ps : List DPath) : ℚ × Bool :=
  ps.foldl (fun s p =>
    if active best c p then
      let ch := p.dis c - meanDis best c ps
      if 0 < ch ∧ s.1 > step * minFlow c ps / ch then (step * minFlow c ps / ch, true) else s
    else s) (dblMax, false)

/-- `due.cpp:836-948`, one origin-destination pair and interval. -/
def gpCol (step : ℚ) (best : List ℤ) (dis : ℕ → ℚ) (c : ℕ) (ps : List DPath) : List DPath :=
  let ps1 := if isIn ps best then ps else ps ++ [⟨best, fun _ => 0, dis⟩]
  let t := tau step best c ps1
  if !t.2 then ps1
  else
    ps1.map fun p =>
      if active best c p then p.add c (-(min (p.flow c) (t.1 * (p.dis c - meanDis best c ps1)))) else p

/-! ## A whole iteration -/

/-- `Path_Table`: origin node, destination node. -/
abbrev Table := ℤ × ℤ → Option (List DPath)

/-- The loops over destinations and origins, `due.cpp:562-580` (and `711-731`, `815-833`): `pairs` are
the pairs with demand in the order of the loops, `f` is the update of one path set;
`path.cpp:920-934` `get_pathset` raises for an unknown pair. -/
def updateTable (pairs : List (ℤ × ℤ)) (f : ℤ × ℤ → List DPath → List DPath) (t : Table) : Res Table :=
  Res.foldlM (fun (t : Table) od =>
    match t od with
    | none => .throw "MNM get_pathset ERROR"
    | some ps => .ok (upd t od (some (f od ps)))) t pairs

/-! ## Gap -/

/-- The lowest disutility of a list, starting from the largest double. -/
def lowest (xs : List ℚ) : ℚ := xs.foldl (fun m x => if x < m then x else m) dblMax

/-- All entries (disutility, flow) of a path set, intervals outermost. -/
def entries (T : ℕ) (ps : List DPath) : List (ℚ × ℚ) :=
  (List.range T).flatMap fun c => ps.map fun p => (p.dis c, p.flow c)

/-- `due.cpp:178-224` `compute_merit_function` over the path sets of the table. -/
def merit (T : ℕ) (sets : List (List DPath)) : ℚ :=
  (sets.map fun ps =>
    ((entries T ps).map fun e => (e.1 - lowest ((entries T ps).map Prod.fst)) * e.2).sum).sum

/-- The used paths of an interval, as (disutility, flow). -/
def used (c : ℕ) (ps : List DPath) : List (ℚ × ℚ) :=
  (ps.filter fun p => decide (0 < p.flow c)).map fun p => (p.dis c, p.flow c)

/-- `due.cpp:226-288` `compute_merit_function_fixed_departure_time_choice`; `none` when the denominator
is zero (not a number, or infinite). -/
def meritFixed (T : ℕ) (sets : List (List DPath)) : Option ℚ :=
  let gap := (sets.map fun ps => ((List.range T).map fun c =>
    ((used c ps).map fun e => (e.1 - lowest ((used c ps).map Prod.fst)) * e.2).sum).sum).sum
  let cost := (sets.map fun ps => ((List.range T).map fun c =>
    ((used c ps).map fun e => lowest ((used c ps).map Prod.fst) * e.2).sum).sum).sum
  if cost = 0 then none else some (gap / cost)

/-! ## The best departure -/

/-- Values of time and schedule of `due.h` `MNM_Due`. -/
structure Prefs where
  vot : ℚ
  early : ℚ
  late : ℚ
  target : ℚ

/-- `due.cpp:290-303` `get_disutility`. -/
def disutility (u : Prefs) (depart tt : ℚ) : ℚ :=
  if depart + tt ≥ u.target then u.vot * tt + u.late * (depart + tt - u.target)
  else u.vot * tt + u.early * (u.target - (depart + tt))

/-- The loop of `due.cpp:495-508`: `dist i` is `m_dist[o_node_ID][i]` (`none`: infinite, which is never
better); returns `_cur_best_cost` and `_cur_best_time`. -/
def bestTime (u : Prefs) (dist : ℕ → Option ℚ) : ℕ → ℚ × ℤ
  | 0 => (dblMax, -1)
  | n + 1 =>
    let s := bestTime u dist n
    match dist n with
    | none => s
    | some x => if disutility u n x < s.1 then (disutility u n x, n) else s

/-- `due.cpp:589-592`: the assignment interval of a departure. -/
def assignCol (T freq : ℕ) (time : ℤ) : ℤ :=
  if time.tdiv freq ≥ T then (T : ℤ) - 1 else time.tdiv freq

end Verif.Due
