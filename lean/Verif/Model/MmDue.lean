import Verif.Basic
import Mathlib.Data.Rat.Floor
import Mathlib.Algebra.BigOperators.Group.List.Basic

/-!
# Model of the multimodal user equilibrium, `src/multimodal.cpp` `MNM_MM_Due`

The passenger path table of one origin-destination pair: for each of the modes driving, transit and park-and-ride a
set of passenger paths, each with a flow of passengers per assignment interval and a disutility per assignment
interval.  Modelled are the initial flows, the choice among the existing paths, the three updates of the flows, the
two gap functions, the release of the flows as demand of the loading, the logit variant of that release, and the
conversion of the passenger paths into path tables of vehicles and passengers.

Numbers are exact; disutilities are finite.  `T` is `m_total_assign_inter`.
-/

namespace Verif.MmDue

/-- The modes of `multimodal.h` `MMDue_mode` that the equilibrium implements. -/
inductive Mode where
  | driving
  | transit
  | pnr
deriving DecidableEq, Repr

/-- The order of `_path_set_vec`, `multimodal.cpp:20566`. -/
def modes : List Mode := [.driving, .transit, .pnr]

/-- What `is_equal` compares: `multimodal.cpp:11761-11778` for driving (people, parking lot, links), `12000-12014`
for transit (links), `12270-12288` for park-and-ride (the driving part, which always has one person and no
parking lot, and the transit part). -/
inductive Route where
  | driving (people : ℕ) (lot : Option ℤ) (links : List ℤ)
  | transit (links : List ℤ)
  | pnr (drive bus : List ℤ)
deriving DecidableEq, Repr

/-- `m_mode` of a passenger path. -/
def Route.mode : Route → Mode
  | .driving _ _ _ => .driving
  | .transit _ => .transit
  | .pnr _ _ => .pnr

/-- `MNM_Passenger_Path_Base` as far as the equilibrium uses it: what identifies it, `m_buffer`,
`m_travel_disutility_vec`, and for park-and-ride the middle parking lot. -/
structure PPath where
  route : Route
  flow : ℕ → ℚ
  dis : ℕ → ℚ
  mid : ℤ := 0

/-- `m_buffer[c] += x`. -/
def PPath.add (p : PPath) (c : ℕ) (x : ℚ) : PPath := { p with flow := upd p.flow c (p.flow c + x) }

/-- The path sets of one origin-destination pair, `_path_set_driving`, `_path_set_bus`, `_path_set_pnr`; `none` is
the null pointer of a mode that is not used or does not connect the pair. -/
abbrev Sets := Mode → Option (List PPath)

/-- The paths in the order of the loops over `_path_set_vec`. -/
def Sets.all (s : Sets) : List PPath := modes.flatMap fun m => (s m).getD []

/-- A loop that changes every path. -/
def Sets.each (s : Sets) (f : PPath → PPath) : Sets := fun m => (s m).map fun ps => ps.map f

/-- `multimodal.cpp:12475-12533` `is_in`. -/
def isIn (ps : List PPath) (best : Route) : Bool := ps.any fun p => decide (p.route = best)

/-- `_best_path->m_buffer[c] += x` within one path set, where `_best_path` is the last path that equals the best. -/
def addLast (best : Route) (c : ℕ) (x : ℚ) : List PPath → List PPath
  | [] => []
  | p :: ps =>
    if isIn ps best then p :: addLast best c x ps
    else if p.route = best then p.add c x :: ps
    else p :: ps

/-- Does the path set of a mode contain the path? -/
def Sets.has (s : Sets) (m : Mode) (best : Route) : Bool := isIn ((s m).getD []) best

/-- `_best_path->m_buffer[c] += x`: the last path over all sets that equals the best; a null pointer is dereferenced
if there is none. -/
def Sets.addLast (s : Sets) (best : Route) (c : ℕ) (x : ℚ) : Res Sets :=
  if s.has .pnr best then .ok (upd s .pnr ((s .pnr).map (MmDue.addLast best c x)))
  else if s.has .transit best then .ok (upd s .transit ((s .transit).map (MmDue.addLast best c x)))
  else if s.has .driving best then .ok (upd s .driving ((s .driving).map (MmDue.addLast best c x)))
  else .ub

/-- The new path is added to the set of its mode unless it is there, `multimodal.cpp:20909-20982` (and `20568-20594`,
`20700-20727`, `21227-21309`); with existing paths only, nothing is added.  Returns the sets and `_exist`. -/
def enlist (cg : Bool) (best : Route) (dis : ℕ → ℚ) (mid : ℤ) (s : Sets) : Res (Sets × Bool) :=
  if cg then
    match s best.mode with
    | none => .throw "Mode not implemented"
    | some ps =>
      if isIn ps best then .ok (s, true)
      else .ok (upd s best.mode (some (ps ++ [⟨best, fun _ => 0, dis, mid⟩])), false)
  else .ok (s, true)

/-! ## Initial flows -/

/-- The number of modes of the pair, `_d_it.second->size ()`. -/
def Sets.numModes (s : Sets) : ℕ := (modes.filter fun m => (s m).isSome).length

/-- The flows of one path set, `multimodal.cpp:15792-15821`: everything on the first path. -/
def initSet (share : ℚ) (dmd : ℕ → ℚ) : List PPath → List PPath
  | [] => []
  | p :: ps => { p with flow := fun c => share * dmd c } :: ps.map fun q => { q with flow := fun _ => 0 }

/-- `multimodal.cpp:15745-15846` `init_passenger_path_flow` on one pair. -/
def initFlow (dmd : ℕ → ℚ) (s : Sets) : Res Sets :=
  if s.numModes = 0 then .throw "No mode available for OD"
  else if modes.any (fun m => s m matches some []) then .throw "No available paths"
  else .ok fun m => (s m).map (initSet (1 / (s.numModes : ℚ)) dmd)

/-! ## The best of the existing paths -/

/-- The path that is copied, with one person: `multimodal.cpp:20020-20035` for driving. -/
def Route.copy : Route → Route
  | .driving _ lot links => .driving 1 lot links
  | .transit links => .transit links
  | .pnr drive bus => .pnr drive bus

/-- A candidate: path, loading interval, cost. -/
structure Cand where
  route : Route
  time : ℕ
  cost : ℚ
deriving DecidableEq, Repr

/-- One comparison, `multimodal.cpp:19239-19262`; the cost starts at infinity. -/
def better (b : Option Cand) (x : Cand) : Option Cand :=
  match b with
  | none => some x
  | some y => if x.cost < y.cost then some x else b

/-- `multimodal.cpp:19192-19268` (and `19277-19360`, `19362-19459`): the best of one path set over the loading
intervals `is`; `cost p i` is the disutility of departing in interval `i`. -/
def bestIn (cost : PPath → ℕ → ℚ) (is : List ℕ) (ps : List PPath) : Option Cand :=
  (is.flatMap fun i => ps.map fun p => (⟨p.route.copy, i, cost p i⟩ : Cand)).foldl better none

/-- The next mode replaces the best only if it is strictly better, `multimodal.cpp:19491-19516`. -/
def override (b : Option Cand) : Option Cand → Option Cand
  | none => b
  | some x => better b x

/-- `multimodal.cpp:19462-19545` `get_best_existing_path`. -/
def bestExisting (cost : PPath → ℕ → ℚ) (is : List ℕ) (s : Sets) : Option Cand :=
  modes.foldl (fun b m => override b (bestIn cost is ((s m).getD []))) none

/-! ## The three updates -/

/-- The amount taken from a path with fixed departure times, `multimodal.cpp:21018-21022`; `root` is
`sqrt (TFlt (iter + 1))`. -/
def fixedChange (step root : ℚ) (best : Route) (c : ℕ) (p : PPath) : ℚ :=
  if p.route = best then 0 else p.flow c * step / root

/-- `multimodal.cpp:20894-21058`, one interval of `update_path_table_fixed_departure_time_choice`; `dis` and `mid`
belong to the path if it is new. -/
def fixedCol (cg : Bool) (step root : ℚ) (best : Route) (dis : ℕ → ℚ) (mid : ℤ) (c : ℕ) (s : Sets) : Res Sets :=
  (enlist cg best dis mid s).bind fun a =>
    let tot := (a.1.all.map (fixedChange step root best c)).sum
    (a.1.each fun p => p.add c (-fixedChange step root best c p)).addLast best c tot

/-- What the search returned for an interval: the path, its disutilities and its middle parking lot. -/
structure Found where
  route : Route
  dis : ℕ → ℚ := fun _ => 0
  mid : ℤ := 0

/-- `multimodal.cpp:20894-21058`, all intervals of one pair. -/
def fixedAll (cg : Bool) (T : ℕ) (step root : ℚ) (best : ℕ → Found) (s : Sets) : Res Sets :=
  Res.foldlM (fun s c => fixedCol cg step root (best c).route (best c).dis (best c).mid c s) s (List.range T)

/-- The same with existing paths only, where the path is the best one of the interval: a null pointer is used if
no set has a path, and without any mode the function raises, `multimodal.cpp:20912-20948`. -/
def fixedExistingCol (step root : ℚ) (c : ℕ) (s : Sets) : Res Sets :=
  match bestExisting (fun p _ => p.dis c) [c] s with
  | none => if s.numModes = 0 then .throw "Mode not implemented" else .ub
  | some b => fixedCol false step root b.route (fun _ => 0) 0 c s

/-- All intervals with existing paths only. -/
def fixedExisting (T : ℕ) (step root : ℚ) (s : Sets) : Res Sets :=
  Res.foldlM (fun s c => fixedExistingCol step root c s) s (List.range T)

/-- The amount taken from a path when the departure time is chosen as well and the path exists,
`multimodal.cpp:20642-20651`. -/
def dtcChange (step : ℚ) (iter : ℕ) (tot : ℚ) (best : Route) (bc : ℕ) (p : PPath) (c : ℕ) : ℚ :=
  if p.route ≠ best ∨ c ≠ bc then min (p.flow c) (tot * step / (iter + 1)) else 0

/-- The path after it, over all intervals, `multimodal.cpp:20634-20660`. -/
def dtcTaken (T : ℕ) (step : ℚ) (iter : ℕ) (tot : ℚ) (best : Route) (bc : ℕ) (p : PPath) : PPath :=
  { p with flow := fun c => if c < T then p.flow c - dtcChange step iter tot best bc p c else p.flow c }

/-- The amount taken in the best interval when the path is new, `multimodal.cpp:20735-20745`. -/
def dtcNewChange (step : ℚ) (iter : ℕ) (best : Route) (bc : ℕ) (p : PPath) : ℚ :=
  if p.route = best then 0 else p.flow bc * step / (iter + 1)

/-- `multimodal.cpp:20497-20757` `update_path_table` on one pair; `tot` is the demand of the pair over all
intervals. -/
def dtcAll (cg : Bool) (T : ℕ) (step : ℚ) (iter : ℕ) (tot : ℚ) (best : Found) (bc : ℕ) (s : Sets) : Res Sets :=
  (enlist cg best.route best.dis best.mid s).bind fun a =>
    if a.2 then
      let change := (a.1.all.map fun p => ((List.range T).map (dtcChange step iter tot best.route bc p)).sum).sum
      (a.1.each (dtcTaken T step iter tot best.route bc)).addLast best.route bc change
    else
      let change := (a.1.all.map (dtcNewChange step iter best.route bc)).sum
      (a.1.each fun p => p.add bc (-dtcNewChange step iter best.route bc p)).addLast best.route bc change

/-- The paths that take part in gradient projection, `multimodal.cpp:21334, 21361, 21427`. -/
def active (best : Route) (c : ℕ) (p : PPath) : Bool := decide (p.route = best) || decide (0 < p.flow c)

/-- `_tot_path_cost / _tot_nonzero_path`, `multimodal.cpp:21326-21352`. -/
def meanDis (best : Route) (c : ℕ) (s : Sets) : ℚ :=
  ((s.all.filter (active best c)).map fun p => p.dis c).sum / ((s.all.filter (active best c)).length : ℚ)

/-- One path in the search for `_tau`, `multimodal.cpp:21363-21385`. -/
def tauStep (step : ℚ) (best : Route) (c : ℕ) (mean : ℚ) (t : Option ℚ) (p : PPath) : Option ℚ :=
  if active best c p ∧ 0 < p.dis c - mean then
    match t with
    | none => some (step * p.flow c / (p.dis c - mean))
    | some t' => if t' > step * p.flow c / (p.dis c - mean) then some (step * p.flow c / (p.dis c - mean)) else t
  else t

/-- `_tau` and `_flg`, `multimodal.cpp:21354-21412`: `none` is infinity, with the flag off. -/
def tau (step : ℚ) (best : Route) (c : ℕ) (s : Sets) : Option ℚ :=
  s.all.foldl (tauStep step best c (meanDis best c s)) none

/-- `multimodal.cpp:21195-21460`, one interval of `update_path_table_gp_fixed_departure_time_choice`. -/
def gpCol (cg : Bool) (step : ℚ) (best : Route) (dis : ℕ → ℚ) (mid : ℤ) (c : ℕ) (s : Sets) : Res Sets :=
  (enlist cg best dis mid s).bind fun a =>
    match tau step best c a.1 with
    | none => .ok a.1
    | some t =>
      let s' := a.1.each fun p =>
        if active best c p then p.add c (-(t * (p.dis c - meanDis best c a.1))) else p
      if (a.1.all.filter (active best c)).any (fun p => decide (p.flow c - t * (p.dis c - meanDis best c a.1) < 0))
      then .throw "Something is wrong in GP method"
      else .ok s'

/-- All intervals of one pair. -/
def gpAll (cg : Bool) (T : ℕ) (step : ℚ) (best : ℕ → Found) (s : Sets) : Res Sets :=
  Res.foldlM (fun s c => gpCol cg step (best c).route (best c).dis (best c).mid c s) s (List.range T)

/-! ## Gap -/

/-- Disutility and flow of the paths in use in one of the intervals. -/
def used (cs : List ℕ) (s : Sets) : List (ℚ × ℚ) :=
  cs.flatMap fun c => (s.all.filter fun p => decide (0 < p.flow c)).map fun p => (p.dis c, p.flow c)

/-- The lowest disutility of the paths in use; infinity, which is not read, without any. -/
def lowest : List (ℚ × ℚ) → ℚ
  | [] => 0
  | e :: es => es.foldl (fun m x => if x.1 < m then x.1 else m) e.1

/-- `_total_gap` and `_min_flow_cost` of one group of entries. -/
def gapOf (es : List (ℚ × ℚ)) : ℚ × ℚ :=
  ((es.map fun e => |e.1 - lowest es| * e.2).sum, (es.map fun e => |lowest es| * e.2).sum)

/-- The ratio of `multimodal.cpp:18776, 18825`. -/
def ratio (gs : List (ℚ × ℚ)) : ℚ :=
  (gs.map Prod.fst).sum / max (gs.map Prod.snd).sum (1 / 1000000)

/-- `multimodal.cpp:18728-18777` `compute_merit_function`; `pairs` are the pairs of the table. -/
def merit (T : ℕ) (pairs : List Sets) : ℚ := ratio (pairs.map fun s => gapOf (used (List.range T) s))

/-- `multimodal.cpp:18779-18826` `compute_merit_function_fixed_departure_time_choice`. -/
def meritFixed (T : ℕ) (pairs : List Sets) : ℚ :=
  ratio (pairs.flatMap fun s => (List.range T).map fun c => gapOf (used [c] s))

/-! ## Demand of the loading -/

/-- The search of `multimodal.cpp:15921-15935`: over how many of the `n` assignment intervals of the loading the
demand `d` is spread; `k` intervals have been tried. -/
def minutesFrom (n : ℕ) (σ d : ℚ) : ℕ → ℕ
  | 0 => n
  | k + 1 => if 1 ≤ ⌊d / ((k + 1 : ℕ) : ℚ) * σ⌋ then k + 1 else minutesFrom n σ d k

/-- `_max_num_of_minute`. -/
def minutes (n : ℕ) (σ d : ℚ) : ℕ := minutesFrom n σ d n

/-- What is written for one interval, `multimodal.cpp:15916-15954`; `split` is `init_demand_split`. -/
def spread (split : ℤ) (n : ℕ) (σ d : ℚ) : Res (List ℚ) :=
  if split = 0 then .ok (d :: List.replicate (n - 1) 0)
  else if split = 1 then
    .ok (List.replicate (minutes n σ d) (d / (minutes n σ d : ℚ)) ++ List.replicate (n - minutes n σ d) 0)
  else .throw "Wrong init_demand_split"

/-- `m_num_people` of the path, of the driving part for park-and-ride, and no division for transit. -/
def Route.people : Route → ℚ
  | .driving n _ _ => n
  | .transit _ => 1
  | .pnr _ _ => 1

/-- `multimodal.cpp:15905-15914`: vehicles, or passengers of transit, of one interval. -/
def load (ps : List PPath) (c : ℕ) : ℚ := (ps.map fun p => p.flow c / p.route.people).sum

/-- One mode of one pair in `multimodal.cpp:15849-16116` `update_origin_demand_from_passenger_path_table`.  `mm` is
the number of assignment intervals of the loading, `vec` the demand array of the mode, which is allocated if it
does not exist; `memset` clears `mm` entries.  (`mm / T` is taken to be positive.) -/
def releaseMode (mm T : ℕ) (split : ℤ) (σ : ℚ) (set : Option (List PPath)) (vec : Option (List ℚ)) :
    Res (Option (List ℚ)) :=
  match set with
  | none => .ok vec
  | some ps =>
    let v := vec.getD (List.replicate (T * (mm / T)) 0)
    if v.length < mm then .ub
    else if ps.isEmpty then .ok (some (List.replicate mm 0 ++ v.drop mm))
    else
      (Res.foldlM (fun acc c => (spread split (mm / T) σ (load ps c)).bind fun xs => .ok (acc ++ xs)) []
        (List.range T)).bind fun w =>
      .ok (some (w ++ List.replicate (mm - T * (mm / T)) 0 ++ v.drop mm))

/-! ## Demand of the loading by the logit model -/

/-- The state of `update_origin_demand_logit_model`: the demand arrays of the pair per mode, the variable `_demand`
(`none`: not yet written), and `m_mode_share`. -/
structure LState where
  vec : Mode → Option (ℕ → ℚ)
  carry : Option ℚ
  share : Mode → ℚ

/-- Writing the `n` entries of interval `a`. -/
def writeAt (n a : ℕ) (f : ℕ → ℚ) (xs : List ℚ) : ℕ → ℚ :=
  fun i => if a * n ≤ i ∧ i < a * n + n then xs.getD (i - a * n) 0 else f i

/-- `_demand` after it has been spread: divided in the loop for `init_demand_split == 1`. -/
def carried (split : ℤ) (n : ℕ) (σ d : ℚ) : ℚ := if split = 1 then d / (minutes n σ d : ℚ) else d

/-- One mode of `multimodal.cpp:16118-16427`; `on` says whether the mode is used and connects the pair, `x` is its
share in the split if it has one.  Without it the entries become zero, but for transit they become `_demand`
(`multimodal.cpp:16406-16421`). -/
def logitMode (split : ℤ) (n : ℕ) (σ tot : ℚ) (a : ℕ) (on : Bool) (x : Option ℚ) (m : Mode) (s : LState) :
    Res LState :=
  match on, x with
  | true, some y =>
    let d := y * tot
    (spread split n σ d).bind fun xs =>
      .ok ⟨upd s.vec m (some (writeAt n a ((s.vec m).getD fun _ => 0) xs)), some (carried split n σ d),
        upd s.share m (s.share m + d)⟩
  | _, _ =>
    match s.vec m with
    | none => .ok s
    | some f =>
      if m = .transit then
        match s.carry with
        | none => .ub
        | some d => .ok { s with vec := upd s.vec m (some (writeAt n a f (List.replicate n d))) }
      else .ok { s with vec := upd s.vec m (some (writeAt n a f (List.replicate n 0))) }

/-- One pair: driving, park-and-ride, transit. -/
def logitPair (split : ℤ) (n : ℕ) (σ tot : ℚ) (a : ℕ) (on : Mode → Bool) (x : Mode → Option ℚ) (s : LState) :
    Res LState :=
  (logitMode split n σ tot a (on .driving) (x .driving) .driving s).bind fun s1 =>
    (logitMode split n σ tot a (on .pnr) (x .pnr) .pnr s1).bind fun s2 =>
      logitMode split n σ tot a (on .transit) (x .transit) .transit s2

/-! ## Path tables of vehicles and passengers -/

/-- A path with flows, `MNM_Path` or `MNM_PnR_Path`: what identifies it, and its buffer. -/
structure VPath (K : Type) where
  key : K
  buf : ℕ → ℚ

/-- The loops of `multimodal.cpp:17836-17872` and the like: the first path with the same key is increased by `more`,
else a path with the buffer `fresh` is appended. -/
def put {K : Type} [DecidableEq K] (k : K) (more fresh : ℕ → ℚ) : List (VPath K) → List (VPath K)
  | [] => [⟨k, fresh⟩]
  | x :: xs => if x.key = k then ⟨k, fun i => x.buf i + more i⟩ :: xs else x :: put k more fresh xs

/-- The flow of cars of a passenger path, in the first `T` entries. -/
def carFlow (T : ℕ) (p : PPath) : ℕ → ℚ := fun i => if i < T then p.flow i / p.route.people else 0

/-- The links of the cars of a passenger path. -/
def Route.carLinks : Route → List ℤ
  | .driving _ _ links => links
  | .transit _ => []
  | .pnr drive _ => drive

/-- The links of the transit part. -/
def Route.busLinks : Route → List ℤ
  | .driving _ _ _ => []
  | .transit links => links
  | .pnr _ bus => bus

/-- `multimodal.cpp:17820-17877`: the fixed truck paths of the pair.  A path that is already there gets the truck
flows only; a new one gets the whole buffer. -/
def putTrucks (T : ℕ) (trucks : List (VPath (List ℤ))) : List (VPath (List ℤ)) :=
  trucks.foldl (fun acc v => put v.key (fun i => if T ≤ i ∧ i < 2 * T then v.buf i else 0)
    (fun i => if i < 2 * T then v.buf i else 0) acc) []

/-- `multimodal.cpp:17779-17942`: the driving paths of one pair. -/
def drivingTable (T : ℕ) (trucks : Option (List (VPath (List ℤ)))) (ps : List PPath) : List (VPath (List ℤ)) :=
  ps.foldl (fun acc p => put p.route.carLinks (carFlow T p) (carFlow T p) acc) (putTrucks T (trucks.getD []))

/-- `multimodal.cpp:17944-18056`: the park-and-ride paths of one pair. -/
def pnrTable (T : ℕ) (ps : List PPath) : List (VPath (ℤ × List ℤ × List ℤ)) :=
  ps.foldl (fun acc p => put (p.mid, p.route.carLinks, p.route.busLinks) (carFlow T p) (carFlow T p) acc) []

/-- `multimodal.cpp:18058-18150`: the transit paths of one pair. -/
def transitTable (T : ℕ) (ps : List PPath) : List (VPath (List ℤ)) :=
  ps.foldl (fun acc p => put p.route.busLinks (carFlow T p) (carFlow T p) acc) []

/-- `multimodal.cpp:17617-18155` `passenger_path_table_to_multimodal_path_table`, the driving paths: the loops run
over the pairs of the passenger path table. -/
def drivingTables (T : ℕ) (table : ℤ × ℤ → Option Sets) (trucks : ℤ × ℤ → Option (List (VPath (List ℤ)))) :
    ℤ × ℤ → Option (List (VPath (List ℤ))) := fun od =>
  match table od with
  | none => none
  | some s =>
    match s .driving with
    | none => none
    | some ps => some (drivingTable T (trucks od) ps)

end Verif.MmDue
