import Verif.Model.MLink
import Verif.Model.MQuery
import Verif.Model.Marginal

/-!
# Model of queue dissipation and travel time gradients of networks with cars and trucks

`macposts/_ext/mcdta.cpp` `build_link_cost_map` with congestion marks, `get_link_queue_dissipated_time`,
`get_car_ltg_matrix`, `get_truck_ltg_matrix`, `get_complete_car_ltg_matrix`, `get_complete_truck_ltg_matrix`;
`src/multiclass.cpp` `get_link_freeflow_tt_loading_car`,
`get_link_freeflow_tt_loading_truck`, `get_departure_cc_slope_car`, `get_departure_cc_slope_truck`,
`add_ltg_records_veh`, `add_ltg_records_eigen_veh`.  As in `Verif.Model.MQuery`, a boolean stands for the class: `false` for cars, `true` for trucks.
Texts on the console are left out, and so are `IAssert` and `Assert`, which are `assert` of C and are compiled out.
-/

namespace Verif.Ltg
open Ults Curve Query Marg MQuery

variable {V : Type}

/-- `get_link_freeflow_tt_loading_car`, `get_link_freeflow_tt_loading_truck`: `multiclass.cpp:1101-1111`, `1959-1974`,
`2246-2255`. -/
def ffttLoading (b : Bool) : MLnk.Link V → Res ℤ
  | .ctm l => if b then toInt (l.numCells * l.args.ffsCar / l.args.ffsTruck) else .ok l.numCells
  | .lq l => roundUpTime (l.args.length / byClass b l.args.ffsCar l.args.ffsTruck) Sp.prec
  | .pq l => .ok l.maxStamp

/-- What does not change: as for the other queries; the flow scalar, the types and attributes of the links, the
registered paths (numbers and links). -/
structure Env (V : Type) where
  q : MQuery.Env
  scalar : ℚ
  kind : ℤ → Option (MLnk.Link V)
  paths : List (ℤ × List ℤ)

/-- What the calls change: links and tables as for the other queries, `m_link_congested_car` and `_truck`,
`m_queue_dissipated_time_car` and `_truck`. -/
structure State where
  q : MQuery.State
  cong : Bool → ℤ → Option (List Bool)
  diss : Bool → ℤ → Option (List ℕ)

/-- `factory.cpp` `get_link`, for the attributes. -/
def Env.link (e : Env V) (l : ℤ) : Res (MLnk.Link V) :=
  match e.kind l with
  | none => .throw "Error, MNM_Link_Factory::get_link, link does not exist"
  | some k => .ok k

/-- As `Query.store`, for entries of any type. -/
def storeOf {A : Type} (tab : ℤ → Option (List A)) (l : ℤ) (row : List A) : Res (ℤ → Option (List A)) :=
  match tab l with
  | none => .ok fun l' => if l' = l then some row else tab l'
  | some xs =>
    if row.length ≤ xs.length then .ok fun l' => if l' = l then some (row ++ xs.drop row.length) else tab l'
    else .ub

/-- As `Query.readAt`, for entries of any type. -/
def readOf {A : Type} (tab : ℤ → Option (List A)) (l i : ℤ) : Res A :=
  match tab l with
  | none => .ub
  | some xs =>
    if i < 0 then .ub
    else match xs[i.toNat]? with
      | none => .ub
      | some x => .ok x

/-- The row of a link. -/
def rowIn {A : Type} (tab : ℤ → Option (List A)) (l : ℤ) : Res (List A) :=
  match tab l with
  | none => .ub
  | some xs => .ok xs

/-! ## Tables -/

/-- The congestion marks of one class of a link, `mcdta.cpp:959-965`: travel times against the free-flow time. -/
def markOne (e : Env V) (b : Bool) (l : ℤ) (s : State) : Res State :=
  (e.link l).bind fun k => (ffttLoading b k).bind fun f => (rowIn (s.q.tt b) l).bind fun tt =>
    (storeOf (s.cong b) l (marks f (tt.take e.q.T))).bind fun c => .ok { s with cong := put s.cong b c }

/-- One link of `build_link_cost_map` with congestion marks, `mcdta.cpp:861-975`.  (The marks are set after the travel
times of all intervals, not interval by interval.) -/
def buildOne (e : Env V) (s : State) (l : ℤ) : Res State :=
  (MQuery.buildOne e.q s.q l).bind fun q => (markOne e false l { s with q := q }).bind (markOne e true l)

/-- `build_link_cost_map (true)`. -/
def build (e : Env V) (s : State) : Res State := Res.foldlM (buildOne e) s e.q.ids

/-- The capacity of a class, in vehicles per second. -/
def capOf (b : Bool) (c : MLnk.Cell V) : ℚ := byClass b c.dia.capCar c.dia.capTruck

/-- `floor (cap * flow_scalar)` for the last cell, `mcdta.cpp:1067-1081`, `1207-1221`. -/
def lastCap (unit scalar : ℚ) (b : Bool) (k : MLnk.Ctm V) : Res ℤ :=
  match k.cells.getLast? with
  | none => .ub
  | some c => .ok ⌊capOf b c * unit * scalar⌋

/-- `mcdta.cpp:1008-1137` for cars, `mcdta.cpp:1140-1272` for trucks: one interval of one link. -/
def dissOne (T : ℕ) (unit scalar : ℚ) (b : Bool) (k : MLnk.Link V) (nOut : Curve) (cong : List Bool) (tt : List ℚ)
    (i : ℕ) : Res ℕ :=
  (rd cong i).bind fun c =>
    if c then congEnd cong T T i
    else
      (ffttLoading b k).bind fun f => (rd tt i).bind fun x =>
        if approxEq x f tol then
          match k with
          | .ctm m =>
            (slope nOut (i + f : ℤ) (i + f + 1 : ℤ)).bind fun r => (lastCap unit scalar b m).bind fun cap =>
              if rateEq r scalar cap then congEnd cong T T i else .ok i
          | .pq _ => .ok i
          | .lq _ => .throw "Mcdta::get_link_queue_dissipated_time, Link type not implemented"
        else .throw "Mcdta::get_link_queue_dissipated_time, Link travel time less than fftt"

/-- The loop over the intervals: first the entry for cars, then the one for trucks, given by `g`. -/
def dissRows (g : Bool → ℕ → Res ℕ) : List ℕ → Res (List ℕ × List ℕ)
  | [] => .ok ([], [])
  | i :: is => (g false i).bind fun x => (g true i).bind fun y => (dissRows g is).bind fun r => .ok (x :: r.1, y :: r.2)

/-- One link of `get_link_queue_dissipated_time`, `mcdta.cpp:989-1273`.  (The rows are stored after they have been
computed.) -/
def dissLink (e : Env V) (s : State) (l : ℤ) : Res State :=
  (s.q.link l).bind fun q => (e.link l).bind fun k =>
    (rowIn (s.cong false) l).bind fun c0 => (rowIn (s.cong true) l).bind fun c1 =>
      (rowIn (s.q.tt false) l).bind fun t0 => (rowIn (s.q.tt true) l).bind fun t1 =>
        (dissRows (fun b i => dissOne e.q.T e.q.unit e.scalar b k (q.cc b).nOut (byClass b c0 c1) (byClass b t0 t1) i)
          (List.range e.q.T)).bind fun r =>
            (storeOf (s.diss false) l r.1).bind fun d0 => (storeOf (s.diss true) l r.2).bind fun d1 =>
              .ok { s with diss := fun b => byClass b d0 d1 }

/-- `get_link_queue_dissipated_time`, `mcdta.cpp:976-1277`. -/
def dissipated (e : Env V) (s : State) : Res State := Res.foldlM (dissLink e) s e.q.ids

/-! ## Gradients -/

/-- `ltg_record`, `multiclass.h`: path, start interval, link, interval of entry, gradient. -/
structure Rec where
  path : ℤ
  start : ℤ
  link : ℤ
  time : ℤ
  gradient : ℚ
deriving DecidableEq

/-- `int (round (x))`: to the nearest integer, halves away from zero. -/
def nearest (x : ℚ) : ℤ := if 0 ≤ x then ⌊x + 1 / 2⌋ else -⌊-x + 1 / 2⌋

/-- The dynamic cast to `MNM_Dlink_Pq_Multiclass`. -/
def isPq : MLnk.Link V → Bool
  | .pq _ => true
  | _ => false

/-- `_t_depart = _t_arrival + round_up_time (tt[...])`, `mcdta.cpp:3848-3854`. -/
def leaves (tt : Tabs) (T l t : ℤ) : Res ℤ := timeStep tt T t l

/-- `mcdta.cpp:3945-3969`: the end of the window of entries, and the time at which the last of them leaves, before it
is cut off.  The last valid time is that of cars for both classes. -/
def window (e : Env V) (s : State) (b : Bool) (lv : ℚ) (l a lift : ℤ) : Res (ℤ × ℤ) :=
  (readOf (s.diss b) l a).bind fun d =>
    if (d : ℤ) ≤ nearest (lv - 1) then .ok (d, lift)
    else (leaves (s.q.tt b) e.q.T l (nearest lv - 1)).bind fun v => .ok (nearest lv, v)

/-- The records for the entries from `a` to before `stop`, `mcdta.cpp:4042-4050`. -/
def recsFor (path start l a stop : ℤ) (g : ℚ) : List Rec :=
  (List.range (stop - a).toNat).map fun k : ℕ => ⟨path, start, l, a + k, g⟩

variable {R : Type}

/-- `mcdta.cpp:3932-4072`, `4580-4730`: the records of one link; `a` is the interval in which the additional vehicle
enters, `prime` and `lift` the times at which it leaves, and at which it would after the queue has dissipated.  The
loop over the entries is `em`. -/
def linkRecs (em : ℤ → ℤ → ℤ → ℤ → ℤ → ℚ → Res (List R)) (e : Env V) (s : State) (b : Bool)
    (path start l a prime lift : ℤ) (q : MQuery.Link) : Res (List R) :=
  if prime < e.q.T - 1 ∧ l ∈ e.q.reg then
    (readOf (s.cong b) l a).bind fun c =>
      if c ∧ lift > prime then
        (window e s b (q.cc false).lastValid l a lift).bind fun w =>
          let valid := if w.2 > e.q.T - 1 then (e.q.T - 1 : ℤ) else w.2
          if prime > valid then .throw "invalid state"
          else if prime < valid then
            (slope (q.cc b).nOut (prime : ℤ) (valid + 1 : ℤ)).bind fun g =>
              match g with
              | none => .ok []
              | some g => if g > dblEps then em path start l a w.1 (e.q.unit / g) else .ok []
          else .ok []
      else .ok []
  else .ok []

/-- `mcdta.cpp:3844-4073`, `4487-4745`: the links of a path in turn; `t` is when the vehicle arrives at the next link,
`u` the lift-up time there, `recs` the records so far. -/
def follow (em : ℤ → ℤ → ℤ → ℤ → ℤ → ℚ → Res (List R)) (e : Env V) (s : State) (b : Bool) (thr path start : ℤ) :
    List ℤ → ℤ → ℤ → List R → Res (List R)
  | [], _, _, recs => .ok recs
  | l :: ls, t, u, recs =>
    (leaves (s.q.tt b) e.q.T l t).bind fun t' => (e.link l).bind fun k => (s.q.link l).bind fun q =>
      let a := if isPq k then t else u
      if a > nearest ((q.cc false).lastValid - 1) ∨ a ≥ thr then .ok recs
      else
        (leaves (s.q.tt b) e.q.T l a).bind fun prime => (ffttLoading b k).bind fun f =>
          (readOf (s.diss b) l a).bind fun d => (roundUpTime f Sp.prec).bind fun x => (addInt d x).bind fun lift =>
            (readOf (s.cong b) l a).bind fun _ =>
              if lift < prime then .throw "invalid state"
              else
                (linkRecs em e s b path start l a prime lift q).bind fun r =>
                  follow em e s b thr path start ls t' lift (recs ++ r)

/-- The check of a start, `mcdta.cpp:3830-3835`, `4147-4152`, `4473-4478`, `4804-4809`. -/
def checkStart (name : String) (T : ℕ) (start : ℤ) : Res Unit :=
  if start ≥ T then
    .throw ("Error, Mcdta::" ++ name ++ ", input start intervals exceeds the total loading intervals - 1")
  else .ok ()

/-- One start of one path. -/
def startStep (em : ℤ → ℤ → ℤ → ℤ → ℤ → ℚ → Res (List R)) (name : String) (e : Env V) (s : State) (b : Bool) (thr : ℤ)
    (p : ℤ × List ℤ) (recs : List R) (start : ℤ) : Res (List R) :=
  (checkStart name e.q.T start).bind fun _ => follow em e s b thr p.1 start p.2 start (-1) recs

/-- One path: nothing is done if it has no registered link, `mcdta.cpp:3811-3826`, `4454-4469`. -/
def pathStep (em : ℤ → ℤ → ℤ → ℤ → ℤ → ℚ → Res (List R)) (name : String) (e : Env V) (s : State) (b : Bool) (thr : ℤ)
    (starts : List ℤ) (recs : List R) (p : ℤ × List ℤ) : Res (List R) :=
  if e.q.reg.any fun l => p.2.contains l then Res.foldlM (startStep em name e s b thr p) recs starts else .ok recs

/-- The loops that `get_car_ltg_matrix`, `get_truck_ltg_matrix` and the two functions for complete matrices have in
common; the text of the four is the same up to the class of the tables and curves, and the innermost loop. -/
def collect (em : ℤ → ℤ → ℤ → ℤ → ℤ → ℚ → Res (List R)) (name : String) (e : Env V) (s : State) (b : Bool) (thr : ℤ)
    (starts : List ℤ) : Res (List R) :=
  Res.foldlM (pathStep em name e s b thr starts) [] e.paths

/-- `get_car_ltg_matrix`, `mcdta.cpp:3790-4105`, and `get_truck_ltg_matrix`, `mcdta.cpp:4107-4424`. -/
def ltg (e : Env V) (s : State) (b : Bool) (thr : ℤ) (starts : List ℤ) : Res (List Rec) :=
  collect (fun path start l a stop g => .ok (recsFor path start l a stop g))
    (byClass b "get_car_ltg_matrix_driving" "get_truck_ltg_matrix") e s b thr starts

/-! ## Complete matrices -/

/-- An entry to be added to a sparse matrix. -/
structure Triplet where
  row : ℤ
  col : ℤ
  value : ℚ
deriving DecidableEq

/-- `multiclass.cpp:5523-5543` `add_ltg_records_eigen_veh`. -/
def triplet (nLinks nPaths ai path start t ind : ℤ) (value : ℚ) : Triplet :=
  ⟨ind + nLinks * t.tdiv ai, path + nPaths * start.tdiv ai, value⟩

/-- The loop of `mcdta.cpp:4666-4700`, from `t` on with `n` entries to come: `tmp` is the assignment interval whose
entries are being counted, `ct` their number.  `put t ct` is the triplet for them. -/
def countLoop (ai : ℤ) (put : ℤ → ℕ → Triplet) : ℕ → ℤ → ℤ → ℕ → List Triplet
  | 0, _, _, _ => []
  | n + 1, t, tmp, ct =>
    let same := t.tdiv ai = tmp
    let done := if same then [] else [put (t - 1) ct]
    let tmp' := if same then tmp else t.tdiv ai
    let ct' := if same then ct + 1 else 1
    done ++ (if n = 0 then [put t ct'] else []) ++ countLoop ai put n (t + 1) tmp' ct'

/-- The triplets for the entries from `a` to before `stop`; the index of the link is that of its first occurrence among
the registered ones. -/
def tripletsFor (reg : List ℤ) (nPaths ai : ℤ) (path start l a stop : ℤ) (g : ℚ) : Res (List Triplet) :=
  if ai = 0 then .ub
  else .ok (countLoop ai (fun t ct => triplet reg.length nPaths ai path start t (reg.idxOf l) (g * ct)) (stop - a).toNat a
    (a.tdiv ai) 0)

/-- `Eigen::SparseMatrix::setFromTriplets`: triplets for the same place are added up; places outside the matrix are
undefined behaviour. -/
def fromTriplets (rows cols : ℤ) (ts : List Triplet) : Res (ℤ → ℤ → ℚ) :=
  if ts.all fun t => 0 ≤ t.row ∧ t.row < rows ∧ 0 ≤ t.col ∧ t.col < cols then
    .ok fun r c => ((ts.filter fun t => t.row = r ∧ t.col = c).map (·.value)).sum
  else .ub

/-- `get_complete_car_ltg_matrix`, `mcdta.cpp:4425-4756`, and `get_complete_truck_ltg_matrix`, `mcdta.cpp:4758-5091`, with
`ai` for the configured `assign_frq` and `n` for `num_intervals`.  (Overflow of the index computations and running out
of memory are left out: 16 GB are reserved at the start.) -/
def ltgMatrix (e : Env V) (s : State) (b : Bool) (ai n thr : ℤ) (starts : List ℤ) : Res (ℤ → ℤ → ℚ) :=
  (collect (tripletsFor e.q.reg e.paths.length ai) "get_complete_truck_ltg_matrix" e s b thr starts).bind
    fun ts => fromTriplets (n * e.q.reg.length) (n * e.paths.length) ts

end Verif.Ltg
