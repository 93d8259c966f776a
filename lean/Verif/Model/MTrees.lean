import Verif.Model.MNet
import Verif.Model.Trees

/-!
# Model of the trees of cumulative curves of cars and trucks

`multiclass.cpp` `install_cumulative_curve_tree_multiclass`, `MNM_Dnode_Inout_Multiclass::move_vehicle`,
`add_dar_records_car`, `add_dar_records_eigen_car` and their copies for trucks; `_ext/mcdta.cpp` assignment ratios.
-/

namespace Verif.MNet
open Ults Curve Net Tab

/-- `multiclass.h:87-90`: the in-trees `m_N_in_tree_car` (`false`) and `m_N_in_tree_truck` (`true`) of every link,
null unless installed.  The out-trees stay null (`multiclass.cpp:114-129`). -/
abbrev Woods := Bool → ℕ → Option Tree

/-- `multiclass.cpp:2618-2692` for one vehicle: `add_flow (timestamp + 1, 1 / m_flow_scalar, m_path,
m_assign_interval)` to the in-tree of its class of the out link, unless the tree is null.  Origin nodes
(`multiclass.cpp:2273-2376`) and destination nodes (`multiclass.cpp:2390-2442`) leave the trees alone. -/
def treeMove (scalar : ℚ) (vehs : ℕ → Veh) (truck : ℕ → Bool) (f : Woods) (e : Event) : Res Woods :=
  match e.src, e.dst with
  | some _, some o =>
    (treeFlow scalar e.t (vehs e.veh) (f (truck e.veh) o)).bind fun a =>
      .ok fun b => if b = truck e.veh then upd (f b) o a else f b
  | _, _ => .ok f

/-- `loadOnce` of `Model.MNet` together with the trees.  As in `Net.loadOnceT`, the movements of the node phase
are gone through again in the order in which they happened: moving neither reads the trees nor changes the path,
class and assignment interval of a vehicle. -/
def loadOnceT (c : Cfg) (o : StepOracle) (ts assign : ℕ) (s : State × Woods) : Res (State × Woods) :=
  (Res.foldlM (setAttr c) s.1 (c.attrs ts)).bind fun s0 =>
    (stepRelease c o ts assign s0).bind fun s1 =>
      (o.routing.update c.net o.route s1).bind fun s2 =>
        (stepNodes c o ts s2).bind fun s3 =>
          (Res.foldlM (treeMove c.net.scalar s3.vehs s3.truck) s.2 (s3.log.drop s2.log.length)).bind fun f =>
            (Res.foldlM (linkStep o) s3 c.net.linkIds).bind fun s4 =>
              (Res.foldlM (receive c ts) s4 c.net.destIds).bind fun s5 => .ok (s5, f)

/-- `loadMany` of `Model.MNet` together with the trees. -/
def loadManyT (c : Cfg) : List StepOracle → ℕ → ℕ → State × Woods → Res ((State × Woods) × ℕ × ℕ)
  | [], ts, assign, s => .ok (s, ts, assign)
  | o :: os, ts, assign, s =>
    (loadOnceT c o ts assign s).bind fun s =>
      loadManyT c os (ts + 1) (if (ts + 1) % c.net.assignFreq = 0 then assign + 1 else assign) s

/-- `multiclass.cpp:114-129` `install_cumulative_curve_tree_multiclass` on the links in `ls`. -/
def plant (ls : List ℕ) : Woods := fun _ l => if l ∈ ls then some [] else none

/-- `dta_gradient_utls.h` `dar_record`. -/
structure DarRec where
  path : ℤ
  assign : ℤ
  link : ℕ
  start : ℤ
  flow : ℚ
deriving DecidableEq, Repr

/-- The body of the loops of `multiclass.cpp:4996-5024` (cars) and `5044-5072` (trucks) for one path and departure
interval; `reg` is `m_path_set`.  A vehicle without a path has key -1, which is never registered. -/
def darRec (reg : List ℤ) (link : ℕ) (p : ℤ × ℤ) (e : (ℤ × ℤ) × Curve) : Res (List DarRec) :=
  if e.1.1 ∈ reg then
    (getResult e.2 p.2).bind fun b => (getResult e.2 p.1).bind fun a =>
      .ok (if b - a > dblEps then [⟨e.1.1, e.1.2, link, p.1, b - a⟩] else [])
  else .ok []

/-- `multiclass.cpp:4980-5027` `add_dar_records_car` and `5029-5075` `add_dar_records_truck`: what is appended to the
records. -/
def addDarRecords (reg : List ℤ) (link : ℕ) (tr : Option Tree) (p : ℤ × ℤ) : Res (List DarRec) :=
  match tr with
  | none => .throw "link cumulative curve tree is not installed"
  | some tr => Res.foldlM (fun acc e => (darRec reg link p e).bind fun rs => .ok (acc ++ rs)) [] tr

/-- `_ext/mcdta.cpp:3171-3249` `get_car_dar_matrix` and `3251-3328` `get_truck_dar_matrix`, with the trees of the class
in `trees`, one per registered link, and the number of the link. -/
def darRecords (cur : ℤ) (trees : List (ℕ × Option Tree)) (periods : List (ℤ × ℤ)) (reg : List ℤ) :
    Res (List DarRec) :=
  Res.foldlM (fun acc t =>
    Res.foldlM (fun acc p =>
      (checkPeriod cur p).bind fun _ =>
        (addDarRecords reg t.1 t.2 p).bind fun rs => .ok (acc ++ rs)) acc periods) [] trees

/-- `_ext/mcdta.cpp:3405-3416`: the row of the file for one record; `np` and `nl` are the numbers of registered paths
and links.  (The text form of the number, `std::to_string` with six digits, is left out.) -/
def savedCell (nl np : ℕ) (f : List ℚ) (i t : ℕ) (r : DarRec) : Res Cell :=
  (portion f (r.path + np * r.assign) r.flow).bind fun v => .ok ⟨i + nl * t, r.path + np * r.assign, v⟩

/-- `_ext/mcdta.cpp:3331-3441` `save_car_dar_matrix` and `3443-3553` `save_truck_dar_matrix`: the rows of the file. -/
def saveDar (cur : ℤ) (trees : List (ℕ × Option Tree)) (periods : List (ℤ × ℤ)) (reg : List ℤ) (np : ℕ)
    (f : List ℚ) : Res (List Cell) :=
  Res.foldlM (fun acc (t : (ℕ × Option Tree) × ℕ) =>
    Res.foldlM (fun acc (p : (ℤ × ℤ) × ℕ) =>
      (checkPeriod cur p.1).bind fun _ =>
        (addDarRecords reg t.1.1 t.1.2 p.1).bind fun rs =>
          Res.foldlM (fun acc r => (savedCell trees.length np f t.2 p.2 r).bind fun c => .ok (acc ++ [c])) acc rs)
      acc periods.zipIdx) [] trees.zipIdx

/-- The body of the loops of `multiclass.cpp:5262-5293` (cars) and `5383-5414` (trucks) for one path and departure
interval up to the insertion.  Whether the path is registered is not checked; the number of the path of a vehicle
without path (null pointer) is undefined. -/
def darCell (link interval nl np : ℕ) (f : List ℚ) (p : ℤ × ℤ) (e : (ℤ × ℤ) × Curve) : Res (List Cell) :=
  (getResult e.2 p.2).bind fun b => (getResult e.2 p.1).bind fun a =>
    if b - a > dblEps then
      if e.1.1 < 0 then .ub
      else (portion f (e.1.1 + np * e.1.2) (b - a)).bind fun v =>
        .ok [⟨link + nl * interval, e.1.1 + np * e.1.2, v⟩]
    else .ok []

/-- Eigen's `SparseMatrix::insert`: undefined outside the matrix, and where there is an entry already. -/
def insertCell (rows cols : ℕ) (m : List Cell) (c : Cell) : Res (List Cell) :=
  if 0 ≤ c.row ∧ c.row < rows ∧ 0 ≤ c.col ∧ c.col < cols ∧ (c.row, c.col) ∉ m.map (fun x => (x.row, x.col)) then
    .ok (m ++ [c])
  else .ub

/-- `multiclass.cpp:5239-5297` `add_dar_records_eigen_car`, `5360-5418` `add_dar_records_eigen_truck`. -/
def addDarCells (rows cols link interval nl np : ℕ) (f : List ℚ) (p : ℤ × ℤ) (tr : Option Tree) (m : List Cell) :
    Res (List Cell) :=
  match tr with
  | none => .throw "link cumulative curve tree is not installed"
  | some tr => Res.foldlM (fun m e => (darCell link interval nl np f p e).bind fun cs =>
      Res.foldlM (insertCell rows cols) m cs) m tr

/-- `_ext/mcdta.cpp:3556-3674` `get_complete_car_dar_matrix` and `3676-3760` `get_complete_truck_dar_matrix`: `n` is
`num_intervals`, `np` the number of registered paths. -/
def completeDar (cur : ℤ) (trees : List (Option Tree)) (periods : List (ℤ × ℤ)) (n np : ℕ) (f : List ℚ) :
    Res (List Cell) :=
  Res.foldlM (fun m (t : Option Tree × ℕ) =>
    Res.foldlM (fun m (p : (ℤ × ℤ) × ℕ) =>
      (checkPeriod cur p.1).bind fun _ =>
        addDarCells (n * trees.length) (n * np) t.2 p.2 trees.length np f p.1 t.1 m) m periods.zipIdx) [] trees.zipIdx

end Verif.MNet
