import Verif.Model.Stats

/-!
# Model of the link records of two classes (`src/multiclass.cpp:6210-6811`)

`MNM_Statistics_Lrn_Multiclass` keeps every quantity three times: of the link, of its cars and of its
trucks.  The same simplifications as in `Verif.Model.Stats`; opening the files is taken to succeed.
-/

namespace Verif.MStat
open Stat

/-- Something that is kept for the link, for its cars and for its trucks. -/
structure Three (α : Type) where
  all : α
  car : α
  truck : α
deriving DecidableEq

/-- The maps and files of volumes, or of travel times. -/
structure Group where
  on : Bool                        -- `m_record_volume` / `m_record_tt`
  q : Three Quantity               -- `m_to_be_*`, `m_load_interval_*`, `m_record_interval_*`
  load : Three (Option Sheet)      -- `m_load_interval_*_file`
  record : Three (Option Sheet)    -- `m_record_interval_*_file`

structure Stats where
  n : ℤ                            -- `m_n`
  volume : Group
  tt : Group
  order : List ℤ                   -- `m_link_order`

/-- The entries of `init_record` for one quantity, `multiclass.cpp:6396-6420`, `6505-6528`. -/
def zeros (on : Bool) : Quantity := ⟨on, fun _ => 0, fun _ => 0, fun _ => 0⟩

/-- Three files are opened together, `multiclass.cpp:6422-6501`, `6530-6611`. -/
def openThree (a b : Bool) (links : List ℤ) : Three (Option Sheet) :=
  ⟨openSheet a b links, openSheet a b links, openSheet a b links⟩

/-- `multiclass.cpp:6390-6628` `init_record`. -/
def init (s : Switches) (n : ℤ) (links : List ℤ) : Stats :=
  { n := n
    volume := ⟨s.volume, ⟨zeros s.volume, zeros s.volume, zeros s.volume⟩,
      openThree s.volume s.volumeLoad links, openThree s.volume s.volumeRecord links⟩
    tt := ⟨s.tt, ⟨zeros s.tt, zeros s.tt, zeros s.tt⟩, openThree s.tt s.ttLoad links, openThree s.tt s.ttRecord links⟩
    order := links }

/-- What the links answer at one moment.  `ttOfCar l f` and `ttOfTruck l f` are
`get_link_tt_from_flow_car` and `_truck` of link `l` for the flow `f`. -/
structure Answers where
  flow : ℤ → ℚ                     -- `get_link_flow`
  car : ℤ → ℚ                      -- `get_link_flow_car`
  truck : ℤ → ℚ                    -- `get_link_flow_truck`
  tt : ℤ → ℚ                       -- `get_link_tt`
  ttOfCar : ℤ → ℚ → ℚ
  ttOfTruck : ℤ → ℚ → ℚ

/-- One link in the loops of `multiclass.cpp:6637-6702` (volume): the three entries are written one after
the other. -/
def oneVolume (n t : ℤ) (a : Answers) (q : Three Quantity) (l : ℤ) : Three Quantity :=
  ⟨q.all.one n t l (a.flow l), q.car.one n t l (a.car l), q.truck.one n t l (a.truck l)⟩

/-- One link in the loops of `multiclass.cpp:6705-6767` (travel time): the time of a class is the one
that its own flow gives. -/
def oneTt (n t : ℤ) (a : Answers) (q : Three Quantity) (l : ℤ) : Three Quantity :=
  ⟨q.all.one n t l (a.tt l), q.car.one n t l (a.ttOfCar l (a.car l)), q.truck.one n t l (a.ttOfTruck l (a.truck l))⟩

/-- One row in each of three files, if all three are open: `multiclass.cpp:6256-6387`. -/
def write (on : Bool) (t : ℤ) (order : List ℤ) (m : Three (ℤ → ℚ)) (f : Three (Option Sheet)) : Three (Option Sheet) :=
  match on, f.all, f.car, f.truck with
  | true, some x, some y, some z =>
    ⟨some (x.write t order m.all), some (y.write t order m.car), some (z.write t order m.truck)⟩
  | _, _, _, _ => f

/-- The values of the last interval and of the last record. -/
def loads (q : Three Quantity) : Three (ℤ → ℚ) := ⟨q.all.load, q.car.load, q.truck.load⟩
def records (q : Three Quantity) : Three (ℤ → ℚ) := ⟨q.all.record, q.car.record, q.truck.record⟩

/-- Volumes or travel times in one call. -/
def Group.update (one : Three Quantity → ℤ → Three Quantity) (atRecord : Bool) (t : ℤ) (links order : List ℤ) (g : Group) :
    Group :=
  let q := if g.on then links.foldl one g.q else g.q
  { g with
    q := q
    load := write g.on t order (loads q) g.load
    record := if atRecord then write g.on t order (records q) g.record else g.record }

/-- `multiclass.cpp:6630-6776` `update_record`.  The remainder by zero is undefined; it is taken
whatever is recorded (line 6771). -/
def update (links : List ℤ) (t : ℤ) (a : Answers) (s : Stats) : Res Stats :=
  if s.n = 0 then .ub
  else
    let atRecord := decide (t.tmod s.n = 0 ∨ t = 0)
    .ok { s with
      volume := s.volume.update (oneVolume s.n t a) atRecord t links s.order
      tt := s.tt.update (oneTt s.n t a) atRecord t links s.order }

/-- A whole loading: `a t` is what the links answer when `update_record (t)` is called. -/
def run (links : List ℤ) (a : ℤ → Answers) (s : Stats) (ts : List ℤ) : Res Stats :=
  Res.foldlM (fun s t => update links t (a t) s) s ts

end Verif.MStat
