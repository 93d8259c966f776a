import Verif.Basic
import Mathlib.Algebra.Order.Ring.Rat

/-!
# Model of the link records (`src/statistics.cpp`)

`MNM_Statistics` with its subclass `MNM_Statistics_Lrn`, the only one that is made
(`io.cpp` `build_statistics`).  The maps from link numbers to values have an entry for every link of the
link factory from `init_record` on, and only these entries are read or written, so they are total
functions here.  The files are lists of rows of exact values; printing them with `std::to_string` (six
decimals) is not modelled.  `links` is the iteration order of `m_link_map`, which does not change while
links are not added.
-/

namespace Verif.Stat

/-- The maps of one quantity (volume or travel time): `m_load_interval_*`, `m_record_interval_*` and
`m_to_be_*`. -/
structure Quantity where
  on : Bool            -- `m_record_volume` / `m_record_tt`
  load : ℤ → ℚ
  record : ℤ → ℚ
  toBe : ℤ → ℚ

/-- A record file: the link numbers of the header, then one row per record. -/
structure Sheet where
  header : List ℤ
  rows : List (ℤ × List ℚ)
deriving DecidableEq

structure Stats where
  n : ℤ                -- `m_n`
  volume : Quantity
  tt : Quantity
  order : List ℤ       -- `m_link_order`
  volumeLoad : Option Sheet
  volumeRecord : Option Sheet
  ttLoad : Option Sheet
  ttRecord : Option Sheet

/-- The switches of the configuration. -/
structure Switches where
  volume : Bool        -- `rec_volume`
  tt : Bool            -- `rec_tt`
  volumeLoad : Bool    -- `volume_load_automatic_rec`
  volumeRecord : Bool
  ttLoad : Bool
  ttRecord : Bool

/-- A file is opened and its header written when both switches are set, `statistics.cpp:96-134`,
`147-185`. -/
def openSheet (a b : Bool) (links : List ℤ) : Option Sheet := if a && b then some ⟨links, []⟩ else none

/-- `statistics.cpp:79-199` and `399-424`: `init_record` of both classes. -/
def init (s : Switches) (n : ℤ) (links : List ℤ) : Stats :=
  { n := n
    volume := ⟨s.volume, fun _ => 0, fun _ => 0, fun _ => 0⟩
    tt := ⟨s.tt, fun _ => 0, fun _ => 0, fun _ => 0⟩
    order := links
    volumeLoad := openSheet s.volume s.volumeLoad links
    volumeRecord := openSheet s.volume s.volumeRecord links
    ttLoad := openSheet s.tt s.ttLoad links
    ttRecord := openSheet s.tt s.ttRecord links }

/-- One link in the loops of `statistics.cpp:325-358` (volume) and `359-388` (travel time): `x` is the
value just read from the link. -/
def Quantity.one (n t : ℤ) (q : Quantity) (l : ℤ) (x : ℚ) : Quantity :=
  if t.tmod n = 0 ∨ t = 0 then
    { q with
      load := upd q.load l x
      record := upd q.record l (if t = 0 then x else q.toBe l + x / n)
      toBe := upd q.toBe l 0 }
  else
    { q with
      load := upd q.load l x
      toBe := upd q.toBe l (q.toBe l + x / n) }

/-- The loop over the links. -/
def Quantity.all (n t : ℤ) (val : ℤ → ℚ) (links : List ℤ) (q : Quantity) : Quantity :=
  if q.on then links.foldl (fun q l => q.one n t l (val l)) q else q

/-- One row, `statistics.cpp:203-233` and `236-270`. -/
def Sheet.write (t : ℤ) (order : List ℤ) (m : ℤ → ℚ) (s : Sheet) : Sheet :=
  { s with rows := s.rows ++ [(t, order.map m)] }

/-- `statistics.cpp:320-397` `update_record`; `flow` and `time` are `get_link_flow` and `get_link_tt` of
the links at this moment.  The remainder by zero is undefined. -/
def update (links : List ℤ) (t : ℤ) (flow time : ℤ → ℚ) (s : Stats) : Res Stats :=
  if s.n = 0 then .ub
  else
    let v := s.volume.all s.n t flow links
    let w := s.tt.all s.n t time links
    let records := t.tmod s.n = 0 ∨ t = 0
    .ok { s with
      volume := v
      tt := w
      volumeLoad := if v.on then s.volumeLoad.map (Sheet.write t s.order v.load) else s.volumeLoad
      ttLoad := if w.on then s.ttLoad.map (Sheet.write t s.order w.load) else s.ttLoad
      volumeRecord :=
        if records ∧ v.on then s.volumeRecord.map (Sheet.write t s.order v.record) else s.volumeRecord
      ttRecord := if records ∧ w.on then s.ttRecord.map (Sheet.write t s.order w.record) else s.ttRecord }

/-- The calls of a loading of `T + 1` intervals, `dta.cpp:548-550` and `680`: first timestamp -1 on the
empty network, then one call per interval. -/
def times (T : ℕ) : List ℤ := -1 :: (List.range (T + 1)).map Int.ofNat

/-- A whole loading: `flow t` and `time t` are the values of the links when `update_record (t)` is
called. -/
def run (links : List ℤ) (flow time : ℤ → ℤ → ℚ) (s : Stats) (ts : List ℤ) : Res Stats :=
  Res.foldlM (fun s t => update links t (flow t) (time t) s) s ts

end Verif.Stat
