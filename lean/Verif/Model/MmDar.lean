import Verif.Model.Transit
import Verif.Model.MTrees

/-!
# Model of the trees of cumulative curves of passengers

`multimodal.cpp` `MNM_Transit_Link::install_cumulative_curve_tree`, the places where passengers enter links,
`add_dar_records_passenger`; `_ext/mmdta.cpp` `get_passenger_dar_matrix_bustransit` and `..._pnr`.
-/

namespace Verif.Tr
open Ults Curve Tab

/-- `m_N_in_tree` of every transit link, null unless installed.  The out-trees stay null (`multimodal.cpp:3372-3385`). -/
abbrev Grove := ℕ → Option Tree

/-- The path pointer and the departure interval under which a passenger is filed: `m_pnr_path` of a passenger that
came by car, `m_transit_path` of another one (`multimodal.cpp:594-615` and the like), and `m_assign_interval`.  The
number of the park-and-ride path of a passenger that came by car is given by `pnr`.  The other fields do not matter. -/
def card (pnr : ℕ → ℕ) (s : State) (p : ℕ) : Net.Veh :=
  ⟨0, 0, false, 0, 0, none, none, if (s.pax p).pnr then some (pnr p) else (s.pax p).path, (s.pax p).assign, 0⟩

/-- `multimodal.cpp:2595-2605, 1609-1620, 586-616` and the like: a passenger enters a link;
`m_N_in_tree->add_flow (timestamp + 1, 1 / m_flow_scalar, path, m_assign_interval)` unless the tree is null. -/
def treeIn (c : Cfg) (pnr : ℕ → ℕ) (s : State) (f : Grove) (e : Net.Event) : Res Grove :=
  match e.dst with
  | none => .ok f
  | some l => (Net.treeFlow c.scalar e.t (card pnr s e.veh) (f l)).bind fun a => .ok (upd f l a)

/-- The trees after a part of an interval that took the passengers from state `s` to state `s'`: the movements of this
part are gone through again, in the order in which they happened.  (Moving neither reads the trees nor changes the
path and the departure interval of a passenger.) -/
def regrow (c : Cfg) (pnr : ℕ → ℕ) (s s' : State) (f : Grove) : Res Grove :=
  Res.foldlM (treeIn c pnr s') f (s'.log.drop s.log.length)

/-- `loadOnce` of `Model.Transit` together with the trees.  `MNM_Destination_Multimodal::evolve`
(`multimodal.cpp:2305-2372`) updates curves, but no trees; all other parts of the interval in which passengers enter links
update both. -/
def loadOnceT (c : Cfg) (pnr : ℕ → ℕ) (orc : Orc) (ts assign : ℕ) (s : State × Grove) : Res (State × Grove) :=
  (stepRelease c orc ts assign s.1).bind fun s1 =>
  (routing c orc s1).bind fun s2 =>
  (Res.foldlM (originEvolve c ts) s2 c.originIds).bind fun s3 =>
  (regrow c pnr s.1 s3 s.2).bind fun f =>
  (Res.foldlM (destEvolve c ts) s3 c.destIds).bind fun s4 =>
  (Res.foldlM (stopEvolve c ts) s4 c.pstopIds).bind fun s5 =>
  (Res.foldlM (walkStep c orc) s5 c.linkIds).bind fun s6 =>
  (implicitStep c orc ts s6).bind fun s7 =>
  (Res.foldlM (busEv c orc ts) (recordQueue c s7) orc.buses).bind fun s8 =>
  (afterBuses c orc ts s8).bind fun s9 =>
  (regrow c pnr s4 s9 f).bind fun f =>
    .ok (s9, f)

/-- `loadMany` of `Model.Transit` together with the trees. -/
def loadManyT (c : Cfg) (pnr : ℕ → ℕ) : List Orc → ℕ → ℕ → State × Grove → Res ((State × Grove) × ℕ × ℕ)
  | [], ts, assign, s => .ok (s, ts, assign)
  | o :: os, ts, assign, s =>
    (loadOnceT c pnr o ts assign s).bind fun s =>
      loadManyT c pnr os (ts + 1) (if (ts + 1) % c.assignFreq = 0 then assign + 1 else assign) s

/-- `multimodal.cpp:3372-3385` and `3426-3439` `install_cumulative_curve_tree` for passengers, on the links in `ls`
(`_ext/mmdta.cpp:906-930`). -/
def plant (ls : List ℕ) : Grove := fun l => if l ∈ ls then some [] else none

/-- The body of the loop of `multimodal.cpp:11375-11400` for one path and departure interval: the path pointer is
dereferenced, which is undefined for a null pointer (key -1). -/
def darRec (reg : List ℤ) (link : ℕ) (p : ℤ × ℤ) (e : (ℤ × ℤ) × Curve) : Res (List MNet.DarRec) :=
  if e.1.1 < 0 then .ub else MNet.darRec reg link p e

/-- `multimodal.cpp:11355-11405` `add_dar_records_passenger` with a set of path numbers: what is appended to the
records. -/
def addDarRecords (reg : List ℤ) (link : ℕ) (tr : Option Tree) (p : ℤ × ℤ) : Res (List MNet.DarRec) :=
  match tr with
  | none => .throw "link cumulative curve tree is not installed"
  | some tr => Res.foldlM (fun acc e => (darRec reg link p e).bind fun rs => .ok (acc ++ rs)) [] tr

/-- `_ext/mmdta.cpp:7376-7499` `get_passenger_dar_matrix_bustransit` and `7501-7625` `get_passenger_dar_matrix_pnr`:
the registered bus links, then the registered walking links; `reg` are the numbers of the registered paths of the
mode. -/
def darRecords (cur : ℤ) (buses walks : List ℕ) (f : Grove) (periods : List (ℤ × ℤ)) (reg : List ℤ) :
    Res (List MNet.DarRec) :=
  Res.foldlM (fun acc l =>
    Res.foldlM (fun acc p =>
      (checkPeriod cur p).bind fun _ =>
        (addDarRecords reg l (f l) p).bind fun rs => .ok (acc ++ rs)) acc periods) [] (buses ++ walks)

end Verif.Tr
