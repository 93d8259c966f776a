import Verif.Model.Readers
import Verif.Model.Ults

/-!
# Model of the files of origins and destinations of electrified and delivery traffic

`MNM_IO_EV::build_od_factory_ev` (`ev_traffic.cpp:1561-1667`) and `MNM_IO_Delivery::build_od_factory_delivery` with nodes
(`delivery_traffic.cpp:528-628`).  `Assert` and `printf` do nothing.
-/

namespace Verif.PlF
open Text Rd

/-- An origin: its node, `m_pickup_waiting_time` (intervals) and, with electrified vehicles, `m_roadside_charging_ratio`. -/
structure Org where
  node : ℤ
  wait : ℤ
  ratio : ℚ
deriving DecidableEq

/-- Origins (destinations) in the factory; what a node was hooked to last (`none` inside for an object that is not in the
factory); the number of draws so far. -/
structure St where
  org : ℤ → Option Org
  at' : ℤ → Option (Option ℤ)
  draws : ℕ

def St.init : St := ⟨fun _ => none, fun _ => none, 0⟩

/-- The object is made (one that has its number stays in the factory), then hooked to its node. -/
def St.add (want : Io.NodeKind) (kind : ℤ → Option Io.NodeKind) (s : St) (id : ℤ) (o : Org) : Res St :=
  match kind o.node with
  | none => .throw noNode
  | some k =>
    if k = want then
      .ok ⟨if (s.org id).isSome then s.org else upd s.org id (some o),
        upd s.at' o.node (some (if (s.org id).isSome then none else some id)), s.draws⟩
    else .ub

/-- `ev_traffic.cpp:1625-1636`, `delivery_traffic.cpp:585-596`: the waiting time is rounded at random. -/
def makeOrigin (unit : ℤ) (u : ℕ → ℚ) (kind : ℤ → Option Io.NodeKind) (s : St) (id node : ℤ) (wait ratio : ℚ) : Res St :=
  if unit = 0 then .ub
  else (Ults.round (wait / unit) (u s.draws)).bind fun n => St.add .origin kind { s with draws := s.draws + 1 } id ⟨node, n, ratio⟩

/-- `ev_traffic.cpp:1596-1637`, `delivery_traffic.cpp:558-597`: one row of an origin.  `ev` tells which of the two readers
it is.  Rows with another number of words are skipped (the exception for them is inside of the condition). -/
def originRow (ev : Bool) (unit : ℤ) (u : ℕ → ℚ) (kind : ℤ → Option Io.NodeKind) (s : St) (line : Str) : Res St :=
  match split line ' ' with
  | [w0, w1] => (stoi w0).bind fun id => (stoi w1).bind fun n => makeOrigin unit u kind s id n 0 0
  | [w0, w1, w2] => (stoi w0).bind fun id => (stoi w1).bind fun n => (stod w2).bind fun x => makeOrigin unit u kind s id n x 0
  | [w0, w1, w2, w3] =>
    if ev then
      (stoi w0).bind fun id => (stoi w1).bind fun n => (stod w2).bind fun x => (stod w3).bind fun y =>
        makeOrigin unit u kind s id n x y
    else .ok s
  | _ => .ok s

/-- `ev_traffic.cpp:1641-1662`, `delivery_traffic.cpp:601-624`: one row of a destination (the message is that of the first
reader). -/
def destRow (kind : ℤ → Option Io.NodeKind) (s : St) (line : Str) : Res St :=
  match split line ' ' with
  | [w0, w1] => (stoi w0).bind fun id => (stoi w1).bind fun n => St.add .dest kind s id ⟨n, 0, 0⟩
  | _ => .throw "Something is wrong in destination part in od input file"

/-- The whole function; `no`, `nd` are `num_of_O` and `num_of_D`. -/
def build (ev : Bool) (unit : ℤ) (u : ℕ → ℚ) (kind : ℤ → Option Io.NodeKind) (no nd : ℤ) : Option Str → Res (St × St)
  | none => .ok (St.init, St.init)
  | some content =>
    (countLoop (originRow ev unit u kind) no.toNat (getline (In.open content)) St.init).bind fun r =>
      (countLoop (destRow kind) nd.toNat (getline r.2) St.init).bind fun q => .ok (r.1, q.1)

end Verif.PlF
