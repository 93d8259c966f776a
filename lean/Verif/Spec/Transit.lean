import Verif.Model.Transit
import Verif.Spec.History
import Mathlib.Order.Interval.Finset.Nat

/-!
# Vocabulary for what passengers of a multimodal network do

The log of a loading lists every movement of a passenger from one link of the transit graph to
another one: the interval, the passenger, the link left (`none` at an origin or a parking lot) and
the link entered (`none` at the destination).
-/

namespace Verif.Tr
open Ults Curve

/-- The network is put together the way the readers do it: the links of a virtual bus stop are what
their names say and belong to its route, a link does not lead back to the place where it starts and
is listed once. -/
structure Cfg.Wf (c : Cfg) : Prop where
  links : c.linkIds.Nodup
  boarding : ∀ v ∈ c.vstopIds, ∀ w, (c.vstop v).boarding = some w → (c.link w).kind = .boarding
  busOut : ∀ v ∈ c.vstopIds, ∀ o, (c.vstop v).busOut = some o → (c.link o).kind = .bus (c.vstop v).route
  busIn : ∀ v ∈ c.vstopIds, ∀ i, (c.vstop v).busIn = some i →
    (c.link i).kind.walking = false ∧ i ∈ c.linkIds
  doors : ∀ v ∈ c.vstopIds, ∀ n, (c.vstop v).alighting = some n →
    (c.link n).kind = .alighting ∧ (c.vstop v).boarding ≠ some n
  stops : ∀ k ∈ c.pstopIds, ∀ l, l ∈ (c.pstop k).walkIn ∨ l ∈ (c.pstop k).alighting →
    l ∉ (c.pstop k).walkOut ∧ l ∉ (c.pstop k).boarding
  dests : ∀ d ∈ c.destIds, ∀ k, (c.dest d).lot = some k → ∀ l ∈ (c.dest d).walkIn,
    l ∉ (c.lot k).walkOut

/-- The paths: the links of a path, and whether a path leads from a node to another one. -/
structure Routes where
  links : ℕ → List ℕ
  od : ℕ → ℕ → ℕ → Prop

/-- What the random choices and the paths of an interval satisfy: a shuffle and an iteration order
are permutations, a path always has the same links, and the paths of an origin and a destination
are paths of that origin and destination. -/
structure Orc.Ok (R : Routes) (orc : Orc) : Prop where
  shuffle : ∀ o L, (orc.shuffle o L).Perm L
  order : ∀ l L, (orc.order l L).Perm L
  buses : ∀ v b sh, BusEv.visit v b sh ∈ orc.buses → ∀ L, (sh L).Perm L
  links : orc.pt.links = R.links
  od : ∀ o d ps, orc.pt.pathset o d = some ps → ∀ x ∈ ps, R.od o d x.1

/-- A passenger's path is one of its origin and destination, or the one its car came with. -/
def Chosen (c : Cfg) (R : Routes) (x : Pax) (q : ℕ) : Prop :=
  (x.pnr = false → R.od (c.origin x.origin).node (c.dest x.dest).node q) ∧
  (x.pnr = true → x.path = some q)

/-- The movements of passenger `p`, in order. -/
def moves (log : List Net.Event) (p : ℕ) : List Net.Event := log.filter fun e => decide (e.veh = p)

/-- The links passenger `p` has entered, in order. -/
def trav (log : List Net.Event) (p : ℕ) : List ℕ := (moves log p).filterMap Net.Event.dst

/-- Movements that start on link `a`, each of them where the one before it ended, and end on link `b`. -/
def Continuous (a b : Option ℕ) : List Net.Event → Prop
  | [] => a = b
  | e :: es => e.src = a ∧ Continuous e.dst b es

/-- The number of passengers on link `l`. -/
def onLink (s : State) (l : ℕ) : ℕ :=
  ((Finset.Icc 1 s.num).filter fun p => (s.pax p).cur = some l).card

/-- The number of passengers who have started their trips by interval `i` and have not arrived by then. -/
def underway (s : State) (i : ℕ) : ℕ :=
  ((Finset.Icc 1 s.num).filter fun p =>
    (s.pax p).start ≤ i ∧ ¬ (0 ≤ (s.pax p).finish ∧ (s.pax p).finish ≤ i)).card

/-- The parking lots that belong to destinations. -/
def Cfg.lots (c : Cfg) : List ℕ := c.destIds.filterMap fun d => (c.dest d).lot

/-- The number of cars that have come to parking lot `k` in the given intervals. -/
def carsAt (orcs : List Orc) (k : ℕ) : ℕ := (orcs.map fun o => (o.cars k).length).sum

/-- The number of park-and-ride cars that have come to the parking lots in the given intervals. -/
def pnrCars (c : Cfg) (orcs : List Orc) : ℕ :=
  (orcs.map fun o => (c.lots.map fun k => (o.cars k).countP fun x => x.pnr).sum).sum

/-- The time it takes to find a place in a parking lot with `n` cars. -/
def Lot.search (lot : Lot) (n : ℕ) : ℚ :=
  if (n : ℚ) ≥ lot.capacity then 10 * lot.avg else lot.avg / (1 - n / lot.capacity)

/-! ### Walking -/

/-- The movement is one of a passenger on foot: from an origin or a parking lot, or from a walking link
or an alighting link. -/
def onFoot (c : Cfg) (e : Net.Event) : Prop :=
  ∀ l, e.src = some l → (c.link l).kind = .normal ∨ (c.link l).kind = .alighting

/-- Link `l` is a walking link that ends at a destination or a physical bus stop. -/
def Cfg.leads (c : Cfg) (l : ℕ) : Prop :=
  (∃ d ∈ c.destIds, l ∈ (c.dest d).walkIn) ∨ ∃ k ∈ c.pstopIds, l ∈ (c.pstop k).walkIn

/-- The number of intervals walking along link `l` takes. -/
def Cfg.walkTime (c : Cfg) (l : ℕ) : ℤ := max 1 (c.link l).maxStamp

/-- A passenger that enters a walking link on foot with movement `e` and leaves it with movement `e'`
has spent the walking time of the link on it, or more; not more if it was on its way already and the
link leads somewhere. -/
def Paced (c : Cfg) (e e' : Net.Event) : Prop :=
  ∀ l ∈ c.linkIds, e.dst = some l → (c.link l).kind = .normal → onFoot c e →
    (e.t : ℤ) + c.walkTime l ≤ e'.t ∧ (e.src ≠ none → c.leads l → (e.t : ℤ) + c.walkTime l = e'.t)

/-! ### Buses at stops -/

/-- Passenger `p` is to get off at stop `v`: its next link is the alighting link of the stop. -/
def wantsOff (c : Cfg) (v : ℕ) (s : State) (p : ℕ) : Bool :=
  decide ((s.pax p).next ≠ none ∧ (s.pax p).next = (c.vstop v).alighting)

/-- The passengers at the end of the boarding link of stop `v`, first in line first. -/
def waiting (c : Cfg) (v : ℕ) (s : State) : List ℕ :=
  match (c.vstop v).boarding with
  | none => []
  | some w => s.loc (.finished w)

/-- Without simulated buses: passenger `p` is to get on a bus link, as the next link of its path is one. -/
def ridesNext (c : Cfg) (s : State) (p : ℕ) : Bool :=
  (s.pax p).next.any fun n => !(c.link n).kind.walking

/-- The passengers at the end of a link, if there is one. -/
def atEndOf (s : State) : Option ℕ → List ℕ
  | none => []
  | some l => s.loc (.finished l)

/-- Of the passengers in `line` those in `served` are served, first in line first: at most `limit` of them are
`slow`, and the line stops only before a passenger who is slow when `limit` slow ones have been served. -/
def ServedInOrder (slow : ℕ → Bool) (limit : ℕ) (line served : List ℕ) : Prop :=
  ∃ rest, line = served ++ rest ∧ served.countP slow ≤ limit ∧
    ∀ q ∈ rest.head?, slow q = true ∧ served.countP slow = limit

/-- `x` is the state after the intervals `orcs` and, in the interval `o` that follows them, after
the calls `evs` at bus stops. -/
def Within (c : Cfg) (orcs : List Orc) (o : Orc) (evs : List BusEv) (x : State) : Prop :=
  ∃ r w, loadMany c orcs 0 0 (State.init c) = .ok r ∧
    beforeBuses c o orcs.length r.2.2 r.1 = .ok w ∧
    Res.foldlM (busEv c o orcs.length) w evs = .ok x

end Verif.Tr
