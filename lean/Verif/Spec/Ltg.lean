import Verif.Spec.Marginal
import Verif.Spec.MQuery
import Verif.Model.Ltg

/-!
# Specification vocabulary for travel time gradients

An additional vehicle of a class is followed along a path.  `Data` has, for the links, what the curves of that class
say.
-/

namespace Verif.Ltg
open Tt Marg

/-- `L` is the last interval up to which travel times are known: the last one whose entries have all left by `T`, or `0`
if nobody has left although somebody has entered. -/
def ValidUntil (T : ℕ) (ins outs : List (ℕ × ℕ)) (L : ℕ) : Prop :=
  (upTo outs T = 0 ∧ upTo ins T ≠ 0 ∧ L = 0) ∨
    ((upTo outs T = 0 → upTo ins T = 0) ∧ IsGreatest {t | t ≤ T ∧ upTo ins t ≤ upTo outs T} L)

/-- A vehicle of class `b` that enters in interval `t` and drives freely leaves while the link discharges as many
vehicles of the class as the last cell can let go of it alone. -/
def AtLimit {V : Type} (unit σ : ℚ) (b : Bool) (k : MLnk.Link V) (outs : List (ℕ × ℕ)) (f t : ℕ) : Prop :=
  ∃ m c, k = .ctm m ∧ m.cells.getLast? = some c ∧
    (during outs (t + f) : ℤ) = ⌊(if b then c.dia.capTruck else c.dia.capCar) * unit * σ⌋

/-- The link is a point queue or a cell-transmission link with cells; the capacity for class `b` stays below the limit
from which on comparisons are inexact. -/
def Supported {V : Type} (unit σ : ℚ) (b : Bool) (k : MLnk.Link V) : Prop :=
  (∃ q, k = .pq q) ∨ ∃ m c, k = .ctm m ∧ m.cells.getLast? = some c ∧
    0 ≤ ⌊(if b then c.dia.capTruck else c.dia.capCar) * unit * σ⌋ ∧
    ⌊(if b then c.dia.capTruck else c.dia.capCar) * unit * σ⌋ < 10000

/-- The links as one class of vehicles sees them: point queues, travel times by interval of entry, free-flow times, times
at which queues have dissipated, last valid times, departures. -/
structure Data where
  pq : ℤ → Bool
  τ : ℤ → ℕ → ℚ
  f : ℤ → ℕ
  d : ℤ → ℕ → ℕ
  L : ℤ → ℕ
  outs : ℤ → List (ℕ × ℕ)

namespace Data

/-- The interval in which a vehicle leaves link `l` that enters in interval `a`; the last interval stands for all later
ones. -/
def leave (D : Data) (T : ℕ) (l : ℤ) (a : ℕ) : ℕ := a + Sp.ticks (D.τ l (min a (T - 1)))

/-- The links that the additional vehicle changes, with the intervals from which on it does: a point queue from its
arrival `t` on, another link from the time `u` on at which the queue on the previous link has dissipated.  It ends at
the first link for which this is not before the threshold and in the valid times. -/
def visits (D : Data) (T : ℕ) (thr : ℤ) : ℕ → ℕ → List ℤ → List (ℤ × ℕ)
  | _, _, [] => []
  | t, u, l :: ls =>
    let a := if D.pq l then t else u
    if a < D.L l ∧ (a : ℤ) < thr then
      (l, a) :: D.visits T thr (D.leave T l t) (D.d l a + Sp.ticks (D.f l)) ls
    else []

/-- The interval in which the last vehicle leaves that is delayed by a vehicle entering link `l` in interval `a`, within
the loading and the valid times. -/
def lastOut (D : Data) (T : ℕ) (l : ℤ) (a : ℕ) : ℕ :=
  min (T - 1) (if D.d l a < D.L l then D.d l a + Sp.ticks (D.f l) else D.leave T l (D.L l - 1))

/-- Vehicles that leave link `l` in the intervals `p` to `q`. -/
def left (D : Data) (l : ℤ) (p q : ℕ) : ℕ := upTo (D.outs l) (q + 1) - upTo (D.outs l) p

/-- Flow per interval in the intervals `p` to `q`. -/
def rate (D : Data) (σ : ℚ) (l : ℤ) (p q : ℕ) : ℚ := (D.left l p q : ℚ) / σ / ((q : ℚ) + 1 - p)

/-- The gradients for one link that is changed from interval `a` on: if it is registered and congested, and vehicles
leave between the additional one and the last delayed one, then for every interval of entry until the queue has
dissipated, the seconds per vehicle in which they leave. -/
def recsAt (D : Data) (T : ℕ) (unit σ : ℚ) (reg : List ℤ) (path : ℤ) (start : ℕ) (v : ℤ × ℕ) : List Rec :=
  if v.1 ∈ reg ∧ (D.f v.1 : ℚ) < D.τ v.1 v.2 ∧ D.leave T v.1 v.2 < D.lastOut T v.1 v.2 ∧
      0 < D.left v.1 (D.leave T v.1 v.2) (D.lastOut T v.1 v.2) then
    (List.range' v.2 (min (D.d v.1 v.2) (D.L v.1) - v.2)).map fun t : ℕ =>
      ⟨path, start, v.1, t, unit / D.rate σ v.1 (D.leave T v.1 v.2) (D.lastOut T v.1 v.2)⟩
  else []

/-- All gradients, path by path and start by start, for the paths with a registered link. -/
def records (D : Data) (T : ℕ) (unit σ : ℚ) (thr : ℤ) (reg : List ℤ) (paths : List (ℤ × List ℤ)) (starts : List ℕ) :
    List Rec :=
  paths.flatMap fun p =>
    if ∃ l ∈ reg, l ∈ p.2 then
      starts.flatMap fun s => (D.visits T thr s 0 p.2).flatMap (D.recsAt T unit σ reg p.1 s)
    else []

end Data

/-- `D` is what the histories `ins` and `outs` of class `b` say about link `l` of type `k`; `L` is not said. -/
structure Says {V : Type} (T : ℕ) (unit σ : ℚ) (b : Bool) (D : Data) (k : MLnk.Link V) (ins : List (ℕ × ℕ)) (l : ℤ) :
    Prop where
  pq : D.pq l = true ↔ ∃ m, k = .pq m
  times : ∀ t < T, LinkTime T ins (D.outs l) (D.f l) (t + 1) (D.τ l t)
  diss : ∀ t < T, Dissipates T (D.τ l) (D.f l) T (AtLimit unit σ b k (D.outs l) (D.f l)) t (D.d l t)

/-- The network after a loading (C99), before any query: the links `e.q.ids` have recorded the histories of cars and
trucks, `f` is their free-flow time, nothing has been computed, and the numbers stay below the limits of the exact
comparisons and of machine integers. -/
structure Ready {V : Type} (e : Env V) (ins outs : Bool → ℤ → List (ℕ × ℕ)) (f : Bool → ℤ → ℕ) (k : ℤ → MLnk.Link V)
    (q : ℤ → MQuery.Link) (s : State) : Prop where
  steps : 0 < e.q.T
  loaded : MQuery.LoadedNet e.scalar e.q.T ins outs s.q e.q.ids q
  fresh : MQuery.NoTables s.q
  cong : ∀ b l, s.cong b l = none
  diss : ∀ b l, s.diss b l = none
  once : e.q.ids.Nodup
  kind : ∀ l ∈ e.q.ids, e.kind l = some (k l) ∧ ∀ b, Supported e.q.unit e.scalar b (k l)
  fftt : ∀ l ∈ e.q.ids, ∀ b, ffttLoading b (k l) = .ok (f b l : ℤ) ∧ ((q l).cc b).fftt = f b l ∧ f b l ≤ 100000
  scale : e.scalar * e.q.T < 4503599627370496

/-- The paths start with a point queue and have links of the network, at most 10000. -/
def GoodPaths {V : Type} (e : Env V) (k : ℤ → MLnk.Link V) : Prop :=
  ∀ p ∈ e.paths, (∀ l ∈ p.2, l ∈ e.q.ids) ∧ p.2.length ≤ 10000 ∧ ∀ l, p.2.head? = some l → ∃ m, k l = .pq m

/-- The sum of the gradients of link `l` for entries in assignment interval `h`, of path `j` and starts in assignment
interval `g`, with `ai` intervals each. -/
def total (ai l h j g : ℤ) (recs : List Rec) : ℚ :=
  ((recs.filter fun r => r.link = l ∧ r.time / ai = h ∧ r.path = j ∧ r.start / ai = g).map (·.gradient)).sum

end Verif.Ltg
