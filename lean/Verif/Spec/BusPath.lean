import Verif.Model.BusPath

/-!
# What the driving links of bus links, the paths of buses and waiting times should be
-/

namespace Verif.Spec.BusP
open Verif.BusP

/-- The driving links of a bus link lead from the link of its first stop to the link of its second one. -/
structure Along (b : BLink) : Prop where
  first : b.over.head?.map (·.id) = some b.src.link
  last : b.over.getLast?.map (·.id) = some b.dst.link

/-- The ride does not come back to the link on which it began, nor pass the link on which it ends before. -/
structure Once (b : BLink) : Prop where
  first : ∀ d ∈ b.over.tail, d.id ≠ b.src.link
  last : ∀ d ∈ b.over.dropLast, d.id ≠ b.dst.link

/-- Where the ride begins on the `i`-th of the driving links. -/
def begins (b : BLink) (i : ℕ) : ℚ := if i = 0 then b.src.loc else 0

/-- Where the ride ends on the `i`-th of the driving links, which is `d`. -/
def ends (b : BLink) (i : ℕ) (d : DLink) : ℚ := if i + 1 = b.over.length then b.dst.loc else d.len

/-- The distance from one stop to the other: all the driving links without the part of the first one before the stop
and the part of the last one behind the stop. -/
def distance (b : BLink) : ℚ :=
  (b.over.map (·.len)).sum - b.src.loc - (((b.over.getLast?.map (·.len)).getD 0) - b.dst.loc)

/-- A list is cut into pieces, each of which begins with the last element of the piece before. -/
inductive Cut {α : Type} : List α → List (List α) → Prop
  | one (l : List α) : l ≠ [] → Cut l [l]
  | cons (a : List α) (x : α) (rest : List α) (segs : List (List α)) :
      Cut (x :: rest) segs → Cut (a ++ x :: rest) ((a ++ [x]) :: segs)

/-- The place of a stop on a driving link: its cell, or its entry in the map of the link. -/
def At (d : DLink) (s : Stop) (p : ℤ) : Prop :=
  (d.kind = .ctm ∧ p = s.cell) ∨ (d.kind ≠ .ctm ∧ ∃ x ∈ d.stops, x.1 = s ∧ x.2 = p)

/-- A bus of route `r` on the bus link `b` passes the stop `x` on the driving link `d` without a halt in its list of
stops: `x` is a stop of the route, it is neither of the stops of `b`, and it does not lie before the first nor behind
the second stop. -/
structure Passes (r : ℤ) (b : BLink) (d : DLink) (x : Stop × ℤ) : Prop where
  route : x.1.route = r
  notSrc : x.1 ≠ b.src
  notDst : x.1 ≠ b.dst
  behind : d.id = b.src.link → ∀ p q, At d b.src p → At d x.1 q → p ≤ q
  before : d.id = b.dst.link → ∀ p q, At d b.dst p → At d x.1 q → q ≤ p

/-- A network whose stops and bus links are registered as its files say. -/
structure Placed (b : BLink) : Prop where
  kinds : ∀ d ∈ b.over, d.kind ≠ .other
  links : ∀ d ∈ b.over, ∀ x ∈ d.stops, x.1.link = d.id
  ids : ∀ d ∈ b.over, ∀ x ∈ d.stops, ∀ s : Stop, (s = b.src ∨ s = b.dst ∨ ∃ y ∈ d.stops, s = y.1) → x.1.id = s.id →
    x.1 = s
  once : ∀ d ∈ b.over, (d.stops.map (·.1.id)).Nodup
  src : ∀ d ∈ b.over, d.id = b.src.link → ∃ t, (b.src, t) ∈ d.stops
  dst : ∀ d ∈ b.over, d.id = b.dst.link → ∃ t, (b.dst, t) ∈ d.stops

/-- The bus links between the stops of a path. -/
def Legs (known : ℤ → Bool) (out : ℤ → Option BLink) (stops : List ℤ) (bs : List BLink) : Prop :=
  stops = bs.map (·.src.id) ++ (bs.getLast?.map (·.dst.id)).toList ∧
  bs.IsChain (fun a b => a.dst = b.src) ∧ ∀ b ∈ bs, known b.src.id = true ∧ out b.src.id = some b ∧ Placed b

/-- The stops before a stop, from the nearest one on. -/
def Upstream (stop : ℤ → WStop) : ℤ → List (ℤ × List (ℚ × ℚ)) → Prop
  | _, [] => True
  | v, u :: us => (stop v).up = some u ∧ Upstream stop u.1 us

/-- The last of the stops before `v` (`v` if there is none). -/
def top (v : ℤ) (us : List (ℤ × List (ℚ × ℚ))) : ℤ := (us.getLast?.map (·.1)).getD v

/-- The time of the ride along bus links. -/
def rideOver (us : List (ℤ × List (ℚ × ℚ))) : ℚ := ((us.flatMap (·.2)).map fun x => x.1 * x.2).sum

/-- `k` buses have reached the stop `v` by time `ts`. -/
def Count (stop : ℤ → WStop) (ts : ℕ) (v : ℤ) (k : ℕ) : Prop := Curve.getResult (stop v).nIn ts = .ok (k : ℚ)

/-- The origin releases `k i` buses of the route in minute `i`. -/
def Releases (r : Runs) (k : ℕ → ℕ) : Prop :=
  ∀ i (h : i < r.demand.length), ((⌊r.demand[i] * r.scalar⌋ : ℤ) : ℚ) / r.scalar = k i

end Verif.Spec.BusP
