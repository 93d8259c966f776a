import Verif.Spec.TravelTime
import Verif.Model.Marginal

/-!
# Specification vocabulary for queue dissipation times and marginal costs

`τ t` is the travel time reported for entering in interval `t`, `f` the free-flow time; the link is congested in an
interval if the former is larger.
-/

namespace Verif.Marg
open Tt

/-- Number of vehicles of history `h` in interval `t` of the loading, which the curves record at its end,
`t + 1`. -/
def during (h : List (ℕ × ℕ)) (t : ℕ) : ℕ := upTo h (t + 1) - upTo h t

/-- `d` is the first interval after `i` without congestion, or `late` if there is none before `T`. -/
def FirstFree (T : ℕ) (τ : ℕ → ℚ) (f : ℚ) (late i d : ℕ) : Prop :=
  IsLeast {k | i < k ∧ k < T ∧ τ k ≤ f} d ∨ ((∀ k, i < k → k < T → f < τ k) ∧ d = late)

/-- `d` is the interval in which the next congestion after `i` has ended, or `late` if none ends before `T`. -/
def NextEnd (T : ℕ) (τ : ℕ → ℚ) (f : ℚ) (late i d : ℕ) : Prop :=
  IsLeast {k | i < k ∧ k < T ∧ f < τ (k - 1) ∧ τ k ≤ f} d ∨
    ((∀ k, i < k → k < T → f < τ (k - 1) → f < τ k) ∧ d = late)

/-- `d` is the time at which the queue has dissipated that an additional vehicle entering in interval `i` finds or
causes: the end of the congestion in which it enters; without congestion `i` itself, but the end of the next
congestion if the link is at its limit at `i`. -/
def Dissipates (T : ℕ) (τ : ℕ → ℚ) (f : ℚ) (late : ℕ) (limit : ℕ → Prop) (i d : ℕ) : Prop :=
  (f < τ i → FirstFree T τ f late i d) ∧
  (τ i ≤ f → limit i → NextEnd T τ f late i d) ∧
  (τ i ≤ f → ¬ limit i → d = i)

/-- `m` is the marginal travel time of interval `i`: the vehicle enters in the first interval `j` from `i` on in which
the link has room, and from then on everybody is delayed until the queue has dissipated; a queue that outlasts the
`T` intervals is taken to dissipate at `2 T`. -/
def MarginalTime (T : ℕ) (τ : ℕ → ℚ) (f : ℕ) (limit room : ℕ → Prop) (i : ℕ) (m : ℚ) : Prop :=
  (∃ j d, IsLeast {k | i ≤ k ∧ k < T ∧ room k} j ∧ Dissipates T τ f (2 * T) limit j d ∧ m = (d : ℚ) - j + f) ∨
    ((∀ k, i ≤ k → k < T → ¬ room k) ∧ m = T + f)

/-- The vehicles that the last cell of a cell-transmission link can let go per interval, when its flow capacity is
multiplied by `u`. -/
def LastCap {V : Type} (u σ : ℚ) (l : Lnk.Link V) (n : ℤ) : Prop :=
  ∃ k c, l = .ctm k ∧ k.cells.getLast? = some c ∧ n = ⌊c.cap * u * σ⌋

/-- The vehicles that the first cell of a cell-transmission link can take per interval, when its flow capacity is
multiplied by `u`. -/
def FirstCap {V : Type} (u σ : ℚ) (l : Lnk.Link V) (n : ℤ) : Prop :=
  ∃ k c, l = .ctm k ∧ k.cells.head? = some c ∧ n = ⌊c.cap * u * σ⌋

/-- A vehicle that enters in interval `t` and drives freely leaves while the link discharges at its capacity. -/
def AtLimit {V : Type} (u σ : ℚ) (l : Lnk.Link V) (outs : List (ℕ × ℕ)) (f t : ℕ) : Prop :=
  LastCap u σ l (during outs (t + f))

/-- The link takes in fewer vehicles in interval `t` than it could. -/
def HasRoom {V : Type} (u σ : ℚ) (l : Lnk.Link V) (ins : List (ℕ × ℕ)) (t : ℕ) : Prop :=
  (∃ q, l = .pq q) ∨ ∃ n, FirstCap u σ l n ∧ (during ins t : ℤ) < n

/-- The link is a point queue or a cell-transmission link with cells; capacities stay below the limit from which on
comparisons are inexact. -/
def Supported {V : Type} (u σ : ℚ) (l : Lnk.Link V) : Prop :=
  (∃ q, l = .pq q) ∨ ∃ n m, n < 10000 ∧ m < 10000 ∧ 0 ≤ n ∧ 0 ≤ m ∧ FirstCap u σ l n ∧ LastCap u σ l m

/-- The state in which the two computations are called: the link `l` has recorded the histories `ins` and `outs` of a
loading of `T'` intervals, and `tt` holds the travel times `τ` reported for entering in the first `T` intervals
(C89, C90).  `f` is the free-flow time of the link.  Numbers stay below the limits from which on comparisons are
inexact. -/
structure Ready {V : Type} (T T' : ℕ) (u σ : ℚ) (ins outs : List (ℕ × ℕ)) (f : ℕ) (l : DLink V) (tt : List ℚ) (τ : ℕ → ℚ) :
    Prop where
  scalar : 0 < σ
  time : T' < 10000
  range : T + f + 1 ≤ 2147483647
  histIn : History T' ins
  histOut : History T' outs
  count : upTo ins T' < 10000 ∧ upTo outs T' < 10000
  nIn : Res.foldlM Curve.addIncrement Curve.install (flows σ ins) = .ok l.nIn
  nOut : Res.foldlM Curve.addIncrement Curve.install (flows σ outs) = .ok l.nOut
  fftt : l.link.ffttLoading = .ok (f : ℤ)
  kind : Supported u σ l.link
  table : ∀ t < T, tt[t]? = some (τ t)
  times : ∀ t < T, LinkTime T' ins outs f (t + 1) (τ t)

end Verif.Marg
