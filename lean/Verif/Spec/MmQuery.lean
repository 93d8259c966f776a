import Verif.Spec.TravelTime
import Verif.Model.MmQuery

/-!
# Specification vocabulary for travel times by bus

A stop is watched through the histories of buses that arrive and that depart (one record per interval with events, the
number of buses in it).
-/

namespace Verif.MmQ
open Tt

/-- The stop `s` has recorded the arrivals `arr` and the departures `dep` of whole buses in a loading of `T` intervals,
and has not been queried yet.  The numbers stay below the limits from which on the comparisons of the code become
inexact. -/
structure StopLoaded (T : ℕ) (arr dep : List (ℕ × ℕ)) (s : Stop) : Prop where
  time : T < 10000
  histIn : History T arr
  histOut : History T dep
  le : ∀ t, upTo dep t ≤ upTo arr t
  count : upTo arr T < 9999
  nIn : Res.foldlM Curve.addIncrement Curve.install (flows 1 arr) = .ok s.nIn
  nOut : Res.foldlM Curve.addIncrement Curve.install (flows 1 dep) = .ok s.nOut
  fresh : s.last = -1

/-- `L` is the last interval in which a bus arrived such that all buses that had arrived by then are among the first
`m` buses; zero if there is none. -/
def LastOf (T : ℕ) (arr : List (ℕ × ℕ)) (m L : ℕ) : Prop :=
  IsGreatest {t | t ≤ T ∧ (t = 0 ∨ (upTo arr (t - 1) < upTo arr t ∧ upTo arr t ≤ m))} L

/-- The waiting time `w` for a passenger who comes to a stop in interval `t`: from the last interval `L` on whose buses
have left by the end of the loading there is no bus any more; before, there is no wait if a bus stands at the
stop, and otherwise the wait ends with the next arrival. -/
def Waits (arr dep : List (ℕ × ℕ)) (L t : ℕ) (w : WithTop ℕ) : Prop :=
  (L ≤ t → w = ⊤) ∧
  (t < L → upTo dep t < upTo arr t → w = 0) ∧
  (t < L → upTo dep t = upTo arr t → ∃ i : ℕ, IsLeast {i | upTo arr t < upTo arr (t + i)} i ∧ w = i)

/-- The result for a waiting time. -/
def shown (T : ℕ) (inf : Bool) : WithTop ℕ → WithTop ℚ
  | ⊤ => if inf then ⊤ else ((2 * T : ℚ) : WithTop ℚ)
  | (i : ℕ) => ((i : ℚ) : WithTop ℚ)

/-- The travel time `v` for a passenger who comes to a stop in interval `t`, with `arr` and `dep` the histories of the
stop and `next` the arrivals at the next stop: waiting time and riding time, until the buses that had arrived at the
stop when the wait ended have all arrived at the next stop; infinite if there is no bus, or if the wait ends after the
last interval whose buses get to the next stop. -/
def Rides (T : ℕ) (arr dep next : List (ℕ × ℕ)) (t : ℕ) (v : WithTop ℕ) : Prop :=
  ∃ L M w, LastOf T arr (upTo dep T) L ∧ LastOf T arr (upTo next T) M ∧ Waits arr dep L t w ∧
    (w = ⊤ → v = ⊤) ∧
    (∀ i : ℕ, w = i → M < t + i → v = ⊤) ∧
    (∀ i : ℕ, w = i → t + i ≤ M → ∃ a : ℕ, IsLeast {a | upTo arr (t + i) ≤ upTo next a} a ∧ t + i ≤ a ∧ v = (a - t : ℕ))

/-- The bus link `l` of `s` runs between stops with histories: `arr`, `dep` at the first and `next` at the second; no bus
is at the next stop before it has left the first.  Nothing has been queried yet. -/
structure BusLoaded (T : ℕ) (arr dep next : List (ℕ × ℕ)) (s : State) (l : ℤ) : Prop where
  here : StopLoaded T arr dep (s.stop (s.bus l).src)
  hist : History T next
  nIn : Res.foldlM Curve.addIncrement Curve.install (flows 1 next) = .ok (s.stop (s.bus l).dst).nIn
  le : ∀ t, upTo next t ≤ upTo dep t
  fresh : (s.bus l).lastBus = -1

end Verif.MmQ
