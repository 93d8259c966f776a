import Verif.Lemmas.Query
import Verif.Model.MmCost
import Mathlib.Tactic.IntervalCases

/-!
# C130-C131: travel times and costs of passenger paths
-/

namespace Verif
open Query Ults MmCost

namespace MmCost

/-- The links of a trip with the intervals at which they are entered. -/
def entries (M : ℕ) (τ : ℤ → ℕ → ℚ) : ℕ → List ℤ → List (ℤ × ℕ)
  | _, [] => []
  | t, l :: ls => (l, t) :: entries M τ (t + Sp.ticks (τ l (min t (M - 1)))) ls

/-- Somewhere on the trip the next link takes longer than the `M` intervals of the loading. -/
def Stuck (M : ℕ) (τ : ℤ → ℕ → ℚ) (t : ℕ) (ls : List ℤ) : Prop :=
  ∃ e ∈ entries M τ t ls, (M : ℚ) < τ e.1 (min e.2 (M - 1))

/-- The recorded cruising times: `c t` in interval `t` of the first `n`. -/
def Recorded (r : Store ℤ ℚ) (n : ℕ) (c : ℕ → ℚ) : Prop :=
  0 < n ∧ r.length = n ∧ (∀ t : ℕ, t < n → r.get t = some (c t)) ∧ ∀ t : ℕ, n ≤ t → r.get (t : ℤ) = none

/-- The time to park on arrival in interval `t`. -/
def cruiseAt (lot : Option (ℕ × (ℕ → ℚ))) (t : ℕ) : ℕ :=
  match lot with
  | none => 0
  | some (n, c) => ⌈c (min t (n - 1))⌉₊

/-- The parking lot of a path and what is known of it. -/
def LotOk : Option Lot → Option (ℕ × (ℕ → ℚ)) → Prop
  | none, none => True
  | some l, some (n, c) => Recorded l.cruise n c ∧ ∀ t < n, 0 ≤ c t
  | _, _ => False

theorem ceilInt_nat {x : ℚ} (h0 : 0 ≤ x) (h : ⌈x⌉₊ ≤ 2147483647) : ceilInt x = .ok (⌈x⌉₊ : ℤ) := by
  unfold ceilInt
  have e : ⌈x⌉ = (⌈x⌉₊ : ℤ) := (Int.natCast_ceil_eq_ceil h0).symm
  rw [e, if_pos (by omega)]

theorem addInt_nat {a b : ℕ} (h : a + b ≤ 2147483647) : addInt (a : ℤ) (b : ℤ) = .ok ((a + b : ℕ) : ℤ) := by
  unfold addInt
  rw [if_pos (by omega)]
  push_cast
  rfl

theorem park_eq {lot : Option Lot} {k : Option (ℕ × (ℕ → ℚ))} (h : LotOk lot k) {t : ℕ}
    (hb : t + cruiseAt k t ≤ 2147483647) : park lot t = .ok ((t + cruiseAt k t : ℕ) : ℤ) := by
  cases lot with
  | none =>
    cases k with
    | none => rfl
    | some x => exact h.elim
  | some l =>
    cases k with
    | none => exact h.elim
    | some x =>
      obtain ⟨n, c⟩ := x
      obtain ⟨⟨h0, h1, h2, h3⟩, h4⟩ := h
      have hc : cruiseTime l.cruise (t : ℤ) = .ok (c (min t (n - 1))) := by
        unfold cruiseTime
        by_cases ht : t < n
        · rw [h2 t ht, show min t (n - 1) = t by omega]
        · rw [h3 t (by omega), h1]
          simp only
          rw [if_pos (by omega), show ((n : ℤ) - 1) = ((n - 1 : ℕ) : ℤ) by omega, h2 (n - 1) (by omega),
            show min t (n - 1) = n - 1 by omega]
      unfold park
      simp only [hc, Res.bind_ok']
      have hb' : t + ⌈c (min t (n - 1))⌉₊ ≤ 2147483647 := hb
      rw [ceilInt_nat (h4 _ (by omega)) (by omega), Res.bind_ok', addInt_nat hb']
      rfl

end MmCost

/-! ## C130 Travel times -/

/-- What a driving trip takes: the walk to the car, the links, each in the interval in which it is entered, the
cruising for parking on arrival, and the walk from the car, all rounded up to whole intervals. -/
def driveTrip (M : ℕ) (τ : ℤ → ℕ → ℚ) (k : Option (ℕ × (ℕ → ℚ))) (before after : ℚ) (start : ℕ) (ls : List ℤ) : ℕ :=
  let depart := start + ⌈before⌉₊
  let arrive := depart + tripTime M τ depart ls
  ⌈before⌉₊ + tripTime M τ depart ls + cruiseAt k arrive + ⌈after⌉₊

/-- C130, driving: the travel time is the sum of its parts. -/
theorem C130_driving_time (tt : Tabs) (M : ℕ) (hM : 0 < M) (τ : ℤ → ℕ → ℚ) (d : Drive) (k : Option (ℕ × (ℕ → ℚ)))
    (start : ℕ) (hT : Table tt M d.links τ) (hr : ∀ l ∈ d.links, ∀ t < M, τ l t ≤ 2147483646) (hl : LotOk d.lot k)
    (hw : 0 ≤ d.walkBefore) (hw' : 0 ≤ d.walkAfter)
    (hb : start + driveTrip M τ k d.walkBefore d.walkAfter start d.links ≤ 2147483647) :
    driveTime tt M start d = .ok (driveTrip M τ k d.walkBefore d.walkAfter start d.links : ℤ) := by
  unfold driveTrip at hb ⊢
  simp only at hb ⊢
  unfold driveTime
  rw [ceilInt_nat hw (by omega), Res.bind_ok', addInt_nat (by omega), Res.bind_ok',
    timeFold_eq hM d.links _ hT hr (by omega), Res.bind_ok', park_eq hl (by omega), Res.bind_ok',
    ceilInt_nat hw' (by omega), Res.bind_ok', addInt_nat (by omega), Res.bind_ok']
  congr 1
  push_cast
  ring

namespace MmCostEx

def τ : ℤ → ℕ → ℚ := fun l t => if l = 1 then 2 + t else 3 / 2

def tab : Tabs := fun l => if l = 1 then some [2, 3, 4, 5] else if l = 2 then some [3 / 2, 3 / 2, 3 / 2, 3 / 2] else none

def lot : Lot := ⟨[(0, 0), (1, 1), (2, 1 / 2)], 10, 2⟩

def drive : Drive := ⟨[1, 2], 2, some lot, 1 / 2, 5 / 4, 3⟩

end MmCostEx
open MmCostEx

example : Table tab 4 [1, 2] τ ∧ LotOk drive.lot (some (3, fun t => if t = 0 then 0 else if t = 1 then 1 else 1 / 2)) ∧
    driveTime tab 4 0 drive = .ok (1 + 3 + 2 + 1 + 2) := by
  refine ⟨?_, ⟨⟨by decide, rfl, ?_, ?_⟩, ?_⟩, by decide +kernel⟩
  · intro l hl
    simp only [List.mem_cons, List.not_mem_nil, or_false] at hl
    rcases hl with rfl | rfl
    · refine ⟨[2, 3, 4, 5], rfl, ?_⟩
      intro t ht
      interval_cases t <;> simp [τ] <;> norm_num
    · refine ⟨[3 / 2, 3 / 2, 3 / 2, 3 / 2], rfl, ?_⟩
      intro t ht
      interval_cases t <;> simp [τ]
  · intro t ht
    interval_cases t <;> decide +kernel
  · intro t ht
    have h0 : ¬ (0 : ℤ) = t := by omega
    have h1 : ¬ (1 : ℤ) = t := by omega
    have h2 : ¬ (2 : ℤ) = t := by omega
    simp [lot, Store.get, h0, h1, h2, Ne.symm h0, Ne.symm h1, Ne.symm h2]
  · intro t ht
    interval_cases t <;> norm_num

/-- C130, transit: the travel time is that of the links, except that a trip on which some link takes longer than the
whole loading counts as twice the loading. -/
theorem C130_transit_time (tt : Tabs) (M : ℕ) (hM : 0 < M) (τ : ℤ → ℕ → ℚ) (start : ℕ) (ls : List ℤ)
    (hT : Table tt M ls τ) (hMb : M ≤ 1000000000) (hb : start + tripTime M τ start ls ≤ 2147483647) :
    (Stuck M τ start ls → busTime tt M start ls = .ok (2 * M)) ∧
    (¬ Stuck M τ start ls → busTime tt M start ls = .ok (tripTime M τ start ls : ℤ)) := by
  have key : ∀ (ls : List ℤ) (t : ℕ), Table tt M ls τ → t + tripTime M τ t ls ≤ 2147483647 →
      (Stuck M τ t ls → busLoop tt M start t ls = .ok (2 * M)) ∧
      (¬ Stuck M τ t ls → busLoop tt M start t ls = .ok ((t + tripTime M τ t ls : ℕ) - start : ℤ)) := by
    intro ls
    induction ls with
    | nil =>
      intro t _ _
      refine ⟨fun h => ?_, fun _ => ?_⟩
      · obtain ⟨e, he, _⟩ := h
        cases he
      · simp [busLoop, tripTime]
    | cons l ls ih =>
      intro t hT hb
      have hb' : t + (Sp.ticks (τ l (min t (M - 1))) + tripTime M τ (t + Sp.ticks (τ l (min t (M - 1)))) ls) ≤
          2147483647 := hb
      unfold busLoop
      rw [readAt_table hT (List.mem_cons_self ..) hM, Res.bind_ok']
      by_cases hx : τ l (min t (M - 1)) > (M : ℚ)
      · have hx' : τ l (min t (M - 1)) > ((M : ℤ) : ℚ) := by exact_mod_cast hx
        rw [if_pos hx']
        exact ⟨fun _ => rfl, fun h => absurd ⟨(l, t), List.mem_cons_self .., hx⟩ h⟩
      · have hx' : ¬ τ l (min t (M - 1)) > ((M : ℤ) : ℚ) := by exact_mod_cast hx
        have hle : τ l (min t (M - 1)) ≤ 2147483646 := by
          have h1 := not_lt.1 hx
          have h2 : (M : ℚ) ≤ 1000000000 := by exact_mod_cast hMb
          linarith
        rw [if_neg hx', roundUp_ticks hle, Res.bind_ok', addInt_nat (by omega), Res.bind_ok']
        obtain ⟨i1, i2⟩ := ih (t + Sp.ticks (τ l (min t (M - 1)))) (table_cons hT) (by omega)
        have hst : Stuck M τ t (l :: ls) ↔ Stuck M τ (t + Sp.ticks (τ l (min t (M - 1)))) ls := by
          unfold Stuck
          simp only [entries, List.mem_cons]
          constructor
          · rintro ⟨e, rfl | he, h⟩
            · exact absurd h hx
            · exact ⟨e, he, h⟩
          · rintro ⟨e, he, h⟩
            exact ⟨e, Or.inr he, h⟩
        refine ⟨fun h => i1 (hst.1 h), fun h => ?_⟩
        rw [i2 fun h' => h (hst.2 h')]
        congr 1
        simp only [tripTime]
        push_cast
        ring
  obtain ⟨k1, k2⟩ := key ls start hT hb
  refine ⟨k1, fun h => ?_⟩
  unfold busTime
  rw [k2 h]
  congr 1
  push_cast
  ring

example : busTime tab 4 0 [1, 2] = .ok 4 ∧ busTime tab 4 3 [1, 2] = .ok 8 ∧ Stuck 4 τ 3 [1, 2] ∧ ¬ Stuck 4 τ 0 [1, 2] := by
  refine ⟨by decide +kernel, by decide +kernel, ⟨(1, 3), by simp [entries], by norm_num [τ]⟩, ?_⟩
  rintro ⟨e, he, h⟩
  simp only [entries, List.mem_cons, List.not_mem_nil, or_false] at he
  rcases he with rfl | rfl
  · norm_num [τ] at h
  · norm_num [τ] at h

/-- C130, park-and-ride: the drive from the departure, then the transit trip from the arrival of the drive; nothing
is spent at the parking lot in between. -/
theorem C130_park_and_ride_time (tt bt : Tabs) (M : ℕ) (hM : 0 < M) (hMb : M ≤ 1000000000) (τ β : ℤ → ℕ → ℚ)
    (start : ℕ) (drive bus : List ℤ) (before : ℚ) (hT : Table tt M drive τ) (hB : Table bt M bus β)
    (hr : ∀ l ∈ drive, ∀ t < M, τ l t ≤ 2147483646) (hw : 0 ≤ before)
    (hb : start + driveTrip M τ none before 0 start drive +
      tripTime M β (start + driveTrip M τ none before 0 start drive) bus ≤ 2147483647)
    (hs : ¬ Stuck M β (start + driveTrip M τ none before 0 start drive) bus) :
    pnrTime tt bt M start drive bus before =
      .ok ((driveTrip M τ none before 0 start drive +
        tripTime M β (start + driveTrip M τ none before 0 start drive) bus : ℕ) : ℤ) := by
  unfold pnrTime
  rw [C130_driving_time tt M hM τ ⟨drive, 1, none, before, 0, 0⟩ none start hT hr trivial hw le_rfl (by
    show start + driveTrip M τ none before 0 start drive ≤ _
    omega), Res.bind_ok']
  have := (C130_transit_time bt M hM β (start + driveTrip M τ none before 0 start drive) bus hB hMb hb).2 hs
  simp only
  rw [show ((start : ℤ) + (driveTrip M τ none before 0 start drive : ℤ)) =
    ((start + driveTrip M τ none before 0 start drive : ℕ) : ℤ) by push_cast; rfl, this, Res.bind_ok']
  congr 1

example : pnrTime tab tab 4 0 [1] [2] (1 / 2) = .ok (1 + 3 + 2) := by decide +kernel

/-- C130, first in, first out: if neither a link nor the parking lot lets those who arrive one interval later finish
earlier, a later departure never leads to an earlier arrival. -/
theorem C130_driving_fifo (M : ℕ) (τ : ℤ → ℕ → ℚ) (k : Option (ℕ × (ℕ → ℚ))) (before after : ℚ) (ls : List ℤ)
    (hl : ∀ l ∈ ls, ∀ t, t + Sp.ticks (τ l (min t (M - 1))) ≤ t + 1 + Sp.ticks (τ l (min (t + 1) (M - 1))))
    (hk : ∀ t, t + cruiseAt k t ≤ t + 1 + cruiseAt k (t + 1)) (s s' : ℕ) (h : s ≤ s') :
    s + driveTrip M τ k before after s ls ≤ s' + driveTrip M τ k before after s' ls := by
  have mono : ∀ (f : ℕ → ℕ), (∀ t, t + f t ≤ t + 1 + f (t + 1)) → ∀ a b, a ≤ b → a + f a ≤ b + f b := by
    intro f hf a b hab
    induction b, hab using Nat.le_induction with
    | base => exact le_refl _
    | succ n hn ih => exact ih.trans (hf n)
  have trip : ∀ (ls : List ℤ), (∀ l ∈ ls, ∀ t, t + Sp.ticks (τ l (min t (M - 1))) ≤
      t + 1 + Sp.ticks (τ l (min (t + 1) (M - 1)))) → ∀ a b, a ≤ b →
      a + tripTime M τ a ls ≤ b + tripTime M τ b ls := by
    intro ls
    induction ls with
    | nil => intro _ a b h; simpa [tripTime] using h
    | cons l ls ih =>
      intro hl a b hab
      have h1 := mono (fun t => Sp.ticks (τ l (min t (M - 1)))) (hl l (List.mem_cons_self ..)) a b hab
      have h2 := ih (fun l hm => hl l (List.mem_cons_of_mem _ hm)) _ _ h1
      simp only [tripTime]
      omega
  have h1 := trip ls hl (s + ⌈before⌉₊) (s' + ⌈before⌉₊) (by omega)
  have h2 := mono (cruiseAt k) hk _ _ h1
  unfold driveTrip
  simp only
  omega

example : (∀ l ∈ [1, 2], ∀ t, t + Sp.ticks (τ l (min t (4 - 1))) ≤ t + 1 + Sp.ticks (τ l (min (t + 1) (4 - 1)))) := by
  have h : ∀ l ∈ ([1, 2] : List ℤ), ∀ t < 4, t + Sp.ticks (τ l (min t (4 - 1))) ≤
      t + 1 + Sp.ticks (τ l (min (t + 1) (4 - 1))) := by decide +kernel
  intro l hl t
  by_cases ht : t < 4
  · exact h l hl t ht
  · rw [show min t (4 - 1) = 3 by omega, show min (t + 1) (4 - 1) = 3 by omega]
    omega

/-! ## C131 Costs -/

/-- What the time of a trip costs: the value of the time spent, and a penalty for every interval by which the
passenger arrives before or after the target. -/
def timeCost (u : MmCost.Prefs) (start tt : ℚ) : ℚ :=
  u.vot * tt + u.early * max 0 (u.target - (start + tt)) + u.late * max 0 (start + tt - u.target)

theorem wrongtime_eq (u : MmCost.Prefs) (he : 0 ≤ u.early) (hl : 0 ≤ u.late) (a : ℚ) :
    wrongtime u a = u.early * max 0 (u.target - a) + u.late * max 0 (a - u.target) := by
  unfold wrongtime
  by_cases h : a ≤ u.target
  · rw [max_eq_right (b := u.target - a) (by linarith), max_eq_left (b := a - u.target) (by linarith), max_eq_right]
    · ring
    · nlinarith [mul_nonneg he (sub_nonneg.2 h), mul_nonneg hl (sub_nonneg.2 h)]
  · have h' : u.target ≤ a := le_of_lt (not_le.1 h)
    rw [max_eq_left (b := u.target - a) (by linarith), max_eq_right (b := a - u.target) (by linarith), max_eq_left]
    · ring
    · nlinarith [mul_nonneg he (sub_nonneg.2 h'), mul_nonneg hl (sub_nonneg.2 h')]

/-- C131, driving: the cost is that of the time, the inconvenience of every further person in the car, the parking
fee shared by the persons (8 if the path has no parking lot), and the tolls of the links. -/
theorem C131_driving_cost (u : MmCost.Prefs) (he : 0 ≤ u.early) (hl : 0 ≤ u.late) (toll : ℤ → ℚ) (start tt : ℚ) (d : Drive) :
    driveCost u toll start tt d = timeCost u start tt + d.carpool * ((d.people : ℚ) - 1) +
      (match d.lot with | none => 8 | some lot => lot.price * lot.surge / d.people) + (d.links.map toll).sum := by
  unfold driveCost timeCost
  rw [wrongtime_eq u he hl]
  unfold carpoolCost parkingFee tollOf
  cases d.lot <;> simp only <;> ring

example : driveCost ⟨1, 2, 3, 20⟩ (fun l => if l = 1 then 5 else 0) 0 9 drive = 9 + 2 * 11 + 3 + 10 + 5 := by
  decide +kernel

/-- C131, transit, and park-and-ride as far as it holds: the cost of a trip no longer than the loading is that of the
time, one fare and the inconvenience; a longer trip costs a thousand times as much.  What is missing for
park-and-ride is the parking fee and the tolls of the drive. -/
theorem C131_transit_cost_partial (u : MmCost.Prefs) (he : 0 ≤ u.early) (hl : 0 ≤ u.late) (M : ℤ)
    (fare inconvenience start tt : ℚ) :
    (tt ≤ (M : ℚ) → busCost u M fare inconvenience start tt = timeCost u start tt + fare + inconvenience ∧
      pnrCost u M fare inconvenience start tt = timeCost u start tt + fare + inconvenience) ∧
    ((M : ℚ) < tt → busCost u M fare inconvenience start tt = 1000 * (timeCost u start tt + fare + inconvenience) ∧
      pnrCost u M fare inconvenience start tt = 1000 * (timeCost u start tt + fare + inconvenience)) := by
  have e := wrongtime_eq u he hl (start + tt)
  unfold busCost pnrCost capped timeCost
  refine ⟨fun h => ?_, fun h => ?_⟩
  · rw [if_neg (by linarith), e]; exact ⟨by ring, by ring⟩
  · rw [if_pos h, e]; exact ⟨by ring, by ring⟩

example : busCost ⟨1, 2, 3, 20⟩ 100 2 1 15 9 = 9 + 3 * 4 + 2 + 1 ∧ busCost ⟨1, 2, 3, 20⟩ 8 2 1 15 9 = 24000 := by
  decide +kernel

/-- C131, driving and transit: nobody is worse off by a shorter trip from the same departure if the value of time is
at least the penalty for early arrivals and the other coefficients are not negative. -/
theorem C131_shorter_is_cheaper (u : MmCost.Prefs) (he : 0 ≤ u.early) (hl : 0 ≤ u.late) (hv : u.early ≤ u.vot)
    (toll : ℤ → ℚ) (start a b : ℚ) (hab : a ≤ b) (d : Drive) :
    driveCost u toll start a d ≤ driveCost u toll start b d := by
  rw [C131_driving_cost u he hl, C131_driving_cost u he hl]
  have key : timeCost u start a ≤ timeCost u start b := by
    unfold timeCost
    have h1 : max 0 (u.target - (start + a)) ≤ max 0 (u.target - (start + b)) + (b - a) :=
      max_le (by have := le_max_left (0 : ℚ) (u.target - (start + b)); linarith)
        (by have := le_max_right (0 : ℚ) (u.target - (start + b)); linarith)
    have h2 : max 0 (start + a - u.target) ≤ max 0 (start + b - u.target) :=
      max_le_max (le_refl _) (by linarith)
    nlinarith [mul_le_mul_of_nonneg_left h1 he, mul_le_mul_of_nonneg_left h2 hl,
      mul_nonneg (sub_nonneg.2 hv) (sub_nonneg.2 hab)]
  linarith

/-- C131, what is missing: a passenger who parks and rides pays what a passenger of transit with the same travel time
pays, neither the parking fee nor the tolls of the links they drive; a driver of the same links, in the same time,
pays the tolls. -/
theorem C131_park_and_ride_pays_no_tolls (u : MmCost.Prefs) (M : ℤ) (fare inconvenience start tt : ℚ) (toll : ℤ → ℚ)
    (d : Drive) :
    pnrCost u M fare inconvenience start tt = busCost u M fare inconvenience start tt ∧
    driveCost u toll start tt d = driveCost u (fun _ => 0) start tt d + (d.links.map toll).sum := by
  refine ⟨rfl, ?_⟩
  simp [driveCost, tollOf]

end Verif
