import Verif.Lemmas.BusWait

/-!
# The waiting time at a bus stop by a snapshot of the network (C187)
-/

namespace Verif
open BusP Spec.BusP

/-- C187: when the next bus has reached the stop `z` upstream, but none of the stops between, the waiting time is the
ride from `z` over all the bus links between (fewer than ten thousand buses). -/
theorem C187_on_the_way_partial {stop : ℤ → WStop} {runs : ℤ → Runs} {n : ℕ} {v : ℤ} {ts k K : ℕ} (hk : k < K)
    (hK : K < 10000) (hc : Count stop ts v k) (ht : (stop v).total = K) {us : List (ℤ × List (ℚ × ℚ))}
    {z : ℤ × List (ℚ × ℚ)} (hu : Upstream stop v (us ++ [z])) (hus : ∀ u ∈ us, ∃ c ≤ k, Count stop ts u.1 c)
    (hz : ∃ c > k, Count stop ts z.1 c) (hn : us.length < n) :
    snapshotWait stop runs n v ts = .ok (rideOver (us ++ [z])) := by
  obtain ⟨w, hw, he⟩ := climb_reach (by omega) z us v 0 n hu hus hz hn
  rw [snapshot_start hk hK hc ht, he, Res.bind_ok']
  simp only [hw, zero_add]

/-- C187: when the next bus has reached no stop, the waiting time is the ride from the first stop of the route, and the
minutes until the release of that bus, if it is still to be released within the time of assignment. -/
theorem C187_not_at_a_stop_partial {stop : ℤ → WStop} {runs : ℤ → Runs} {n : ℕ} {v : ℤ} {ts k K : ℕ} (hk : k < K)
    (hK : K < 10000) (hc : Count stop ts v k) (ht : (stop v).total = K) {us : List (ℤ × List (ℚ × ℚ))}
    (hu : Upstream stop v us) (hus : ∀ u ∈ us, ∃ c ≤ k, Count stop ts u.1 c) (htop : (stop (top v us)).up = none)
    (hn : us.length < n) {rel : ℕ → ℕ} (hr : Releases (runs (top v us)) rel)
    {minutes : ℕ} (hm : ((stop (top v us)).maxInt * (stop (top v us)).freq.tdiv 12).toNat = minutes)
    (hlen : minutes ≤ (runs (top v us)).demand.length) (hts : ts / 12 < (runs (top v us)).demand.length) :
    (k < ((List.range (ts / 12 + 1)).map rel).sum → snapshotWait stop runs n v ts = .ok (rideOver us)) ∧
    (∀ m, ts / 12 < m → m < minutes → ((List.range m).map rel).sum ≤ k → k < ((List.range (m + 1)).map rel).sum →
      snapshotWait stop runs n v ts = .ok (rideOver us + 60 * ((m : ℚ) - (ts / 12 : ℕ)))) ∧
    (((List.range (ts / 12 + 1)).map rel).sum ≤ k → ((List.range minutes).map rel).sum ≤ k →
      snapshotWait stop runs n v ts = .ok (rideOver us)) := by
  have hc0 := climb_top (by omega) us v 0 n hu hus htop hn
  have e0 : snapshotWait stop runs n v ts = (releaseWait (runs (top v us)) ((k : ℚ) + 1) (stop (top v us)).maxInt
      (stop (top v us)).freq ts).bind fun w => .ok (rideOver us + w) := by
    rw [snapshot_start hk hK hc ht, hc0, Res.bind_ok']
    simp only [htop, zero_add]
  have e1 : ∀ x : ℕ, Ults.approxLt (x : ℚ) ((k : ℚ) + 1) Curve.tol = decide (x < k + 1) := by
    intro x
    have := approxLt_nat (a := x) (b := k + 1) (by omega)
    push_cast at this
    exact this
  have ek : ((k : ℚ) + 1) = ((k + 1 : ℕ) : ℚ) := by push_cast; rfl
  have mono : ∀ a q, before rel a ≤ before rel (a + q) := by
    intro a q
    induction q with
    | zero => exact le_rfl
    | succ q ih => rw [← Nat.add_assoc, before_succ]; omega
  refine ⟨fun (h : k < before rel (ts / 12 + 1)) => ?_, fun m h1 h2 h3 h4 => ?_, fun h1 h2 => ?_⟩
  · rw [e0]
    unfold releaseWait
    simp only
    rw [releasedSum_eq hr _ hts, Res.bind_ok', e1, if_neg (by simp; omega), Res.bind_ok', add_zero]
  · change before rel m ≤ k at h3
    change k < before rel (m + 1) at h4
    have h5 : before rel (ts / 12 + 1) ≤ k := by
      have := mono (ts / 12 + 1) (m - (ts / 12 + 1))
      rw [Nat.add_sub_cancel' (by omega)] at this
      omega
    rw [e0]
    unfold releaseWait
    simp only
    rw [releasedSum_eq hr _ hts, Res.bind_ok', e1, if_pos (by simp; omega), hm, ek,
      nextRun_first hr (by omega) (ts / 12) m _ _ (by omega) (by omega) (by omega) (by omega) (by omega), Res.bind_ok']
    congr 1
    ring
  · change before rel (ts / 12 + 1) ≤ k at h1
    change before rel minutes ≤ k at h2
    rw [e0]
    unfold releaseWait
    simp only
    rw [releasedSum_eq hr _ hts, Res.bind_ok', e1, if_pos (by simp; omega), hm, ek]
    by_cases hmm : ts / 12 + 1 ≤ minutes
    · rw [nextRun_none hr (by omega) _ _ _ (by omega) (by rw [Nat.add_sub_cancel' hmm]; omega), Res.bind_ok', add_zero]
    · rw [Nat.sub_eq_zero_of_le (by omega)]
      simp only [List.range'_zero, BusP.nextRun, Res.bind_ok', add_zero]

/-- C187: when every bus of the route has come, the waiting time is twice the time of assignment. -/
theorem C187_no_more_buses {stop : ℤ → WStop} {runs : ℤ → Runs} {n : ℕ} {v : ℤ} {ts k K : ℕ} (hk : K ≤ k)
    (hc : Count stop ts v k) (ht : (stop v).total = K) :
    snapshotWait stop runs n v ts = .ok ((2 * (stop v).maxInt * (stop v).freq : ℤ) : ℚ) := by
  unfold snapshotWait
  unfold Count at hc
  rw [hc, Res.bind_ok', ht, if_neg]
  unfold Ults.approxLt Curve.tol
  have h0 : (0 : ℚ) ≤ max |(k : ℚ)| |(K : ℚ)| := le_max_of_le_left (abs_nonneg _)
  have h1 : (K : ℚ) ≤ k := by exact_mod_cast hk
  simp only [decide_eq_true_eq]
  intro h
  linarith

/-- C187, the statement fails after the last minute with demand: while the next bus has not reached the first stop of
its route, the demand is read behind the end of its array. -/
theorem C187_false_after_demand {stop : ℤ → WStop} {runs : ℤ → Runs} {n : ℕ} {v : ℤ} {ts k K : ℕ} (hk : k < K)
    (hK : K < 10000) (hc : Count stop ts v k) (ht : (stop v).total = K) {us : List (ℤ × List (ℚ × ℚ))}
    (hu : Upstream stop v us) (hus : ∀ u ∈ us, ∃ c ≤ k, Count stop ts u.1 c) (htop : (stop (top v us)).up = none)
    (hn : us.length < n) {rel : ℕ → ℕ} (hr : Releases (runs (top v us)) rel)
    (hts : (runs (top v us)).demand.length ≤ ts / 12) : snapshotWait stop runs n v ts = .ub := by
  rw [snapshot_start hk hK hc ht, climb_top (by omega) us v 0 n hu hus htop hn, Res.bind_ok']
  simp only [htop]
  unfold releaseWait
  simp only
  rw [releasedSum_ub hr _ (by omega)]
  rfl

/-- C187, the statement fails on a route whose last bus link leads back to its first stop: while no stop has been
reached by the next bus, the loop over the stops before never ends. -/
theorem C187_false_ring {stop : ℤ → WStop} {runs : ℤ → Runs} {v : ℤ} {ts k K : ℕ} (hk : k < K) (hK : K < 10000)
    (hc : Count stop ts v k) (ht : (stop v).total = K) {S : ℤ → Prop} (hv : S v)
    (hS : ∀ v, S v → ∃ u, (stop v).up = some u ∧ S u.1) (hcS : ∀ v, S v → ∃ c ≤ k, Count stop ts v c) (n : ℕ) :
    snapshotWait stop runs n v ts = .diverge := by
  rw [snapshot_start hk hK hc ht, climb_ring (by omega) hS hcS n v 0 hv]
  rfl

namespace BusWaitEx

/-- Stops 1, 2, 3 in a row; one bus has reached stops 1 and 2 (at 5 and 20) and two have reached stop 1 (at 30). -/
def stop : ℤ → WStop := fun v =>
  if v = 1 then ⟨[(0, 0), (5, 1), (30, 2)], 3, 1, 180, none⟩
  else if v = 2 then ⟨[(0, 0), (20, 1)], 3, 1, 180, some (1, [(60, 1 / 2), (40, 1)])⟩
  else ⟨[(0, 0), (35, 1)], 3, 1, 180, some (2, [(40, 1 / 4)])⟩
/-- A bus in minutes 0, 2 and 9. -/
def runs : ℤ → Runs := fun _ => ⟨[1, 0, 1, 0, 0, 0, 0, 0, 0, 1, 0, 0, 0, 0, 0], 1⟩
def rel : ℕ → ℕ := fun i => if i = 0 ∨ i = 2 ∨ i = 9 then 1 else 0
/-- A ring of two stops. -/
def ring : ℤ → WStop := fun v =>
  if v = 1 then ⟨[(0, 0)], 3, 1, 180, some (2, [(40, 1)])⟩ else ⟨[(0, 0)], 3, 1, 180, some (1, [(40, 1)])⟩

end BusWaitEx
open BusWaitEx

/-- The hypotheses of `C187_on_the_way_partial` are met at time 40: the second bus has reached stop 1. -/
example : Count stop 40 3 1 ∧ (stop 3).total = (3 : ℕ) ∧ Upstream stop 3 [(2, [(40, 1 / 4)]), (1, [(60, 1 / 2), (40, 1)])] ∧
    Count stop 40 2 1 ∧ Count stop 40 1 2 ∧ snapshotWait stop runs 5 3 40 = .ok 80 := by
  refine ⟨?_, ?_, ⟨?_, ?_, trivial⟩, ?_, ?_, ?_⟩ <;> (try unfold Count) <;> decide +kernel

/-- The hypotheses of `C187_not_at_a_stop_partial` are met at stop 1: at time 40 two buses have come, the third is
released in minute 9, six minutes later; and those of `C187_false_after_demand` at time 180. -/
example : Count stop 40 1 2 ∧ (stop (top 1 [])).up = none ∧
    ((stop (top 1 [])).maxInt * (stop (top 1 [])).freq.tdiv 12).toNat = 15 ∧ (runs 1).demand.length = 15 ∧
    ((List.range 9).map rel).sum ≤ 2 ∧ 2 < ((List.range 10).map rel).sum ∧
    snapshotWait stop runs 5 1 40 = .ok 360 ∧ Count stop 180 1 2 ∧ snapshotWait stop runs 5 1 180 = .ub := by
  refine ⟨?_, ?_, ?_, ?_, ?_, ?_, ?_, ?_, ?_⟩ <;> (try unfold Count) <;> decide +kernel

example : Releases (runs 1) rel := by
  intro i h
  have : ∀ i : Fin 15, (((⌊((runs 1).demand[i.1]?.getD 0) * (runs 1).scalar⌋ : ℤ) : ℚ)) / (runs 1).scalar = rel i := by
    decide +kernel
  have h' : i < 15 := h
  have e := this ⟨i, h'⟩
  simp only [List.getElem?_eq_getElem h, Option.getD_some] at e
  exact e

/-- The hypotheses of `C187_false_ring` are met. -/
example : Count ring 0 1 0 ∧ (ring 1).total = (3 : ℕ) ∧
    (∀ v, (v = 1 ∨ v = 2) → ∃ u, (ring v).up = some u ∧ (u.1 = 1 ∨ u.1 = 2)) ∧
    (∀ v, (v = 1 ∨ v = 2) → ∃ c ≤ 0, Count ring 0 v c) := by
  refine ⟨by unfold Count; decide +kernel, by decide +kernel, ?_, ?_⟩
  · rintro v (rfl | rfl)
    · exact ⟨(2, [(40, 1)]), by decide +kernel, Or.inr rfl⟩
    · exact ⟨(1, [(40, 1)]), by decide +kernel, Or.inl rfl⟩
  · rintro v (rfl | rfl) <;> exact ⟨0, le_rfl, by unfold Count; decide +kernel⟩

end Verif
