import Verif.Spec.BusPath
import Verif.Lemmas.Ults
import Mathlib.Tactic.Linarith
import Mathlib.Tactic.Ring
import Mathlib.Algebra.BigOperators.Group.List.Basic
import Mathlib.Data.List.Induction
import Mathlib.Algebra.Order.Floor.Ring

namespace Verif.BusP
open Spec.BusP Curve Ults

theorem approxLt_nat {a b : ℕ} (hb : b < 10000) : approxLt a b tol = decide (a < b) := by
  unfold approxLt tol
  have ha0 : (0 : ℚ) ≤ a := Nat.cast_nonneg a
  have hb0 : (0 : ℚ) ≤ b := Nat.cast_nonneg b
  have hb' : (b : ℚ) < 10000 := by exact_mod_cast hb
  rw [decide_eq_decide, abs_of_nonneg ha0, abs_of_nonneg hb0]
  by_cases h : a < b
  · have h1 : (a : ℚ) + 1 ≤ b := by exact_mod_cast h
    rw [max_eq_right (by linarith)]
    exact ⟨fun _ => h, fun _ => by linarith⟩
  · have h1 : (b : ℚ) ≤ a := by exact_mod_cast (not_lt.1 h)
    rw [max_eq_left h1]
    exact ⟨fun h2 => by exfalso; linarith, fun h2 => absurd h2 h⟩

theorem approxEq_nat {a b : ℕ} (hb : b < 10000) (hab : a < b) : approxEq a b tol = false := by
  unfold approxEq tol
  have ha0 : (0 : ℚ) ≤ a := Nat.cast_nonneg a
  have hb0 : (0 : ℚ) ≤ b := Nat.cast_nonneg b
  have hb' : (b : ℚ) < 10000 := by exact_mod_cast hb
  have h1 : (a : ℚ) + 1 ≤ b := by exact_mod_cast hab
  rw [decide_eq_false_iff_not, abs_of_nonneg ha0, abs_of_nonneg hb0, max_eq_right (by linarith), abs_sub_comm,
    abs_of_nonneg (by linarith)]
  linarith

theorem legTime_cons (u : ℤ × List (ℚ × ℚ)) (us) : rideOver (u :: us) = legTime u.2 + rideOver us := by
  simp [rideOver, legTime]

theorem rideOver_nil : rideOver [] = 0 := rfl

theorem top_cons (v : ℤ) (u) (us : List (ℤ × List (ℚ × ℚ))) : top v (u :: us) = top u.1 us := by
  unfold top
  cases us with
  | nil => rfl
  | cons w ws => rw [List.getLast?_cons_cons]; simp [List.getLast?_cons]

theorem climb_top {stop : ℤ → WStop} {ts : ℕ} {k : ℕ} (hk : k + 1 < 10000) :
    ∀ (us : List (ℤ × List (ℚ × ℚ))) (v : ℤ) (t : ℚ) (n : ℕ), Upstream stop v us →
      (∀ u ∈ us, ∃ c ≤ k, Count stop ts u.1 c) → (stop (top v us)).up = none → us.length < n →
      climb stop ts ((k : ℚ) + 1) n v t = .ok (top v us, t + rideOver us) := by
  intro us
  induction us with
  | nil =>
    intro v t n _ _ htop hn
    obtain ⟨n, rfl⟩ := Nat.exists_eq_succ_of_ne_zero (Nat.pos_iff_ne_zero.1 hn)
    have : (stop v).up = none := htop
    simp only [climb, this, rideOver_nil, add_zero]
    rfl
  | cons u us ih =>
    intro v t n hu hc htop hn
    obtain ⟨n, rfl⟩ := Nat.exists_eq_succ_of_ne_zero (Nat.pos_iff_ne_zero.1 (Nat.lt_of_le_of_lt (Nat.zero_le _) hn))
    obtain ⟨c, hck, hcc⟩ := hc u (by simp)
    have hcc' : getResult (stop u.1).nIn ((ts : ℤ) : ℚ) = .ok (c : ℚ) := by simpa [Count] using hcc
    have e : approxLt (c : ℚ) ((k : ℚ) + 1) tol = true := by
      have := approxLt_nat (a := c) (b := k + 1) hk
      push_cast at this
      rw [this]; simp; omega
    simp only [climb, hu.1]
    rw [hcc', Res.bind_ok', e, if_pos rfl, ih u.1 _ n hu.2 (fun w hw => hc w (by simp [hw])) (by rw [← top_cons v]; exact htop)
      (by simpa using hn), top_cons, legTime_cons]
    congr 2; ring

theorem climb_reach {stop : ℤ → WStop} {ts : ℕ} {k : ℕ} (hk : k + 1 < 10000) (z : ℤ × List (ℚ × ℚ)) :
    ∀ (us : List (ℤ × List (ℚ × ℚ))) (v : ℤ) (t : ℚ) (n : ℕ), Upstream stop v (us ++ [z]) →
      (∀ u ∈ us, ∃ c ≤ k, Count stop ts u.1 c) → (∃ c > k, Count stop ts z.1 c) → us.length < n →
      ∃ w, (stop w).up = some z ∧ climb stop ts ((k : ℚ) + 1) n v t = .ok (w, t + rideOver (us ++ [z])) := by
  intro us
  induction us with
  | nil =>
    intro v t n hu _ hz hn
    obtain ⟨n, rfl⟩ := Nat.exists_eq_succ_of_ne_zero (Nat.pos_iff_ne_zero.1 hn)
    obtain ⟨c, hck, hcc⟩ := hz
    have hcc' : getResult (stop z.1).nIn ((ts : ℤ) : ℚ) = .ok (c : ℚ) := by simpa [Count] using hcc
    have e : approxLt (c : ℚ) ((k : ℚ) + 1) tol = false := by
      have := approxLt_nat (a := c) (b := k + 1) hk
      push_cast at this
      rw [this]; simp; omega
    refine ⟨v, hu.1, ?_⟩
    simp only [climb, hu.1]
    rw [hcc', Res.bind_ok', e, if_neg (by simp)]
    simp [legTime_cons, rideOver_nil]
  | cons u us ih =>
    intro v t n hu hc hz hn
    obtain ⟨n, rfl⟩ := Nat.exists_eq_succ_of_ne_zero (Nat.pos_iff_ne_zero.1 (Nat.lt_of_le_of_lt (Nat.zero_le _) hn))
    obtain ⟨c, hck, hcc⟩ := hc u (by simp)
    have hcc' : getResult (stop u.1).nIn ((ts : ℤ) : ℚ) = .ok (c : ℚ) := by simpa [Count] using hcc
    have e : approxLt (c : ℚ) ((k : ℚ) + 1) tol = true := by
      have := approxLt_nat (a := c) (b := k + 1) hk
      push_cast at this
      rw [this]; simp; omega
    obtain ⟨w, hw, he⟩ := ih u.1 (t + legTime u.2) n hu.2 (fun w hw => hc w (by simp [hw])) hz (by simpa using hn)
    refine ⟨w, hw, ?_⟩
    simp only [climb, hu.1]
    rw [hcc', Res.bind_ok', e, if_pos rfl, he, List.cons_append, legTime_cons]
    congr 2; ring

/-- On a ring of stops none of which the next bus has reached, the loop does not end. -/
theorem climb_ring {stop : ℤ → WStop} {ts : ℕ} {k : ℕ} (hk : k + 1 < 10000) {S : ℤ → Prop}
    (hS : ∀ v, S v → ∃ u, (stop v).up = some u ∧ S u.1) (hc : ∀ v, S v → ∃ c ≤ k, Count stop ts v c) :
    ∀ (n : ℕ) (v : ℤ) (t : ℚ), S v → climb stop ts ((k : ℚ) + 1) n v t = .diverge := by
  intro n
  induction n with
  | zero => intro v t _; rfl
  | succ n ih =>
    intro v t hv
    obtain ⟨u, hu, hSu⟩ := hS v hv
    obtain ⟨c, hck, hcc⟩ := hc u.1 hSu
    have hcc' : getResult (stop u.1).nIn ((ts : ℤ) : ℚ) = .ok (c : ℚ) := by simpa [Count] using hcc
    have e : approxLt (c : ℚ) ((k : ℚ) + 1) tol = true := by
      have := approxLt_nat (a := c) (b := k + 1) hk
      push_cast at this
      rw [this]; simp; omega
    simp only [climb, hu]
    rw [hcc', Res.bind_ok', e, if_pos rfl]
    exact ih u.1 _ hSu

/-! ## Releases -/

theorem released_eq {r : Runs} {k : ℕ → ℕ} (h : Releases r k) {i : ℕ} (hi : i < r.demand.length) :
    released r i = .ok (k i : ℚ) := by
  unfold released
  rw [List.getElem?_eq_getElem hi]
  simp only
  rw [h i hi]

theorem released_ub {r : Runs} {i : ℕ} (hi : r.demand.length ≤ i) : released r i = .ub := by
  unfold released
  rw [List.getElem?_eq_none hi]

/-- The buses released in the first `n` minutes. -/
def before (k : ℕ → ℕ) (n : ℕ) : ℕ := ((List.range n).map k).sum

theorem before_succ (k : ℕ → ℕ) (n : ℕ) : before k (n + 1) = before k n + k n := by
  simp [before, List.range_succ]

theorem releasedSum_eq {r : Runs} {k : ℕ → ℕ} (h : Releases r k) (n : ℕ) (hn : n ≤ r.demand.length) :
    releasedSum r (List.range n) = .ok (before k n : ℚ) := by
  unfold releasedSum
  induction n with
  | zero => rfl
  | succ n ih =>
    rw [List.range_succ, Res.foldlM_append, ih (by omega), Res.ok_bind, Res.foldlM_cons,
      released_eq h (by omega), Res.bind_ok', Res.ok_bind, Res.foldlM_nil, before_succ]
    push_cast
    rfl

theorem releasedSum_ub {r : Runs} {k : ℕ → ℕ} (h : Releases r k) (n : ℕ) (hn : r.demand.length < n) :
    releasedSum r (List.range n) = .ub := by
  obtain ⟨m, rfl⟩ := Nat.exists_eq_add_of_lt hn
  have e : List.range (r.demand.length + m + 1) =
      List.range r.demand.length ++ r.demand.length :: (List.range' (r.demand.length + 1) m) := by
    have := List.range'_append_1 (s := 0) (m := r.demand.length) (n := m + 1)
    rw [List.range_eq_range', List.range_eq_range', ← List.range'_succ, Nat.add_assoc, ← this, Nat.zero_add]
  have := releasedSum_eq h r.demand.length le_rfl
  unfold releasedSum at this ⊢
  rw [e, Res.foldlM_append, this, Res.ok_bind, Res.foldlM_cons, released_ub le_rfl]
  rfl

theorem nextRun_first {r : Runs} {k : ℕ → ℕ} (h : Releases r k) {j : ℕ} (hj : j < 10000) (cur m : ℕ) :
    ∀ (n a : ℕ), a + n ≤ r.demand.length → a ≤ m → m < a + n → before k m < j → j ≤ before k (m + 1) →
      nextRun r j cur (List.range' a n) (before k a) = .ok (((m : ℚ) - cur) * 60) := by
  intro n
  induction n with
  | zero => intro a _ h1 h2; omega
  | succ n ih =>
    intro a hl h1 h2 h3 h4
    rw [List.range'_succ]
    simp only [nextRun]
    rw [released_eq h (by omega), Res.bind_ok']
    have e : (before k a : ℚ) + k a = (before k (a + 1) : ℕ) := by rw [before_succ]; push_cast; rfl
    rw [e, approxLt_nat hj]
    by_cases ham : a = m
    · subst ham
      rw [if_neg (by simp; omega)]
    · have hmono : before k (a + 1) ≤ before k m := by
        clear ih e hl h2 h3 h4 
        obtain ⟨q, hq⟩ := Nat.exists_eq_add_of_lt (lt_of_le_of_ne h1 ham)
        rw [hq]
        clear hq
        induction q with
        | zero => exact le_rfl
        | succ q ihq =>
          have : a + (q + 1) + 1 = (a + q + 1) + 1 := by omega
          rw [this, before_succ k (a + q + 1)]; omega
      rw [if_pos (by simp; omega)]
      exact ih (a + 1) (by omega) (by omega) (by omega) h3 h4

theorem nextRun_none {r : Runs} {k : ℕ → ℕ} (h : Releases r k) {j : ℕ} (hj : j < 10000) (cur : ℕ) :
    ∀ (n a : ℕ), a + n ≤ r.demand.length → before k (a + n) < j →
      nextRun r j cur (List.range' a n) (before k a) = .ok 0 := by
  intro n
  induction n with
  | zero => intro a _ _; rfl
  | succ n ih =>
    intro a hl h1
    rw [List.range'_succ]
    simp only [nextRun]
    rw [released_eq h (by omega), Res.bind_ok']
    have e : (before k a : ℚ) + k a = (before k (a + 1) : ℕ) := by rw [before_succ]; push_cast; rfl
    rw [e, approxLt_nat hj]
    have hmono : ∀ q, before k (a + 1) ≤ before k (a + 1 + q) := by
      intro q
      induction q with
      | zero => exact le_rfl
      | succ q ihq => rw [← Nat.add_assoc, before_succ k (a + 1 + q)]; omega
    have := hmono n
    have e2 : a + 1 + n = a + (n + 1) := by omega
    rw [e2] at this
    rw [if_pos (by simp; omega)]
    exact ih (a + 1) (by omega) (by rw [e2]; exact h1)

/-- The start of the function: the number of the next bus. -/
theorem snapshot_start {stop : ℤ → WStop} {runs : ℤ → Runs} {n : ℕ} {v : ℤ} {ts k K : ℕ} (hk : k < K) (hK : K < 10000)
    (hc : Count stop ts v k) (ht : (stop v).total = K) :
    snapshotWait stop runs n v ts = ((climb stop ts ((k : ℚ) + 1) n v 0).bind fun r =>
          match (stop r.1).up with
          | none => (releaseWait (runs r.1) ((k : ℚ) + 1) (stop r.1).maxInt (stop r.1).freq ts).bind fun w => .ok (r.2 + w)
          | some _ => .ok r.2) := by
  unfold snapshotWait
  have hti : toInt (k : ℚ) = .ok (k : ℤ) := by
    have : trunc (k : ℚ) = k := by unfold trunc; rw [if_pos (Nat.cast_nonneg k)]; simp
    unfold toInt
    simp only [this]
    rw [if_pos (by constructor <;> norm_num <;> omega)]
  have heq := approxEq_nat (a := k) (b := k + 1) (by omega) (by omega)
  push_cast at heq
  unfold Count at hc
  rw [hc, Res.bind_ok', ht, approxLt_nat hK, if_pos (by simpa using hk), hti, Res.bind_ok']
  simp only [Int.cast_natCast, heq]
  rfl

end Verif.BusP
