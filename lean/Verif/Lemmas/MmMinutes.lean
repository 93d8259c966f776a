import Verif.Spec.MmFleet
import Mathlib.Tactic.FieldSimp
import Mathlib.Algebra.BigOperators.Group.List.Basic
import Mathlib.Algebra.Order.Floor.Ring
import Mathlib.Tactic.Linarith
import Mathlib.Tactic.Ring
import Mathlib.Tactic.Push
import Mathlib.Tactic.NormNum

/-! # Lemmas about demand per minute -/

namespace Verif.MmF

theorem fit_iff {scalar d : ℚ} (k : ℕ) : 1 ≤ ⌊d / ((k + 1 : ℕ) : ℚ) * scalar⌋ ↔ ((k + 1 : ℕ) : ℚ) ≤ d * scalar := by
  have hk : (0 : ℚ) < ((k + 1 : ℕ) : ℚ) := by exact_mod_cast Nat.succ_pos k
  rw [Int.le_floor, div_mul_eq_mul_div, le_div_iff₀ hk]
  simp

theorem firstFit_none {scalar d : ℚ} {n : ℕ} (h : d * scalar < 1) : firstFit scalar d n = none := by
  induction n with
  | zero => rfl
  | succ n ih =>
    rw [firstFit, if_neg, ih]
    rw [fit_iff]
    have : (1 : ℚ) ≤ ((n + 1 : ℕ) : ℚ) := by exact_mod_cast Nat.succ_pos n
    linarith

theorem firstFit_some {scalar d : ℚ} {n : ℕ} (hn : 0 < n) (h : 1 ≤ d * scalar) :
    firstFit scalar d n = some (min n ⌊d * scalar⌋.toNat) := by
  have h1 : 1 ≤ ⌊d * scalar⌋ := Int.le_floor.2 (by exact_mod_cast h)
  induction n with
  | zero => omega
  | succ n ih =>
    rw [firstFit]
    by_cases hk : ((n + 1 : ℕ) : ℚ) ≤ d * scalar
    · rw [if_pos ((fit_iff n).2 hk)]
      have : ((n + 1 : ℕ) : ℤ) ≤ ⌊d * scalar⌋ := Int.le_floor.2 (by exact_mod_cast hk)
      rw [min_eq_left (by omega)]
    · rw [if_neg (fun e => hk ((fit_iff n).1 e))]
      have h2 : ⌊d * scalar⌋ < ((n + 1 : ℕ) : ℤ) := Int.floor_lt.2 (by exact_mod_cast not_le.1 hk)
      rw [ih (by omega)]
      congr 1
      omega

theorem firstFit_le {scalar d : ℚ} {n k : ℕ} (h : firstFit scalar d n = some k) : 1 ≤ k ∧ k ≤ n := by
  induction n with
  | zero => simp [firstFit] at h
  | succ n ih =>
    rw [firstFit] at h
    split_ifs at h with hc
    · simp only [Option.some.injEq] at h; omega
    · have := ih h; omega

theorem spreadRow_length {split : ℤ} {n : ℕ} {scalar d : ℚ} {x : List ℚ} (h : spreadRow split n scalar d = .ok x) :
    x.length = n := by
  unfold spreadRow at h
  split_ifs at h with h0 h1 h1
  · simp only [Res.ok.injEq] at h
    subst h
    simp; omega
  · split at h
    · simp only [Res.ok.injEq] at h
      subst h; simp
    · rename_i k hk
      simp only [Res.ok.injEq] at h
      subst h
      have := firstFit_le hk
      simp; omega

theorem minuteRow_length {split : ℤ} {n : ℕ} {scalar : ℚ} {ds row : List ℚ} (h : minuteRow split n scalar ds = .ok row) :
    row.length = n * ds.length := by
  induction ds generalizing row with
  | nil => simp only [minuteRow, Res.ok.injEq] at h; subst h; simp
  | cons d ds ih =>
    rw [minuteRow] at h
    obtain ⟨x, hx, h⟩ := Res.bind_eq_ok'.1 h
    obtain ⟨xs, hxs, h⟩ := Res.bind_eq_ok'.1 h
    simp only [Res.ok.injEq] at h
    subst h
    rw [List.length_append, spreadRow_length hx, ih hxs, List.length_cons]
    ring

theorem minuteRow_block {split : ℤ} {n : ℕ} {scalar : ℚ} {ds row : List ℚ} (h : minuteRow split n scalar ds = .ok row)
    {j : ℕ} {d : ℚ} (hj : ds[j]? = some d) : spreadRow split n scalar d = .ok ((row.drop (n * j)).take n) := by
  induction ds generalizing row j with
  | nil => simp at hj
  | cons d' ds ih =>
    rw [minuteRow] at h
    obtain ⟨x, hx, h⟩ := Res.bind_eq_ok'.1 h
    obtain ⟨xs, hxs, h⟩ := Res.bind_eq_ok'.1 h
    simp only [Res.ok.injEq] at h
    subst h
    have hl := spreadRow_length hx
    cases j with
    | zero =>
      simp only [List.getElem?_cons_zero, Option.some.injEq] at hj
      subst hj
      rw [hx]
      simp [← hl]
    | succ j =>
      rw [List.getElem?_cons_succ] at hj
      rw [ih hxs hj]
      congr 2
      rw [show n * (j + 1) = x.length + n * j by rw [hl]; ring, List.drop_append]
      simp

theorem readRow_ok {split : ℤ} {scalar : ℚ} {ds row : List ℚ} {n : ℕ} (h : readRow split n scalar ds = .ok row) :
    ∃ r, minuteRow split n scalar ds = .ok r ∧ ds.length * 15 ≤ n * ds.length ∧ row = r.take (ds.length * 15) := by
  unfold readRow at h
  obtain ⟨r, hr, h⟩ := Res.bind_eq_ok'.1 h
  unfold copyRow at h
  split_ifs at h with hc
  simp only [Res.ok.injEq] at h
  rw [minuteRow_length hr] at hc
  exact ⟨r, hr, by omega, h.symm⟩

theorem readRow_15 {split : ℤ} {scalar : ℚ} {ds row : List ℚ} (h : readRow split 15 scalar ds = .ok row) :
    minuteRow split 15 scalar ds = .ok row := by
  obtain ⟨r, hr, _, h⟩ := readRow_ok h
  have := minuteRow_length hr
  rw [h, List.take_of_length_le (by omega), hr]

/-- The minutes of an interval, when demand is spread. -/
theorem spread_block {scalar d : ℚ} {x : List ℚ} (h : spreadRow 1 15 scalar d = .ok x) :
    (d * scalar < 1 → x = List.replicate 15 0) ∧
    (1 ≤ d * scalar → ∃ k : ℕ, 1 ≤ k ∧ k ≤ 15 ∧ (k : ℤ) = min 15 ⌊d * scalar⌋ ∧
      x = List.replicate k (d / (k : ℚ)) ++ List.replicate (15 - k) 0) := by
  unfold spreadRow at h
  rw [if_neg (by decide), if_pos rfl] at h
  refine ⟨fun hx => ?_, fun hx => ?_⟩
  · rw [firstFit_none hx] at h
    simpa using h.symm
  · rw [firstFit_some (by decide) hx] at h
    simp only [Res.ok.injEq] at h
    have h1 : 1 ≤ ⌊d * scalar⌋ := Int.le_floor.2 (by exact_mod_cast hx)
    exact ⟨_, by omega, by omega, by omega, h.symm⟩

theorem sum_replicate_floor (k m : ℕ) (y scalar : ℚ) :
    ((List.replicate k y ++ List.replicate m 0).map fun x => ⌊x * scalar⌋).sum = k * ⌊y * scalar⌋ := by
  simp

theorem buses_spread {scalar d : ℚ} {x : List ℚ} (h0 : 0 ≤ d * scalar) (h : spreadRow 1 15 scalar d = .ok x) :
    (x.map fun y => ⌊y * scalar⌋).sum =
      if d * scalar < 16 then ⌊d * scalar⌋ else 15 * ⌊d * scalar / 15⌋ := by
  obtain ⟨ha, hb⟩ := spread_block h
  by_cases hx : d * scalar < 1
  · rw [ha hx, if_pos (by linarith)]
    have : ⌊d * scalar⌋ = 0 := Int.floor_eq_zero_iff.2 ⟨h0, hx⟩
    rw [this]
    simp
  · obtain ⟨k, k1, k15, hk, rfl⟩ := hb (not_lt.1 hx)
    rw [sum_replicate_floor, div_mul_eq_mul_div]
    have hkq : (0 : ℚ) < (k : ℚ) := by exact_mod_cast k1
    set X := d * scalar with hX
    have hfl : (⌊X⌋ : ℚ) ≤ X := Int.floor_le X
    have hlt : X < ⌊X⌋ + 1 := Int.lt_floor_add_one X
    split_ifs with h16
    · have hF : ⌊X⌋ < 16 := Int.floor_lt.2 (by exact_mod_cast h16)
      have hF1 : 1 ≤ ⌊X⌋ := Int.le_floor.2 (by exact_mod_cast not_lt.1 hx)
      have h1 : ⌊X / (k : ℚ)⌋ = 1 ∧ (k : ℤ) = ⌊X⌋ := by
        have hk' : (k : ℤ) = ⌊X⌋ := by omega
        refine ⟨?_, hk'⟩
        have hkq' : (k : ℚ) = (⌊X⌋ : ℚ) := by exact_mod_cast hk'
        rw [Int.floor_eq_iff]
        have h1q : (1 : ℚ) ≤ (⌊X⌋ : ℚ) := by exact_mod_cast hF1
        constructor
        · rw [le_div_iff₀ hkq, hkq']; push_cast; linarith
        · rw [div_lt_iff₀ hkq, hkq']; push_cast; linarith
      by_cases h15 : ⌊X⌋ = 15 ∨ ⌊X⌋ < 15
      · rw [h1.1, h1.2]; ring
      · omega
    · have hF : 16 ≤ ⌊X⌋ := Int.le_floor.2 (by exact_mod_cast not_lt.1 h16)
      have : k = 15 := by omega
      subst this
      norm_num

end Verif.MmF
