import Verif.Model.Ults
import Mathlib.Tactic.Linarith
import Mathlib.Tactic.NormNum

namespace Verif.Ults

theorem trunc_nonneg {x : ℚ} (h : 0 ≤ x) : trunc x = ⌊x⌋ := by simp [trunc, h]

theorem trunc_int (n : ℤ) : trunc (n : ℚ) = n := by simp [trunc]

theorem toInt_ok_of {x : ℚ} (h0 : 0 ≤ x) (h1 : x < 2147483648) : toInt x = .ok ⌊x⌋ := by
  have a : (0 : ℤ) ≤ ⌊x⌋ := Int.floor_nonneg.2 h0
  have b : ⌊x⌋ < 2147483648 := by
    rw [Int.floor_lt]; push_cast; exact h1
  simp only [toInt, trunc_nonneg h0]
  rw [if_pos]; constructor <;> omega

theorem toInt_ok_iff {x : ℚ} {n : ℤ} :
    toInt x = .ok n ↔ n = trunc x ∧ -2147483648 ≤ n ∧ n ≤ 2147483647 := by
  unfold toInt
  split
  · rename_i h; constructor
    · intro e; cases e; exact ⟨rfl, h⟩
    · rintro ⟨rfl, _⟩; rfl
  · rename_i h; constructor
    · intro e; cases e
    · rintro ⟨rfl, h'⟩; exact absurd h' h

theorem roundVal_nonneg {x u : ℚ} (h : 0 ≤ x) :
    roundVal x u = if Int.fract x > u then ⌊x⌋ + 1 else ⌊x⌋ := by
  simp only [roundVal, trunc_nonneg h, Int.fract]
  rfl

theorem round_ok {x u : ℚ} {n : ℤ} (h : round x u = .ok n) : n = roundVal x u := by
  unfold round at h
  cases ht : toInt x with
  | ok k =>
    rw [ht] at h
    obtain ⟨rfl, hk⟩ := toInt_ok_iff.1 ht
    simp only [Res.bind] at h
    unfold roundVal
    split at h
    · rename_i hgt
      rw [if_pos hgt]
      obtain ⟨rfl, _⟩ := toInt_ok_iff.1 h
      have : ((trunc x : ℚ) + 1) = ((trunc x + 1 : ℤ) : ℚ) := by push_cast; rfl
      rw [this, trunc_int]
    · rename_i hgt
      rw [if_neg hgt]
      obtain ⟨rfl, _⟩ := toInt_ok_iff.1 h
      rw [trunc_int]
  | throw m => rw [ht] at h; cases h
  | ub => rw [ht] at h; cases h
  | diverge => rw [ht] at h; cases h

theorem round_nonneg_ok {x u : ℚ} (h0 : 0 ≤ x) (h1 : x < 2147483647) :
    round x u = .ok (roundVal x u) := by
  have e := toInt_ok_of h0 (by linarith)
  have hf : ⌊x⌋ < 2147483647 := by rw [Int.floor_lt]; push_cast; exact h1
  have hf0 : (0 : ℤ) ≤ ⌊x⌋ := Int.floor_nonneg.2 h0
  unfold round
  rw [e]
  simp only [Res.bind, roundVal, trunc_nonneg h0]
  split
  · have : ((⌊x⌋ : ℚ) + 1) = ((⌊x⌋ + 1 : ℤ) : ℚ) := by push_cast; rfl
    rw [this, toInt_ok_iff, trunc_int]; omega
  · rw [toInt_ok_iff, trunc_int]; omega

theorem roundVal_bounds {x u : ℚ} (h0 : 0 ≤ x) : ⌊x⌋ ≤ roundVal x u ∧ roundVal x u ≤ ⌊x⌋ + 1 := by
  rw [roundVal_nonneg h0]; split <;> omega

theorem roundVal_natCast_nonneg {x u : ℚ} (h0 : 0 ≤ x) : 0 ≤ roundVal x u :=
  le_trans (Int.floor_nonneg.2 h0) (roundVal_bounds h0).1

theorem approxEq_floor {t p : ℚ} (ht : 0 ≤ t) :
    approxEq t (⌊t⌋ : ℤ) p = decide (t - ⌊t⌋ ≤ p * t) := by
  have h1 : (⌊t⌋ : ℚ) ≤ t := Int.floor_le t
  have h2 : (0 : ℚ) ≤ ⌊t⌋ := by exact_mod_cast Int.floor_nonneg.2 ht
  simp only [approxEq, abs_of_nonneg ht, abs_of_nonneg h2, abs_of_nonneg (sub_nonneg.2 h1),
    max_eq_left h1]

/-- Value of `round_up_time` on its defined range. -/
theorem roundUpTime_ge_one {t p : ℚ} (h1 : 1 ≤ t) (h2 : t < 2147483647) :
    roundUpTime t p = .ok (if t - ⌊t⌋ ≤ p * t then ⌊t⌋ else ⌊t⌋ + 1) := by
  have h0 : (0 : ℚ) ≤ t := by linarith
  have hf : ⌊t⌋ < 2147483647 := by rw [Int.floor_lt]; push_cast; exact h2
  unfold roundUpTime
  rw [if_neg (not_lt.2 h1), toInt_ok_of h0 (by linarith)]
  simp only [Res.bind, approxEq_floor h0, decide_eq_true_eq]
  split
  · rfl
  · rw [if_pos (by omega)]

theorem roundDownTime_ge_one {t : ℚ} (h1 : 1 ≤ t) (h2 : t < 2147483648) :
    roundDownTime t = .ok ⌊t⌋ := by
  unfold roundDownTime
  rw [if_neg (not_lt.2 h1), toInt_ok_of (by linarith) h2]

theorem countP_range_lt (c : ℕ) : ∀ n, (List.range n).countP (fun k => decide (k < c)) = min n c := by
  intro n
  induction n with
  | zero => simp
  | succ n ih =>
    rw [List.range_succ, List.countP_append, ih]
    simp only [List.countP_cons, List.countP_nil, decide_eq_true_eq]
    split <;> omega

end Verif.Ults
