import Verif.Lemmas.Ults
import Mathlib.Tactic.FieldSimp

/-! # Properties C07, C08: rounding helpers -/

namespace Verif
open Ults

/-- C07.  Rounding a non-negative number (representable as `int`) never fails; the result is
the floor or the floor plus one; it is the floor plus one exactly when the draw lies below the
fractional part; the error is below one; integers are returned unchanged whatever the draw. -/
theorem C07_stochastic_round (x u : ℚ) (hx : 0 ≤ x) (hmax : x < 2147483647) (hu : 0 ≤ u) :
    ∃ n : ℤ, round x u = .ok n ∧
      (n = ⌊x⌋ ∨ n = ⌊x⌋ + 1) ∧
      (n = ⌊x⌋ + 1 ↔ u < x - ⌊x⌋) ∧
      |(n : ℚ) - x| < 1 ∧
      (∀ k : ℤ, x = k → n = k) := by
  have hf1 := Int.floor_le x
  have hf2 := Int.lt_floor_add_one x
  have hiff : (Int.fract x > u) ↔ u < x - ⌊x⌋ := Iff.rfl
  refine ⟨roundVal x u, round_nonneg_ok hx hmax, ?_, ?_, ?_, ?_⟩
  · rw [roundVal_nonneg hx]; split <;> simp
  · rw [roundVal_nonneg hx]
    split
    · rename_i h; exact ⟨fun _ => hiff.1 h, fun _ => rfl⟩
    · rename_i h; simp only [left_eq_add, one_ne_zero, false_iff]; exact fun h' => h (hiff.2 h')
  · rw [roundVal_nonneg hx, abs_lt]
    split
    · rename_i h; have := hiff.1 h; push_cast; constructor <;> linarith
    · constructor <;> linarith
  · rintro k rfl
    rw [roundVal_nonneg hx]
    simp [not_lt.2 hu]

example : round (7/2) (1/4) = .ok 4 ∧ round (7/2) (3/4) = .ok 3 ∧ round 3 0 = .ok 3 := by
  decide +kernel

/-- C07, unbiasedness in the form a pseudo-random generator with values `0 … M` (`M` =
`RAND_MAX`) provides: among the `M + 1` equally likely draws, the number that round up is
`⌈frac x * M⌉`. -/
theorem C07_round_up_count (x : ℚ) (hx : 0 ≤ x) (M : ℕ) (hM : 0 < M) :
    (List.range (M + 1)).countP (fun k : ℕ => decide (roundVal x ((k : ℚ) / M) = ⌊x⌋ + 1))
      = ⌈(x - ⌊x⌋) * M⌉₊ := by
  have hM' : (0 : ℚ) < M := by exact_mod_cast hM
  have hfr := Int.fract_lt_one x
  have e : (fun k : ℕ => decide (roundVal x ((k : ℚ) / M) = ⌊x⌋ + 1))
      = fun k => decide (k < ⌈(x - ⌊x⌋) * M⌉₊) := by
    funext k
    rw [decide_eq_decide, roundVal_nonneg hx, Nat.lt_ceil]
    have : (Int.fract x > (k : ℚ) / M) ↔ (k : ℚ) < (x - ⌊x⌋) * M := by
      rw [gt_iff_lt, div_lt_iff₀ hM']; rfl
    rw [← this]
    split <;> simp_all
  rw [e, countP_range_lt]
  apply min_eq_right
  rw [Nat.ceil_le]
  have : (x - ⌊x⌋) * M ≤ 1 * M := mul_le_mul_of_nonneg_right (le_of_lt hfr) hM'.le
  push_cast
  linarith

/-- C08.  `round_down_time` and `round_up_time` return at least one interval; from one interval
on, the former is the floor, the latter is the floor or the floor plus one, and the time it
returns falls short of the input by at most the fraction `p` of it. -/
theorem C08_round_time (t p : ℚ) (hp : 0 ≤ p) (ht : t < 2147483647) :
    ∃ lo up : ℤ, roundDownTime t = .ok lo ∧ roundUpTime t p = .ok up ∧
      1 ≤ lo ∧ lo ≤ up ∧ up ≤ lo + 1 ∧
      (t < 1 → lo = 1 ∧ up = 1) ∧
      (1 ≤ t → lo = ⌊t⌋ ∧ (lo : ℚ) ≤ t ∧ t < lo + 1 ∧ t - p * t ≤ up ∧
        (up = lo ↔ t - ⌊t⌋ ≤ p * t)) := by
  by_cases h1 : t < 1
  · exact ⟨1, 1, by simp [roundDownTime, h1], by simp [roundUpTime, h1], le_refl _, le_refl _,
      by omega, fun _ => ⟨rfl, rfl⟩, fun h => absurd h1 (not_lt.2 h)⟩
  · have h1' : 1 ≤ t := not_lt.1 h1
    have hfl : (1 : ℤ) ≤ ⌊t⌋ := by rw [Int.le_floor]; exact_mod_cast h1'
    have hf1 := Int.floor_le t
    have hf2 := Int.lt_floor_add_one t
    refine ⟨⌊t⌋, _, roundDownTime_ge_one h1' (by linarith), roundUpTime_ge_one h1' ht, hfl, ?_, ?_,
      fun h => absurd h h1, fun _ => ⟨rfl, hf1, hf2, ?_, ?_⟩⟩
    · split <;> omega
    · split <;> omega
    · have : 0 ≤ p * t := mul_nonneg hp (by linarith)
      split
      · linarith
      · push_cast; linarith
    · split
      · rename_i h; exact ⟨fun _ => h, fun _ => rfl⟩
      · rename_i h; exact ⟨fun h' => by omega, fun h' => absurd h' h⟩

/-- C08, monotonicity of both conversions. -/
theorem C08_round_time_monotone (s t p : ℚ) (hp1 : p < 1) (hst : s ≤ t)
    (ht : t < 2147483647) (a b c d : ℤ) (ha : roundDownTime s = .ok a) (hb : roundDownTime t = .ok b)
    (hc : roundUpTime s p = .ok c) (hd : roundUpTime t p = .ok d) : a ≤ b ∧ c ≤ d := by
  by_cases h1 : s < 1
  · have ea : a = 1 := by simp [roundDownTime, h1] at ha; exact ha.symm
    have ec : c = 1 := by simp [roundUpTime, h1] at hc; exact hc.symm
    subst ea; subst ec
    by_cases h2 : t < 1
    · simp [roundDownTime, h2] at hb
      simp [roundUpTime, h2] at hd
      omega
    · have h2' := not_lt.1 h2
      have hfl : (1 : ℤ) ≤ ⌊t⌋ := by rw [Int.le_floor]; exact_mod_cast h2'
      rw [roundDownTime_ge_one h2' (by linarith)] at hb
      rw [roundUpTime_ge_one h2' ht] at hd
      cases hb; cases hd
      exact ⟨hfl, by split <;> omega⟩
  · have h1' := not_lt.1 h1
    have h2' : 1 ≤ t := le_trans h1' hst
    rw [roundDownTime_ge_one h2' (by linarith)] at hb
    rw [roundUpTime_ge_one h2' ht] at hd
    rw [roundDownTime_ge_one h1' (by linarith)] at ha
    rw [roundUpTime_ge_one h1' (by linarith)] at hc
    cases ha; cases hb; cases hc; cases hd
    have hm : ⌊s⌋ ≤ ⌊t⌋ := Int.floor_le_floor hst
    refine ⟨hm, ?_⟩
    rcases lt_or_eq_of_le hm with hlt | heq
    · split <;> split <;> omega
    · rw [heq]
      split
      · split <;> omega
      · rename_i hs
        split
        · rename_i htt
          exfalso
          apply hs
          nlinarith
        · omega

example : roundUpTime (5/2) (1/10000) = .ok 3 ∧ roundDownTime (5/2) = .ok 2 ∧
    roundUpTime (100001/50000) (1/10000) = .ok 2 ∧ roundUpTime (1/3) (1/10000) = .ok 1 := by
  decide +kernel

/-- C08, a consequence users may not expect: from `1/p` intervals on (10000 with the default
tolerance) `round_up_time` never rounds up. -/
theorem C08_round_up_is_floor_when_large (t p : ℚ) (hp : 0 < p) (hbig : 1 ≤ p * t) (h1 : 1 ≤ t)
    (ht : t < 2147483647) : roundUpTime t p = .ok ⌊t⌋ := by
  rw [roundUpTime_ge_one h1 ht]
  have := Int.lt_floor_add_one t
  rw [if_pos (by linarith)]

example : (1 : ℚ) ≤ 1/10000 * (25001/2) ∧ roundUpTime (25001/2) (1/10000) = .ok 12500 := by
  decide +kernel

end Verif
