import Verif.Model.Logit
import Mathlib.Algebra.Order.BigOperators.Group.List
import Mathlib.Tactic.Linarith
import Mathlib.Tactic.FieldSimp

/-!
# C137: the logit model of the choice among modes
-/

namespace Verif
open Logit

namespace Logit

theorem weight_nonneg (β : ℝ) (a : Alt) : 0 ≤ weight β a := by
  unfold weight
  split
  · exact le_refl _
  · exact (Real.exp_pos _).le

theorem weight_pos {β : ℝ} {a : Alt} {c : ℝ} (h : a.cost = some c) : 0 < weight β a := by
  unfold weight
  rw [h]
  exact Real.exp_pos _

theorem sum_nonneg' (β : ℝ) (as : List Alt) : 0 ≤ (as.map (weight β)).sum := by
  apply List.sum_nonneg
  intro x hx
  obtain ⟨a, _, rfl⟩ := List.mem_map.1 hx
  exact weight_nonneg β a

theorem sum_pos_iff (β : ℝ) (as : List Alt) : (as.map (weight β)).sum = 0 ↔ ∀ a ∈ as, a.cost = none := by
  induction as with
  | nil => simp
  | cons a as ih =>
    have h1 := weight_nonneg β a
    have h2 := sum_nonneg' β as
    rw [List.map_cons, List.sum_cons]
    constructor
    · intro h b hb
      rw [List.mem_cons] at hb
      rcases hb with rfl | hb
      · cases hc : b.cost with
        | none => rfl
        | some c => have := weight_pos (β := β) hc; linarith
      · exact ih.1 (by linarith) b hb
    · intro h
      rw [ih.2 fun b hb => h b (by simp [hb])]
      have : a.cost = none := h a (by simp)
      simp [weight, this]

theorem sum_div (xs : List ℝ) (d : ℝ) : (xs.map fun x => x / d).sum = xs.sum / d := by
  induction xs with
  | nil => simp
  | cons x xs ih => rw [List.map_cons, List.sum_cons, ih, List.sum_cons, add_div]

end Logit

/-- C137, the shares are a distribution over the modes: one share for each mode, none negative, zero exactly for the
modes of infinite cost, adding up to one. -/
theorem C137_shares (β : ℝ) (as : List Alt) (xs : List (ℕ × ℝ)) (h : logitFn β as = some xs) :
    xs.map Prod.fst = as.map Alt.mode ∧ (xs.map Prod.snd).sum = 1 ∧ (∀ x ∈ xs, 0 ≤ x.2 ∧ x.2 ≤ 1) ∧
    xs.map (fun x => decide (x.2 = 0)) = as.map fun a => a.cost.isNone := by
  classical
  unfold logitFn at h
  split at h
  · cases h
  · rename_i hs
    have hpos : 0 < (as.map (weight β)).sum := lt_of_le_of_ne (sum_nonneg' β as) (Ne.symm hs)
    obtain rfl := Option.some.inj h
    have hsum : (as.map fun a => weight β a / (as.map (weight β)).sum).sum = 1 := by
      have := sum_div (as.map (weight β)) (as.map (weight β)).sum
      rw [List.map_map, div_self hs] at this
      exact this
    refine ⟨by simp [Function.comp_def], ?_, ?_, ?_⟩
    · rw [List.map_map]; exact hsum
    · intro x hx
      obtain ⟨a, ha, rfl⟩ := List.mem_map.1 hx
      refine ⟨div_nonneg (weight_nonneg β a) hpos.le, ?_⟩
      rw [div_le_one hpos]
      exact List.single_le_sum (fun y hy => by obtain ⟨b, _, rfl⟩ := List.mem_map.1 hy; exact weight_nonneg β b) _
        (List.mem_map.2 ⟨a, ha, rfl⟩)
    · rw [List.map_map]
      apply List.map_congr_left
      intro a _
      simp only [Function.comp, div_eq_zero_iff, hs, or_false]
      cases hc : a.cost with
      | none => simp [weight, hc]
      | some c =>
        have := (weight_pos (β := β) hc).ne'
        simp [this]

/-- C137: there are shares exactly when some mode has a finite cost. -/
theorem C137_defined (β : ℝ) (as : List Alt) : (∃ xs, logitFn β as = some xs) ↔ ∃ a ∈ as, a.cost ≠ none := by
  classical
  unfold logitFn
  constructor
  · rintro ⟨xs, h⟩
    by_contra hn
    push Not at hn
    rw [if_pos ((sum_pos_iff β as).2 hn)] at h
    cases h
  · rintro ⟨a, ha, hc⟩
    rw [if_neg fun e => hc ((sum_pos_iff β as).1 e a ha)]
    exact ⟨_, rfl⟩

example : ∃ xs, logitFn 1 [⟨1, some 3, 0⟩, ⟨2, none, 0⟩, ⟨5, some 4, 1⟩] = some xs :=
  (C137_defined _ _).2 ⟨_, List.mem_cons_self .., by simp⟩

/-- C137: between two modes of finite cost, the logarithm of the ratio of the shares is the difference of
`alpha + β * cost`; in particular, at equal constants and for positive `β` the cheaper mode has the larger share. -/
theorem C137_odds (β : ℝ) (as : List Alt) (xs : List (ℕ × ℝ)) (h : logitFn β as = some xs) (i j : ℕ) (a b : Alt)
    (ca cb : ℝ) (hi : as[i]? = some a) (hj : as[j]? = some b) (ha : a.cost = some ca) (hb : b.cost = some cb) :
    ∃ x y, xs[i]? = some (a.mode, x) ∧ xs[j]? = some (b.mode, y) ∧
      Real.log (x / y) = (b.alpha + β * cb) - (a.alpha + β * ca) ∧
      (0 < β → a.alpha = b.alpha → ca < cb → y < x) := by
  classical
  unfold logitFn at h
  split at h
  · cases h
  · rename_i hs
    have hpos : 0 < (as.map (weight β)).sum := lt_of_le_of_ne (sum_nonneg' β as) (Ne.symm hs)
    obtain rfl := Option.some.inj h
    have wa : weight β a = Real.exp (-(a.alpha + β * ca)) := by simp [weight, ha]
    have wb : weight β b = Real.exp (-(b.alpha + β * cb)) := by simp [weight, hb]
    refine ⟨weight β a / (as.map (weight β)).sum, weight β b / (as.map (weight β)).sum, by simp [hi], by simp [hj], ?_, ?_⟩
    · rw [div_div_div_cancel_right₀ hs, wa, wb, ← Real.exp_sub, Real.log_exp]
      ring
    · intro hβ e hlt
      apply div_lt_div_of_pos_right _ hpos
      rw [wa, wb, Real.exp_lt_exp, e]
      nlinarith [mul_lt_mul_of_pos_left hlt hβ]

/-- C137, the mode split is an equilibrium of the disutilities: if the demands of the modes (each not negative) make
all modes equally good, then the logit shares at the same costs are the shares of the demands, up to the
`10⁻⁹` that the code adds to every demand. -/
theorem C137_equal_disutility (β : ℝ) (hβ : β ≠ 0) (u : ℝ) (as : List (Alt × ℝ)) (hne : as ≠ [])
    (hD : ∀ a ∈ as, 0 ≤ a.2) (heq : ∀ a ∈ as, ∃ c, a.1.cost = some c ∧ disutility a.1.alpha β c a.2 = u) :
    logitFn β (as.map Prod.fst) = some (as.map fun a =>
      (a.1.mode, (a.2 + 1 / 1000000000) / (as.map fun b => b.2 + 1 / 1000000000).sum)) := by
  classical
  have hw : ∀ a ∈ as, weight β a.1 = (a.2 + 1 / 1000000000) * Real.exp (-(β * u)) := by
    intro a ha
    obtain ⟨c, hc, hu⟩ := heq a ha
    have hp : 0 < a.2 + 1 / 1000000000 := by have := hD a ha; linarith
    unfold disutility at hu
    have e : a.1.alpha + β * c = β * u - Real.log (a.2 + 1 / 1000000000) := by
      rw [← hu]; field_simp; ring
    simp only [weight, hc]
    rw [e, show -(β * u - Real.log (a.2 + 1 / 1000000000)) = Real.log (a.2 + 1 / 1000000000) + -(β * u) by ring,
      Real.exp_add, Real.exp_log hp]
  have hsum : ((as.map Prod.fst).map (weight β)).sum =
      (as.map fun b => b.2 + 1 / 1000000000).sum * Real.exp (-(β * u)) := by
    rw [List.map_map, ← List.sum_map_mul_right]
    congr 1
    apply List.map_congr_left
    intro a ha
    exact hw a ha
  have hpos : 0 < (as.map fun b => b.2 + 1 / 1000000000).sum := by
    apply List.sum_pos
    · intro x hx
      obtain ⟨b, hb, rfl⟩ := List.mem_map.1 hx
      have := hD b hb
      linarith
    · simpa using hne
  have he := Real.exp_pos (-(β * u))
  unfold logitFn
  rw [hsum, if_neg (mul_pos hpos he).ne']
  congr 1
  rw [List.map_map]
  apply List.map_congr_left
  intro a ha
  simp only [Function.comp]
  rw [hw a ha, mul_div_mul_right _ _ he.ne']

/-- The hypotheses of the theorem can be met: two modes of cost 3 with a demand of 5 each. -/
example : ∀ a ∈ [((⟨1, some 3, 0⟩ : Alt), (5 : ℝ)), (⟨2, some 3, 0⟩, 5)], ∃ c, a.1.cost = some c ∧
    disutility a.1.alpha 1 c a.2 = 3 + Real.log (5 + 1 / 1000000000) := by
  intro a ha
  simp only [List.mem_cons, List.not_mem_nil, or_false] at ha
  rcases ha with rfl | rfl <;> exact ⟨3, rfl, by simp [disutility]⟩

end Verif
