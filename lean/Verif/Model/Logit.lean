import Mathlib.Analysis.SpecialFunctions.Log.Basic

/-!
# Model of `MNM::logit_fn` and `MNM_MM_Due::get_disutility`

`exp` and `log` of the standard library are the real functions, numbers are real.
-/

namespace Verif.Logit

/-- One mode in `cost` and `alpha_map`; the cost `none` is infinite. -/
structure Alt where
  mode : ℕ
  cost : Option ℝ
  alpha : ℝ

/-- `multimodal.cpp:12549-12561`: the weight of a mode. -/
noncomputable def weight (β : ℝ) (a : Alt) : ℝ :=
  match a.cost with
  | none => 0
  | some c => Real.exp (-(a.alpha + β * c))

/-- `multimodal.cpp:12539-12572` `logit_fn`: the shares of the modes; `none` when the sum of the weights is zero
(the shares are then not numbers). -/
noncomputable def logitFn (β : ℝ) (as : List Alt) : Option (List (ℕ × ℝ)) :=
  open Classical in
  if (as.map (weight β)).sum = 0 then none
  else some (as.map fun a => (a.mode, weight β a / (as.map (weight β)).sum))

/-- `multimodal.cpp:18703-18726` `get_disutility`; `alpha` is the constant of the mode, `beta` is `m_beta1`. -/
noncomputable def disutility (alpha beta cost demand : ℝ) : ℝ :=
  cost + (alpha + Real.log (demand + 1 / 1000000000)) / beta

end Verif.Logit
