import Verif.Lemmas.MLinkWait
import Mathlib.Tactic.FieldSimp
import Mathlib.Tactic.Linarith
import Mathlib.Tactic.Positivity

namespace Verif.MLnk
open Ults Curve Lnk
variable {V : Type}

/-- A sensible fundamental diagram: everything positive, critical below jam density. -/
structure Diagram.Good (d : Diagram) : Prop where
  critCar : 0 < d.critCar
  critTruck : 0 < d.critTruck
  holdCar : d.critCar < d.holdCar
  holdTruck : d.critTruck < d.holdTruck
  capCar : 0 < d.capCar
  capTruck : 0 < d.capTruck
  ffsCar : 0 < d.ffsCar
  ffsTruck : 0 < d.ffsTruck
  waveCar : 0 < d.waveCar
  waveTruck : 0 < d.waveTruck

variable {d : Diagram} {nc nt : ℕ} {dc dt : ℚ}

theorem perceive_frac_sum (hd : d.Good) (h1 : 0 ≤ dc) (h2 : 0 ≤ dt) :
    (perceive d nc nt dc dt).fracCar + (perceive d nc nt dc dt).fracTruck = 1 := by
  have a1 := hd.critCar; have a2 := hd.critTruck
  have b1 : 0 < d.holdCar := a1.trans hd.holdCar
  have b2 : 0 < d.holdTruck := a2.trans hd.holdTruck
  have w1 := hd.waveCar; have w2 := hd.waveTruck
  unfold perceive
  split
  · dsimp only
    split
    · norm_num
    · rename_i hne
      dsimp only
      rw [← add_div, div_self hne]
  · rename_i hgt
    split
    · dsimp only; ring
    · split
      · dsimp only; norm_num
      · split
        · dsimp only; norm_num
        · dsimp only
          have : 0 < d.holdTruck * d.waveTruck * dc + d.holdCar * d.waveCar * dt := by
            rcases h1.lt_or_eq with h | h
            · positivity
            · rcases h2.lt_or_eq with h' | h'
              · positivity
              · exfalso; apply hgt; rw [← h, ← h']; norm_num
          rw [← add_div, div_eq_one_iff_eq this.ne']
          ring

theorem perceive_frac_nonneg (hd : d.Good) (h1 : 0 ≤ dc) (h2 : 0 ≤ dt) (j1 : dc ≤ d.holdCar)
    (j2 : dt ≤ d.holdTruck) :
    0 ≤ (perceive d nc nt dc dt).fracCar ∧ 0 ≤ (perceive d nc nt dc dt).fracTruck := by
  have a1 := hd.critCar; have a2 := hd.critTruck
  have b1 : 0 < d.holdCar := a1.trans hd.holdCar
  have b2 : 0 < d.holdTruck := a2.trans hd.holdTruck
  have w1 := hd.waveCar; have w2 := hd.waveTruck
  unfold perceive
  split
  · dsimp only
    split
    · norm_num
    · constructor <;> dsimp only <;> positivity
  · split
    · rename_i h
      dsimp only
      exact ⟨by linarith [h.1], by positivity⟩
    · split
      · dsimp only; norm_num
      · split
        · dsimp only; norm_num
        · dsimp only
          constructor
          · apply div_nonneg _ (by positivity)
            have : dc * dt * (d.waveCar - d.waveTruck) + d.holdTruck * d.waveTruck * dc
                = dc * (dt * d.waveCar + (d.holdTruck - dt) * d.waveTruck) := by ring
            rw [this]
            have := sub_nonneg.2 j2
            positivity
          · apply div_nonneg _ (by positivity)
            have : dc * dt * (d.waveTruck - d.waveCar) + d.holdCar * d.waveCar * dt
                = dt * (dc * d.waveTruck + (d.holdCar - dc) * d.waveCar) := by ring
            rw [this]
            have := sub_nonneg.2 j1
            positivity

theorem perceive_product (hd : d.Good) (h1 : 0 ≤ dc) (h2 : 0 ≤ dt) (z1 : nc = 0 → dc = 0)
    (z2 : nt = 0 → dt = 0) :
    (∀ ρ, (perceive d nc nt dc dt).densCar = some ρ →
      (perceive d nc nt dc dt).fracCar * ρ = dc) ∧
    (∀ ρ, (perceive d nc nt dc dt).densTruck = some ρ →
      (perceive d nc nt dc dt).fracTruck * ρ = dt) := by
  have a1 := hd.critCar; have a2 := hd.critTruck
  unfold perceive
  split
  · dsimp only
    split
    · rename_i h0
      have p1 : 0 ≤ dc / d.critCar := by positivity
      have p2 : 0 ≤ dt / d.critTruck := by positivity
      have e1 : dc / d.critCar = 0 := by linarith
      have e2 : dt / d.critTruck = 0 := by linarith
      rw [div_eq_zero_iff] at e1 e2
      have e1 : dc = 0 := e1.resolve_right a1.ne'
      have e2 : dt = 0 := e2.resolve_right a2.ne'
      subst e1 e2
      constructor <;> intro ρ h <;> cases h <;> simp
    · rename_i h0
      have e1 : dc = d.critCar * (dc / d.critCar) := by field_simp
      have e2 : dt = d.critTruck * (dt / d.critTruck) := by field_simp
      generalize dc / d.critCar = x at *
      generalize dt / d.critTruck = y at *
      subst e1 e2
      constructor
      · intro ρ h; cases h
        dsimp only
        field_simp
      · intro ρ h; cases h
        dsimp only
        field_simp
        ring
  · split
    · rename_i h
      have h3 : (1 : ℚ) - dt / d.critTruck ≠ 0 := by linarith [h.1]
      constructor
      · intro ρ h; cases h
        exact mul_div_cancel₀ _ h3
      · intro ρ h; cases h
        dsimp only
        field_simp
    · split
      · rename_i h
        rw [z2 h]
        constructor
        · intro ρ h; cases h; simp
        · intro ρ h; simp
      · split
        · rename_i h
          rw [z1 h]
          constructor
          · intro ρ h; simp
          · intro ρ h; cases h; simp
        · dsimp only
          constructor
          · intro ρ h
            unfold divO at h
            split at h
            · simp at h
            · rename_i hne
              cases h
              exact mul_div_cancel₀ _ hne
          · intro ρ h
            unfold divO at h
            split at h
            · simp at h
            · rename_i hne
              cases h
              exact mul_div_cancel₀ _ hne

/-- A vehicle-by-vehicle bound: at most the vehicles that free-flow speed brings to the exit. -/
theorem demand_le_free (frac cap ffs unit : ℚ) (p : Option ℚ) (x : ℚ)
    (hp : ∀ ρ, p = some ρ → frac * ρ = x) (hf : 0 ≤ frac) (hu : 0 ≤ unit) (hs : p ≠ none) :
    frac * demandOf cap ffs unit p ≤ ffs * x * unit := by
  cases p with
  | none => exact absurd rfl hs
  | some ρ =>
    have := hp ρ rfl
    simp only [demandOf]
    calc frac * (min cap (ffs * ρ) * unit) ≤ frac * (ffs * ρ * unit) := by
          apply mul_le_mul_of_nonneg_left _ hf
          exact mul_le_mul_of_nonneg_right (min_le_right _ _) hu
      _ = ffs * (frac * ρ) * unit := by ring
      _ = ffs * x * unit := by rw [this]

theorem liftCap_pos {unit scalar c : ℚ} {lanes : ℤ} (hu : 0 < unit) (hs : 0 < scalar)
    (hl : 0 < lanes) : 0 < liftCap unit scalar lanes c := by
  have hl' : (0 : ℚ) < lanes := by exact_mod_cast hl
  unfold liftCap
  split
  · positivity
  · rename_i h
    by_contra hc
    apply h
    have : c * (unit * scalar * lanes) ≤ 0 :=
      mul_nonpos_of_nonpos_of_nonneg (not_lt.1 hc) (by positivity)
    have e : c * unit * scalar * lanes = c * (unit * scalar * lanes) := by ring
    rw [e]; linarith

theorem liftCell_pos {unit scalar c : ℚ} (hu : 0 < unit) (hs : 0 < scalar) :
    0 < liftCell unit scalar c := by
  unfold liftCell
  split
  · positivity
  · rename_i h
    by_contra hc
    apply h
    have : c * (unit * scalar) ≤ 0 :=
      mul_nonpos_of_nonpos_of_nonneg (not_lt.1 hc) (by positivity)
    have e : c * unit * scalar = c * (unit * scalar) := by ring
    rw [e]; linarith

theorem checkAttrs_ffs {a a' : Args} (h : checkAttrs a = .ok a') :
    0 ≤ a'.ffsCar ∧ 0 ≤ a'.ffsTruck ∧ a'.lanes = a.lanes ∧ a'.length = a.length ∧
      a'.ffsCar = a.ffsCar := by
  unfold checkAttrs at h
  split at h
  · simp at h
  split at h
  · simp at h
  split at h
  · simp at h
  rename_i h3
  push Not at h3
  cases h; exact ⟨h3.1, h3.2, rfl, rfl, rfl⟩

theorem derive_good {a : Args} {r : Derived} (h : derive a = .ok r) (hu : 0 < a.unit)
    (hs : 0 < a.scalar) (hl : 0 ≤ a.lanes) (hlen : 0 ≤ a.length) (hf : 0 ≤ a.ffsCar) (hg : 0 ≤ a.ffsTruck) :
    r.dia.Good ∧ 0 < r.std ∧ 0 < r.last ∧ 1 ≤ r.num ∧ r.std = r.dia.ffsCar * a.unit := by
  unfold derive at h
  split at h
  · simp at h
  rename_i hf0
  rw [Res.bind_eq_ok'] at h
  obtain ⟨n, hn, h⟩ := h
  simp only at h
  split at h
  · simp at h
  rename_i h1
  push Not at h1
  split at h
  · simp at h
  rename_i h2
  push Not at h2
  cases h
  have hl' : (0 : ℚ) < a.lanes := by
    have : 0 < a.lanes := lt_of_le_of_ne hl (Ne.symm h1.1)
    exact_mod_cast this
  have hlz : 0 < a.lanes := by exact_mod_cast hl'
  have hf' : 0 < a.ffsCar := lt_of_le_of_ne hf (Ne.symm hf0)
  have hg' : 0 < a.ffsTruck := lt_of_le_of_ne hg (Ne.symm h2.1)
  have c1 := liftCap_pos (c := a.capCar) hu hs hlz
  have c2 := liftCap_pos (c := a.capTruck) hu hs hlz
  have std : 0 < a.ffsCar * a.unit := mul_pos hf' hu
  refine ⟨⟨?_, ?_, ?_, ?_, ?_, ?_, hf', hg', ?_, ?_⟩, std, ?_, ?_, rfl⟩
  · exact mul_pos hl' (div_pos c1 hf')
  · exact mul_pos hl' (div_pos c2 hg')
  · exact mul_lt_mul_of_pos_left h1.2 hl'
  · exact mul_lt_mul_of_pos_left h2.2 hl'
  · exact liftCell_pos hu hs
  · exact liftCell_pos hu hs
  · exact div_pos c1 (sub_pos.2 h1.2)
  · exact div_pos c2 (sub_pos.2 h2.2)
  · dsimp only
    obtain ⟨e, _⟩ := toInt_ok_iff.1 hn
    rw [trunc_int] at e
    split
    · simp; exact std
    · rename_i hne
      have := Int.floor_le (a.length / (a.ffsCar * a.unit))
      rw [← e, le_div_iff₀ std] at this
      push_cast
      nlinarith
  · dsimp only
    split
    · norm_num
    · rename_i hne
      obtain ⟨e, _⟩ := toInt_ok_iff.1 hn
      rw [trunc_int] at e
      have : 0 ≤ ⌊a.length / (a.ffsCar * a.unit)⌋ := Int.floor_nonneg.2 (div_nonneg hlen std.le)
      omega

end Verif.MLnk
