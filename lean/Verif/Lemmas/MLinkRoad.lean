import Verif.Lemmas.MLinkOk

/-! # Lemmas on the parameters of two-class links -/

namespace Verif.MLnk
open Ults Curve
variable {V : Type}

theorem clampHold_eq (h : ℚ) : clampHold h = min h (400 / 1600) := by
  unfold clampHold
  split
  · rename_i g; rw [min_eq_right g.le]
  · rename_i g; rw [min_eq_left (not_lt.1 g)]

theorem clampCap_eq (h : ℚ) : clampCap h = min h (3500 / 3600) := by
  unfold clampCap
  split
  · rename_i g; rw [min_eq_right g.le]
  · rename_i g; rw [min_eq_left (not_lt.1 g)]

theorem liftCell_eq {u s c : ℚ} (hu : 0 < u) (hs : 0 < s) : liftCell u s c = max c (1 / (u * s)) := by
  have hp : 0 < u * s := mul_pos hu hs
  unfold liftCell
  split
  · rename_i g
    rw [max_eq_right]
    rw [le_div_iff₀ hp]; linarith [mul_assoc c u s]
  · rename_i g
    rw [max_eq_left]
    rw [div_le_iff₀ hp]; linarith [mul_assoc c u s]

theorem liftCap_eq {u s c : ℚ} {k : ℤ} (hu : 0 < u) (hs : 0 < s) (hk : 0 < k) :
    (k : ℚ) * liftCap u s k c = max (k * c) (1 / (u * s)) := by
  have hk' : (0 : ℚ) < k := by exact_mod_cast hk
  have hp : 0 < u * s := mul_pos hu hs
  have e : c * u * s * k = k * c * (u * s) := by ring
  unfold liftCap
  rw [e]
  split
  · rename_i g
    rw [max_eq_right (by rw [le_div_iff₀ hp]; linarith)]
    field_simp
  · rename_i g
    rw [max_eq_left (by rw [div_le_iff₀ hp]; linarith)]

theorem congested_eq (k q x h : ℚ) (d : 0 < h - x) : k * q = q / (h - x) * (k * h - k * x) := by
  rw [← mul_sub, mul_left_comm, div_mul_cancel₀ _ d.ne']

theorem meet_eq (k h w g : ℚ) (hw : 0 < w) (hg : 0 < g) : k * (h * (w / (g + w))) * (g + w) = k * h * w := by
  have : g + w ≠ 0 := by positivity
  field_simp

theorem derive_road {a : Args} {r : Derived} (h : derive a = .ok r) (hu : 0 < a.unit)
    (hs : 0 < a.scalar) (hl : 0 ≤ a.lanes) (hf : 0 ≤ a.ffsCar) (hg : 0 ≤ a.ffsTruck) :
    RoadOf a a.holdCar a.holdTruck a.capCar a.capTruck r.dia := by
  unfold derive at h
  split at h
  · simp at h
  rename_i hf0
  rw [Res.bind_eq_ok'] at h
  obtain ⟨n, hn, h⟩ := h
  simp only at h
  split at h
  · simp at h
  rename_i h1
  push Not at h1
  split at h
  · simp at h
  rename_i h2
  push Not at h2
  cases h
  have hlz : 0 < a.lanes := lt_of_le_of_ne hl (Ne.symm h1.1)
  have hl' : (0 : ℚ) < a.lanes := by exact_mod_cast hlz
  have hf' : 0 < a.ffsCar := lt_of_le_of_ne hf (Ne.symm hf0)
  have hg' : 0 < a.ffsTruck := lt_of_le_of_ne hg (Ne.symm h2.1)
  have c1 := liftCap_pos (c := a.capCar) hu hs hlz
  have c2 := liftCap_pos (c := a.capTruck) hu hs hlz
  have k1 := liftCap_eq (c := a.capCar) hu hs hlz
  have k2 := liftCap_eq (c := a.capTruck) hu hs hlz
  have m1 : liftCell a.unit a.scalar (a.lanes * liftCap a.unit a.scalar a.lanes a.capCar)
      = a.lanes * liftCap a.unit a.scalar a.lanes a.capCar := by
    rw [liftCell_eq hu hs, k1, max_assoc, max_self]
  have m2 : liftCell a.unit a.scalar (a.lanes * liftCap a.unit a.scalar a.lanes a.capTruck)
      = a.lanes * liftCap a.unit a.scalar a.lanes a.capTruck := by
    rw [liftCell_eq hu hs, k2, max_assoc, max_self]
  have d1 := sub_pos.2 h1.2
  have d2 := sub_pos.2 h2.2
  refine ⟨by rw [m1, k1], by rw [m2, k2], rfl, rfl, rfl, rfl, ?_, ?_, ?_⟩
  · rw [m1]
    exact ⟨by field_simp, congested_eq _ _ _ _ d1, mul_pos hl' (div_pos c1 hf'),
      mul_lt_mul_of_pos_left h1.2 hl'⟩
  · rw [m2]
    exact ⟨by field_simp, congested_eq _ _ _ _ d2, mul_pos hl' (div_pos c2 hg'),
      mul_lt_mul_of_pos_left h2.2 hl'⟩
  · exact meet_eq _ _ _ _ (div_pos c1 d1) hg'

theorem RoadOf.of_check {a a' : Args} (h : checkAttrs a = .ok a') {d : Diagram}
    (hr : RoadOf a' a'.holdCar a'.holdTruck a'.capCar a'.capTruck d) :
    RoadOf a (min a.holdCar (400 / 1600)) (min a.holdTruck (400 / 1600)) (min a.capCar (3500 / 3600))
      (min a.capTruck (3500 / 3600)) d := by
  unfold checkAttrs at h
  split at h
  · simp at h
  split at h
  · simp at h
  split at h
  · simp at h
  cases h
  obtain ⟨h1, h2, h3, h4, h5, h6, h7, h8, h9⟩ := hr
  simp only [clampHold_eq, clampCap_eq] at h1 h2 h3 h4
  exact ⟨h1, h2, h3, h4, h5, h6, h7, h8, h9⟩

/-- The cells cut a road of length at least one free-flow interval into pieces. -/
theorem derive_cells {a : Args} {r : Derived} (h : derive a = .ok r) (hu : 0 < a.unit)
    (hlen : 0 ≤ a.length) (hf : 0 ≤ a.ffsCar) :
    1 ≤ r.num ∧ r.std = a.ffsCar * a.unit ∧
    ((r.num - 1).toNat : ℚ) * r.std + r.last = max a.length (a.ffsCar * a.unit) ∧
    r.std ≤ r.last ∧ r.last < 2 * r.std := by
  unfold derive at h
  split at h
  · simp at h
  rename_i hf0
  rw [Res.bind_eq_ok'] at h
  obtain ⟨n, hn, h⟩ := h
  simp only at h
  split at h
  · simp at h
  split at h
  · simp at h
  cases h
  have hf' : 0 < a.ffsCar := lt_of_le_of_ne hf (Ne.symm hf0)
  have std : 0 < a.ffsCar * a.unit := mul_pos hf' hu
  obtain ⟨e, _⟩ := toInt_ok_iff.1 hn
  rw [trunc_int] at e
  have f1 := Int.floor_le (a.length / (a.ffsCar * a.unit))
  have f2 := Int.lt_floor_add_one (a.length / (a.ffsCar * a.unit))
  have f3 : 0 ≤ ⌊a.length / (a.ffsCar * a.unit)⌋ := Int.floor_nonneg.2 (div_nonneg hlen std.le)
  rw [← e] at f1 f2 f3
  rw [le_div_iff₀ std] at f1
  rw [div_lt_iff₀ std] at f2
  dsimp only
  generalize a.ffsCar * a.unit = s at *
  by_cases h0 : n = 0
  · subst h0
    simp only [if_true]
    simp at f2
    refine ⟨le_refl _, trivial, ?_, ?_, ?_⟩
    · rw [max_eq_right f2.le]; norm_num
    · norm_num
    · norm_num; linarith
  · simp only [if_neg h0]
    have : 1 ≤ n := by omega
    have hn1 : ((n - 1).toNat : ℚ) = (n : ℚ) - 1 := by
      have : ((n - 1).toNat : ℤ) = n - 1 := Int.toNat_of_nonneg (by omega)
      have h' : (((n - 1).toNat : ℤ) : ℚ) = ((n - 1 : ℤ) : ℚ) := by rw [this]
      push_cast at h'
      exact_mod_cast h'
    have hn' : (1 : ℚ) ≤ n := by exact_mod_cast this
    refine ⟨this, trivial, ?_, ?_, ?_⟩
    · rw [hn1, max_eq_left (by nlinarith)]; push_cast; ring
    · push_cast; nlinarith
    · push_cast; nlinarith

theorem lqDiagram_road {a : Args} {d : Diagram} (h : lqDiagram a = .ok d) :
    RoadOf a a.holdCar a.holdTruck a.capCar a.capTruck d := by
  unfold lqDiagram at h
  simp only at h
  split at h
  · simp at h
  · rename_i hn
    push Not at hn
    obtain ⟨n1, n2, n3, n4, n5, n6, n7, n8⟩ := hn
    cases h
    have p1 := liftCell_pos (c := a.capCar * a.lanes) n1 n2
    have p2 := liftCell_pos (c := a.capTruck * a.lanes) n1 n2
    have d1 := sub_pos.2 n7
    have d2 := sub_pos.2 n8
    refine ⟨(liftCell_eq n1 n2).trans (by rw [mul_comm a.capCar]), (liftCell_eq n1 n2).trans (by rw [mul_comm a.capTruck]),
      mul_comm _ _, mul_comm _ _, rfl, rfl,
      ⟨by field_simp, ?_, div_pos p1 n4, n7⟩, ⟨by field_simp, ?_, div_pos p2 n5, n8⟩, ?_⟩
    · exact (div_mul_cancel₀ _ d1.ne').symm
    · exact (div_mul_cancel₀ _ d2.ne').symm
    · have := meet_eq 1 (a.holdCar * a.lanes) _ _ (div_pos p1 d1) n5
      simpa only [one_mul] using this

end Verif.MLnk
