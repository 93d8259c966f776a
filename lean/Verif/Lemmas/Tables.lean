import Verif.Model.Tables
import Verif.Lemmas.Curve

/-! # Lemmas about the tables -/

namespace Verif.Tab
open Curve Ults

/-! ## Forward filling -/

/-- Forward filling with the value so far. -/
def carry : Option ℚ → List (Option ℚ) → List (Option ℚ)
  | _, [] => []
  | p, x :: xs => x.or p :: carry (x.or p) xs

theorem forwardFill_aux (suf : List (Option ℚ)) : ∀ (pre : List (Option ℚ)) (m : ℕ) (p : Option ℚ),
    ((pre ++ suf)[m]?).join = p → m ≤ pre.length →
    ((suf.zip (runMax m ((suf.zipIdx pre.length).map fun q => if q.1.isSome then q.2 else 0))).map fun q =>
      if q.1.isSome then q.1 else ((pre ++ suf)[q.2]?).join) = carry p suf := by
  induction suf with
  | nil => intro pre m p _ _; rfl
  | cons x xs ih =>
    intro pre m p hp hm
    simp only [List.zipIdx_cons, List.map_cons, runMax, List.zip_cons_cons]
    have hx : (pre ++ x :: xs)[pre.length]? = some x := by simp
    have e : pre ++ x :: xs = (pre ++ [x]) ++ xs := by simp
    have key : ∀ m' p', ((pre ++ x :: xs)[m']?).join = p' → m' ≤ pre.length + 1 →
        ((xs.zip (runMax m' ((xs.zipIdx (pre.length + 1)).map fun q => if q.1.isSome then q.2 else 0))).map
          fun q => if q.1.isSome then q.1 else ((pre ++ x :: xs)[q.2]?).join) = carry p' xs := by
      intro m' p' h1 h2
      have := ih (pre ++ [x]) m' p' (by rw [← e]; exact h1) (by simpa using h2)
      rw [← e] at this
      simpa only [List.length_append, List.length_singleton] using this
    unfold carry
    cases x with
    | some v =>
      simp only [Option.isSome_some, if_true, Nat.max_eq_right hm, Option.some_or]
      congr 1
      exact key _ _ (by rw [hx]; rfl) (by omega)
    | none =>
      simp only [Option.isSome_none, Bool.false_eq_true, if_false, Nat.max_eq_left (Nat.zero_le m),
        Option.none_or]
      rw [hp]
      congr 1
      exact key m p hp (by omega)

theorem forwardFill_eq (col : List (Option ℚ)) : forwardFill col = carry none col := by
  cases col with
  | nil => rfl
  | cons x xs =>
    have h := forwardFill_aux (x :: xs) [] 0 x (by simp) (Nat.le_refl _)
    unfold forwardFill
    simp only [List.nil_append, List.length_nil] at h
    simp only
    rw [h]
    cases x <;> simp [carry]

theorem carry_get (col : List (Option ℚ)) (p : Option ℚ) (t : ℕ) (ht : t < col.length) :
    (carry p col)[t]? = some ((((col.take (t + 1)).filterMap id).getLast?).or p) := by
  induction col generalizing p t with
  | nil => simp at ht
  | cons x xs ih =>
    unfold carry
    cases t with
    | zero =>
      cases x <;> simp
    | succ t =>
      rw [List.getElem?_cons_succ, ih _ _ (by simpa using ht)]
      congr 1
      rw [List.take_succ_cons]
      cases x with
      | none => simp
      | some v =>
        rw [List.filterMap_cons_some (f := id) (b := v) rfl]
        generalize List.filterMap id (List.take (t + 1) xs) = l
        cases l with
        | nil => rfl
        | cons a l =>
          rw [List.getLast?_cons_cons, List.getLast?_cons]
          rfl

theorem carry_length (col : List (Option ℚ)) (p : Option ℚ) : (carry p col).length = col.length := by
  induction col generalizing p with
  | nil => rfl
  | cons x xs ih => simp [carry, ih]

/-- Whole-number times up to `T`. -/
def Ticks (T : ℕ) (c : Curve) : Prop := ∀ r ∈ c, ∃ n : ℕ, n ≤ T ∧ r.1 = n

theorem trunc_nat (n : ℕ) : trunc (n : ℚ) = n := by
  unfold trunc
  rw [if_pos (by positivity)]
  exact Int.floor_natCast n

theorem setTicks (T : ℕ) : ∀ (c : Curve) (col : List (Option ℚ)), Ticks T c → col.length = T + 1 →
    c.Pairwise (fun a b => a.1 < b.1) →
    ∃ col', Res.foldlM setTick col c = .ok col' ∧ col'.length = T + 1 ∧
      ∀ j : ℕ, j ≤ T → col'[j]? = (match c.find? (fun r => decide (r.1 = (j : ℚ))) with
        | some r => some (some r.2)
        | none => col[j]?) := by
  intro c
  induction c with
  | nil => intro col _ hl _; exact ⟨col, rfl, hl, fun j _ => rfl⟩
  | cons r rs ih =>
    intro col ht hl hs
    obtain ⟨n, hn, hrn⟩ := ht r (by simp)
    rw [List.pairwise_cons] at hs
    have hstep : setTick col r = .ok (col.set n (some r.2)) := by
      unfold setTick
      rw [hrn, trunc_nat]
      simp only [Nat.cast_nonneg, if_true, Int.toNat_natCast]
      rw [if_pos (by rw [hl]; exact_mod_cast Nat.lt_succ_of_le hn)]
    obtain ⟨col', h1, h2, h3⟩ := ih (col.set n (some r.2)) (fun x hx => ht x (by simp [hx]))
      (by simpa using hl) hs.2
    refine ⟨col', ?_, h2, ?_⟩
    · rw [Res.foldlM_cons, hstep]; exact h1
    · intro j hj
      rw [h3 j hj, List.find?_cons]
      by_cases hjn : r.1 = (j : ℚ)
      · have hnj : n = j := by rw [hrn] at hjn; exact_mod_cast hjn
        have hnone : rs.find? (fun r => decide (r.1 = (j : ℚ))) = none := by
          rw [List.find?_eq_none]
          intro x hx
          have := hs.1 x hx
          rw [hjn] at this
          simpa using this.ne'
        rw [hnone]
        simp only [hjn, decide_true]
        rw [hnj, List.getElem?_set_self (by omega)]
      · have hnj : n ≠ j := fun e => hjn (by rw [hrn, e])
        simp only [hjn, decide_false]
        rw [List.getElem?_set_ne hnj]

theorem filter_snoc_sorted (c : Curve) (hs : c.Pairwise (fun a b => a.1 < b.1)) (hT : ∀ r ∈ c, ∃ n : ℕ, r.1 = n)
    (t : ℕ) : c.filter (fun r => decide (r.1 ≤ ((t + 1 : ℕ) : ℚ))) =
      c.filter (fun r => decide (r.1 ≤ (t : ℚ))) ++ (c.find? fun r => decide (r.1 = ((t + 1 : ℕ) : ℚ))).toList := by
  induction c with
  | nil => rfl
  | cons r rs ih =>
    rw [List.pairwise_cons] at hs
    obtain ⟨n, hn⟩ := hT r (by simp)
    have hgt : ∀ m : ℕ, (m : ℚ) ≤ r.1 → rs.filter (fun r => decide (r.1 ≤ (m : ℚ))) = [] := by
      intro m hm
      rw [List.filter_eq_nil_iff]
      intro x hx
      have := hs.1 x hx
      simp only [decide_eq_true_eq, not_le]
      linarith
    rw [List.filter_cons, List.filter_cons, List.find?_cons]
    rcases Nat.lt_trichotomy n (t + 1) with h | h | h
    · have h1 : r.1 ≤ (t : ℚ) := by rw [hn]; exact_mod_cast Nat.lt_succ_iff.1 h
      have h2 : r.1 ≤ ((t + 1 : ℕ) : ℚ) := by push_cast; linarith
      have h3 : ¬ r.1 = ((t + 1 : ℕ) : ℚ) := by push_cast; linarith
      simp only [h1, h2, h3, decide_true, decide_false, if_true]
      rw [ih hs.2 fun x hx => hT x (by simp [hx])]
      rfl
    · have h1 : r.1 = ((t + 1 : ℕ) : ℚ) := by rw [hn, h]
      have h2 : ¬ r.1 ≤ (t : ℚ) := by rw [h1]; push_cast; linarith
      simp only [h1, h2, le_refl, decide_true, if_true]
      have h4 : ¬ (((t + 1 : ℕ) : ℚ)) ≤ (t : ℚ) := by push_cast; linarith
      simp only [h4, decide_false, Bool.false_eq_true, if_false]
      rw [hgt (t + 1) (by rw [h1]), hgt t (by rw [h1]; push_cast; linarith)]
      rfl
    · have h1 : ((t + 1 : ℕ) : ℚ) < r.1 := by rw [hn]; exact_mod_cast h
      have h2 : ¬ r.1 ≤ ((t + 1 : ℕ) : ℚ) := not_le.2 h1
      have h3 : ¬ r.1 ≤ (t : ℚ) := by push_cast at h1; linarith
      simp only [h2, h3, h1.ne', decide_false, Bool.false_eq_true, if_false]
      exact ih hs.2 fun x hx => hT x (by simp [hx])

/-- The column at tick `t`: the value of the last record up to `t`. -/
theorem ccColumn_spec (T : ℕ) (c : Curve) (ht : Ticks T c) (hs : c.Pairwise (fun a b => a.1 < b.1)) :
    ∃ col, ccColumn T c = .ok col ∧ col.length = T + 1 ∧
      ∀ t : ℕ, t ≤ T → col[t]? = some (((c.filter fun r => decide (r.1 ≤ (t : ℚ))).getLast?).map Prod.snd) := by
  obtain ⟨col, h1, h2, h3⟩ := setTicks T c (List.replicate (T + 1) none) ht (by simp) hs
  refine ⟨forwardFill col, by unfold ccColumn; rw [h1]; rfl, by rw [forwardFill_eq, carry_length, h2], ?_⟩
  intro t htT
  rw [forwardFill_eq, carry_get col none t (by omega), Option.or_none]
  congr 1
  have hcol : ∀ j : ℕ, j ≤ T → col[j]? = some ((c.find? fun r => decide (r.1 = (j : ℚ))).map Prod.snd) := by
    intro j hj
    rw [h3 j hj]
    cases c.find? fun r => decide (r.1 = (j : ℚ)) with
    | none => simp [List.getElem?_replicate, Nat.lt_succ_of_le hj]
    | some r => rfl
  have key : ∀ t : ℕ, t ≤ T → (col.take (t + 1)).filterMap id =
      (c.filter fun r => decide (r.1 ≤ (t : ℚ))).map Prod.snd := by
    intro t
    induction t with
    | zero =>
      intro _
      have h0 := hcol 0 (Nat.zero_le _)
      cases col with
      | nil => simp at h2
      | cons x xs =>
        simp only [List.getElem?_cons_zero, Option.some.injEq] at h0
        simp only [Nat.zero_add, List.take_succ_cons, List.take_zero]
        cases c with
        | nil => simp at h0; simp [h0]
        | cons r rs =>
          obtain ⟨n, _, hn⟩ := ht r (by simp)
          rw [List.pairwise_cons] at hs
          have hrs : rs.filter (fun r => decide (r.1 ≤ ((0 : ℕ) : ℚ))) = [] := by
            rw [List.filter_eq_nil_iff]
            intro y hy
            have a := hs.1 y hy
            have b : (0 : ℚ) ≤ r.1 := by rw [hn]; positivity
            simp only [decide_eq_true_eq, not_le, Nat.cast_zero]
            linarith
          rw [List.find?_cons] at h0
          rw [List.filter_cons, hrs]
          by_cases hr : r.1 = 0
          · simp [hr] at h0 ⊢
            simp [h0]
          · have hr' : ¬ r.1 ≤ 0 := by
              intro h
              apply hr
              have b : (0 : ℚ) ≤ r.1 := by rw [hn]; positivity
              linarith
            have hnone : rs.find? (fun r => decide (r.1 = ((0 : ℕ) : ℚ))) = none := by
              rw [List.find?_eq_none]
              intro y hy
              have a := hs.1 y hy
              have b : (0 : ℚ) ≤ r.1 := by rw [hn]; positivity
              simp only [Nat.cast_zero, decide_eq_true_eq]
              linarith
            simp only [Nat.cast_zero] at hnone
            simp [hr, hnone] at h0
            simp [hr', h0]
    | succ t ih =>
      intro htT
      have hlt : t + 1 < col.length := by omega
      rw [List.take_add_one, List.filterMap_append, ih (by omega),
        filter_snoc_sorted c hs (fun r hr => by obtain ⟨n, _, hn⟩ := ht r hr; exact ⟨n, hn⟩) t, List.map_append,
        hcol (t + 1) htT]
      congr 1
      cases c.find? fun r => decide (r.1 = ((t + 1 : ℕ) : ℚ)) <;> rfl
  rw [key t htT, List.getLast?_map]

end Verif.Tab
