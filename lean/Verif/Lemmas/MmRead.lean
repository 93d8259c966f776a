import Verif.Lemmas.MmSame

/-! Where the reader puts the stops. -/

namespace Verif.MmLnk
open MLnk Ults

variable {V : Type}

theorem placeStops_eq (pos : ℚ → Res ℕ) (f : Row → ℕ) : ∀ (rows : List Row) (s : List Stop × Bool),
    (∀ r ∈ rows, pos r.loc = .ok (f r)) → (s.2 = true ↔ ¬ s.1.Nodup) →
    ∃ d, placeStops pos rows s = .ok (s.1 ++ rows.map (fun r => ⟨r.route, f r⟩), d) ∧
      (d = true ↔ ¬ (s.1 ++ rows.map (fun r => (⟨r.route, f r⟩ : Stop))).Nodup)
  | [], s, _, hs => ⟨s.2, by simp [placeStops], by simpa using hs⟩
  | r :: rows, s, h, hs => by
    obtain ⟨d, h1, h2⟩ := placeStops_eq pos f rows (s.1 ++ [⟨r.route, f r⟩],
        s.2 || s.1.any fun x => decide (x.pos = f r ∧ x.route = r.route))
      (fun x hx => h x (List.mem_cons_of_mem _ hx)) (by
        simp only [Bool.or_eq_true, hs, List.any_eq_true, decide_eq_true_eq]
        rw [List.nodup_append]
        constructor
        · rintro (h | ⟨x, hx, h1, h2⟩) ⟨g1, _, g2⟩
          · exact h g1
          · refine g2 x hx ⟨r.route, f r⟩ (by simp) ?_
            cases x; simp only at h1 h2; rw [h1, h2]
        · intro h
          by_cases hn : s.1.Nodup
          · right
            by_contra hc
            apply h
            refine ⟨hn, by simp, ?_⟩
            intro x hx y hy e
            simp only [List.mem_singleton] at hy
            subst hy e
            exact hc ⟨_, hx, rfl, rfl⟩
          · exact .inl hn)
    refine ⟨d, ?_, ?_⟩
    · simp only [placeStops, h r List.mem_cons_self, Res.bind_ok', h1, List.append_assoc,
        List.map_cons, List.singleton_append]
    · rw [h2]; simp

theorem readStops_eq (pos : ℚ → Res ℕ) (f : Row → ℕ) (rows : List Row)
    (h : ∀ r ∈ rows, pos r.loc = .ok (f r)) :
    (∀ stops, readStops pos rows = .ok stops ↔ (∀ r ∈ rows, r.route ≠ -1) ∧
      stops = rows.map (fun r => ⟨r.route, f r⟩) ∧ stops.Nodup) ∧
    ((∀ r ∈ rows, r.route ≠ -1) → ¬ (rows.map fun r => (⟨r.route, f r⟩ : Stop)).Nodup →
      ∃ e, readStops pos rows = .throw e) := by
  obtain ⟨d, h1, h2⟩ := placeStops_eq pos f rows ([], false) h (by simp)
  simp only [List.nil_append] at h1 h2
  by_cases hr : ∀ r ∈ rows, r.route ≠ -1
  · have hany : ¬ ((rows.any fun r => decide (r.route = -1)) = true) := by
      simpa using hr
    constructor
    · intro stops
      simp only [readStops]
      rw [if_neg hany, h1, Res.bind_ok']
      cases d with
      | true =>
        have := h2.1 rfl
        simp only [if_true]
        constructor
        · intro h; exact absurd h (by simp)
        · rintro ⟨_, rfl, h⟩; exact absurd h this
      | false =>
        have : (rows.map fun r => (⟨r.route, f r⟩ : Stop)).Nodup := by
          by_contra hc; exact absurd (h2.2 hc) (by simp)
        simp only [Bool.false_eq_true, if_false, Res.ok.injEq]
        constructor
        · rintro rfl; exact ⟨hr, rfl, this⟩
        · rintro ⟨_, rfl, _⟩; rfl
    · intro _ hn
      refine ⟨_, by
        simp only [readStops]
        rw [if_neg hany, h1, Res.bind_ok', h2.2 hn]; rfl⟩
  · have hany : (rows.any fun r => decide (r.route = -1)) = true := by
      simpa using hr
    refine ⟨?_, fun h => absurd h hr⟩
    intro stops
    simp only [readStops]
    rw [if_pos hany]
    constructor
    · intro h; exact absurd h (by simp)
    · rintro ⟨h, _⟩; exact absurd h hr

/-- If the reader accepts the rows, all positions were computed. -/
theorem placeStops_pos (pos : ℚ → Res ℕ) : ∀ (rows : List Row) (s x : List Stop × Bool),
    placeStops pos rows s = .ok x → ∀ r ∈ rows, ∃ p, pos r.loc = .ok p
  | [], s, x, _ => by simp
  | r :: rows, s, x, h => by
    simp only [placeStops] at h
    rw [Res.bind_eq_ok'] at h
    obtain ⟨p, hp, h⟩ := h
    intro r' hr'
    rcases List.mem_cons.1 hr' with rfl | hr'
    · exact ⟨p, hp⟩
    · exact placeStops_pos pos rows _ _ h r' hr'

theorem readStops_pos (pos : ℚ → Res ℕ) (rows : List Row) (stops : List Stop)
    (h : readStops pos rows = .ok stops) :
    stops.Nodup ∧ stops.length = rows.length ∧
      ∀ (i : ℕ) (row : Row) (s : Stop), rows[i]? = some row → stops[i]? = some s →
        s.route = row.route ∧ row.route ≠ -1 ∧ pos row.loc = .ok s.pos := by
  have hp : ∀ r ∈ rows, ∃ p, pos r.loc = .ok p := by
    have h' := h
    simp only [readStops] at h'
    split at h'
    · exact absurd h' (by simp)
    · rw [Res.bind_eq_ok'] at h'
      obtain ⟨x, hx, _⟩ := h'
      exact placeStops_pos pos rows _ _ hx
  have hf : ∀ r ∈ rows, pos r.loc = .ok ((fun r : Row => match pos r.loc with | .ok p => p | _ => 0) r) := by
    intro r hr
    obtain ⟨p, hp⟩ := hp r hr
    simp only [hp]
  obtain ⟨h1, h2, h3⟩ := ((readStops_eq pos _ rows hf).1 stops).1 h
  refine ⟨h3, by rw [h2]; simp, ?_⟩
  intro i row s hi hs
  have hm := List.mem_of_getElem? hi
  rw [h2, List.getElem?_map, hi] at hs
  simp only [Option.map_some, Option.some.injEq] at hs
  subst hs
  exact ⟨rfl, h1 row hm, hf row hm⟩

theorem toInt_ceil {x : ℤ} {c : ℤ} (h : toInt (x : ℚ) = .ok c) : c = x := by
  simp only [toInt] at h
  split at h
  · simp only [Res.ok.injEq] at h
    rw [← h]
    exact trunc_int x
  · exact absurd h (by simp)

theorem cellOf_spec {num : ℤ} {len loc : ℚ} {p : ℕ} (hn : 1 ≤ num) (hl : 0 < len ∨ num = 1)
    (h : cellOf num len loc = .ok p) : (p : ℤ) < num ∧ (p ≠ 0 → (p : ℚ) * len < loc) ∧
      ((p : ℤ) + 1 ≠ num → loc ≤ ((p : ℚ) + 1) * len) := by
  simp only [cellOf] at h
  split at h
  · rename_i h1
    simp only [Res.ok.injEq] at h
    subst h
    refine ⟨by simp; omega, by simp, ?_⟩
    intro h2; simp [h1] at h2
  · rename_i h1
    have hl : 0 < len := hl.resolve_right h1
    rw [if_neg (ne_of_gt hl), Res.bind_eq_ok'] at h
    obtain ⟨c, hc, h⟩ := h
    obtain rfl := toInt_ceil hc
    simp only [Res.ok.injEq] at h
    have e1 := Int.ceil_lt_add_one (loc / len)
    have e2 := Int.le_ceil (loc / len)
    have e3 : loc = loc / len * len := by field_simp
    split at h
    · rename_i hneg
      subst h
      refine ⟨by simp; omega, by simp, ?_⟩
      intro _
      have : loc / len ≤ 0 := by
        have h4 : ⌈loc / len⌉ ≤ 0 := by omega
        have : (⌈loc / len⌉ : ℚ) ≤ 0 := by exact_mod_cast h4
        linarith
      rw [e3]
      simp only [Int.toNat_zero, Nat.cast_zero, zero_add, one_mul]
      nlinarith
    · rename_i hneg
      split at h
      · rename_i hbig
        subst h
        have hcast : (((num - 1).toNat : ℕ) : ℤ) = num - 1 := Int.toNat_of_nonneg (by omega)
        have hq : (((num - 1).toNat : ℕ) : ℚ) = (num : ℚ) - 1 := by
          have : (((num - 1).toNat : ℕ) : ℚ) = (((num - 1).toNat : ℤ) : ℚ) := by simp
          rw [this, hcast]; push_cast; ring
        refine ⟨by omega, ?_, by intro h; omega⟩
        intro _
        rw [hq, e3]
        have h4 : num + 1 ≤ ⌈loc / len⌉ := by omega
        have h5 : (num : ℚ) + 1 ≤ ⌈loc / len⌉ := by exact_mod_cast h4
        have : (num : ℚ) - 1 < loc / len := by linarith
        nlinarith
      · subst h
        have hcast : (((⌈loc / len⌉ - 1).toNat : ℕ) : ℤ) = ⌈loc / len⌉ - 1 := Int.toNat_of_nonneg (by omega)
        have hq : (((⌈loc / len⌉ - 1).toNat : ℕ) : ℚ) = (⌈loc / len⌉ : ℚ) - 1 := by
          have : (((⌈loc / len⌉ - 1).toNat : ℕ) : ℚ) = (((⌈loc / len⌉ - 1).toNat : ℤ) : ℚ) := by simp
          rw [this, hcast]; push_cast; ring
        refine ⟨by omega, ?_, ?_⟩
        · intro _
          rw [hq]
          nth_rewrite 2 [e3]
          nlinarith
        · intro _
          rw [hq]
          nth_rewrite 1 [e3]
          nlinarith

theorem timeOf_spec {ms : ℤ} {ffs unit loc : ℚ} {p : ℕ} (hn : 1 ≤ ms) (hl : 0 < ffs * unit)
    (h : timeOf ms ffs unit loc = .ok p) : (p : ℤ) < ms ∧ (p ≠ 0 → (p : ℚ) * (ffs * unit) < loc) ∧
      ((p : ℤ) + 1 ≠ ms → loc ≤ ((p : ℚ) + 1) * (ffs * unit)) := by
  have hc : cellOf ms (ffs * unit) loc = .ok p := by
    simp only [timeOf] at h
    split at h
    · exact absurd h (by simp)
    · rw [Res.bind_eq_ok'] at h
      obtain ⟨c, hc, h⟩ := h
      rw [div_div] at hc
      simp only [Res.ok.injEq] at h
      subst h
      simp only [cellOf]
      split
      · rename_i h1
        simp only [Res.ok.injEq]
        split_ifs <;> omega
      · rw [if_neg (ne_of_gt hl), hc, Res.bind_ok']
        simp only [Res.ok.injEq]
        split_ifs <;> omega
  exact cellOf_spec hn (.inl hl) hc

theorem ctm_parts {a : Args} {m : MLnk.Ctm V} (h : MLnk.Ctm.mk' a = .ok m) :
    1 ≤ m.numCells ∧ (m.cells.length : ℤ) = m.numCells ∧ m.args.ffsCar = a.ffsCar ∧ m.args.unit = a.unit ∧
      0 < a.ffsCar * a.unit ∧ ∃ c rest, m.cells = c :: rest ∧ (m.numCells ≠ 1 → c.length = a.ffsCar * a.unit) := by
  simp only [MLnk.Ctm.mk'] at h
  rw [Res.bind_eq_ok'] at h
  obtain ⟨_, hb, h⟩ := h
  rw [Res.bind_eq_ok'] at h
  obtain ⟨a1, ha, h⟩ := h
  have hb' : 0 ≤ a.length := by
    simp only [Lnk.checkBase] at hb
    split_ifs at hb with x y z
    linarith
  have ha1 : a1.ffsCar = a.ffsCar ∧ a1.unit = a.unit ∧ a1.length = a.length ∧ 0 ≤ a.ffsCar := by
    simp only [checkAttrs] at ha
    split_ifs at ha with x y z
    simp only [Res.ok.injEq] at ha
    subst ha
    exact ⟨rfl, rfl, rfl, by simp only [not_or, not_lt] at z; exact z.1⟩
  split_ifs at h with x y z
  rw [Res.bind_eq_ok'] at h
  obtain ⟨r, hr, h⟩ := h
  simp only [Res.ok.injEq] at h
  have hr' := hr
  simp only [derive] at hr'
  by_cases w : a1.ffsCar = 0
  · rw [if_pos w] at hr'; exact absurd hr' (by simp)
  rw [if_neg w, Res.bind_eq_ok'] at hr'
  obtain ⟨n0, hn0, hr'⟩ := hr'
  rw [toInt_ceil hn0] at hr'
  have hff : 0 < a.ffsCar := lt_of_le_of_ne ha1.2.2.2 (by rw [← ha1.1]; exact Ne.symm w)
  have hun : 0 < a.unit := by rw [← ha1.2.1]; linarith
  have hpos : 0 < a.ffsCar * a.unit := mul_pos hff hun
  have hfl : 0 ≤ ⌊a1.length / (a1.ffsCar * a1.unit)⌋ := by
    rw [ha1.1, ha1.2.1, ha1.2.2.1]
    exact Int.floor_nonneg.2 (div_nonneg hb' (le_of_lt hpos))
  set n0 := ⌊a1.length / (a1.ffsCar * a1.unit)⌋ with hn
  have key : 1 ≤ r.num ∧ r.args.ffsCar = a.ffsCar ∧ r.args.unit = a.unit ∧ r.std = a.ffsCar * a.unit := by
    split_ifs at hr' <;> simp only [Res.ok.injEq] at hr' <;> subst hr' <;>
      refine ⟨by simp only; omega, ha1.1, ha1.2.1, by simp only [ha1.1, ha1.2.1]⟩
  subst h
  refine ⟨key.1, ?_, key.2.1, key.2.2.1, hpos, ?_⟩
  · simp; omega
  · simp only
    by_cases h1 : r.num = 1
    · refine ⟨_, [], by rw [h1]; rfl, fun h => absurd h1 h⟩
    · obtain ⟨j, hj⟩ : ∃ j, (r.num - 1).toNat = j + 1 := ⟨(r.num - 1).toNat - 1, by omega⟩
      rw [hj, List.replicate_succ]
      exact ⟨_, _, rfl, fun _ => key.2.2.2⟩

theorem pq_parts {a : Args} {m : MLnk.Pq V} (h : MLnk.Pq.mk' a = .ok m) :
    1 ≤ m.maxStamp ∧ m.args = a ∧ 0 < a.ffsCar * a.unit := by
  simp only [MLnk.Pq.mk'] at h
  rw [Res.bind_eq_ok'] at h
  obtain ⟨_, hb, h⟩ := h
  have hb' : 0 ≤ a.length ∧ 0 ≤ a.ffsCar := by
    simp only [Lnk.checkBase] at hb
    split_ifs at hb with x y z
    constructor <;> linarith
  split_ifs at h with x
  simp only [not_or, not_le] at x
  rw [Res.bind_eq_ok'] at h
  obtain ⟨r, hr, h⟩ := h
  simp only [Res.ok.injEq] at h
  subst h
  have hff : 0 < a.ffsCar := lt_of_le_of_ne hb'.2 (Ne.symm x.2.2)
  have hpos : 0 < a.ffsCar * a.unit := mul_pos hff x.2.1
  refine ⟨?_, rfl, hpos⟩
  simp only
  simp only [roundDownTime] at hr
  split at hr
  · simp only [Res.ok.injEq] at hr; omega
  · rename_i h1
    simp only [toInt] at hr
    split at hr
    · simp only [Res.ok.injEq] at hr
      rw [← hr]
      exact trunc_one (by linarith)
    · exact absurd hr (by simp)

end Verif.MmLnk
