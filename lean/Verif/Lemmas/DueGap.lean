import Verif.Lemmas.Due

/-! # Lemmas on the gradient projection step, the gap and the best departure -/

namespace Verif.Due

theorem minFlow_le {c : ℕ} {ps : List DPath} : ∀ {p : DPath}, p ∈ ps → 0 < p.flow c → minFlow c ps ≤ p.flow c := by
  have hmono : ∀ (ps : List DPath) (m : ℚ),
      ps.foldl (fun m p => if 0 < p.flow c ∧ m > p.flow c then p.flow c else m) m ≤ m := by
    intro ps
    induction ps with
    | nil => intro m; exact le_refl _
    | cons p ps ih =>
      intro m
      rw [List.foldl_cons]
      split
      · rename_i h; exact (ih _).trans h.2.le
      · exact ih _
  unfold minFlow
  generalize dblMax = m
  induction ps generalizing m with
  | nil => intro p h; simp at h
  | cons q ps ih =>
    intro p h hp
    rw [List.mem_cons] at h
    rw [List.foldl_cons]
    rcases h with rfl | h
    · split
      · exact hmono _ _
      · rename_i h2
        push Not at h2
        exact (hmono _ _).trans (h2 hp)
    · exact ih _ h hp

theorem minFlow_nonneg (c : ℕ) (ps : List DPath) : 0 ≤ minFlow c ps := by
  unfold minFlow
  have : (0 : ℚ) ≤ dblMax := by unfold dblMax; norm_num
  generalize dblMax = m at this
  induction ps generalizing m with
  | nil => exact this
  | cons q ps ih =>
    rw [List.foldl_cons]
    split
    · rename_i h; exact ih _ h.1.le
    · exact ih _ this

theorem tau_aux {c : ℕ} {best : List ℤ} {x μ : ℚ} : ∀ (ps : List DPath) (s : ℚ × Bool),
    let r := ps.foldl (fun s p =>
      if active best c p then
        let ch := p.dis c - μ
        if 0 < ch ∧ s.1 > x / ch then (x / ch, true) else s
      else s) s
    r.1 ≤ s.1 ∧ (∀ p ∈ ps, active best c p = true → 0 < p.dis c - μ → r.1 ≤ x / (p.dis c - μ)) ∧
      (r = s ∨ ∃ ch, 0 < ch ∧ r.1 = x / ch) := by
  intro ps
  induction ps with
  | nil => intro s; exact ⟨le_refl _, by simp, Or.inl rfl⟩
  | cons q ps ih =>
    intro s
    simp only
    rw [List.foldl_cons]
    by_cases ha : active best c q = true
    · rw [if_pos ha]
      by_cases hc : 0 < q.dis c - μ ∧ s.1 > x / (q.dis c - μ)
      · rw [if_pos hc]
        obtain ⟨h1, h2, h3⟩ := ih (x / (q.dis c - μ), true)
        simp only at h1 h2 h3
        refine ⟨h1.trans hc.2.le, ?_, ?_⟩
        · intro p hp hpa hpc
          rw [List.mem_cons] at hp
          rcases hp with rfl | hp
          · exact h1
          · exact h2 p hp hpa hpc
        · rcases h3 with h3 | h3
          · right
            rw [h3]
            exact ⟨_, hc.1, rfl⟩
          · exact Or.inr h3
      · rw [if_neg hc]
        obtain ⟨h1, h2, h3⟩ := ih s
        simp only at h1 h2 h3
        refine ⟨h1, ?_, h3⟩
        intro p hp hpa hpc
        rw [List.mem_cons] at hp
        rcases hp with rfl | hp
        · push Not at hc
          exact h1.trans (hc hpc)
        · exact h2 p hp hpa hpc
    · rw [if_neg ha]
      obtain ⟨h1, h2, h3⟩ := ih s
      simp only at h1 h2 h3
      refine ⟨h1, ?_, h3⟩
      intro p hp hpa hpc
      rw [List.mem_cons] at hp
      rcases hp with rfl | hp
      · exact absurd hpa ha
      · exact h2 p hp hpa hpc

theorem sum_filter_ite (ps : List DPath) (a : DPath → Bool) (f : DPath → ℚ) :
    (ps.map fun p => if a p then f p else 0).sum = ((ps.filter a).map f).sum := by
  induction ps with
  | nil => rfl
  | cons p ps ih =>
    cases h : a p <;> simp [h, ih]

theorem sum_dev (xs : List DPath) (c : ℕ) (t : ℚ) (h : xs ≠ []) :
    (xs.map fun p => t * (p.dis c - (xs.map fun p => p.dis c).sum / (xs.length : ℚ))).sum = 0 := by
  have hl : (0 : ℚ) < xs.length := by exact_mod_cast List.length_pos_of_ne_nil h
  have key : ∀ (ys : List DPath) (m : ℚ),
      (ys.map fun p => t * (p.dis c - m)).sum = t * ((ys.map fun p => p.dis c).sum - (ys.length : ℚ) * m) := by
    intro ys m
    induction ys with
    | nil => simp
    | cons y ys ih =>
      simp only [List.map_cons, List.sum_cons, ih, List.length_cons]
      push_cast
      ring
  rw [key]
  field_simp
  simp

theorem gpCol_keeps {step : ℚ} (h0 : 0 ≤ step) (h1 : step ≤ 1) {best : List ℤ} {dis : ℕ → ℚ} {c : ℕ}
    {ps : List DPath} (hp : ∀ p ∈ ps, ∀ k, 0 ≤ p.flow k) (hd : ∀ p ∈ ps, p.links = best → p.dis c = dis c)
    (hbest : ∀ p ∈ ps, 0 < p.flow c → dis c ≤ p.dis c) :
    (∀ k, ((gpCol step best dis c ps).map fun p => p.flow k).sum = (ps.map fun p => p.flow k).sum) ∧
    ∀ p ∈ gpCol step best dis c ps, ∀ k, 0 ≤ p.flow k := by
  unfold gpCol
  obtain ⟨⟨k1, k2, _⟩, hm⟩ := keeps_new ps best dis
  have hd1 : ∀ p ∈ (if isIn ps best then ps else ps ++ [⟨best, fun _ => 0, dis⟩]),
      (p.links = best → p.dis c = dis c) ∧ (0 < p.flow c → dis c ≤ p.dis c) := by
    intro p hpm
    split at hpm
    · exact ⟨hd p hpm, hbest p hpm⟩
    · rw [List.mem_append, List.mem_singleton] at hpm
      rcases hpm with hpm | rfl
      · exact ⟨hd p hpm, hbest p hpm⟩
      · exact ⟨fun _ => rfl, fun h => absurd h (lt_irrefl _)⟩
  have hp1 := k2 hp
  generalize (if isIn ps best then ps else ps ++ [⟨best, fun _ => 0, dis⟩]) = ps1 at k1 hm hd1 hp1
  simp only
  by_cases hf : (tau step best c ps1).2 = true
  swap
  · rw [if_pos (by simpa using hf)]
    exact ⟨k1, hp1⟩
  rw [if_neg (by simp [hf])]
  obtain ⟨_, a2, a3⟩ := tau_aux (c := c) (best := best) (x := step * minFlow c ps1) (μ := meanDis best c ps1)
    ps1 (dblMax, false)
  change (∀ p ∈ ps1, active best c p = true → _ → (tau step best c ps1).1 ≤ _) at a2
  change (tau step best c ps1 = _ ∨ ∃ ch, 0 < ch ∧ (tau step best c ps1).1 = _) at a3
  have hm0 := minFlow_nonneg c ps1
  have ht0 : 0 ≤ (tau step best c ps1).1 := by
    rcases a3 with a3 | ⟨ch, hch, a3⟩
    · rw [a3] at hf; simp at hf
    · rw [a3]; positivity
  generalize (tau step best c ps1).1 = t at a2 ht0
  -- the best path is active, so the mean is a mean
  have hne : ps1.filter (active best c) ≠ [] := by
    rw [List.mem_map] at hm
    obtain ⟨p, hpm, hpl⟩ := hm
    apply List.ne_nil_of_mem (a := p)
    rw [List.mem_filter]
    exact ⟨hpm, by simp [active, hpl]⟩
  have hmean : dis c ≤ meanDis best c ps1 := by
    unfold meanDis
    have hl : (0 : ℚ) < (ps1.filter (active best c)).length := by
      exact_mod_cast List.length_pos_of_ne_nil hne
    rw [le_div_iff₀ hl]
    have : ∀ p ∈ ps1.filter (active best c), dis c ≤ p.dis c := by
      intro p hpm
      rw [List.mem_filter] at hpm
      obtain ⟨hpm, ha⟩ := hpm
      simp only [active, Bool.or_eq_true, decide_eq_true_eq] at ha
      rcases ha with ha | ha
      · exact ((hd1 p hpm).1 ha).ge
      · exact (hd1 p hpm).2 ha
    generalize ps1.filter (active best c) = xs at this
    clear hne hl
    induction xs with
    | nil => simp
    | cons x xs ih =>
      simp only [List.map_cons, List.sum_cons, List.length_cons]
      have := ih fun p hp => this p (by simp [hp])
      have := this
      have h3 := ‹∀ p ∈ x :: xs, dis c ≤ p.dis c› x (by simp)
      push_cast
      linarith
  -- the bound by the flow never acts
  have hmin : ∀ p ∈ ps1, active best c p = true →
      min (p.flow c) (t * (p.dis c - meanDis best c ps1)) = t * (p.dis c - meanDis best c ps1) := by
    intro p hpm ha
    apply min_eq_right
    have hpf := hp1 p hpm c
    by_cases hch : 0 < p.dis c - meanDis best c ps1
    · have hpos : 0 < p.flow c := by
        simp only [active, Bool.or_eq_true, decide_eq_true_eq] at ha
        rcases ha with ha | ha
        · have := (hd1 p hpm).1 ha
          linarith
        · exact ha
      have h2 := a2 p hpm ha hch
      rw [le_div_iff₀ hch] at h2
      have h3 := minFlow_le hpm hpos
      nlinarith
    · push Not at hch
      nlinarith
  constructor
  · intro k
    rw [← k1 k]
    have hsum : (ps1.map fun p => if active best c p then
        min (p.flow c) (t * (p.dis c - meanDis best c ps1)) else 0).sum = 0 := by
      rw [sum_filter_ite]
      rw [List.map_congr_left (g := fun p => t * (p.dis c - meanDis best c ps1))]
      · unfold meanDis
        exact sum_dev _ c t hne
      · intro p hpm
        rw [List.mem_filter] at hpm
        exact hmin p hpm.1 hpm.2
    have hgen : ∀ (qs : List DPath) (f : DPath → ℚ),
        ((qs.map fun p => if active best c p then p.add c (-(f p)) else p).map fun p => p.flow k).sum =
          (qs.map fun p => p.flow k).sum -
            if k = c then (qs.map fun p => if active best c p then f p else 0).sum else 0 := by
      intro qs f
      induction qs with
      | nil => simp
      | cons q qs ih =>
        simp only [List.map_cons, List.sum_cons, ih]
        cases hq : active best c q
        · simp only [Bool.false_eq_true, if_false]
          split <;> ring
        · simp only [if_true, add_flow]
          split <;> ring
    rw [hgen ps1 fun p => min (p.flow c) (t * (p.dis c - meanDis best c ps1)), hsum]
    simp
  · intro p hpm k
    rw [List.mem_map] at hpm
    obtain ⟨q, hq, rfl⟩ := hpm
    have hqk := hp1 q hq k
    split
    · rw [add_flow]
      split
      · rename_i hk
        subst hk
        have := min_le_left (q.flow k) (t * (q.dis k - meanDis best k ps1))
        linarith
      · linarith
    · exact hqk

/-! ## Gap -/

theorem lowest_spec : ∀ (xs : List ℚ), (∀ x ∈ xs, x < dblMax) → xs ≠ [] →
    lowest xs ∈ xs ∧ ∀ x ∈ xs, lowest xs ≤ x := by
  have gen : ∀ (xs : List ℚ) (m : ℚ), let r := xs.foldl (fun m x => if x < m then x else m) m
      (r = m ∨ r ∈ xs) ∧ r ≤ m ∧ ∀ x ∈ xs, r ≤ x := by
    intro xs
    induction xs with
    | nil => intro m; simp
    | cons x xs ih =>
      intro m
      simp only
      rw [List.foldl_cons]
      by_cases h : x < m
      · rw [if_pos h]
        obtain ⟨h1, h2, h3⟩ := ih x
        refine ⟨Or.inr ?_, h2.trans h.le, ?_⟩
        · rcases h1 with h1 | h1
          · rw [h1]; simp
          · simp [h1]
        · intro y hy
          rw [List.mem_cons] at hy
          rcases hy with rfl | hy
          · exact h2
          · exact h3 y hy
      · rw [if_neg h]
        obtain ⟨h1, h2, h3⟩ := ih m
        push Not at h
        refine ⟨?_, h2, ?_⟩
        · rcases h1 with h1 | h1
          · exact Or.inl h1
          · exact Or.inr (by simp [h1])
        · intro y hy
          rw [List.mem_cons] at hy
          rcases hy with rfl | hy
          · exact h2.trans h
          · exact h3 y hy
  intro xs hb hne
  obtain ⟨h1, h2, h3⟩ := gen xs dblMax
  refine ⟨?_, h3⟩
  rcases h1 with h1 | h1
  · obtain ⟨x, hx⟩ := List.exists_mem_of_ne_nil xs hne
    have := h3 x hx
    have := hb x hx
    rw [h1] at *
    linarith
  · exact h1

theorem sum_eq_zero_of_nonneg (xs : List ℚ) (h : ∀ x ∈ xs, 0 ≤ x) : xs.sum = 0 ↔ ∀ x ∈ xs, x = 0 := by
  induction xs with
  | nil => simp
  | cons x xs ih =>
    have h1 := h x (by simp)
    have h2 : 0 ≤ xs.sum := List.sum_nonneg fun y hy => h y (by simp [hy])
    have h3 := ih fun y hy => h y (by simp [hy])
    rw [List.sum_cons]
    constructor
    · intro he y hy
      rw [List.mem_cons] at hy
      rcases hy with rfl | hy
      · linarith
      · exact h3.1 (by linarith) y hy
    · intro he
      rw [he x (by simp), h3.2 fun y hy => he y (by simp [hy]), add_zero]

/-- One summand of the gap. -/
theorem gap_term (es : List (ℚ × ℚ)) (hb : ∀ e ∈ es, e.1 < dblMax) (hf : ∀ e ∈ es, 0 ≤ e.2) :
    (∀ x ∈ es.map (fun e => (e.1 - lowest (es.map Prod.fst)) * e.2), 0 ≤ x) ∧
    ((es.map fun e => (e.1 - lowest (es.map Prod.fst)) * e.2).sum = 0 ↔
      ∀ e ∈ es, 0 < e.2 → ∀ e' ∈ es, e.1 ≤ e'.1) := by
  have hnn : ∀ x ∈ es.map (fun e => (e.1 - lowest (es.map Prod.fst)) * e.2), 0 ≤ x := by
    intro x hx
    rw [List.mem_map] at hx
    obtain ⟨e, he, rfl⟩ := hx
    have hl := (lowest_spec (es.map Prod.fst) (by
      intro x hx; rw [List.mem_map] at hx; obtain ⟨e, he, rfl⟩ := hx; exact hb e he)
      (List.ne_nil_of_mem (List.mem_map_of_mem he))).2 e.1 (List.mem_map_of_mem he)
    have := hf e he
    exact mul_nonneg (by linarith) this
  refine ⟨hnn, ?_⟩
  rw [sum_eq_zero_of_nonneg _ hnn]
  constructor
  · intro h e he hpos e' he'
    have hz := h _ (List.mem_map_of_mem (f := fun e : ℚ × ℚ => (e.1 - lowest (es.map Prod.fst)) * e.2) he)
    have hl := (lowest_spec (es.map Prod.fst) (by
      intro x hx; rw [List.mem_map] at hx; obtain ⟨e, he, rfl⟩ := hx; exact hb e he)
      (List.ne_nil_of_mem (List.mem_map_of_mem he))).2 e'.1 (List.mem_map_of_mem he')
    rcases mul_eq_zero.1 hz with hz | hz
    · linarith
    · linarith
  · intro h x hx
    rw [List.mem_map] at hx
    obtain ⟨e, he, rfl⟩ := hx
    rcases (hf e he).eq_or_lt with h0 | h0
    · rw [← h0, mul_zero]
    · obtain ⟨hl1, hl2⟩ := lowest_spec (es.map Prod.fst) (by
        intro x hx; rw [List.mem_map] at hx; obtain ⟨e, he, rfl⟩ := hx; exact hb e he)
        (List.ne_nil_of_mem (List.mem_map_of_mem he))
      rw [List.mem_map] at hl1
      obtain ⟨e', he', hle⟩ := hl1
      have h2 := h e he h0 e' he'
      have h3 := hl2 e.1 (List.mem_map_of_mem he)
      rw [← hle] at h3 ⊢
      rw [le_antisymm h2 h3, sub_self, zero_mul]

/-! ## The best departure -/

theorem bestTime_spec (u : Prefs) (dist : ℕ → Option ℚ) : ∀ n,
    let r := bestTime u dist n
    (∀ i, i < n → ∀ x, dist i = some x → r.1 ≤ disutility u i x) ∧
    ((r = (dblMax, -1)) ∨ ∃ i x, i < n ∧ dist i = some x ∧ r = (disutility u i x, (i : ℤ)) ∧ r.1 < dblMax ∧
      ∀ j, j < i → ∀ y, dist j = some y → r.1 < disutility u j y) := by
  intro n
  induction n with
  | zero => exact ⟨by simp, Or.inl rfl⟩
  | succ n ih =>
    obtain ⟨h1, h2⟩ := ih
    simp only at h1 h2 ⊢
    rw [bestTime]
    cases hd : dist n with
    | none =>
      simp only
      refine ⟨?_, ?_⟩
      · intro i hi x hx
        by_cases hin : i = n
        · subst hin; rw [hd] at hx; cases hx
        · exact h1 i (by omega) x hx
      · rcases h2 with h2 | ⟨i, x, hi, h2⟩
        · exact Or.inl h2
        · exact Or.inr ⟨i, x, by omega, h2⟩
    | some x =>
      simp only
      by_cases hlt : disutility u n x < (bestTime u dist n).1
      · rw [if_pos hlt]
        refine ⟨?_, Or.inr ⟨n, x, by omega, hd, rfl, ?_, ?_⟩⟩
        · intro i hi y hy
          by_cases hin : i = n
          · subst hin; rw [hd] at hy; cases hy; exact le_refl _
          · exact hlt.le.trans (h1 i (by omega) y hy)
        · refine lt_of_lt_of_le hlt ?_
          rcases h2 with h2 | ⟨i, y, _, _, _, h2, _⟩
          · rw [h2]
          · exact h2.le
        · intro j hj y hy
          exact lt_of_lt_of_le hlt (h1 j hj y hy)
      · rw [if_neg hlt]
        push Not at hlt
        refine ⟨?_, ?_⟩
        · intro i hi y hy
          by_cases hin : i = n
          · subst hin; rw [hd] at hy; cases hy; exact hlt
          · exact h1 i (by omega) y hy
        · rcases h2 with h2 | ⟨i, y, hi, h2⟩
          · exact Or.inl h2
          · exact Or.inr ⟨i, y, by omega, h2⟩

end Verif.Due
