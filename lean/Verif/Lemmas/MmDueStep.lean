import Verif.Lemmas.MmDue

/-! # Lemmas on the updates of the multimodal equilibrium: choice, departure times, gradient projection, gap -/

namespace Verif.MmDue

/-! ## The best existing path -/

/-- `b` is a cheapest candidate of `xs`. -/
def Least (b : Option Cand) (xs : List Cand) : Prop :=
  match b with
  | none => xs = []
  | some y => y ∈ xs ∧ ∀ z ∈ xs, y.cost ≤ z.cost

theorem least_better {b : Option Cand} {xs : List Cand} {x : Cand} (h : Least b xs) :
    Least (better b x) (xs ++ [x]) := by
  cases b with
  | none =>
    have hx : xs = [] := h
    subst hx
    simp [better, Least]
  | some y =>
    obtain ⟨h1, h2⟩ := h
    unfold better
    simp only
    split
    · rename_i hlt
      refine ⟨by simp, ?_⟩
      intro z hz
      rw [List.mem_append, List.mem_singleton] at hz
      rcases hz with hz | rfl
      · exact le_trans hlt.le (h2 z hz)
      · exact le_refl _
    · rename_i hge
      refine ⟨by simp [h1], ?_⟩
      intro z hz
      rw [List.mem_append, List.mem_singleton] at hz
      rcases hz with hz | rfl
      · exact h2 z hz
      · exact not_lt.1 hge

theorem least_fold : ∀ (ys xs : List Cand) (b : Option Cand), Least b xs → Least (ys.foldl better b) (xs ++ ys) := by
  intro ys
  induction ys with
  | nil => intro xs b h; simpa using h
  | cons y ys ih =>
    intro xs b h
    rw [List.foldl_cons, show xs ++ y :: ys = (xs ++ [y]) ++ ys by simp]
    exact ih _ _ (least_better h)

theorem least_override {b b' : Option Cand} {xs ys : List Cand} (h : Least b xs) (h' : Least b' ys) :
    Least (override b b') (xs ++ ys) := by
  cases b' with
  | none =>
    have : ys = [] := h'
    subst this
    simpa [override] using h
  | some y =>
    obtain ⟨h1, h2⟩ := h'
    change Least (better b y) (xs ++ ys)
    have h3 := least_better (x := y) h
    cases hb : better b y with
    | none =>
      exfalso
      rw [hb] at h3
      have : xs ++ [y] = [] := h3
      simp at this
    | some w =>
      rw [hb] at h3
      obtain ⟨h4, h5⟩ := h3
      refine ⟨?_, ?_⟩
      · rw [List.mem_append, List.mem_singleton] at h4
        rcases h4 with h4 | rfl
        · simp [h4]
        · simp [h1]
      · intro z hz
        rw [List.mem_append] at hz
        rcases hz with hz | hz
        · exact h5 z (by simp [hz])
        · exact le_trans (h5 y (by simp)) (h2 z hz)

/-- The candidates of a set of paths. -/
def cands (cost : PPath → ℕ → ℚ) (is : List ℕ) (ps : List PPath) : List Cand :=
  is.flatMap fun i => ps.map fun p => (⟨p.route.copy, i, cost p i⟩ : Cand)

theorem mem_cands {cost : PPath → ℕ → ℚ} {is : List ℕ} {ps : List PPath} {x : Cand} :
    x ∈ cands cost is ps ↔ ∃ i ∈ is, ∃ p ∈ ps, x = ⟨p.route.copy, i, cost p i⟩ := by
  simp only [cands, List.mem_flatMap, List.mem_map]
  constructor
  · rintro ⟨i, hi, p, hp, e⟩; exact ⟨i, hi, p, hp, e.symm⟩
  · rintro ⟨i, hi, p, hp, e⟩; exact ⟨i, hi, p, hp, e.symm⟩

theorem bestIn_least (cost : PPath → ℕ → ℚ) (is : List ℕ) (ps : List PPath) :
    Least (bestIn cost is ps) (cands cost is ps) := by
  have := least_fold (cands cost is ps) [] none rfl
  simpa [bestIn, cands] using this

theorem bestExisting_least (cost : PPath → ℕ → ℚ) (is : List ℕ) (s : Sets) :
    Least (bestExisting cost is s) (cands cost is ((s .driving).getD []) ++ cands cost is ((s .transit).getD []) ++
      cands cost is ((s .pnr).getD [])) := by
  unfold bestExisting modes
  simp only [List.foldl_cons, List.foldl_nil]
  have h0 : Least none [] := rfl
  have h1 := least_override h0 (bestIn_least cost is ((s .driving).getD []))
  rw [List.nil_append] at h1
  exact least_override (least_override h1 (bestIn_least cost is ((s .transit).getD [])))
    (bestIn_least cost is ((s .pnr).getD []))

theorem bestExisting_some {cost : PPath → ℕ → ℚ} {is : List ℕ} {s : Sets} {b : Cand}
    (h : bestExisting cost is s = some b) :
    (∃ p ∈ s.all, ∃ i ∈ is, b = ⟨p.route.copy, i, cost p i⟩) ∧ ∀ q ∈ s.all, ∀ j ∈ is, b.cost ≤ cost q j := by
  have hl := bestExisting_least cost is s
  rw [h] at hl
  obtain ⟨h1, h2⟩ := hl
  rw [all_eq]
  refine ⟨?_, ?_⟩
  · simp only [List.mem_append, mem_cands] at h1
    rcases h1 with (⟨i, hi, p, hp, e⟩ | ⟨i, hi, p, hp, e⟩) | ⟨i, hi, p, hp, e⟩
    · exact ⟨p, by simp [hp], i, hi, e⟩
    · exact ⟨p, by simp [hp], i, hi, e⟩
    · exact ⟨p, by simp [hp], i, hi, e⟩
  · intro q hq j hj
    have : (⟨q.route.copy, j, cost q j⟩ : Cand) ∈ cands cost is ((s .driving).getD []) ++
        cands cost is ((s .transit).getD []) ++ cands cost is ((s .pnr).getD []) := by
      simp only [List.mem_append, mem_cands] at hq ⊢
      rcases hq with hq | hq | hq
      · exact Or.inl (Or.inl ⟨j, hj, q, hq, rfl⟩)
      · exact Or.inl (Or.inr ⟨j, hj, q, hq, rfl⟩)
      · exact Or.inr ⟨j, hj, q, hq, rfl⟩
    exact h2 _ this

theorem bestExisting_none {cost : PPath → ℕ → ℚ} {is : List ℕ} {s : Sets} (h : bestExisting cost is s = none)
    {i : ℕ} (hi : i ∈ is) : s.all = [] := by
  have hl := bestExisting_least cost is s
  rw [h] at hl
  have hl : _ = [] := hl
  have key : ∀ ps : List PPath, cands cost is ps = [] → ps = [] := by
    intro ps hc
    cases ps with
    | nil => rfl
    | cons p ps =>
      have := mem_cands (cost := cost) (is := is) (ps := p :: ps) (x := ⟨p.route.copy, i, cost p i⟩)
      rw [hc] at this
      simp only [List.not_mem_nil, false_iff] at this
      exact absurd ⟨i, hi, p, by simp, rfl⟩ this
  rw [List.append_eq_nil_iff, List.append_eq_nil_iff] at hl
  rw [all_eq, key _ hl.1.1, key _ hl.1.2, key _ hl.2]
  rfl

/-! ## Totals of path costs -/

theorem eq_of_route {ps : List PPath} (h : (ps.map PPath.route).Nodup) {p q : PPath} (hp : p ∈ ps) (hq : q ∈ ps)
    (e : p.route = q.route) : p = q := by
  induction ps with
  | nil => cases hp
  | cons x xs ih =>
    rw [List.map_cons, List.nodup_cons] at h
    rw [List.mem_cons] at hp hq
    rcases hp with rfl | hp
    · rcases hq with rfl | hq
      · rfl
      · exact absurd (List.mem_map.2 ⟨q, hq, e.symm⟩) h.1
    · rcases hq with rfl | hq
      · exact absurd (List.mem_map.2 ⟨p, hp, e⟩) h.1
      · exact ih h.2 hp hq

/-- Moving flow to a path that is no dearer than those it is taken from does not raise the total. -/
theorem shift_total {s s' : Sets} {best : Route} {c : ℕ} {f : PPath → ℚ} {u : ℚ}
    (h : (s.each fun p => p.add c (-f p)).addLast best c ((s.all.map f).sum) = .ok s')
    (hf : ∀ p ∈ s.all, 0 ≤ f p) (hu : ∀ p ∈ s.all, p.route = best → p.dis c = u) (hl : ∀ p ∈ s.all, u ≤ p.dis c) :
    s'.total c = s.total c - (s.all.map fun p => f p * (p.dis c - u)).sum ∧ s'.total c ≤ s.total c := by
  obtain ⟨hr, l1, p, l2, e1, e2, e3⟩ := addLast_ok h
  rw [each_all] at e1
  have hpd : p.dis c = u := by
    have : p ∈ s.all.map fun p => p.add c (-f p) := by rw [e1]; simp
    rw [List.mem_map] at this
    obtain ⟨q, hq, rfl⟩ := this
    exact hu q hq e2
  have h1 : ((s.all.map fun p => p.add c (-f p)).map fun p => p.flow c * p.dis c).sum =
      s.total c - (s.all.map fun p => f p * p.dis c).sum := by
    rw [List.map_map, Sets.total, ← sum_map_sub]
    congr 1
    apply List.map_congr_left
    intro p _
    simp only [Function.comp, add_flow, if_true, add_dis]
    ring
  rw [e1] at h1
  have h2 : (s.all.map fun p => f p * (p.dis c - u)).sum =
      (s.all.map fun p => f p * p.dis c).sum - u * (s.all.map f).sum := by
    rw [← sum_map_mul, ← sum_map_sub]
    congr 1
    apply List.map_congr_left
    intro p _
    ring
  have h3 : s'.total c = s.total c - (s.all.map fun p => f p * (p.dis c - u)).sum := by
    rw [h2, Sets.total, e3]
    simp only [List.map_append, List.map_cons, List.sum_append, List.sum_cons, add_flow, if_true, add_dis, hpd] at h1 ⊢
    linarith
  refine ⟨h3, ?_⟩
  have h4 : 0 ≤ (s.all.map fun p => f p * (p.dis c - u)).sum :=
    sum_map_nonneg fun p hp => mul_nonneg (hf p hp) (sub_nonneg.2 (hl p hp))
  linarith

/-! ## Departure time choice -/

theorem sum_range_single (T : ℕ) {bc : ℕ} (hb : bc < T) (x : ℚ) :
    ((List.range T).map fun c => if c = bc then x else 0).sum = x := by
  induction T with
  | zero => omega
  | succ T ih =>
    rw [List.range_succ, List.map_append, List.sum_append]
    by_cases h : bc = T
    · subst h
      have : ((List.range bc).map fun c => if c = bc then x else (0 : ℚ)) = (List.range bc).map fun _ => 0 := by
        apply List.map_congr_left
        intro c hc
        rw [List.mem_range] at hc
        rw [if_neg (by omega)]
      rw [this]
      simp
    · rw [ih (by omega)]
      simp [Ne.symm h]

theorem add_sum (T : ℕ) {bc : ℕ} (hb : bc < T) (p : PPath) (x : ℚ) : (p.add bc x).sum T = p.sum T + x := by
  unfold PPath.sum
  rw [show (p.add bc x).flow = fun c => p.flow c + if c = bc then x else 0 from funext fun c => add_flow p bc x c,
    sum_map_add, sum_range_single T hb]

theorem sum_eq_of_flows {T : ℕ} {s s' : Sets}
    (h : ∀ c, (s'.all.map fun p => p.flow c).sum = (s.all.map fun p => p.flow c).sum) :
    (s'.all.map (PPath.sum T)).sum = (s.all.map (PPath.sum T)).sum := by
  have key : ∀ ps : List PPath, (ps.map (PPath.sum T)).sum =
      ((List.range T).map fun c => (ps.map fun p => p.flow c).sum).sum := by
    intro ps
    induction ps with
    | nil => simp
    | cons p ps ih =>
      simp only [List.map_cons, List.sum_cons]
      rw [sum_map_add, ih]
      rfl
  rw [key, key]
  congr 1
  apply List.map_congr_left
  intro c _
  exact h c

theorem dtcAll_keeps {cg : Bool} {T : ℕ} {step : ℚ} {iter : ℕ} {tot : ℚ} {best : Found} {bc : ℕ} {s s' : Sets}
    (hb : bc < T) (h : dtcAll cg T step iter tot best bc s = .ok s') :
    (s'.all.map (PPath.sum T)).sum = (s.all.map (PPath.sum T)).sum ∧ Grows s s' ∧
    (0 ≤ step → step ≤ 1 → 0 ≤ tot → (∀ p ∈ s.all, ∀ c, 0 ≤ p.flow c) → ∀ p ∈ s'.all, ∀ c, 0 ≤ p.flow c) := by
  unfold dtcAll at h
  rw [Res.bind_eq_ok'] at h
  obtain ⟨a, ha, h⟩ := h
  obtain ⟨k1, k2, k3⟩ := enlist_keeps ha
  cases hex : a.2 with
  | true =>
    rw [hex] at h
    simp only [if_true] at h
    obtain ⟨hr, l1, p, l2, e1, e2, e3⟩ := addLast_ok h
    rw [each_all] at e1
    have hr' : s'.routes = a.1.routes := hr.trans (each_routes a.1 fun p => rfl)
    refine ⟨?_, k3.trans (grows_of_routes hr'), ?_⟩
    · rw [← sum_eq_of_flows k1]
      have h1 : ((a.1.all.map (dtcTaken T step iter tot best.route bc)).map (PPath.sum T)).sum =
          (a.1.all.map (PPath.sum T)).sum -
            (a.1.all.map fun p => ((List.range T).map (dtcChange step iter tot best.route bc p)).sum).sum := by
        rw [List.map_map, ← sum_map_sub]
        congr 1
        apply List.map_congr_left
        intro p _
        simp only [Function.comp, PPath.sum, dtcTaken]
        rw [← sum_map_sub]
        congr 1
        apply List.map_congr_left
        intro c hc
        rw [List.mem_range] at hc
        simp [hc]
      rw [e1] at h1
      rw [e3]
      simp only [List.map_append, List.map_cons, List.sum_append, List.sum_cons] at h1 ⊢
      rw [add_sum T hb]
      linarith
    · intro h0 _ htot hp q hq c
      have hp' := k2 hp
      have hch : ∀ p ∈ a.1.all, ∀ c, 0 ≤ dtcChange step iter tot best.route bc p c ∧
          dtcChange step iter tot best.route bc p c ≤ p.flow c := by
        intro p hpm c
        have := hp' p hpm c
        unfold dtcChange
        split
        · exact ⟨le_min this (by positivity), min_le_left _ _⟩
        · exact ⟨le_refl _, this⟩
      have hsub : ∀ q ∈ a.1.all.map (dtcTaken T step iter tot best.route bc), ∀ k, 0 ≤ q.flow k := by
        intro q hq k
        rw [List.mem_map] at hq
        obtain ⟨q0, hq0, rfl⟩ := hq
        have h1 := hch q0 hq0 k
        have h2 := hp' q0 hq0 k
        simp only [dtcTaken]
        split <;> linarith
      rw [e1] at hsub
      rw [e3, List.mem_append, List.mem_cons] at hq
      rcases hq with hq | rfl | hq
      · exact hsub q (by simp [hq]) c
      · rw [add_flow]
        have h1 := hsub p (by simp) c
        have h2 : 0 ≤ (a.1.all.map fun p =>
            ((List.range T).map (dtcChange step iter tot best.route bc p)).sum).sum :=
          sum_map_nonneg fun p hm => sum_map_nonneg fun c _ => (hch p hm c).1
        split <;> linarith
      · exact hsub q (by simp [hq]) c
  | false =>
    rw [hex] at h
    simp only [Bool.false_eq_true, if_false] at h
    have hk : ∀ {f}, (a.1.each fun p => p.add bc (-f p)).addLast best.route bc ((a.1.all.map f).sum) = .ok s' → True :=
      fun _ => trivial
    have h1 : (∀ c, (s'.all.map fun p => p.flow c).sum = (a.1.all.map fun p => p.flow c).sum) ∧ Grows a.1 s' := by
      -- conservation does not need the signs
      obtain ⟨hr, l1, p, l2, e1, e2, e3⟩ := addLast_ok h
      rw [each_all] at e1
      refine ⟨?_, grows_of_routes (hr.trans (each_routes a.1 fun p => rfl))⟩
      intro k
      have h1 : ((a.1.all.map fun p => p.add bc (-dtcNewChange step iter best.route bc p)).map
            fun p => p.flow k).sum =
          (a.1.all.map fun p => p.flow k).sum - if k = bc then
            (a.1.all.map (dtcNewChange step iter best.route bc)).sum else 0 := by
        rw [List.map_map]
        by_cases hk : k = bc
        · rw [if_pos hk, ← sum_map_sub]
          congr 1
          apply List.map_congr_left
          intro p _
          simp only [Function.comp, add_flow, if_pos hk]
          ring
        · rw [if_neg hk, sub_zero]
          congr 1
          apply List.map_congr_left
          intro p _
          simp only [Function.comp, add_flow, if_neg hk, add_zero]
      rw [e1] at h1
      rw [e3]
      simp only [List.map_append, List.map_cons, List.sum_append, List.sum_cons, add_flow] at h1 ⊢
      split at h1 <;> rename_i hk
      · rw [if_pos hk]; linarith
      · rw [if_neg hk]; linarith
    refine ⟨?_, k3.trans h1.2, ?_⟩
    · rw [← sum_eq_of_flows k1, sum_eq_of_flows h1.1]
    · intro h0 h1' _ hp
      refine (shift_keeps h ?_).2.1 (k2 hp)
      intro hp' p hm
      have hf := hp' p hm bc
      unfold dtcNewChange
      split
      · exact ⟨le_refl _, hf⟩
      · have hi : (1 : ℚ) ≤ (iter : ℚ) + 1 := by have : (0 : ℚ) ≤ (iter : ℚ) := by positivity
                                                 linarith
        refine ⟨by positivity, ?_⟩
        rw [div_le_iff₀ (by linarith)]
        nlinarith

/-! ## Gradient projection -/

theorem tau_fold (step : ℚ) (best : Route) (c : ℕ) (μ : ℚ) : ∀ (ps done : List PPath) (t0 : Option ℚ),
    ((∀ t, t0 = some t → (∀ p ∈ done, active best c p = true → 0 < p.dis c - μ → t ≤ step * p.flow c / (p.dis c - μ)) ∧
      ∃ p ∈ done, active best c p = true ∧ 0 < p.dis c - μ ∧ t = step * p.flow c / (p.dis c - μ)) ∧
     (t0 = none → ∀ p ∈ done, active best c p = true → ¬ 0 < p.dis c - μ)) →
    (∀ t, ps.foldl (tauStep step best c μ) t0 = some t →
      (∀ p ∈ done ++ ps, active best c p = true → 0 < p.dis c - μ → t ≤ step * p.flow c / (p.dis c - μ)) ∧
      ∃ p ∈ done ++ ps, active best c p = true ∧ 0 < p.dis c - μ ∧ t = step * p.flow c / (p.dis c - μ)) ∧
    (ps.foldl (tauStep step best c μ) t0 = none → ∀ p ∈ done ++ ps, active best c p = true → ¬ 0 < p.dis c - μ) := by
  intro ps
  induction ps with
  | nil => intro done t0 h; simpa using h
  | cons q ps ih =>
    intro done t0 h
    rw [List.foldl_cons, show done ++ q :: ps = (done ++ [q]) ++ ps by simp]
    apply ih
    unfold tauStep
    by_cases hq : active best c q = true ∧ 0 < q.dis c - μ
    · rw [if_pos hq]
      obtain ⟨hq, hch⟩ := hq
      cases t0 with
      | none =>
        refine ⟨?_, fun e => by cases e⟩
        intro t ht
        cases ht
        refine ⟨?_, q, by simp, hq, hch, rfl⟩
        intro p hp ha hc
        rw [List.mem_append, List.mem_singleton] at hp
        rcases hp with hp | rfl
        · exact absurd hc (h.2 rfl p hp ha)
        · exact le_refl _
      | some t' =>
        obtain ⟨h1, p1, hp1, ha1, hc1, e1⟩ := h.1 t' rfl
        by_cases hlt : t' > step * q.flow c / (q.dis c - μ)
        · simp only [if_pos hlt]
          refine ⟨?_, fun e => by cases e⟩
          intro t ht
          cases ht
          refine ⟨?_, q, by simp, hq, hch, rfl⟩
          intro p hp ha hc
          rw [List.mem_append, List.mem_singleton] at hp
          rcases hp with hp | rfl
          · exact le_trans (le_of_lt hlt) (h1 p hp ha hc)
          · exact le_refl _
        · simp only [if_neg hlt]
          refine ⟨?_, fun e => by cases e⟩
          intro t ht
          cases ht
          refine ⟨?_, p1, by simp [hp1], ha1, hc1, e1⟩
          intro p hp ha hc
          rw [List.mem_append, List.mem_singleton] at hp
          rcases hp with hp | rfl
          · exact h1 p hp ha hc
          · exact not_lt.1 hlt
    · rw [if_neg hq]
      refine ⟨?_, ?_⟩
      · intro t ht
        obtain ⟨h1, p1, hp1, r⟩ := h.1 t ht
        refine ⟨?_, p1, by simp [hp1], r⟩
        intro p hp ha hc
        rw [List.mem_append, List.mem_singleton] at hp
        rcases hp with hp | rfl
        · exact h1 p hp ha hc
        · exact absurd ⟨ha, hc⟩ hq
      · intro ht p hp ha hc
        rw [List.mem_append, List.mem_singleton] at hp
        rcases hp with hp | rfl
        · exact h.2 ht p hp ha hc
        · exact hq ⟨ha, hc⟩

theorem tau_spec (step : ℚ) (best : Route) (c : ℕ) (s : Sets) :
    (∀ t, tau step best c s = some t →
      (∀ p ∈ s.all, active best c p = true → 0 < p.dis c - meanDis best c s →
        t ≤ step * p.flow c / (p.dis c - meanDis best c s)) ∧
      ∃ p ∈ s.all, active best c p = true ∧ 0 < p.dis c - meanDis best c s ∧
        t = step * p.flow c / (p.dis c - meanDis best c s)) ∧
    (tau step best c s = none → ∀ p ∈ s.all, active best c p = true → ¬ 0 < p.dis c - meanDis best c s) := by
  have := tau_fold step best c (meanDis best c s) s.all [] none
    ⟨fun t e => (by cases e), fun _ p hp => (by cases hp)⟩
  rwa [List.nil_append] at this

theorem sum_filter {A : Type} (ps : List A) (b : A → Bool) (f : A → ℚ) :
    (ps.map fun p => if b p then f p else 0).sum = ((ps.filter b).map f).sum := by
  induction ps with
  | nil => rfl
  | cons p ps ih =>
    rw [List.map_cons, List.sum_cons, ih, List.filter_cons]
    split <;> simp

/-- The deviations from the mean cancel. -/
theorem dev_sum (best : Route) (c : ℕ) (s : Sets) :
    ((s.all.filter (active best c)).map fun p => p.dis c - meanDis best c s).sum = 0 := by
  rw [sum_map_sub]
  unfold meanDis
  generalize s.all.filter (active best c) = ps
  cases ps with
  | nil => simp
  | cons p ps =>
    have hl : (((p :: ps).length : ℕ) : ℚ) ≠ 0 := by
      rw [List.length_cons]; push_cast; positivity
    rw [List.map_const', List.sum_replicate, nsmul_eq_mul, mul_div_cancel₀ _ hl, sub_self]

theorem gpCol_shape {cg : Bool} {step : ℚ} {best : Route} {dis : ℕ → ℚ} {mid : ℤ} {c : ℕ} {s s' : Sets}
    (h : gpCol cg step best dis mid c s = .ok s') :
    ∃ a, enlist cg best dis mid s = .ok a ∧
      ((tau step best c a.1 = none ∧ s' = a.1) ∨
       ∃ t, tau step best c a.1 = some t ∧
        s' = (a.1.each fun p =>
          if active best c p then p.add c (-(t * (p.dis c - meanDis best c a.1))) else p) ∧
        ∀ p ∈ a.1.all, active best c p = true → 0 ≤ p.flow c - t * (p.dis c - meanDis best c a.1)) := by
  unfold gpCol at h
  rw [Res.bind_eq_ok'] at h
  obtain ⟨a, ha, h⟩ := h
  refine ⟨a, ha, ?_⟩
  cases ht : tau step best c a.1 with
  | none => rw [ht] at h; cases h; exact Or.inl ⟨rfl, rfl⟩
  | some t =>
    rw [ht] at h
    simp only at h
    split at h
    · cases h
    · rename_i hn
      cases h
      refine Or.inr ⟨t, rfl, rfl, ?_⟩
      intro p hp hact
      by_contra hlt
      apply hn
      rw [List.any_eq_true]
      exact ⟨p, List.mem_filter.2 ⟨hp, hact⟩, by simpa using not_le.1 hlt⟩

theorem gpCol_keeps {cg : Bool} {step : ℚ} {best : Route} {dis : ℕ → ℚ} {mid : ℤ} {c : ℕ} {s s' : Sets}
    (h : gpCol cg step best dis mid c s = .ok s') : Keeps s s' := by
  obtain ⟨a, ha, h⟩ := gpCol_shape h
  refine (enlist_keeps ha).trans ?_
  rcases h with ⟨_, rfl⟩ | ⟨t, _, rfl, hn⟩
  · exact Keeps.refl _
  · refine ⟨?_, ?_, grows_of_routes (each_routes _ fun p => by split <;> rfl)⟩
    · intro k
      unfold Sets.passengers
      rw [each_all, List.map_map]
      by_cases hk : k = c
      · have h1 : ((a.1.all).map ((fun p => p.flow k) ∘ fun p =>
            if active best c p then p.add c (-(t * (p.dis c - meanDis best c a.1))) else p)) =
            (a.1.all.map fun p => p.flow k - if active best c p then t * (p.dis c - meanDis best c a.1) else 0) := by
          apply List.map_congr_left
          intro p _
          simp only [Function.comp]
          split
          · rw [add_flow, if_pos hk]; ring
          · ring
        rw [h1, sum_map_sub, sum_filter, sum_map_mul, dev_sum]
        ring
      · congr 1
        apply List.map_congr_left
        intro p _
        simp only [Function.comp]
        split
        · rw [add_flow, if_neg hk, add_zero]
        · rfl
    · intro hp q hq k
      rw [each_all, List.mem_map] at hq
      obtain ⟨q0, hq0, rfl⟩ := hq
      have h1 := hp q0 hq0 k
      split
      · rename_i hact
        rw [add_flow]
        split
        · rename_i hk
          subst hk
          have := hn q0 hq0 hact
          linarith
        · linarith
      · exact h1

theorem enlist_total {cg : Bool} {best : Route} {dis : ℕ → ℚ} {mid : ℤ} {s : Sets} {a : Sets × Bool}
    (h : enlist cg best dis mid s = .ok a) (k : ℕ) : a.1.total k = s.total k := by
  rcases enlist_ok h with ⟨e, _, _⟩ | ⟨_, _, _, _, l1, l2, e1, e2⟩
  · rw [e]
  · unfold Sets.total; rw [e1, e2]; simp

theorem enlist_nonneg {cg : Bool} {best : Route} {dis : ℕ → ℚ} {mid : ℤ} {s : Sets} {a : Sets × Bool}
    (h : enlist cg best dis mid s = .ok a) (hp : ∀ p ∈ s.all, ∀ c, 0 ≤ p.flow c) : ∀ p ∈ a.1.all, ∀ c, 0 ≤ p.flow c :=
  (enlist_keeps h).2.1 hp

theorem enlist_mem {cg : Bool} {best : Route} {dis : ℕ → ℚ} {mid : ℤ} {s : Sets} {a : Sets × Bool}
    (h : enlist cg best dis mid s = .ok a) {p : PPath} (hp : p ∈ s.all) : p ∈ a.1.all := by
  rcases enlist_ok h with ⟨e, _, _⟩ | ⟨_, _, _, _, l1, l2, e1, e2⟩
  · rwa [e]
  · rw [e1, List.mem_append] at hp
    rw [e2, List.mem_append, List.mem_cons]
    tauto

theorem tau_nonneg {step : ℚ} (h0 : 0 ≤ step) {best : Route} {c : ℕ} {s : Sets}
    (hp : ∀ p ∈ s.all, ∀ c, 0 ≤ p.flow c) {t : ℚ} (h : tau step best c s = some t) : 0 ≤ t := by
  obtain ⟨_, p, hm, _, hc, e⟩ := (tau_spec step best c s).1 t h
  rw [e]
  exact div_nonneg (mul_nonneg h0 (hp p hm c)) hc.le

/-- No path is taken below zero. -/
theorem tau_safe {step : ℚ} (h0 : 0 ≤ step) (h1 : step ≤ 1) {best : Route} {c : ℕ} {s : Sets}
    (hp : ∀ p ∈ s.all, ∀ c, 0 ≤ p.flow c) {t : ℚ} (h : tau step best c s = some t) {p : PPath} (hm : p ∈ s.all)
    (ha : active best c p = true) : 0 ≤ p.flow c - t * (p.dis c - meanDis best c s) := by
  have ht := tau_nonneg h0 hp h
  have hf := hp p hm c
  by_cases hc : 0 < p.dis c - meanDis best c s
  · have := ((tau_spec step best c s).1 t h).1 p hm ha hc
    rw [le_div_iff₀ hc] at this
    nlinarith
  · have := not_lt.1 hc
    nlinarith

theorem gpCol_isOk {cg : Bool} {step : ℚ} (h0 : 0 ≤ step) (h1 : step ≤ 1) {best : Route} {dis : ℕ → ℚ} {mid : ℤ}
    {c : ℕ} {s : Sets} (hp : ∀ p ∈ s.all, ∀ c, 0 ≤ p.flow c) (hm : cg = true → s best.mode ≠ none) :
    ∃ s', gpCol cg step best dis mid c s = .ok s' := by
  have hadm : ∃ a, enlist cg best dis mid s = .ok a := by
    unfold enlist
    cases cg with
    | false => exact ⟨_, rfl⟩
    | true =>
      have := hm rfl
      cases hb : s best.mode with
      | none => exact absurd hb this
      | some ps =>
        simp only [if_true]
        split <;> exact ⟨_, rfl⟩
  obtain ⟨a, ha⟩ := hadm
  have hp' := enlist_nonneg ha hp
  unfold gpCol
  rw [ha]
  change ∃ s', (match tau step best c a.1 with
    | none => Res.ok a.1
    | some t => _) = Res.ok s'
  cases ht : tau step best c a.1 with
  | none => exact ⟨_, rfl⟩
  | some t =>
    simp only
    rw [if_neg]
    · exact ⟨_, rfl⟩
    · intro hany
      rw [List.any_eq_true] at hany
      obtain ⟨p, hpm, hlt⟩ := hany
      rw [List.mem_filter] at hpm
      have := tau_safe h0 h1 hp' ht hpm.1 hpm.2
      simp only [decide_eq_true_eq] at hlt
      linarith

/-- The change of the total is minus a sum of squares. -/
theorem gpCol_total {cg : Bool} {step : ℚ} (h0 : 0 ≤ step) {best : Route} {dis : ℕ → ℚ} {mid : ℤ} {c : ℕ}
    {s s' : Sets} (hp : ∀ p ∈ s.all, ∀ c, 0 ≤ p.flow c) (h : gpCol cg step best dis mid c s = .ok s') (k : ℕ) :
    s'.total k ≤ s.total k := by
  obtain ⟨a, ha, h⟩ := gpCol_shape h
  rw [← enlist_total ha k]
  rcases h with ⟨_, rfl⟩ | ⟨t, ht, rfl, hn⟩
  · exact le_refl _
  · have htn := tau_nonneg h0 (enlist_nonneg ha hp) ht
    unfold Sets.total
    rw [each_all, List.map_map]
    by_cases hk : k = c
    · subst hk
      have e : (a.1.all.map ((fun p => p.flow k * p.dis k) ∘ fun p =>
            if active best k p then p.add k (-(t * (p.dis k - meanDis best k a.1))) else p)) =
          a.1.all.map fun p => p.flow k * p.dis k -
            if active best k p then t * ((p.dis k - meanDis best k a.1) ^ 2 +
              meanDis best k a.1 * (p.dis k - meanDis best k a.1)) else 0 := by
        apply List.map_congr_left
        intro p _
        simp only [Function.comp]
        split
        · rw [add_flow, if_pos rfl, add_dis]; ring
        · ring
      rw [e, sum_map_sub, sum_filter, sum_map_mul, sum_map_add, sum_map_mul, dev_sum]
      have : 0 ≤ ((a.1.all.filter (active best k)).map fun p => (p.dis k - meanDis best k a.1) ^ 2).sum :=
        sum_map_nonneg fun p _ => sq_nonneg _
      have := mul_nonneg htn this
      linarith
    · apply le_of_eq
      congr 1
      apply List.map_congr_left
      intro p _
      simp only [Function.comp]
      split
      · rw [add_flow, if_neg hk, add_zero, add_dis]
      · rfl

/-- If no path in play is above the mean, all are at the mean. -/
theorem tau_none_eq {step : ℚ} {best : Route} {c : ℕ} {s : Sets} (h : tau step best c s = none) {p : PPath}
    (hm : p ∈ s.all) (ha : active best c p = true) : p.dis c = meanDis best c s := by
  have hle := (tau_spec step best c s).2 h
  have h0 := dev_sum best c s
  have key : ∀ ps : List PPath, (∀ q ∈ ps, q.dis c - meanDis best c s ≤ 0) →
      (ps.map fun q => q.dis c - meanDis best c s).sum = 0 → ∀ q ∈ ps, q.dis c - meanDis best c s = 0 := by
    intro ps
    induction ps with
    | nil => intro _ _ q hq; cases hq
    | cons x xs ih =>
      intro hl hs q hq
      rw [List.map_cons, List.sum_cons] at hs
      have h1 := hl x (by simp)
      have h2 : 0 ≤ (xs.map fun q => -(q.dis c - meanDis best c s)).sum :=
        sum_map_nonneg fun q hq => by have := hl q (by simp [hq]); linarith
      have h3 : (xs.map fun q => -(q.dis c - meanDis best c s)).sum =
          -(xs.map fun q => q.dis c - meanDis best c s).sum := by
        have := sum_map_mul xs (-1) fun q => q.dis c - meanDis best c s
        simpa using this
      rw [List.mem_cons] at hq
      rcases hq with rfl | hq
      · linarith
      · exact ih (fun q hq => hl q (by simp [hq])) (by linarith) q hq
  have := key _ (fun q hq => not_lt.1 (hle q (List.mem_filter.1 hq).1 (List.mem_filter.1 hq).2)) h0 p
    (List.mem_filter.2 ⟨hm, ha⟩)
  linarith

/-! ## Existing paths only, with fixed departure times -/

theorem copy_eq {r : Route} (h : ∀ n lot links, r = .driving n lot links → n = 1) : r.copy = r := by
  cases r with
  | driving n lot links => rw [h n lot links rfl]; rfl
  | transit _ => rfl
  | pnr _ _ => rfl

theorem fixedExistingCol_ok {step root : ℚ} {c : ℕ} {s s' : Sets} (h : fixedExistingCol step root c s = .ok s') :
    ∃ b, bestExisting (fun p _ => p.dis c) [c] s = some b ∧ fixedCol false step root b.route (fun _ => 0) 0 c s = .ok s' := by
  unfold fixedExistingCol at h
  cases hb : bestExisting (fun p _ => p.dis c) [c] s with
  | none => rw [hb] at h; simp only at h; split at h <;> cases h
  | some b => rw [hb] at h; exact ⟨b, rfl, h⟩

theorem fixedCol_false {step root : ℚ} {best : Route} {dis : ℕ → ℚ} {mid : ℤ} {c : ℕ} {s : Sets} :
    fixedCol false step root best dis mid c s =
      (s.each fun p => p.add c (-fixedChange step root best c p)).addLast best c
        ((s.all.map (fixedChange step root best c)).sum) := rfl

theorem fixedExistingCol_isOk {step root : ℚ} {c : ℕ} {s : Sets} (hne : s.all ≠ [])
    (h1 : ∀ p ∈ s.all, p.route.copy = p.route) : ∃ s', fixedExistingCol step root c s = .ok s' := by
  unfold fixedExistingCol
  cases hb : bestExisting (fun p _ => p.dis c) [c] s with
  | none => exact absurd (bestExisting_none hb (List.mem_singleton_self c)) hne
  | some b =>
    obtain ⟨⟨p, hp, i, _, e⟩, _⟩ := bestExisting_some hb
    simp only [fixedCol_false]
    apply addLast_isOk
    rw [each_all, isIn_iff]
    refine ⟨_, List.mem_map.2 ⟨p, hp, rfl⟩, ?_⟩
    rw [add_route, e]
    exact (h1 p hp).symm

end Verif.MmDue
