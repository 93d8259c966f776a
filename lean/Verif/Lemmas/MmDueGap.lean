import Verif.Lemmas.MmDueStep

/-! # Lemmas on the initial flows, repeated updates and the gap of the multimodal equilibrium -/

namespace Verif.MmDue

/-! ## Initial flows -/

theorem initSet_sum {share : ℚ} {dmd : ℕ → ℚ} {ps : List PPath} (h : ps ≠ []) (c : ℕ) :
    ((initSet share dmd ps).map fun p => p.flow c).sum = share * dmd c := by
  cases ps with
  | nil => exact absurd rfl h
  | cons p ps =>
    unfold initSet
    rw [List.map_cons, List.sum_cons, List.map_map]
    have : (ps.map ((fun p : PPath => p.flow c) ∘ fun q => { q with flow := fun _ => 0 })).sum = 0 := by
      induction ps with
      | nil => rfl
      | cons q ps ih => rw [List.map_cons, List.sum_cons, ih (by simp)]; simp
    rw [this, add_zero]

theorem initSet_routes (share : ℚ) (dmd : ℕ → ℚ) (ps : List PPath) :
    (initSet share dmd ps).map PPath.route = ps.map PPath.route := by
  cases ps with
  | nil => rfl
  | cons p ps => unfold initSet; simp [Function.comp_def]

theorem initSet_nonneg {share : ℚ} {dmd : ℕ → ℚ} (h0 : 0 ≤ share) (hd : ∀ c, 0 ≤ dmd c) (ps : List PPath) :
    ∀ p ∈ initSet share dmd ps, ∀ c, 0 ≤ p.flow c := by
  cases ps with
  | nil => intro p hp; cases hp
  | cons p ps =>
    intro q hq c
    unfold initSet at hq
    rw [List.mem_cons, List.mem_map] at hq
    rcases hq with rfl | ⟨q0, _, rfl⟩
    · exact mul_nonneg h0 (hd c)
    · exact le_refl _

theorem initFlow_ok {dmd : ℕ → ℚ} {s s' : Sets} (h : initFlow dmd s = .ok s') :
    s.numModes ≠ 0 ∧ (∀ m, s m ≠ some []) ∧ s' = fun m => (s m).map (initSet (1 / (s.numModes : ℚ)) dmd) := by
  unfold initFlow at h
  split at h
  · cases h
  · rename_i h0
    split at h
    · cases h
    · rename_i h1
      cases h
      refine ⟨h0, ?_, rfl⟩
      intro m hm
      apply h1
      rw [List.any_eq_true]
      exact ⟨m, by cases m <;> simp [modes], by rw [hm]⟩

theorem initFlow_sum {dmd : ℕ → ℚ} {s s' : Sets} (h : initFlow dmd s = .ok s') (c : ℕ) :
    s'.passengers c = dmd c := by
  obtain ⟨h0, h1, rfl⟩ := initFlow_ok h
  have e : ∀ m, ((((s m).map (initSet (1 / (s.numModes : ℚ)) dmd)).getD []).map fun p => p.flow c).sum =
      (if (s m).isSome then (1 : ℚ) else 0) * (1 / (s.numModes : ℚ) * dmd c) := by
    intro m
    have := h1 m
    cases hm : s m with
    | none => simp
    | some ps =>
      rw [hm] at this
      simp only [Option.map_some, Option.getD_some, Option.isSome_some, if_true, one_mul]
      exact initSet_sum (fun e => this (by rw [e])) c
  have hn : (s.numModes : ℚ) = (if (s .driving).isSome then 1 else 0) + ((if (s .transit).isSome then 1 else 0) +
      (if (s .pnr).isSome then 1 else 0)) := by
    unfold Sets.numModes modes
    cases h1 : (s .driving).isSome <;> cases h2 : (s .transit).isSome <;> cases h3 : (s .pnr).isSome <;>
      norm_num [List.filter, h1, h2, h3]
  have hne : (s.numModes : ℚ) ≠ 0 := by exact_mod_cast h0
  unfold Sets.passengers
  rw [all_eq, List.map_append, List.sum_append, List.map_append, List.sum_append, e, e, e, ← add_mul, ← add_mul, ← hn]
  field_simp

/-! ## Repeated updates -/

theorem grows_none {s s' : Sets} (h : Grows s s') (m : Mode) : s' m = none ↔ s m = none := by
  have := h m
  cases ha : s m <;> cases hb : s' m <;> rw [ha, hb] at this <;> simp_all

theorem enlist_isOk {cg : Bool} {best : Route} {dis : ℕ → ℚ} {mid : ℤ} {s : Sets} (hm : s best.mode ≠ none) :
    ∃ a, enlist cg best dis mid s = .ok a := by
  unfold enlist
  cases cg with
  | false => exact ⟨_, rfl⟩
  | true =>
    cases hb : s best.mode with
    | none => exact absurd hb hm
    | some ps =>
      simp only [if_true]
      split <;> exact ⟨_, rfl⟩

theorem enlist_isIn {best : Route} {dis : ℕ → ℚ} {mid : ℤ} {s : Sets} {a : Sets × Bool}
    (h : enlist true best dis mid s = .ok a) : isIn a.1.all best = true := by
  rcases enlist_ok h with ⟨e, _, hi⟩ | ⟨_, _, _, _, l1, l2, _, e2⟩
  · rw [e]; exact hi rfl
  · rw [e2, isIn_iff]
    exact ⟨_, List.mem_append_right _ (List.mem_cons_self ..), rfl⟩

theorem each_isIn {s : Sets} {f : PPath → PPath} (hf : ∀ p, (f p).route = p.route) {best : Route}
    (h : isIn s.all best = true) : isIn (s.each f).all best = true := by
  rw [each_all, isIn_iff]
  obtain ⟨p, hp, e⟩ := isIn_iff.1 h
  exact ⟨f p, List.mem_map.2 ⟨p, hp, rfl⟩, by rw [hf, e]⟩

theorem fixedCol_isOk {step root : ℚ} {best : Route} {dis : ℕ → ℚ} {mid : ℤ} {c : ℕ} {s : Sets}
    (hm : s best.mode ≠ none) : ∃ s', fixedCol true step root best dis mid c s = .ok s' := by
  obtain ⟨a, ha⟩ := enlist_isOk (cg := true) (dis := dis) (mid := mid) hm
  unfold fixedCol
  rw [ha]
  exact addLast_isOk _ _ (each_isIn (by intro p; rfl) (enlist_isIn ha))

theorem dtcAll_isOk {T : ℕ} {step : ℚ} {iter : ℕ} {tot : ℚ} {best : Found} {bc : ℕ} {s : Sets}
    (hm : s best.route.mode ≠ none) : ∃ s', dtcAll true T step iter tot best bc s = .ok s' := by
  obtain ⟨a, ha⟩ := enlist_isOk (cg := true) (dis := best.dis) (mid := best.mid) hm
  unfold dtcAll
  rw [ha]
  change ∃ s', (if a.2 = true then _ else _) = Res.ok s'
  split
  · exact addLast_isOk _ _ (each_isIn (by intro p; rfl) (enlist_isIn ha))
  · exact addLast_isOk _ _ (each_isIn (by intro p; rfl) (enlist_isIn ha))

/-- A loop over intervals of steps that succeed on every state with the same modes. -/
theorem fold_isOk {f : Sets → ℕ → Res Sets} {P : Sets → Prop} (hk : ∀ s c s', P s → f s c = .ok s' → P s')
    (hf : ∀ s c, P s → ∃ s', f s c = .ok s') :
    ∀ (cs : List ℕ) (s : Sets), P s → ∃ s', Res.foldlM f s cs = .ok s' ∧ P s' := by
  intro cs
  induction cs with
  | nil => intro s h; exact ⟨s, rfl, h⟩
  | cons c cs ih =>
    intro s h
    obtain ⟨u, hu⟩ := hf s c h
    obtain ⟨s', h1, h2⟩ := ih u (hk s c u h hu)
    refine ⟨s', ?_, h2⟩
    rw [Res.foldlM_cons, hu]
    exact h1

/-- What identifies a path and what it costs. -/
def PPath.tag (p : PPath) : Route × (ℕ → ℚ) := (p.route, p.dis)

theorem shift_tags {s s' : Sets} {best : Route} {c : ℕ} {x : ℚ} {f : PPath → PPath}
    (hf : ∀ p, (f p).tag = p.tag) (h : (s.each f).addLast best c x = .ok s') :
    s'.all.map PPath.tag = s.all.map PPath.tag := by
  obtain ⟨_, l1, p, l2, e1, _, e3⟩ := addLast_ok h
  rw [each_all] at e1
  have h1 : (s.all.map f).map PPath.tag = s.all.map PPath.tag := by
    rw [List.map_map]
    apply List.map_congr_left
    intro p _
    exact hf p
  rw [← h1, e1, e3]
  simp [PPath.tag, add_route, add_dis]

/-- What one interval of the update with existing paths does. -/
theorem fixedExistingCol_spec {step root : ℚ} (h0 : 0 ≤ step) (hr : 0 < root) {c : ℕ} {s s' : Sets}
    (hp : s.NonNeg) (h1 : ∀ p ∈ s.all, p.route.copy = p.route) (hd : (s.all.map PPath.route).Nodup)
    (h : fixedExistingCol step root c s = .ok s') :
    s'.all.map PPath.tag = s.all.map PPath.tag ∧ (∀ k, k ≠ c → s'.total k = s.total k) ∧
    ∃ p ∈ s.all, (∀ q ∈ s.all, p.dis c ≤ q.dis c) ∧
      s'.total c = s.total c - step / root * (s.all.map fun q => q.flow c * (q.dis c - p.dis c)).sum := by
  obtain ⟨b, hb, h⟩ := fixedExistingCol_ok h
  obtain ⟨⟨p, hpm, i, hi, e⟩, hl⟩ := bestExisting_some hb
  have hbr : b.route = p.route := by rw [e]; exact h1 p hpm
  have hbc : b.cost = p.dis c := by rw [e]
  rw [fixedCol_false] at h
  have hleast : ∀ q ∈ s.all, p.dis c ≤ q.dis c := fun q hq => hbc ▸ hl q hq c (List.mem_singleton_self c)
  refine ⟨shift_tags (by intro p; rfl) h, ?_, p, hpm, hleast, ?_⟩
  · intro k hk
    obtain ⟨_, l1, q, l2, e1, _, e3⟩ := addLast_ok h
    rw [each_all] at e1
    have h2 : ((s.all.map fun p => p.add c (-fixedChange step root b.route c p)).map
        fun p => p.flow k * p.dis k).sum = s.total k := by
      rw [List.map_map, Sets.total]
      congr 1
      apply List.map_congr_left
      intro p _
      simp only [Function.comp, add_flow, if_neg hk, add_zero, add_dis]
    rw [← h2, e1, Sets.total, e3]
    simp only [List.map_append, List.map_cons, List.sum_append, List.sum_cons, add_flow, if_neg hk, add_zero, add_dis]
  · have h2 := (shift_total (u := p.dis c) h
      (fun q hq => by
        unfold fixedChange
        split
        · exact le_refl _
        · exact div_nonneg (mul_nonneg (hp q hq c) h0) hr.le)
      (fun q hq e' => by rw [eq_of_route hd hq hpm (e'.trans hbr)]) hleast).1
    rw [h2, ← sum_map_mul]
    congr 2
    apply List.map_congr_left
    intro q hq
    unfold fixedChange
    split
    · rename_i e'
      rw [eq_of_route hd hq hpm (e'.trans hbr)]
      ring
    · ring

/-! ## Gap -/

theorem lowest_fold : ∀ (es : List (ℚ × ℚ)) (m : ℚ),
    let r := es.foldl (fun m x => if x.1 < m then x.1 else m) m
    r ≤ m ∧ (∀ e ∈ es, r ≤ e.1) ∧ (r = m ∨ ∃ e ∈ es, r = e.1) := by
  intro es
  induction es with
  | nil => intro m; exact ⟨le_refl _, by simp, Or.inl rfl⟩
  | cons e es ih =>
    intro m
    simp only [List.foldl_cons]
    obtain ⟨h1, h2, h3⟩ := ih (if e.1 < m then e.1 else m)
    by_cases hlt : e.1 < m
    · rw [if_pos hlt] at h1 h2 h3 ⊢
      refine ⟨by linarith, ?_, ?_⟩
      · intro x hx
        rw [List.mem_cons] at hx
        rcases hx with rfl | hx
        · exact h1
        · exact h2 x hx
      · rcases h3 with h3 | ⟨x, hx, h3⟩
        · exact Or.inr ⟨e, by simp, h3⟩
        · exact Or.inr ⟨x, by simp [hx], h3⟩
    · rw [if_neg hlt] at h1 h2 h3 ⊢
      refine ⟨h1, ?_, ?_⟩
      · intro x hx
        rw [List.mem_cons] at hx
        rcases hx with rfl | hx
        · linarith [not_lt.1 hlt]
        · exact h2 x hx
      · rcases h3 with h3 | ⟨x, hx, h3⟩
        · exact Or.inl h3
        · exact Or.inr ⟨x, by simp [hx], h3⟩

theorem lowest_spec {es : List (ℚ × ℚ)} (h : es ≠ []) :
    (∀ e ∈ es, lowest es ≤ e.1) ∧ ∃ e ∈ es, lowest es = e.1 := by
  cases es with
  | nil => exact absurd rfl h
  | cons e es =>
    obtain ⟨h1, h2, h3⟩ := lowest_fold es e.1
    refine ⟨?_, ?_⟩
    · intro x hx
      rw [List.mem_cons] at hx
      rcases hx with rfl | hx
      · exact h1
      · exact h2 x hx
    · rcases h3 with h3 | ⟨x, hx, h3⟩
      · exact ⟨e, by simp, h3⟩
      · exact ⟨x, by simp [hx], h3⟩

theorem mem_used {cs : List ℕ} {s : Sets} {e : ℚ × ℚ} :
    e ∈ used cs s ↔ ∃ c ∈ cs, ∃ p ∈ s.all, 0 < p.flow c ∧ e = (p.dis c, p.flow c) := by
  unfold used
  simp only [List.mem_flatMap, List.mem_map, List.mem_filter, decide_eq_true_eq]
  constructor
  · rintro ⟨c, hc, p, ⟨h1, h2⟩, h3⟩; exact ⟨c, hc, p, h1, h2, h3.symm⟩
  · rintro ⟨c, hc, p, h1, h2, h3⟩; exact ⟨c, hc, p, ⟨h1, h2⟩, h3.symm⟩

theorem sum_zero_iff {A : Type} {xs : List A} {f : A → ℚ} (h : ∀ x ∈ xs, 0 ≤ f x) :
    (xs.map f).sum = 0 ↔ ∀ x ∈ xs, f x = 0 := by
  induction xs with
  | nil => simp
  | cons x xs ih =>
    have h1 := h x (by simp)
    have h2 : 0 ≤ (xs.map f).sum := sum_map_nonneg fun y hy => h y (by simp [hy])
    have ih := ih fun y hy => h y (by simp [hy])
    rw [List.map_cons, List.sum_cons]
    constructor
    · intro e y hy
      rw [List.mem_cons] at hy
      rcases hy with rfl | hy
      · linarith
      · exact ih.1 (by linarith) y hy
    · intro e
      rw [e x (by simp), ih.2 fun y hy => e y (by simp [hy]), add_zero]

theorem gapOf_nonneg (es : List (ℚ × ℚ)) (h : ∀ e ∈ es, 0 < e.2) : 0 ≤ (gapOf es).1 :=
  sum_map_nonneg fun e he => mul_nonneg (abs_nonneg _) (h e he).le

theorem gapOf_zero {es : List (ℚ × ℚ)} (h : ∀ e ∈ es, 0 < e.2) :
    (gapOf es).1 = 0 ↔ ∀ e ∈ es, ∀ e' ∈ es, e.1 ≤ e'.1 := by
  unfold gapOf
  rw [sum_zero_iff fun e he => mul_nonneg (abs_nonneg _) (h e he).le]
  constructor
  · intro hz e he e' he'
    have h1 := hz e he
    rw [mul_eq_zero, abs_eq_zero] at h1
    rcases h1 with h1 | h1
    · have := (lowest_spec (List.ne_nil_of_mem he)).1 e' he'
      linarith
    · have := h e he
      linarith
  · intro hle e he
    obtain ⟨h1, x, hx, h2⟩ := lowest_spec (List.ne_nil_of_mem he)
    have h3 := h1 e he
    have h4 := hle e he x hx
    rw [show e.1 - lowest es = 0 by linarith, abs_zero, zero_mul]

theorem ratio_spec {gs : List (ℚ × ℚ)} (h : ∀ g ∈ gs, 0 ≤ g.1) :
    0 ≤ ratio gs ∧ (ratio gs = 0 ↔ ∀ g ∈ gs, g.1 = 0) := by
  unfold ratio
  have hm : 0 < max (gs.map Prod.snd).sum (1 / 1000000) := lt_max_of_lt_right (by norm_num)
  refine ⟨div_nonneg (sum_map_nonneg h) hm.le, ?_⟩
  rw [div_eq_zero_iff, or_iff_left hm.ne', sum_zero_iff h]

theorem used_pos {cs : List ℕ} {s : Sets} : ∀ e ∈ used cs s, 0 < e.2 := by
  intro e he
  obtain ⟨c, _, p, _, h, rfl⟩ := mem_used.1 he
  exact h

end Verif.MmDue
