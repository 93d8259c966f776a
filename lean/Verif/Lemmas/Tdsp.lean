import Verif.Lemmas.ShortestPath
import Verif.Lemmas.Ults

/-! # Time-dependent shortest paths -/

namespace Verif.Sp
open Graph

theorem one_le_ticks (x : ℚ) : 1 ≤ ticks x := by
  unfold ticks
  split
  · exact le_refl _
  · rename_i h
    have : (1 : ℤ) ≤ ⌊x⌋ := Int.le_floor.2 (by exact_mod_cast not_lt.1 h)
    split <;> omega

theorem roundTime_eq {M t : ℕ} {x : ℚ} (ht : t < M) (hM : M ≤ 2147483647) (h : x + M ≤ 2147483646) :
    roundTime M t x prec = .ok (arrive M t x) := by
  have key : Ults.roundUpTime x prec = .ok (ticks x : ℤ) ∧ (t : ℤ) + ticks x ≤ 2147483647 := by
    unfold Ults.roundUpTime ticks
    by_cases hx : x < 1
    · simp only [hx, if_true]
      refine ⟨rfl, ?_⟩
      push_cast
      omega
    · rw [if_neg hx, if_neg hx]
      have h1 : (1 : ℤ) ≤ ⌊x⌋ := Int.le_floor.2 (by exact_mod_cast not_lt.1 hx)
      have h2 : (⌊x⌋ : ℤ) + M ≤ 2147483646 := by
        have := Int.floor_le x
        have : ((⌊x⌋ + M : ℤ) : ℚ) ≤ ((2147483646 : ℤ) : ℚ) := by push_cast; linarith
        exact_mod_cast this
      have h3 : Ults.trunc x = ⌊x⌋ := by
        unfold Ults.trunc
        rw [if_pos (by linarith [not_lt.1 hx])]
      have h4 : Ults.toInt x = .ok ⌊x⌋ := by
        unfold Ults.toInt
        rw [h3, if_pos (by omega)]
      rw [h4, Res.bind_ok']
      unfold Ults.approxEq
      by_cases hc : |x - ⌊x⌋| ≤ 1 / 10000 * max |x| |(⌊x⌋ : ℚ)|
      · rw [if_pos (by simpa [prec] using hc), if_pos hc]
        refine ⟨by rw [Int.toNat_of_nonneg (by omega)], by omega⟩
      · rw [if_neg (by simpa [prec] using hc), if_neg hc, if_pos (by omega)]
        refine ⟨by push_cast; rw [Int.toNat_of_nonneg (by omega)], by push_cast; omega⟩
  unfold roundTime arrive
  rw [key.1, Res.bind_ok', if_neg (by omega)]
  by_cases hc : (t : ℤ) + ticks x ≥ (M : ℤ) - 1
  · rw [if_pos hc, min_eq_right (by omega)]
  · rw [if_neg hc, min_eq_left (by omega)]
    congr 1

theorem arrive_gt {M t : ℕ} {x : ℚ} (ht : t + 1 < M) : t < arrive M t x ∧ arrive M t x < M := by
  have := one_le_ticks x
  unfold arrive
  omega

theorem arrive_last {M : ℕ} {x : ℚ} : arrive M (M - 1) x = M - 1 := by
  unfold arrive; omega

theorem arrive_lt {M t : ℕ} {x : ℚ} (ht : t < M) : arrive M t x < M := by
  unfold arrive; omega

/-- What is used of graph and tables. -/
structure TCtx (g : G) (M : ℕ) (cost : ℤ → Option (ℕ → Cost)) (tt : ℤ → Option (ℕ → ℚ))
    (w : ℤ → ℕ → Cost) (τ : ℤ → ℕ → ℚ) : Prop where
  link : ∀ l f u, getEndpoints g l = .ok (f, u) → cost l = some (w l) ∧ tt l = some (τ l) ∧ l ≠ -1 ∧
    l ∈ linkIds g ∧ ∀ t < M, 0 ≤ w l t ∧ roundTime M t (τ l t) prec = .ok (arrive M t (τ l t))
  ends : ∀ l ∈ linkIds g, ∃ f u, getEndpoints g l = .ok (f, u)

section
variable {g : G} {M : ℕ} {cost : ℤ → Option (ℕ → Cost)} {tt : ℤ → Option (ℕ → ℚ)} {w : ℤ → ℕ → Cost}
  {τ : ℤ → ℕ → ℚ} {dest : ℤ}

/-- The labels of interval `t` are consistent with those they lead to. -/
structure Row (g : G) (M : ℕ) (w : ℤ → ℕ → Cost) (τ : ℤ → ℕ → ℚ) (dest : ℤ) (s : Tree) (ls : ℤ → Prop)
    (t : ℕ) : Prop where
  dest0 : s.dist dest t = 0
  tight : ∀ l f u, getEndpoints g l = .ok (f, u) → ls l →
    s.dist f t ≤ w l t + s.dist u (arrive M t (τ l t))
  next : ∀ v, v ≠ dest → s.dist v t ≠ ⊤ → ∃ u, getEndpoints g (s.tree v t) = .ok (v, u) ∧
    s.dist v t = w (s.tree v t) t + s.dist u (arrive M t (τ (s.tree v t) t))
  noNext : ∀ v, v = dest ∨ s.dist v t = ⊤ → s.tree v t = -1
  nonneg : ∀ v, 0 ≤ s.dist v t

theorem Row.congr {s s' : Tree} {ls : ℤ → Prop} {t : ℕ} (h : Row g M w τ dest s ls t)
    (hd : ∀ v t', t ≤ t' → t' < M → s'.dist v t' = s.dist v t') (ht : ∀ v, s'.tree v t = s.tree v t)
    (hm : t + 1 < M ∨ t = M - 1 ∧ 0 < M) : Row g M w τ dest s' ls t := by
  have ht1 : t < M := by omega
  have ha : ∀ x, t ≤ arrive M t x ∧ arrive M t x < M := by
    intro x
    rcases hm with hm | ⟨rfl, hm⟩
    · exact ⟨(arrive_gt hm).1.le, (arrive_gt hm).2⟩
    · rw [arrive_last]; exact ⟨le_refl _, ht1⟩
  refine ⟨?_, ?_, ?_, ?_, ?_⟩
  · rw [hd _ _ (le_refl _) ht1]; exact h.dest0
  · intro l f u e hl
    rw [hd _ _ (le_refl _) ht1, hd _ _ (ha _).1 (ha _).2]
    exact h.tight l f u e hl
  · intro v hv hn
    rw [hd _ _ (le_refl _) ht1] at hn ⊢
    rw [ht]
    obtain ⟨u, e, hh⟩ := h.next v hv hn
    refine ⟨u, e, ?_⟩
    rw [hd _ _ (ha _).1 (ha _).2]
    exact hh
  · intro v hv
    rw [ht]
    rw [hd _ _ (le_refl _) ht1] at hv
    exact h.noNext v hv
  · intro v
    rw [hd _ _ (le_refl _) ht1]
    exact h.nonneg v

theorem treeRelax_spec (hc : TCtx g M cost tt w τ) {t : ℕ} (ht : t + 1 < M) {s : Tree} {l : ℤ}
    (hl : l ∈ linkIds g) {ls : ℤ → Prop} (hrow : Row g M w τ dest s ls t)
    (hnn : ∀ v t', t' < M → 0 ≤ s.dist v t') :
    ∃ s', treeRelax M g cost tt t s l = .ok s' ∧ Row g M w τ dest s' (fun x => ls x ∨ x = l) t ∧
      (∀ v t', t' ≠ t → s'.dist v t' = s.dist v t' ∧ s'.tree v t' = s.tree v t') ∧
      (∀ v t', t' < M → 0 ≤ s'.dist v t') := by
  obtain ⟨f, u, e⟩ := hc.ends l hl
  obtain ⟨h1, h2, h3, h4, h5⟩ := hc.link l f u e
  obtain ⟨h6, h7⟩ := h5 t (by omega)
  obtain ⟨a1, a2⟩ := arrive_gt (x := τ l t) ht
  unfold treeRelax
  rw [e, Res.bind_ok']
  simp only [h1, h2]
  have keep : ¬ (w l t + s.dist u (arrive M t (τ l t)) < s.dist f t) →
      Row g M w τ dest s (fun x => ls x ∨ x = l) t := by
    intro hlt
    refine ⟨hrow.dest0, ?_, hrow.next, hrow.noNext, hrow.nonneg⟩
    rintro l' f' u' e' (hx | rfl)
    · exact hrow.tight l' f' u' e' hx
    · rw [e] at e'
      cases e'
      exact not_lt.1 hlt
  by_cases htop : w l t = ⊤
  · rw [if_pos htop]
    refine ⟨s, rfl, keep ?_, fun _ _ _ => ⟨rfl, rfl⟩, hnn⟩
    rw [htop]
    simp
  · rw [if_neg htop, h7, Res.bind_ok']
    by_cases hlt : w l t + s.dist u (arrive M t (τ l t)) < s.dist f t
    · rw [if_pos hlt]
      have hfd : f ≠ dest := by
        rintro rfl
        rw [hrow.dest0] at hlt
        exact absurd hlt (not_lt.2 (add_nonneg h6 (hnn u _ a2)))
      have hd : ∀ v t', t' ≠ t →
          (upd s.dist f (upd (s.dist f) t (w l t + s.dist u (arrive M t (τ l t))))) v t' = s.dist v t' := by
        intro v t' h
        by_cases hv : v = f
        · subst hv; rw [upd_same, upd_other _ _ _ _ h]
        · rw [upd_other _ _ _ _ hv]
      have hd2 : ∀ v, v ≠ f →
          (upd s.dist f (upd (s.dist f) t (w l t + s.dist u (arrive M t (τ l t))))) v t = s.dist v t := by
        intro v hv
        rw [upd_other _ _ _ _ hv]
      have htr : ∀ v t', (v ≠ f ∨ t' ≠ t) → (upd s.tree f (upd (s.tree f) t l)) v t' = s.tree v t' := by
        intro v t' h
        by_cases hv : v = f
        · subst hv; rw [upd_same, upd_other _ _ _ _ (h.resolve_left (fun h => h rfl))]
        · rw [upd_other _ _ _ _ hv]
      have hnt : ∀ x, arrive M t x ≠ t := fun x => (arrive_gt ht).1.ne'
      refine ⟨_, rfl, ⟨?_, ?_, ?_, ?_, ?_⟩, fun v t' h => ⟨hd v t' h, htr v t' (Or.inr h)⟩, ?_⟩
      · simp only; rw [hd2 _ hfd.symm]; exact hrow.dest0
      · intro l' f' u' e' hx
        simp only
        rw [hd _ _ (hnt _)]
        by_cases hf : f' = f
        · subst hf
          rw [upd_same, upd_same]
          rcases hx with hx | rfl
          · exact hlt.le.trans (hrow.tight l' f' u' e' hx)
          · rw [e] at e'; cases e'; exact le_refl _
        · rw [hd2 _ hf]
          rcases hx with hx | rfl
          · exact hrow.tight l' f' u' e' hx
          · rw [e] at e'; cases e'; exact absurd rfl hf
      · intro v hv hn
        simp only at hn ⊢
        by_cases hf : v = f
        · subst hf
          refine ⟨u, ?_, ?_⟩
          · rw [upd_same, upd_same]; exact e
          · simp only [upd_same]
            rw [hd _ _ (hnt _)]
        · rw [hd2 _ hf] at hn ⊢
          rw [htr _ _ (Or.inl hf)]
          obtain ⟨u', e', hh⟩ := hrow.next v hv hn
          refine ⟨u', e', ?_⟩
          rw [hd _ _ (hnt _)]
          exact hh
      · intro v hv
        simp only at hv ⊢
        by_cases hf : v = f
        · subst hf
          rcases hv with hv | hv
          · exact absurd hv hfd
          · rw [upd_same, upd_same] at hv
            exact absurd hv (ne_top_of_lt hlt)
        · rw [hd2 _ hf] at hv
          rw [htr _ _ (Or.inl hf)]
          exact hrow.noNext v hv
      · intro v
        simp only
        by_cases hf : v = f
        · subst hf
          rw [upd_same, upd_same]
          exact add_nonneg h6 (hnn u _ a2)
        · rw [hd2 _ hf]; exact hrow.nonneg v
      · intro v t' h'
        simp only
        by_cases hf : v = f
        · subst hf
          rw [upd_same]
          by_cases htt : t' = t
          · subst htt; rw [upd_same]; exact add_nonneg h6 (hnn u _ a2)
          · rw [upd_other _ _ _ _ htt]; exact hnn v t' h'
        · rw [upd_other _ _ _ _ hf]; exact hnn v t' h'
    · rw [if_neg hlt]
      exact ⟨s, rfl, keep hlt, fun _ _ _ => ⟨rfl, rfl⟩, hnn⟩

theorem treeRelaxAll_spec (hc : TCtx g M cost tt w τ) {t : ℕ} (ht : t + 1 < M) :
    ∀ (links : List ℤ) (s : Tree) (ls : ℤ → Prop), (∀ l ∈ links, l ∈ linkIds g) → Row g M w τ dest s ls t →
      (∀ v t', t' < M → 0 ≤ s.dist v t') →
      ∃ s', Res.foldlM (treeRelax M g cost tt t) s links = .ok s' ∧
        Row g M w τ dest s' (fun x => ls x ∨ x ∈ links) t ∧
        (∀ v t', t' ≠ t → s'.dist v t' = s.dist v t' ∧ s'.tree v t' = s.tree v t') ∧
        (∀ v t', t' < M → 0 ≤ s'.dist v t')
  | [], s, ls, _, hr, hn => ⟨s, rfl, ⟨hr.dest0, fun l f u e h => hr.tight l f u e (by simpa using h),
      hr.next, hr.noNext, hr.nonneg⟩, fun _ _ _ => ⟨rfl, rfl⟩, hn⟩
  | l :: links, s, ls, hl, hr, hn => by
    obtain ⟨s1, e1, r1, u1, n1⟩ := treeRelax_spec hc ht (hl l (by simp)) hr hn
    obtain ⟨s2, e2, r2, u2, n2⟩ := treeRelaxAll_spec hc ht links s1 _ (fun x hx => hl x (by simp [hx])) r1 n1
    refine ⟨s2, ?_, ⟨r2.dest0, ?_, r2.next, r2.noNext, r2.nonneg⟩, ?_, n2⟩
    · rw [Res.foldlM_cons, e1]; exact e2
    · intro x f u e h
      refine r2.tight x f u e ?_
      rcases h with h | h
      · exact Or.inl (Or.inl h)
      · rcases List.mem_cons.1 h with rfl | h
        · exact Or.inl (Or.inr rfl)
        · exact Or.inr h
    · intro v t' h
      exact ⟨(u2 v t' h).1.trans (u1 v t' h).1, (u2 v t' h).2.trans (u1 v t' h).2⟩

theorem treeLoop_spec (hc : TCtx g M cost tt w τ) {links : List ℤ} (hlinks : ∀ l, l ∈ links ↔ l ∈ linkIds g) :
    ∀ (t : ℕ) (s : Tree), t < M → (∀ t', t ≤ t' → t' < M → Row g M w τ dest s (fun _ => True) t') →
      (∀ v t', t' < t → s.tree v t' = -1 ∧ s.dist v t' = if v = dest then 0 else ⊤) →
      (∀ v t', t' < M → 0 ≤ s.dist v t') →
      ∃ s', treeLoop links M g cost tt t s = .ok s' ∧
        (∀ t' < M, Row g M w τ dest s' (fun _ => True) t') ∧
        ∀ v t', t ≤ t' → s'.dist v t' = s.dist v t' ∧ s'.tree v t' = s.tree v t'
  | 0, s, _, hr, _, _ => ⟨s, rfl, fun t' h => hr t' (Nat.zero_le _) h, fun _ _ _ => ⟨rfl, rfl⟩⟩
  | t + 1, s, ht, hr, hinit, hn => by
    have r0 : Row g M w τ dest s (fun _ => False) t := by
      have hi := fun v => hinit v t (Nat.lt_succ_self _)
      refine ⟨by simp [(hi dest).2], fun _ _ _ _ h => h.elim, ?_, fun v _ => (hi v).1, fun v => hn v t (by omega)⟩
      intro v hv h
      rw [(hi v).2, if_neg hv] at h
      exact absurd rfl h
    obtain ⟨s1, e1, r1, u1, n1⟩ := treeRelaxAll_spec hc ht links s _ (fun l h => (hlinks l).1 h) r0 hn
    obtain ⟨s2, e2, r2, k2⟩ := treeLoop_spec hc hlinks t s1 (by omega) (by
      intro t' h1 h2
      by_cases h : t' = t
      · subst h
        refine ⟨r1.dest0, ?_, r1.next, r1.noNext, r1.nonneg⟩
        intro l f u e _
        exact r1.tight l f u e (Or.inr ((hlinks l).2 (hc.link l f u e).2.2.2.1))
      · refine (hr t' (by omega) h2).congr (fun v t2 h3 _ => (u1 v t2 (by omega)).1)
          (fun v => (u1 v t' h).2) (by omega)) (by
      intro v t' h
      rw [(u1 v t' (by omega)).1, (u1 v t' (by omega)).2]
      exact hinit v t' (by omega)) n1
    refine ⟨s2, ?_, r2, ?_⟩
    · simp only [treeLoop, e1, Res.bind_ok']
      exact e2
    · intro v t' h
      have a := k2 v t' (by omega)
      have b := u1 v t' (by omega)
      exact ⟨a.1.trans b.1, a.2.trans b.2⟩

/-- The last interval: plain least costs, and following the tree ends. -/
structure Last (g : G) (M : ℕ) (w : ℤ → ℕ → Cost) (dest : ℤ) (s : Tree) : Prop where
  least : ∀ v, v ∈ nodeIds g → Least g (fun l => w l (M - 1)) v dest (s.dist v (M - 1))
  reach : ∀ v, v ∈ nodeIds g → s.dist v (M - 1) ≠ ⊤ → Reach g dest (fun x => some (s.tree x (M - 1))) v

theorem Reach.mono {o o' : ℤ → Option ℤ} (h : ∀ v l, o v = some l → o' v = some l) {v : ℤ}
    (hr : Reach g dest o v) : Reach g dest o' v := by
  induction hr with
  | dest => exact Reach.dest
  | step v l t h1 h2 _ ih => exact Reach.step v l t (h v l h1) h2 ih

theorem updateTree_spec (hc : TCtx g M cost tt w τ)
    (hctx : Ctx g (fun l => (cost l).map fun c => c (M - 1)) (fun l => w l (M - 1)))
    {links : List ℤ} (hlinks : ∀ l, l ∈ links ↔ l ∈ linkIds g) (hM : 0 < M) (hd : dest ∈ nodeIds g) :
    ∃ n0 s, (∀ fuel, n0 ≤ fuel → updateTree fuel links M g dest cost tt = .ok s) ∧
      (∀ t < M, Row g M w τ dest s (fun _ => True) t) ∧ Last g M w dest s := by
  obtain ⟨n0, r, p, h1, h2, h3⟩ := fifo_spec hctx hd (fun _ => some (-1))
  obtain ⟨s, e1, h4, h5⟩ := treeLoop_spec hc hlinks (dest := dest) (M - 1)
        { dist := fun v t =>
            if t = M - 1 then (r.dist v).getD ⊤ else if v = dest then 0 else ⊤
          tree := fun v t => if t = M - 1 then (r.out v).getD (-1) else -1 } (by omega) (by
    intro t' ha hb
    have : t' = M - 1 := by omega
    subst this
    refine ⟨?_, ?_, ?_, ?_, ?_⟩
    · simp only [if_true]; exact h3.dest0
    · intro l f u e _
      rw [arrive_last]
      simp only [if_true]
      rw [add_comm]
      exact (h3.tight l f u e).resolve_left id
    · intro v hv hn
      simp only [if_true] at hn ⊢
      obtain ⟨l, t, ho, he, hle⟩ := h3.next v hv hn
      simp only [ho, Option.getD_some]
      refine ⟨t, he, ?_⟩
      rw [arrive_last]
      simp only [if_true]
      rw [add_comm]
      exact le_antisymm ((h3.tight l v t he).resolve_left id) hle
    · intro v hv
      simp only [if_true] at hv ⊢
      rw [h3.untouched v hv]
      simp [labInit]
    · intro v
      simp only [if_true]
      exact h3.d_nonneg hctx v) (by
    intro v t' h
    simp only
    rw [if_neg (by omega), if_neg (by omega)]
    exact ⟨rfl, rfl⟩) (by
    intro v t' _
    simp only
    split
    · exact h3.d_nonneg hctx v
    · split
      · exact le_refl _
      · exact le_top)
  have h5d : ∀ v, s.dist v (M - 1) = lab r.dist v := by
    intro v
    rw [(h5 v _ (le_refl _)).1]
    simp [lab]
  have h5t : ∀ v, s.tree v (M - 1) = (r.out v).getD (-1) := by
    intro v
    rw [(h5 v _ (le_refl _)).2]
    simp
  refine ⟨n0, s, ?_, h4, ?_, ?_⟩
  · intro fuel hf
    unfold updateTree
    rw [if_neg (by omega), h1 fuel hf, Res.bind_ok']
    exact e1
  · intro v _
    rw [h5d]
    exact h3.least v
  · intro v _ hn
    rw [h5d] at hn
    refine (h3.reach v hn).mono ?_
    intro x l hx
    rw [h5t, hx]
    rfl

theorem tdCost_last (ls : List ℤ) : tdCost M w τ (M - 1) ls = walkCost (fun l => w l (M - 1)) ls := by
  induction ls with
  | nil => rfl
  | cons l ls ih => rw [tdCost, arrive_last, ih, walkCost_cons]

theorem row_lower {s : Tree} (hr : ∀ t < M, Row g M w τ dest s (fun _ => True) t) :
    ∀ (ls : List ℤ) (v : ℤ) (t : ℕ), t < M → Walk g v ls dest → s.dist v t ≤ tdCost M w τ t ls
  | [], v, t, ht, hw => by
    have : v = dest := hw
    rw [this, (hr t ht).dest0]
    exact le_refl _
  | l :: ls, v, t, ht, hw => by
    obtain ⟨u, e, hw⟩ := hw
    refine ((hr t ht).tight l v u e trivial).trans ?_
    rw [tdCost]
    exact add_le_add_right (row_lower hr ls u _ (arrive_lt ht) hw) _

/-- Following the tree from the last interval. -/
theorem last_follow {s : Tree} (hr : Row g M w τ dest s (fun _ => True) (M - 1)) {v : ℤ}
    (h : Reach g dest (fun x => some (s.tree x (M - 1))) v) (hv : s.dist v (M - 1) ≠ ⊤) :
    ∃ ls, Walk g v ls dest ∧ Follows g M τ s.tree v (M - 1) ls ∧ tdCost M w τ (M - 1) ls = s.dist v (M - 1) ∧
      (v ≠ dest → ls ≠ []) ∧ (∀ a l b, ls = a ++ l :: b → src g l ≠ dest) := by
  induction h with
  | dest => exact ⟨[], rfl, trivial, by rw [hr.dest0]; rfl, fun h => absurd rfl h, by simp⟩
  | step v l t h1 h2 h3 ih =>
    by_cases hvd : v = dest
    · subst hvd
      exact ⟨[], rfl, trivial, by rw [hr.dest0]; rfl, fun h => absurd rfl h, by simp⟩
    · obtain ⟨u, e, hh⟩ := hr.next v hvd hv
      simp only [Option.some.injEq] at h1
      rw [h1] at e hh
      rw [h2] at e
      cases e
      rw [arrive_last] at hh
      obtain ⟨ls, a, b, c, _, d⟩ := ih (by
        intro htop
        rw [htop] at hh
        rw [hh] at hv
        simp at hv)
      refine ⟨l :: ls, ⟨t, h2, a⟩, ⟨h1, t, h2, ?_⟩, ?_, by simp, ?_⟩
      · rw [arrive_last]; exact b
      · rw [tdCost, arrive_last, c, hh]
      · intro a' l' b' e'
        cases a' with
        | nil => cases e'; rw [src_eq h2]; exact hvd
        | cons x a' =>
          simp only [List.cons_append, List.cons.injEq] at e'
          exact d a' l' b' e'.2

theorem follow {s : Tree} (hends : ∀ l f u, getEndpoints g l = .ok (f, u) → u ∈ nodeIds g)
    (hr : ∀ t < M, Row g M w τ dest s (fun _ => True) t) (hL : Last g M w dest s) :
    ∀ (k : ℕ) (v : ℤ) (t : ℕ), t < M → M - 1 - t = k → v ∈ nodeIds g → s.dist v t ≠ ⊤ →
    ∃ ls, Walk g v ls dest ∧ Follows g M τ s.tree v t ls ∧ tdCost M w τ t ls = s.dist v t ∧
      (v ≠ dest → ls ≠ []) ∧ (∀ a l b, ls = a ++ l :: b → src g l ≠ dest) := by
  intro k
  induction k using Nat.strongRecOn with
  | ind k ih =>
    intro v t ht hk hv hn
    by_cases hlast : t = M - 1
    · subst hlast
      exact last_follow (hr _ ht) (hL.reach v hv hn) hn
    · by_cases hvd : v = dest
      · subst hvd
        exact ⟨[], rfl, trivial, by rw [(hr t ht).dest0]; rfl, fun h => absurd rfl h, by simp⟩
      · obtain ⟨u, e, hh⟩ := (hr t ht).next v hvd hn
        have ha := arrive_gt (x := τ (s.tree v t) t) (M := M) (t := t) (by omega)
        obtain ⟨ls, a, b, c, _, d⟩ := ih (M - 1 - arrive M t (τ (s.tree v t) t)) (by omega) u _ ha.2 rfl
          (hends _ _ _ e) (by
            intro htop
            rw [htop] at hh
            rw [hh] at hn
            simp at hn)
        refine ⟨s.tree v t :: ls, ⟨u, e, a⟩, ⟨rfl, u, e, b⟩, ?_, by simp, ?_⟩
        · rw [tdCost, c, ← hh]
        · intro a' l' b' e'
          cases a' with
          | nil =>
            simp only [List.nil_append, List.cons.injEq] at e'
            rw [← e'.1, src_eq e]; exact hvd
          | cons x a' =>
            simp only [List.cons_append, List.cons.injEq] at e'
            exact d a' l' b' e'.2

theorem tdspLoop_follow (hc : TCtx g M cost tt w τ) {s : Tree} :
    ∀ (ls : List ℤ) (v : ℤ) (t : ℕ) (n : ℕ), t < M → Walk g v ls dest → Follows g M τ s.tree v t ls →
      (∀ a l b, ls = a ++ l :: b → src g l ≠ dest) →
      tdspLoop M g dest s tt (ls.length + 1 + n) v t = .ok (walkNodes g v ls, ls, some (tdTime M τ t ls))
  | [], v, t, n, ht, hw, _, _ => by
    have : v = dest := hw
    rw [show ([] : List ℤ).length + 1 + n = n + 1 from by simp; omega]
    simp [tdspLoop, walkNodes, tdTime, this]
  | l :: ls, v, t, n, ht, hw, hf, hs => by
    obtain ⟨u, e, hw⟩ := hw
    obtain ⟨h1, u', e', hf⟩ := hf
    rw [e] at e'
    cases e'
    obtain ⟨_, h2, h3, _, h5⟩ := hc.link l v u e
    have hv : v ≠ dest := by
      have := hs [] l ls rfl
      rwa [src_eq e] at this
    have ih := tdspLoop_follow hc ls u _ n (arrive_lt (x := τ l t) ht) hw hf (by
      intro a x b hx
      exact hs (l :: a) x b (by rw [hx]; rfl))
    rw [show (l :: ls).length + 1 + n = (ls.length + 1 + n) + 1 from by simp; omega]
    simp only [tdspLoop, if_neg hv, h1, if_neg h3, h2, (h5 t ht).2, Res.bind_ok', e, ih, walkNodes, tdTime,
      Option.map_some]

end

theorem tctx_of_run (ops : List Op) {M : ℕ} (hM : M ≤ 2147483647) {cost : ℤ → Option (ℕ → Cost)}
    {tt : ℤ → Option (ℕ → ℚ)} {w : ℤ → ℕ → Cost} {τ : ℤ → ℕ → ℚ}
    (h : Tables (run empty ops) M cost tt w τ) : TCtx (run empty ops) M cost tt w τ := by
  refine ⟨?_, ?_⟩
  · intro l f u e
    have hl : l ∈ linkIds (run empty ops) := by
      by_contra hn
      rw [(C05_endpoints_unknown ops l).1 hn] at e
      cases e
    exact ⟨h.cost l hl, h.tt l hl, fun e => h.noLink (e ▸ hl), hl, fun t ht =>
      ⟨h.nonneg l hl t ht, roundTime_eq ht hM (h.range l hl t ht)⟩⟩
  · intro l hl
    obtain ⟨f, t, e, _⟩ := (C05_endpoints_unknown ops l).2 hl
    exact ⟨f, t, e⟩

end Verif.Sp
