import Verif.Model.Tdsp
import Verif.Props.ShortestPath

/-! # C148: time-dependent shortest paths with turn costs -/

namespace Verif
open Graph Sp

/-- The cost of the turn from link `l` into link `k` in interval `t`; turns that are not listed are
free. -/
def turnAt (tc : Tdsp.Table (ℤ × ℤ) Cost) (l k : ℤ) (t : ℕ) : Cost := ((tc (l, k)).map fun c => c t).getD 0

/-- The cost of a sequence of links for a departure in interval `t`, with the costs of the turns in the
intervals in which they are made. -/
def tdTurnCost (M : ℕ) (w : ℤ → ℕ → Cost) (tc : Tdsp.Table (ℤ × ℤ) Cost) (τ : ℤ → ℕ → ℚ) : ℕ → List ℤ → Cost
  | _, [] => 0
  | t, [l] => w l t
  | t, l :: k :: ls => w l t + turnAt tc l k (arrive M t (τ l t)) +
      tdTurnCost M w tc τ (arrive M t (τ l t)) (k :: ls)

/-- Every link is entered before the last interval. -/
def Inside (M : ℕ) (τ : ℤ → ℕ → ℚ) : ℕ → List ℤ → Prop
  | _, [] => True
  | t, l :: ls => t + 1 < M ∧ Inside M τ (arrive M t (τ l t)) ls

section
variable {g : G} {M : ℕ} {cost : ℤ → Option (ℕ → Cost)} {tt : ℤ → Option (ℕ → ℚ)} {w : ℤ → ℕ → Cost}
  {τ : ℤ → ℕ → ℚ} {dest : ℤ} {tc : Tdsp.Table (ℤ × ℤ) Cost} {td : Tdsp.Table (ℤ × ℤ) ℚ}

/-- The turn charged when leaving link `l` at node `u` in interval `t`. -/
def turnInto (tc : Tdsp.Table (ℤ × ℤ) Cost) (dest : ℤ) (s : Tree) (l u : ℤ) (t : ℕ) : Cost :=
  if u = dest ∨ s.tree u t = -1 then 0 else turnAt tc l (s.tree u t) t

/-- Labels of an interval: not negative, zero at the destination. -/
structure TurnSafe (dest : ℤ) (s : Tree) (t : ℕ) : Prop where
  dest0 : s.dist dest t = 0
  nonneg : ∀ v, 0 ≤ s.dist v t

/-- A next link attains the label. -/
def TurnNext (g : G) (M : ℕ) (w : ℤ → ℕ → Cost) (τ : ℤ → ℕ → ℚ) (tc : Tdsp.Table (ℤ × ℤ) Cost) (dest : ℤ)
    (s : Tree) (t : ℕ) : Prop :=
  ∀ v, s.tree v t ≠ -1 → v ≠ dest ∧ ∃ u, getEndpoints g (s.tree v t) = .ok (v, u) ∧
    s.dist v t = w (s.tree v t) t + turnInto tc dest s (s.tree v t) u (arrive M t (τ (s.tree v t) t)) +
      s.dist u (arrive M t (τ (s.tree v t) t))

theorem turnAt_nonneg (hn : ∀ p c, tc p = some c → ∀ t, 0 ≤ c t) (l k : ℤ) (t : ℕ) : 0 ≤ turnAt tc l k t := by
  unfold turnAt
  cases e : tc (l, k) with
  | none => simp
  | some c => simpa using hn _ c e t

theorem turnInto_nonneg (hn : ∀ p c, tc p = some c → ∀ t, 0 ≤ c t) (s : Tree) (l u : ℤ) (t : ℕ) :
    0 ≤ turnInto tc dest s l u t := by
  unfold turnInto
  split
  · exact le_refl _
  · exact turnAt_nonneg hn _ _ _

/-- One link: nothing changes, or its source gets a smaller label from it. -/
theorem turnRelax_cases (hc : TCtx g M cost tt w τ) (hz : ∀ p d, td p = some d → ∀ t, d t = 0) {t : ℕ}
    (ht : t < M) {s s' : Tree} {l : ℤ} (h : Tdsp.turnRelax M g dest cost tc tt td t s l = .ok s') :
    s' = s ∨ ∃ f u, getEndpoints g l = .ok (f, u) ∧
      w l t + turnInto tc dest s l u (arrive M t (τ l t)) + s.dist u (arrive M t (τ l t)) < s.dist f t ∧
      s' = ⟨upd s.dist f (upd (s.dist f) t
          (w l t + turnInto tc dest s l u (arrive M t (τ l t)) + s.dist u (arrive M t (τ l t)))),
        upd s.tree f (upd (s.tree f) t l)⟩ := by
  unfold Tdsp.turnRelax at h
  rw [Res.bind_eq_ok'] at h
  obtain ⟨⟨f, u⟩, e, h⟩ := h
  obtain ⟨h1, h2, h3, h4, h5⟩ := hc.link l f u e
  obtain ⟨h6, h7⟩ := h5 t ht
  simp only [h1, h2] at h
  by_cases htop : w l t = ⊤
  · rw [if_pos htop] at h
    cases h; exact Or.inl rfl
  · rw [if_neg htop, Res.bind_eq_ok'] at h
    obtain ⟨p, hp, h⟩ := h
    have hpe : p = (w l t + turnInto tc dest s l u (arrive M t (τ l t)), τ l t) := by
      unfold turnInto
      by_cases hu : u = dest
      · rw [if_neg (not_not.2 hu)] at hp
        cases hp
        rw [if_pos (Or.inl hu), add_zero]
      · rw [if_pos hu, h7, Res.bind_ok'] at hp
        by_cases hk : s.tree u (arrive M t (τ l t)) = -1
        · rw [if_neg (not_not.2 hk)] at hp
          cases hp
          rw [if_pos (Or.inr hk), add_zero]
        · rw [if_pos hk] at hp
          rw [if_neg (by push Not; exact ⟨hu, hk⟩)]
          unfold turnAt
          cases e1 : tc (l, s.tree u (arrive M t (τ l t))) with
          | none =>
            rw [e1] at hp
            cases hp
            simp
          | some c =>
            rw [e1] at hp
            cases e2 : td (l, s.tree u (arrive M t (τ l t))) with
            | none => rw [e2] at hp; cases hp
            | some d =>
              rw [e2] at hp
              cases hp
              simp [hz _ d e2]
    subst hpe
    simp only at h
    rw [h7, Res.bind_ok'] at h
    split at h
    · rename_i hlt
      cases h
      exact Or.inr ⟨f, u, e, hlt, rfl⟩
    · cases h; exact Or.inl rfl

/-- What holds while interval `t` is worked on; `b` are the labels before. -/
structure TurnInv (g : G) (M : ℕ) (w : ℤ → ℕ → Cost) (τ : ℤ → ℕ → ℚ) (tc : Tdsp.Table (ℤ × ℤ) Cost)
    (dest : ℤ) (t : ℕ) (b s : Tree) : Prop where
  same : ∀ v t', t' ≠ t → s.dist v t' = b.dist v t' ∧ s.tree v t' = b.tree v t'
  safe : TurnSafe dest s t
  next : TurnNext g M w τ tc dest s t

theorem turnRelax_inv (hc : TCtx g M cost tt w τ) (hz : ∀ p d, td p = some d → ∀ t, d t = 0)
    (hn : ∀ p c, tc p = some c → ∀ t, 0 ≤ c t) {t : ℕ} (ht : t + 1 < M) {b : Tree}
    (hb : ∀ t', t < t' → t' < M → TurnSafe dest b t') {s s' : Tree} {l : ℤ}
    (hi : TurnInv g M w τ tc dest t b s) (h : Tdsp.turnRelax M g dest cost tc tt td t s l = .ok s') :
    TurnInv g M w τ tc dest t b s' := by
  rcases turnRelax_cases hc hz (by omega) h with rfl | ⟨f, u, e, hlt, hs'⟩
  · exact hi
  · obtain ⟨h1, h2, h3, h4, h5⟩ := hc.link l f u e
    obtain ⟨a1, a2⟩ := arrive_gt (x := τ l t) ht
    have hu0 : 0 ≤ s.dist u (arrive M t (τ l t)) := by
      rw [(hi.same u _ (by omega)).1]
      exact (hb _ a1 a2).nonneg u
    have h0 : 0 ≤ w l t + turnInto tc dest s l u (arrive M t (τ l t)) + s.dist u (arrive M t (τ l t)) :=
      add_nonneg (add_nonneg (h5 t (by omega)).1 (turnInto_nonneg hn _ _ _ _)) hu0
    have hf : f ≠ dest := by
      rintro rfl
      rw [hi.safe.dest0] at hlt
      exact absurd hlt (not_lt.2 h0)
    have hd' : ∀ v t', t' ≠ t → s'.dist v t' = s.dist v t' ∧ s'.tree v t' = s.tree v t' := by
      intro v t' ht'
      rw [hs']
      by_cases hv : v = f
      · subst hv
        simp only [upd_same, upd_other _ _ _ _ ht', and_self]
      · simp only [upd_other _ _ _ _ hv, and_self]
    have hsame : ∀ v, v ≠ f → s'.dist v t = s.dist v t ∧ s'.tree v t = s.tree v t := by
      intro v hv
      rw [hs']
      simp only [upd_other _ _ _ _ hv, and_self]
    have hself : s'.dist f t = w l t + turnInto tc dest s l u (arrive M t (τ l t)) +
        s.dist u (arrive M t (τ l t)) ∧ s'.tree f t = l := by
      rw [hs']
      simp only [upd_same, and_self]
    have hinto : ∀ k v t', t' ≠ t → turnInto tc dest s' k v t' = turnInto tc dest s k v t' := by
      intro k v t' ht'
      unfold turnInto
      rw [(hd' v t' ht').2]
    refine ⟨fun v t' ht' => ⟨(hd' v t' ht').1.trans (hi.same v t' ht').1,
      (hd' v t' ht').2.trans (hi.same v t' ht').2⟩, ⟨?_, fun v => ?_⟩, fun v hv => ?_⟩
    · rw [(hsame dest (fun e => hf e.symm)).1]; exact hi.safe.dest0
    · by_cases hv : v = f
      · subst hv; rw [hself.1]; exact h0
      · rw [(hsame v hv).1]; exact hi.safe.nonneg v
    · by_cases hvf : v = f
      · subst hvf
        rw [hself.2, hself.1]
        refine ⟨hf, u, e, ?_⟩
        rw [hinto _ _ _ (by omega), (hd' u _ (by omega)).1]
      · rw [(hsame v hvf).2] at hv ⊢
        rw [(hsame v hvf).1]
        obtain ⟨c1, u', c2, c3⟩ := hi.next v hv
        obtain ⟨b1, b2⟩ := arrive_gt (x := τ (s.tree v t) t) ht
        refine ⟨c1, u', c2, ?_⟩
        rw [hinto _ _ _ (by omega), (hd' u' _ (by omega)).1]
        exact c3

/-- What holds when the intervals from `k` on are done. -/
structure TurnDone (g : G) (M : ℕ) (w : ℤ → ℕ → Cost) (τ : ℤ → ℕ → ℚ) (tc : Tdsp.Table (ℤ × ℤ) Cost)
    (dest : ℤ) (k : ℕ) (s : Tree) : Prop where
  safe : ∀ t, t < M → TurnSafe dest s t
  next : ∀ t, k ≤ t → t + 1 < M → TurnNext g M w τ tc dest s t
  todo : ∀ t, t < k → ∀ v, s.tree v t = -1

theorem turnTreeLoop_inv (hc : TCtx g M cost tt w τ) (hz : ∀ p d, td p = some d → ∀ t, d t = 0)
    (hn : ∀ p c, tc p = some c → ∀ t, 0 ≤ c t) (links : List ℤ) : ∀ (k : ℕ) (s s' : Tree), k < M →
      TurnDone g M w τ tc dest k s →
      Tdsp.turnTreeLoop links M g dest cost tc tt td k s = .ok s' → TurnDone g M w τ tc dest 0 s' := by
  intro k
  induction k with
  | zero => intro s s' _ hd h; cases h; exact hd
  | succ t ih =>
    intro s s' hk hd h
    unfold Tdsp.turnTreeLoop at h
    rw [Res.bind_eq_ok'] at h
    obtain ⟨s1, h1, h2⟩ := h
    have hinv : TurnInv g M w τ tc dest t s s1 := by
      refine Res.foldlM_inv (P := TurnInv g M w τ tc dest t s)
        (fun b a b' hb h => turnRelax_inv hc hz hn hk (fun t' _ h' => hd.safe t' h') hb h) links s s1 ?_ h1
      refine ⟨fun _ _ _ => ⟨rfl, rfl⟩, hd.safe t (by omega), fun v hv => ?_⟩
      exact absurd (hd.todo t (by omega) v) hv
    refine ih s1 s' (by omega) ⟨fun t' ht' => ?_, fun t' ht' hM => ?_, fun t' ht' v => ?_⟩ h2
    · by_cases e : t' = t
      · subst e; exact hinv.safe
      · refine ⟨by rw [(hinv.same _ _ e).1]; exact (hd.safe t' ht').dest0, fun v => ?_⟩
        rw [(hinv.same _ _ e).1]; exact (hd.safe t' ht').nonneg v
    · by_cases e : t' = t
      · subst e; exact hinv.next
      · intro v hv
        rw [(hinv.same v t' e).2] at hv ⊢
        rw [(hinv.same v t' e).1]
        obtain ⟨c1, u, c2, c3⟩ := hd.next t' (by omega) hM v hv
        obtain ⟨b1, b2⟩ := arrive_gt (x := τ (s.tree v t') t') hM
        refine ⟨c1, u, c2, ?_⟩
        rw [(hinv.same u _ (by omega)).1]
        rw [c3]
        congr 2
        unfold turnInto
        rw [(hinv.same u _ (by omega)).2]
    · rw [(hinv.same v t' (by omega)).2]
      exact hd.todo t' (by omega) v

/-- The labels of the last interval. -/
theorem fifoTurn_safe {cost : ℤ → Option Cost} {turn : ℤ → ℤ → Option Cost}
    (hcost : ∀ l c, cost l = some c → (∃ f u, getEndpoints g l = .ok (f, u)) → 0 ≤ c)
    (hturn : ∀ l k c, turn l k = some c → 0 ≤ c) :
    ∀ (fuel : ℕ) (s s' : Lab), (∀ v d, s.dist v = some d → 0 ≤ d) → s.dist dest = some 0 →
      fifoTurnLoop g dest cost turn fuel s = .ok s' →
      (∀ v d, s'.dist v = some d → 0 ≤ d) ∧ s'.dist dest = some 0 := by
  have hrelax : ∀ (v : ℤ) (tdv : Cost) (_ : 0 ≤ tdv) (s : Lab) (l : ℤ) (s' : Lab),
      ((∀ v d, s.dist v = some d → 0 ≤ d) ∧ s.dist dest = some 0) →
      relaxTurn g dest v cost turn tdv s l = .ok s' →
      ((∀ v d, s'.dist v = some d → 0 ≤ d) ∧ s'.dist dest = some 0) := by
    intro v tdv h0 s l s' hs h
    unfold relaxTurn at h
    rw [Res.bind_eq_ok'] at h
    obtain ⟨⟨f, u⟩, e, h⟩ := h
    cases hc : cost l with
    | none => simp only [hc] at h; cases h
    | some c =>
      cases hd : s.dist f with
      | none => simp only [hc, hd] at h; cases h
      | some d =>
        simp only [hc, hd] at h
        rw [Res.bind_eq_ok'] at h
        obtain ⟨a, ha, h⟩ := h
        have hc0 : 0 ≤ c := hcost l c hc ⟨f, u, e⟩
        have ha0 : 0 ≤ a := by
          by_cases hv : v = dest
          · rw [if_neg (not_not.2 hv)] at ha
            cases ha; exact add_nonneg h0 hc0
          · rw [if_pos hv] at ha
            cases ho : s.out v with
            | none => rw [ho] at ha; cases ha
            | some o =>
              rw [ho] at ha
              simp only at ha
              by_cases hm : o = -1
              · rw [if_neg (not_not.2 hm)] at ha
                cases ha; exact add_nonneg h0 hc0
              · rw [if_pos hm] at ha
                cases ht : turn l o with
                | none => rw [ht] at ha; cases ha; exact add_nonneg h0 hc0
                | some x => rw [ht] at ha; cases ha; exact add_nonneg (add_nonneg h0 hc0) (hturn l o x ht)
        by_cases hlt : a < d
        · rw [if_pos hlt] at h
          have hfd : f ≠ dest := by
            rintro rfl
            rw [hs.2] at hd
            cases hd
            exact absurd hlt (not_lt.2 ha0)
          cases h1 : s.out f with
          | none => simp only [h1] at h; cases h
          | some _ =>
            cases h2 : s.sup f with
            | none => simp only [h1, h2] at h; cases h
            | some b =>
              simp only [h1, h2] at h
              cases h
              refine ⟨fun x y hx => ?_, ?_⟩
              · simp only at hx
                by_cases hxf : x = f
                · subst hxf; rw [upd_same] at hx; cases hx; exact ha0
                · rw [upd_other _ _ _ _ hxf] at hx; exact hs.1 x y hx
              · simp only
                rw [upd_other _ _ _ _ (fun e => hfd e.symm)]; exact hs.2
        · rw [if_neg hlt] at h
          cases h; exact hs
  intro fuel
  induction fuel with
  | zero => intro s s' _ _ h; cases h
  | succ fuel ih =>
    intro s s' h1 h2 h
    unfold fifoTurnLoop at h
    cases hq : s.q with
    | nil => rw [hq] at h; cases h; exact ⟨h1, h2⟩
    | cons v q =>
      rw [hq] at h
      simp only at h
      rw [Res.bind_eq_ok'] at h
      obtain ⟨ls, _, h⟩ := h
      cases hd : s.dist v with
      | none => rw [hd] at h; cases h
      | some tdv =>
        rw [hd] at h
        simp only at h
        rw [Res.bind_eq_ok'] at h
        obtain ⟨s1, h3, h4⟩ := h
        have := Res.foldlM_inv (P := fun s : Lab => (∀ v d, s.dist v = some d → 0 ≤ d) ∧ s.dist dest = some 0)
          (fun b a b' hb h => hrelax v tdv (h1 v tdv hd) b a b' hb h) ls
          { s with q := q, sup := upd s.sup v (some false) } s1 ⟨h1, h2⟩ h3
        exact ih s1 s' this.1 this.2 h4

end

/-- What is needed of the tables of turns: costs not negative, no delays. -/
structure FreeTurns (tc : Tdsp.Table (ℤ × ℤ) Cost) (td : Tdsp.Table (ℤ × ℤ) ℚ) : Prop where
  nonneg : ∀ p c, tc p = some c → ∀ t, 0 ≤ c t
  noDelay : ∀ p d, td p = some d → ∀ t, d t = 0

theorem updateTurn_done (ops : List Op) (dest : ℤ) (M : ℕ)
    (hM' : M ≤ 2147483647) (cost : ℤ → Option (ℕ → Cost)) (tt : ℤ → Option (ℕ → ℚ))
    (w : ℤ → ℕ → Cost) (τ : ℤ → ℕ → ℚ) (h : Tables (run empty ops) M cost tt w τ)
    (tc : Tdsp.Table (ℤ × ℤ) Cost) (td : Tdsp.Table (ℤ × ℤ) ℚ) (ht : FreeTurns tc td) (links : List ℤ)
    (fuel : ℕ) (s : Tree)
    (hs : Tdsp.updateTurn fuel links M (run empty ops) dest cost tc tt td = .ok s) :
    0 < M ∧ TurnDone (run empty ops) M w τ tc dest 0 s := by
  have hc := tctx_of_run ops hM' h
  unfold Tdsp.updateTurn at hs
  by_cases h0 : M = 0
  · rw [if_pos h0] at hs; cases hs
  · rw [if_neg h0, Res.bind_eq_ok'] at hs
    obtain ⟨r, hr, hs⟩ := hs
    refine ⟨by omega, ?_⟩
    unfold fifoTurn at hr
    obtain ⟨h1, h2⟩ := fifoTurn_safe (g := run empty ops) (dest := dest)
      (by
        intro l c hl ⟨f, u, e⟩
        obtain ⟨a, _, _, _, b⟩ := hc.link l f u e
        rw [a] at hl
        simp only [Option.map_some, Option.some.injEq] at hl
        rw [← hl]
        exact (b (M - 1) (by omega)).1)
      (by
        intro l k c hl
        cases e : tc (l, k) with
        | none => rw [e] at hl; cases hl
        | some x =>
          rw [e] at hl
          simp only [Option.map_some, Option.some.injEq] at hl
          rw [← hl]
          exact ht.nonneg _ x e _) fuel _ r (by
            intro v d hv
            simp only [labInit] at hv
            split at hv
            · cases hv; exact le_refl _
            · split at hv
              · cases hv; exact le_top
              · cases hv) (by simp [labInit]) hr
    refine turnTreeLoop_inv hc ht.noDelay ht.nonneg links (M - 1) _ s (by omega)
      ⟨fun t htM => ⟨?_, fun v => ?_⟩, fun t h1 h2 => by omega, fun t ht v => ?_⟩ hs
    · simp only
      split
      · rw [h2]; rfl
      · simp
    · simp only
      split
      · cases e : r.dist v with
        | none => simp
        | some d => simpa using h1 v d e
      · split
        · exact le_refl _
        · exact le_top
    · simp only
      rw [if_neg (by omega)]

theorem turn_follow {g : G} {M : ℕ} {cost : ℤ → Option (ℕ → Cost)} {tt : ℤ → Option (ℕ → ℚ)}
    {w : ℤ → ℕ → Cost} {τ : ℤ → ℕ → ℚ} {dest : ℤ} {tc : Tdsp.Table (ℤ × ℤ) Cost}
    (hc : TCtx g M cost tt w τ) {s : Tree} (hd : TurnDone g M w τ tc dest 0 s) :
    ∀ (ls : List ℤ) (v : ℤ) (t : ℕ), t < M → Walk g v ls dest → Follows g M τ s.tree v t ls →
      Inside M τ t ls → s.dist v t = tdTurnCost M w tc τ t ls := by
  intro ls
  induction ls with
  | nil =>
    intro v t ht hw _ _
    rw [show v = dest from hw]
    exact (hd.safe t ht).dest0
  | cons l ls ih =>
    intro v t ht hw hf hin
    obtain ⟨u, e, hw⟩ := hw
    obtain ⟨h1, u', e', hf⟩ := hf
    rw [e] at e'
    cases e'
    obtain ⟨hin1, hin2⟩ := hin
    obtain ⟨_, h2, h3, _, h5⟩ := hc.link l v u e
    obtain ⟨a1, a2⟩ := arrive_gt (x := τ l t) hin1
    obtain ⟨c1, u', c2, c3⟩ := hd.next t (by omega) hin1 v (by rw [h1]; exact h3)
    rw [h1] at c2 c3
    rw [e] at c2
    cases c2
    rw [c3, ih u _ a2 hw hf hin2]
    cases ls with
    | nil =>
      have hu : u = dest := hw
      simp only [turnInto, hu, true_or, if_true, tdTurnCost, add_zero]
    | cons k ls =>
      obtain ⟨q1, u2, e2, _⟩ := hf
      obtain ⟨_, _, h3', _, _⟩ := hc.link k u u2 e2
      have hk := hd.next _ (by omega) hin2.1 u (by rw [q1]; exact h3')
      simp only [turnInto, q1, hk.1, h3', or_self, if_false, tdTurnCost]

theorem turn_extract {g : G} {M : ℕ} {cost : ℤ → Option (ℕ → Cost)} {tt : ℤ → Option (ℕ → ℚ)}
    {w : ℤ → ℕ → Cost} {τ : ℤ → ℕ → ℚ} {dest : ℤ} {tc : Tdsp.Table (ℤ × ℤ) Cost}
    {td : Tdsp.Table (ℤ × ℤ) ℚ} (hM : M ≤ 2147483647) (hc : TCtx g M cost tt w τ)
    (hz : ∀ p d, td p = some d → ∀ t, d t = 0)
    {s : Tree} (hd : TurnDone g M w τ tc dest 0 s) (src : ℤ) :
    ∀ (ls : List ℤ) (prev : Option ℤ) (v : ℤ) (t : ℕ) (n : ℕ), t < M → Walk g v ls dest →
      Follows g M τ s.tree v t ls → Inside M τ t ls →
      Tdsp.turnLoop M g dest s tt td src (ls.length + 1 + n) prev v t =
        .ok (walkNodes g v ls, ls, some (tdTime M τ t ls))
  | [], prev, v, t, n, ht, hw, _, _ => by
    have : v = dest := hw
    rw [show ([] : List ℤ).length + 1 + n = n + 1 from by simp; omega]
    simp [Tdsp.turnLoop, walkNodes, tdTime, this]
  | l :: ls, prev, v, t, n, ht, hw, hf, hin => by
    obtain ⟨u, e, hw⟩ := hw
    obtain ⟨h1, u', e', hf⟩ := hf
    rw [e] at e'
    cases e'
    obtain ⟨hin1, hin2⟩ := hin
    obtain ⟨_, h2, h3, _, h5⟩ := hc.link l v u e
    have hv : v ≠ dest := (hd.next t (by omega) hin1 v (by rw [h1]; exact h3)).1
    have ih := turn_extract hM hc hz hd src ls (some l) u _ n (arrive_lt (x := τ l t) ht) hw hf hin2
    have hdelay : Tdsp.delay M td src v prev l t = .ok (0, t) := by
      unfold Tdsp.delay
      cases prev with
      | none => rfl
      | some k =>
        simp only
        by_cases hs : v = src
        · rw [if_neg (not_not.2 hs)]
        · rw [if_pos hs]
          cases e1 : td (k, l) with
          | none => rfl
          | some d =>
            have h0 := hz _ d e1 t
            simp only [h0, Int.ceil_zero]
            rw [if_pos (by omega), if_neg (by omega), if_pos (by omega)]
            simp
    rw [show (l :: ls).length + 1 + n = (ls.length + 1 + n) + 1 from by simp; omega]
    simp only [Tdsp.turnLoop, if_neg hv, h1, if_neg h3, hdelay, h2, (h5 t ht).2, Res.bind_ok', e, ih,
      walkNodes, tdTime, Option.map_some, zero_add]

/-- **C148, partial.**  With turn costs but no delays at turns: when the tree is built and its choices
from a node and a departure interval lead to the destination with every link entered before the last
interval, then the extracted path is this path, its travel time is that of its links, and the reported
cost is its cost including turns. -/
theorem C148_turns_partial (ops : List Op) (dest : ℤ) (M : ℕ) (hM' : M ≤ 2147483647)
    (cost : ℤ → Option (ℕ → Cost)) (tt : ℤ → Option (ℕ → ℚ)) (w : ℤ → ℕ → Cost) (τ : ℤ → ℕ → ℚ)
    (h : Tables (run empty ops) M cost tt w τ) (tc : Tdsp.Table (ℤ × ℤ) Cost)
    (td : Tdsp.Table (ℤ × ℤ) ℚ) (ht : FreeTurns tc td) (links : List ℤ) (fuel : ℕ) (s : Tree)
    (hs : Tdsp.updateTurn fuel links M (run empty ops) dest cost tc tt td = .ok s)
    (v : ℤ) (t : ℕ) (htM : t < M) (ls : List ℤ) (hw : Walk (run empty ops) v ls dest)
    (hf : Follows (run empty ops) M τ s.tree v t ls) (hin : Inside M τ t ls) :
    (∀ n, ls.length < n → Tdsp.getTurn n M (run empty ops) dest s tt td v t =
      .ok (walkNodes (run empty ops) v ls, ls, some (tdTime M τ t ls))) ∧
    s.dist v t = tdTurnCost M w tc τ t ls := by
  have hc := tctx_of_run ops hM' h
  obtain ⟨-, hd⟩ := updateTurn_done ops dest M hM' cost tt w τ h tc td ht links fuel s hs
  refine ⟨fun n hn => ?_, turn_follow hc hd ls v t htM hw hf hin⟩
  obtain ⟨m, rfl⟩ := Nat.exists_eq_add_of_lt hn
  unfold Tdsp.getTurn
  rw [if_neg (by omega), if_pos (by omega)]
  rw [show ls.length + m + 1 = ls.length + 1 + m from by omega]
  exact turn_extract hM' hc ht.noDelay hd v ls none v t m htM hw hf hin

/-- Links 10 (1 → 2), 11 and 12 (2 → 3) cost 1, 1 and 2 in every interval. -/
def turnTdCost (l : ℤ) (_ : ℕ) : Cost := if l = 12 then 2 else 1

/-- They take 1 interval. -/
def turnTdTime (_ : ℤ) (_ : ℕ) : ℚ := 1

/-- The turn from link 10 into link 11 costs 10. -/
def turnTab : Tdsp.Table (ℤ × ℤ) Cost := fun p => if p = (10, 11) then some fun _ => 10 else none

/-- It takes no time. -/
def turnZero : Tdsp.Table (ℤ × ℤ) ℚ := fun p => if p = (10, 11) then some fun _ => 0 else none

example : Tables (run empty turnOps) 5 (fun l => some (turnTdCost l)) (fun l => some (turnTdTime l))
      turnTdCost turnTdTime ∧ FreeTurns turnTab turnZero ∧
    ((Tdsp.updateTurn 20 (linkIds (run empty turnOps)) 5 (run empty turnOps) 3
      (fun l => some (turnTdCost l)) turnTab (fun l => some (turnTdTime l)) turnZero).bind fun s =>
        .ok (s.tree 1 0, s.tree 2 1, s.dist 1 0)) = .ok (10, 11, 12) ∧
    Inside 5 turnTdTime 0 [10, 11] := by
  refine ⟨⟨fun _ _ => rfl, fun _ _ => rfl, by decide +kernel, by decide +kernel, by decide +kernel⟩,
    ⟨fun p c hp t => ?_, fun p d hp t => ?_⟩, by decide +kernel, ⟨by decide, by decide +kernel, trivial⟩⟩
  · unfold turnTab at hp
    split at hp
    · cases hp; change (0 : Cost) ≤ 10; decide +kernel
    · cases hp
  · unfold turnZero at hp
    split at hp
    · cases hp; rfl
    · cases hp

/-- **C148 is false in general.**  In the example the reported cost is 12 although the walk 10, 12 costs
3: only one label is kept for each node. -/
theorem C148_not_optimal :
    ((Tdsp.updateTurn 20 (linkIds (run empty turnOps)) 5 (run empty turnOps) 3
      (fun l => some (turnTdCost l)) turnTab (fun l => some (turnTdTime l)) turnZero).bind fun s =>
        .ok (s.dist 1 0)) = .ok 12 ∧
    Walk (run empty turnOps) 1 [10, 12] 3 ∧ tdTurnCost 5 turnTdCost turnTab turnTdTime 0 [10, 12] = 3 :=
  ⟨by decide +kernel, ⟨2, by decide +kernel, 3, by decide +kernel, rfl⟩, by decide +kernel⟩

/-- **C148 is false with delays.**  Link 11 costs `t` when entered in interval `t`; link 10 takes half an
interval and so does the turn.  The reported cost charges link 11 at interval 1, since the two halves
are added before rounding; the extracted path rounds each up and enters link 11 at interval 2. -/
theorem C148_delays_inconsistent :
    ((Tdsp.updateTurn 20 [10, 11] 9 (run empty [.addNode 1, .addNode 2, .addNode 3, .addLink 1 2 10, .addLink 2 3 11])
      3 (fun l => some fun t => if l = 11 then ((t : ℚ) : Cost) else 1)
      (fun p => if p = (10, 11) then some fun _ => 0 else none) (fun l => some fun t => if l = 11 then t else 1 / 2)
      (fun p => if p = (10, 11) then some fun _ => 1 / 2 else none)).bind fun s =>
      (Tdsp.getTurn 20 9 (run empty [.addNode 1, .addNode 2, .addNode 3, .addLink 1 2 10, .addLink 2 3 11]) 3 s
        (fun l => some fun t => if l = 11 then t else 1 / 2)
        (fun p => if p = (10, 11) then some fun _ => 1 / 2 else none) 1 0).bind fun r =>
        .ok (s.dist 1 0, r)) = .ok (1 + 1, [1, 2, 3], [10, 11], some (1 / 2 + 1 / 2 + 2)) := by
  decide +kernel

theorem turnRelax_none (M : ℕ) (g : G) (dest : ℤ) (cost : Tdsp.Table ℤ Cost) (tt : Tdsp.Table ℤ ℚ)
    (td : Tdsp.Table (ℤ × ℤ) ℚ) (t : ℕ) :
    Tdsp.turnRelax M g dest cost (fun _ => none) tt td t = treeRelax M g cost tt t := by
  funext s l
  unfold Tdsp.turnRelax treeRelax
  congr 1
  funext e
  cases cost l with
  | none => rfl
  | some c =>
    cases tt l with
    | none => rfl
    | some x =>
      simp only
      by_cases htop : c t = ⊤
      · rw [if_pos htop, if_pos htop]
      · rw [if_neg htop, if_neg htop]
        by_cases hd : e.2 = dest
        · rw [if_neg (not_not.2 hd)]
          rfl
        · rw [if_pos hd]
          cases hr : roundTime M t (x t) prec with
          | ok t' =>
            simp only [Res.bind_ok', ite_self, hr]
          | throw m => rfl
          | ub => rfl
          | diverge => rfl

theorem turnTreeLoop_none (links : List ℤ) (M : ℕ) (g : G) (dest : ℤ) (cost : Tdsp.Table ℤ Cost)
    (tt : Tdsp.Table ℤ ℚ) (td : Tdsp.Table (ℤ × ℤ) ℚ) : ∀ (t : ℕ) (s : Tree),
    Tdsp.turnTreeLoop links M g dest cost (fun _ => none) tt td t s = treeLoop links M g cost tt t s
  | 0, _ => rfl
  | t + 1, s => by
    unfold Tdsp.turnTreeLoop treeLoop
    rw [turnRelax_none]
    congr 1
    funext s'
    exact turnTreeLoop_none links M g dest cost tt td t s'

theorem turnLoop_none (M : ℕ) (g : G) (dest : ℤ) (s : Tree) (tt : Tdsp.Table ℤ ℚ) (src : ℤ) :
    ∀ (n : ℕ) (prev : Option ℤ) (v : ℤ) (t : ℕ),
    Tdsp.turnLoop M g dest s tt (fun _ => none) src n prev v t = tdspLoop M g dest s tt n v t
  | 0, _, _, _ => rfl
  | n + 1, prev, v, t => by
    have hd : Tdsp.delay M (fun _ => none) src v prev (s.tree v t) t = .ok (0, t) := by
      unfold Tdsp.delay
      cases prev with
      | none => rfl
      | some k => simp
    simp only [Tdsp.turnLoop, tdspLoop, hd, Res.bind_ok', zero_add, turnLoop_none M g dest s tt src n]
    cases tt (s.tree v t) <;> rfl

/-- **C148, partial.**  Without any turn the tree and the extracted paths are those of the routine
without turns, whose costs are least (C40) and whose paths have these costs (C41). -/
theorem C148_without_turns_partial (fuel : ℕ) (links : List ℤ) (M : ℕ) (g : G) (dest : ℤ)
    (cost : ℤ → Option (ℕ → Cost)) (tt : ℤ → Option (ℕ → ℚ)) (td : Tdsp.Table (ℤ × ℤ) ℚ) :
    Tdsp.updateTurn fuel links M g dest cost (fun _ => none) tt td = updateTree fuel links M g dest cost tt ∧
    ∀ (n : ℕ) (s : Tree) (src time : ℤ),
      Tdsp.getTurn n M g dest s tt (fun _ => none) src time = getTdsp n M g dest s tt src time := by
  refine ⟨?_, fun n s src time => ?_⟩
  · unfold Tdsp.updateTurn updateTree
    by_cases hM : M = 0
    · rw [if_pos hM, if_pos hM]
    · rw [if_neg hM, if_neg hM]
      have : fifoTurn fuel g dest (fun l => (cost l).map fun c => c (M - 1))
          (fun _ _ => ((none : Option (ℕ → Cost))).map fun c => c (M - 1)) (fun _ => some (-1)) =
          fifo fuel g dest (fun l => (cost l).map fun c => c (M - 1)) fun _ => some (-1) := by
        unfold fifoTurn fifo
        refine fifoTurnLoop_none fuel _ ?_
        intro x hx
        left
        simpa [labInit] using hx
      rw [this]
      congr 1
      funext s
      exact turnTreeLoop_none links M g dest cost tt td _ _
  · unfold Tdsp.getTurn getTdsp
    by_cases h : time < 0 ∧ src ≠ dest
    · rw [if_pos h, if_pos h]
    · rw [if_neg h, if_neg h]
      exact turnLoop_none M g dest s tt src n _ _ _

end Verif
