import Verif.Lemmas.NodeEnds
import Verif.Lemmas.LinkMisc

/-! # Lemmas about the phases of a loading interval -/

namespace Verif.Net
open Ults Curve Lnk

/-! ### Release -/

/-- The vehicles released for one destination after the other, and what is known of each. -/
structure Rel (c : Cfg) (ts : ℕ) (k : ℕ) (s s' : State) : Prop where
  num : s'.numVeh = s.numVeh + k
  map : s'.vehMap = s.vehMap ++ List.range' (s.numVeh + 1) k
  enroute : s'.enroute = s.enroute + k
  old : ∀ v, v ≤ s.numVeh ∨ s.numVeh + k < v → s'.vehs v = s.vehs v
  new : ∀ v, s.numVeh < v → v ≤ s.numVeh + k → (s'.vehs v).start = ts ∧ (s'.vehs v).finish = -1 ∧
    (s'.vehs v).cur = none ∧ (s'.vehs v).next = none ∧ (s'.vehs v).path = none ∧
    (s'.vehs v).origin ∈ c.originIds
  links : s'.links = s.links
  tracker : s'.tracker = s.tracker
  log : s'.log = s.log
  finished : s'.finished = s.finished
  time : s'.totalTime = s.totalTime
  queue : ∀ n, (s'.queue n).Perm (s.queue n ++ (List.range' (s.numVeh + 1) k).filter
    fun v => decide ((c.origin (s'.vehs v).origin).node = n))

theorem Rel.refl (c : Cfg) (ts : ℕ) (s : State) : Rel c ts 0 s s :=
  ⟨rfl, by simp, by simp, fun _ _ => rfl, by intro v h1 h2; omega, rfl, rfl, rfl, rfl, rfl, by simp⟩

theorem Rel.trans {c : Cfg} {ts k k' : ℕ} {a b d : State} (h : Rel c ts k a b)
    (h' : Rel c ts k' b d) : Rel c ts (k + k') a d := by
  have hr : List.range' (a.numVeh + 1) (k + k')
      = List.range' (a.numVeh + 1) k ++ List.range' (b.numVeh + 1) k' := by
    rw [h.num, List.range'_append_1.symm]
    congr 2
    omega
  have hold : ∀ v, v ≤ b.numVeh → d.vehs v = b.vehs v := fun v hv => h'.old v (Or.inl hv)
  refine ⟨by rw [h'.num, h.num]; omega, by rw [h'.map, h.map, hr, List.append_assoc],
    by rw [h'.enroute, h.enroute]; push_cast; ring, ?_, ?_, h'.links.trans h.links,
    h'.tracker.trans h.tracker, h'.log.trans h.log, h'.finished.trans h.finished,
    h'.time.trans h.time, ?_⟩
  · intro v hv
    rw [h'.old v (by rw [h.num]; omega), h.old v (by omega)]
  · intro v h1 h2
    by_cases hv : v ≤ b.numVeh
    · rw [hold v hv]; exact h.new v h1 (by rw [← h.num]; exact hv)
    · exact h'.new v (by omega) (by rw [h.num]; omega)
  · intro n
    rw [hr, List.filter_append, ← List.append_assoc]
    refine (h'.queue n).trans (List.Perm.append_right _ ?_)
    refine (h.queue n).trans ?_
    apply List.Perm.append_left
    apply List.Perm.of_eq
    apply List.filter_congr
    intro v hv
    rw [hold v]
    rw [List.mem_range'_1] at hv
    rw [h.num]; omega

theorem release_one_veh {c : Cfg} {ts oid d : ℕ} (hoid : oid ∈ c.originIds) (ad : Bool)
    (assign label : ℤ) (s : State) :
    Rel c ts 1 s { s.makeVeh ts ad oid d assign label with
      queue := upd s.queue (c.origin oid).node (s.queue (c.origin oid).node ++ [s.numVeh + 1]) } := by
  refine ⟨rfl, rfl, rfl, ?_, ?_, rfl, rfl, rfl, rfl, rfl, ?_⟩
  · intro v hv
    simp only [State.makeVeh]
    rw [upd_other]; omega
  · intro v h1 h2
    have : v = s.numVeh + 1 := by omega
    subst this
    simp [State.makeVeh, hoid]
  · intro n
    simp only [State.makeVeh, List.range'_one]
    by_cases hn : n = (c.origin oid).node
    · subst hn; simp
    · rw [upd_other _ _ _ _ hn]
      have : ¬ (c.origin oid).node = n := fun e => hn e.symm
      simp [this]

/-- What the loop for one destination does. -/
structure RelDest (ts oid d n : ℕ) (ad : ℕ → Bool) (assign : ℤ) (label : ℕ → ℤ) (node : ℕ)
    (s s' : State) : Prop where
  num : s'.numVeh = s.numVeh + n
  veh : ∀ v, s.numVeh < v → v ≤ s.numVeh + n →
    s'.vehs v = ⟨ts, -1, ad v, oid, d, none, none, none, assign, label v⟩
  queue : s'.queue node = s.queue node ++ List.range' (s.numVeh + 1) n
  other : ∀ k, k ≠ node → s'.queue k = s.queue k

theorem releaseVehs_spec {c : Cfg} {ts oid d : ℕ} (hoid : oid ∈ c.originIds) (orc : ReleaseOracle)
    (ratio : ℚ) : ∀ (n : ℕ) (s : State),
    Rel c ts n s (releaseVehs (c.origin oid) oid orc ts d ratio n s) ∧
    RelDest ts oid d n (fun v => if ratio = 0 then false else if ratio = 1 then true
        else decide (orc.r v ≤ ratio)) (ts / (c.origin oid).freq : ℕ)
      (fun v => generateLabel (c.origin oid).labels (orc.l v)) (c.origin oid).node s
      (releaseVehs (c.origin oid) oid orc ts d ratio n s)
  | 0, s => ⟨Rel.refl c ts s, ⟨rfl, by intro v h1 h2; omega, by simp [releaseVehs], fun _ _ => rfl⟩⟩
  | n + 1, s => by
    simp only [releaseVehs]
    have A := release_one_veh (ts := ts) (d := d) hoid
      (if ratio = 0 then false else if ratio = 1 then true else decide (orc.r (s.numVeh + 1) ≤ ratio))
      (ts / (c.origin oid).freq : ℕ) (generateLabel (c.origin oid).labels (orc.l (s.numVeh + 1))) s
    obtain ⟨B, B'⟩ := releaseVehs_spec hoid orc ratio n
      { s.makeVeh ts (if ratio = 0 then false else if ratio = 1 then true
          else decide (orc.r (s.numVeh + 1) ≤ ratio)) oid d (ts / (c.origin oid).freq : ℕ)
          (generateLabel (c.origin oid).labels (orc.l (s.numVeh + 1))) with
        queue := upd s.queue (c.origin oid).node
          (s.queue (c.origin oid).node ++ [s.numVeh + 1]) }
    have AB := A.trans B
    rw [Nat.add_comm 1 n] at AB
    refine ⟨AB, AB.num, ?_, ?_, ?_⟩
    · intro v h1 h2
      by_cases hv : v = s.numVeh + 1
      · subst hv
        have := B.old (s.numVeh + 1) (Or.inl (by simp [State.makeVeh]))
        refine this.trans ?_
        simp [State.makeVeh]
      · exact B'.veh v (by simp only [State.makeVeh]; omega) (by simp only [State.makeVeh]; omega)
    · refine B'.queue.trans ?_
      simp only [State.makeVeh, upd_same]
      rw [List.append_assoc]
      rfl
    · intro k hk
      refine (B'.other k hk).trans ?_
      exact upd_other _ _ _ _ hk

theorem Rel.shuffle {c : Cfg} {ts k : ℕ} {s s' : State} (h : Rel c ts k s s') (n : ℕ) {q : List ℕ}
    (hq : q.Perm (s'.queue n)) : Rel c ts k s { s' with queue := upd s'.queue n q } := by
  refine ⟨h.num, h.map, h.enroute, h.old, h.new, h.links, h.tracker, h.log, h.finished, h.time, ?_⟩
  intro m
  by_cases hm : m = n
  · subst hm
    simp only [upd_same]
    exact hq.trans (h.queue m)
  · simp only
    rw [upd_other _ _ _ _ hm]
    exact h.queue m

theorem releaseDests_rel {c : Cfg} {scalar : ℚ} {ts oid assign : ℕ} (hoid : oid ∈ c.originIds)
    (orc : ReleaseOracle) : ∀ (dem : List (ℕ × (ℕ → ℚ))) (k : ℕ) (ratio : ℚ) (s s' : State),
    releaseDests scalar (c.origin oid) oid orc ts assign k ratio dem s = .ok s' →
      ∃ n, Rel c ts n s s' ∧ s'.queue (c.origin oid).node
          = s.queue (c.origin oid).node ++ List.range' (s.numVeh + 1) n ∧
        ∀ j, j ≠ (c.origin oid).node → s'.queue j = s.queue j
  | [], k, ratio, s, s', h => by
    simp only [releaseDests, Res.ok.injEq] at h
    subst h
    exact ⟨0, Rel.refl c ts s, by simp, fun _ _ => rfl⟩
  | (d, f) :: dem, k, ratio, s, s', h => by
    simp only [releaseDests] at h
    rw [Res.bind_eq_ok'] at h
    obtain ⟨n, _, h⟩ := h
    obtain ⟨m, hm, hq, ho⟩ := releaseDests_rel hoid orc dem _ _ _ _ h
    have B := fun r => (releaseVehs_spec (c := c) (ts := ts) (d := d) hoid orc r n.toNat s).1
    have B' := fun r => (releaseVehs_spec (c := c) (ts := ts) (d := d) hoid orc r n.toNat s).2
    refine ⟨_, (B _).trans hm, ?_, ?_⟩
    · rw [hq, (B' _).queue, (B _).num, List.append_assoc, ← List.range'_append_1]
      congr 3
      omega
    · intro j hj
      rw [ho j hj, (B' _).other j hj]

theorem releaseOne_rel {c : Cfg} {ts oid assign : ℕ} (hoid : oid ∈ c.originIds)
    {orc : ReleaseOracle} (hsh : ∀ l, (orc.shuffle l).Perm l) {ratio : ℚ} {s s' : State}
    (h : releaseOne c.scalar (c.origin oid) oid orc ts assign ratio s = .ok s') :
    ∃ n, Rel c ts n s s' := by
  unfold releaseOne at h
  split at h
  · simp at h
  rw [Res.bind_eq_ok'] at h
  obtain ⟨s1, h1, h2⟩ := h
  cases h2
  obtain ⟨n, hn, _⟩ := releaseDests_rel hoid orc _ _ _ _ _ h1
  exact ⟨n, hn.shuffle _ (hsh _)⟩

theorem stepRelease_rel {c : Cfg} {o : StepOracle} (ho : o.Ok c) {ts assign : ℕ} {s s' : State}
    (h : stepRelease c o ts assign s = .ok s') : ∃ n, Rel c ts n s s' := by
  unfold stepRelease at h
  split at h
  · simp at h
  split at h
  swap
  · cases h; exact ⟨0, Rel.refl _ _ _⟩
  split at h
  · cases h; exact ⟨0, Rel.refl _ _ _⟩
  split at h
  · cases h; exact ⟨0, Rel.refl _ _ _⟩
  refine Res.foldlM_inv_mem (P := fun t => ∃ n, Rel c ts n s t) c.originIds ?_ s s'
    ⟨0, Rel.refl _ _ _⟩ h
  rintro b oid b' hoid ⟨n, hn⟩ hb
  obtain ⟨m, hm⟩ := releaseOne_rel hoid (ho.release oid) hb
  exact ⟨_, hn.trans hm⟩

/-! ### Routing -/

/-- Routing only sets next links and paths. -/
structure Routed (s s' : State) : Prop where
  veh : ∀ v, { s'.vehs v with next := none, path := none } = { s.vehs v with next := none, path := none }
  links : s'.links = s.links
  queue : s'.queue = s.queue
  log : s'.log = s.log
  num : s'.numVeh = s.numVeh
  map : s'.vehMap = s.vehMap
  enroute : s'.enroute = s.enroute
  finished : s'.finished = s.finished
  time : s'.totalTime = s.totalTime

theorem Routed.refl (s : State) : Routed s s := ⟨fun _ => rfl, rfl, rfl, rfl, rfl, rfl, rfl, rfl, rfl⟩

theorem Routed.trans {a b d : State} (h : Routed a b) (k : Routed b d) : Routed a d :=
  ⟨fun v => (k.veh v).trans (h.veh v), k.links.trans h.links, k.queue.trans h.queue,
    k.log.trans h.log, k.num.trans h.num, k.map.trans h.map, k.enroute.trans h.enroute,
    k.finished.trans h.finished, k.time.trans h.time⟩

theorem routed_next (s : State) (v : ℕ) (x : Option ℕ) (t : ℕ → Option (List ℕ)) :
    Routed s { s with vehs := upd s.vehs v { s.vehs v with next := x }, tracker := t } := by
  refine ⟨?_, rfl, rfl, rfl, rfl, rfl, rfl, rfl, rfl⟩
  intro w
  by_cases h : w = v
  · subst h; simp
  · simp [upd_other _ _ _ _ h]

theorem registerVeh_routed {c : Cfg} {pt : PathTable} {r : ℚ} {v : ℕ} {b : Bool} {s s' : State}
    (h : registerVeh c pt r v b s = .ok s') : Routed s s' := by
  unfold registerVeh at h
  split at h
  · simp at h
  split at h
  · simp at h
  cases h
  refine ⟨?_, rfl, rfl, rfl, rfl, rfl, rfl, rfl, rfl⟩
  intro w
  by_cases h : w = v
  · subst h; simp
  · simp [upd_other _ _ _ _ h]

theorem nextFromTracker_routed {c : Cfg} {v : ℕ} {s s' : State} (h : nextFromTracker c v s = .ok s') :
    Routed s s' := by
  unfold nextFromTracker at h
  split at h
  · simp at h
  · simp at h
  rw [Res.bind_eq_ok'] at h
  obtain ⟨l, _, h⟩ := h
  cases h
  exact routed_next _ _ _ _

theorem fixedOrigin_routed {c : Cfg} {pt : PathTable} {o : RouteOracle} {s s' : State} {v : ℕ}
    (h : fixedOrigin c pt o s v = .ok s') : Routed s s' := by
  unfold fixedOrigin at h
  split at h
  · split at h
    · exact registerVeh_routed h
    · cases h; exact Routed.refl _
  · split at h
    · cases h; exact Routed.refl _
    · rw [Res.bind_eq_ok'] at h
      obtain ⟨s1, h1, h2⟩ := h
      exact (registerVeh_routed h1).trans (nextFromTracker_routed h2)

theorem fixedLink_routed {c : Cfg} {l : ℕ} {s s' : State} {v : ℕ}
    (h : fixedLink c l s v = .ok s') : Routed s s' := by
  unfold fixedLink at h
  split at h
  · cases h; exact Routed.refl _
  split at h
  · split at h
    · simp at h
    · cases h; exact routed_next _ _ _ _
    · simp at h
  · split at h
    · simp at h
    · split at h
      · exact nextFromTracker_routed h
      · cases h; exact Routed.refl _

theorem adaptiveOrigin_routed {c : Cfg} {tr : Trees} {n : ℕ} {s s' : State} {v : ℕ}
    (h : adaptiveOrigin c tr n s v = .ok s') : Routed s s' := by
  unfold adaptiveOrigin at h
  split at h
  · split at h
    · simp at h
    · split at h
      · simp at h
      · rw [Res.bind_eq_ok'] at h
        obtain ⟨l, _, h⟩ := h
        cases h; exact routed_next _ _ _ _
  · cases h; exact Routed.refl _

theorem adaptiveLink_routed {c : Cfg} {tr : Trees} {o : RouteOracle} {l : ℕ} {s s' : State} {v : ℕ}
    (h : adaptiveLink c tr o l s v = .ok s') : Routed s s' := by
  unfold adaptiveLink at h
  split at h
  · split at h
    · simp at h
    · split at h
      · cases h; exact routed_next _ _ _ _
      · split at h
        · simp at h
        · simp only at h
          rw [Res.bind_eq_ok'] at h
          obtain ⟨k, _, h⟩ := h
          split at h
          · simp at h
          · split at h
            · simp at h
            · cases h; exact routed_next _ _ _ _
  · cases h; exact Routed.refl _

theorem randomOrigin_routed {c : Cfg} {o : RouteOracle} {n : ℕ} {s s' : State} {v : ℕ}
    (h : randomOrigin c o n s v = .ok s') : Routed s s' := by
  unfold randomOrigin at h
  split at h
  · simp at h
  · rw [Res.bind_eq_ok'] at h
    obtain ⟨l, _, h⟩ := h
    cases h; exact routed_next _ _ _ _

theorem randomLink_routed {c : Cfg} {o : RouteOracle} {l : ℕ} {s s' : State} {v : ℕ}
    (h : randomLink c o l s v = .ok s') : Routed s s' := by
  unfold randomLink at h
  split at h
  · cases h; exact routed_next _ _ _ _
  · rw [Res.bind_eq_ok'] at h
    obtain ⟨l, _, h⟩ := h
    cases h; exact routed_next _ _ _ _

theorem routeAll_routed {c : Cfg} {fo fl : ℕ → State → ℕ → Res State}
    (ho : ∀ n s s' v, fo n s v = .ok s' → Routed s s') (hl : ∀ n s s' v, fl n s v = .ok s' → Routed s s')
    {s s' : State} (h : routeAll c fo fl s = .ok s') : Routed s s' := by
  unfold routeAll at h
  rw [Res.bind_eq_ok'] at h
  obtain ⟨s1, h1, h2⟩ := h
  have A : Routed s s1 := by
    refine Res.foldlM_inv (P := fun t => Routed s t) ?_ _ _ _ (Routed.refl s) h1
    intro b oid b' hb he
    refine Res.foldlM_inv (P := fun t => Routed s t) ?_ _ _ _ hb he
    intro x v x' hx hv
    exact hx.trans (ho _ _ _ _ hv)
  refine Res.foldlM_inv (P := fun t => Routed s t) ?_ _ _ _ A h2
  intro b l b' hb he
  refine Res.foldlM_inv (P := fun t => Routed s t) ?_ _ _ _ hb he
  intro x v x' hx hv
  exact hx.trans (hl _ _ _ _ hv)

theorem routing_routed {c : Cfg} {o : RouteOracle} {r : Routing} {s s' : State}
    (h : r.update c o s = .ok s') : Routed s s' := by
  have hf : ∀ pt s s', fixedRouting c pt o s = .ok s' → Routed s s' := fun pt s s' h =>
    routeAll_routed (fun _ _ _ _ h => fixedOrigin_routed h) (fun _ _ _ _ h => fixedLink_routed h) h
  have ha : ∀ tr s s', adaptiveRouting c tr o s = .ok s' → Routed s s' := fun tr s s' h =>
    routeAll_routed (fun _ _ _ _ h => adaptiveOrigin_routed h)
      (fun _ _ _ _ h => adaptiveLink_routed h) h
  cases r with
  | random =>
    have h' : randomRouting c o s = .ok s' := h
    exact routeAll_routed (fun _ _ _ _ h => randomOrigin_routed h)
      (fun _ _ _ _ h => randomLink_routed h) h'
  | adaptive tr => exact ha tr s s' h
  | fixed pt => exact hf pt s s' h
  | hybrid tr pt =>
    simp only [Routing.update] at h
    rw [Res.bind_eq_ok'] at h
    obtain ⟨s1, h1, h2⟩ := h
    exact (ha tr s s1 h1).trans (hf pt s1 s' h2)

/-! ### Release in detail -/

theorem releaseDests_detail {c : Cfg} {scalar : ℚ} {ts oid assign : ℕ} (hoid : oid ∈ c.originIds)
    (orc : ReleaseOracle) : ∀ (dem : List (ℕ × (ℕ → ℚ))) (k : ℕ) (ratio : ℚ) (s s' : State),
    releaseDests scalar (c.origin oid) oid orc ts assign k ratio dem s = .ok s' →
      ∃ ns : List ℕ, ns.length = dem.length ∧ s'.numVeh = s.numVeh + ns.sum ∧
        (∀ (j d : ℕ) f, dem[j]? = some (d, f) →
          ns[j]? = some (roundVal (f assign * scalar) (orc.u (k + j))).toNat) ∧
        (List.range' (s.numVeh + 1) ns.sum).map (fun v => (s'.vehs v).dest)
          = (dem.zip ns).flatMap (fun p => List.replicate p.2 p.1.1) ∧
        (∀ v, s.numVeh < v → v ≤ s'.numVeh → (s'.vehs v).origin = oid ∧
          (s'.vehs v).assign = ((ts / (c.origin oid).freq : ℕ) : ℤ)) ∧
        ((∀ d ∈ dem.map Prod.fst, (c.origin oid).adaptiveRatio d = none) →
          ∀ v, s.numVeh < v → v ≤ s'.numVeh → ((s'.vehs v).adaptive = true ↔
            ratio ≠ 0 ∧ (ratio = 1 ∨ orc.r v ≤ ratio)))
  | [], k, ratio, s, s', h => by
    simp only [releaseDests, Res.ok.injEq] at h
    subst h
    exact ⟨[], rfl, rfl, by simp, by simp, by intro v h1 h2; omega, by intro _ v h1 h2; omega⟩
  | (d, f) :: dem, k, ratio, s, s', h => by
    simp only [releaseDests] at h
    rw [Res.bind_eq_ok'] at h
    obtain ⟨n, hn, h⟩ := h
    obtain ⟨rt, hrt, h⟩ : ∃ rt, ((c.origin oid).adaptiveRatio d = none → rt = ratio) ∧
        releaseDests scalar (c.origin oid) oid orc ts assign (k + 1) rt dem
          (releaseVehs (c.origin oid) oid orc ts d rt n.toNat s) = .ok s' :=
      ⟨_, fun e => by rw [e], h⟩
    have hn' := round_ok hn
    obtain ⟨B, B'⟩ := releaseVehs_spec (c := c) (ts := ts) (d := d) hoid orc rt n.toNat s
    generalize hs1 : releaseVehs (c.origin oid) oid orc ts d rt n.toNat s = s1 at *
    obtain ⟨ns, h1, h2, h3, h4, h5, h6⟩ := releaseDests_detail hoid orc dem _ _ _ _ h
    obtain ⟨m, R, _⟩ := releaseDests_rel hoid orc dem _ _ _ _ h
    have hold : ∀ v, v ≤ s1.numVeh → s'.vehs v = s1.vehs v := fun v hv => R.old v (Or.inl hv)
    refine ⟨n.toNat :: ns, by simp [h1], by rw [h2, B.num, List.sum_cons]; omega, ?_, ?_, ?_, ?_⟩
    · intro j d' f' hj
      cases j with
      | zero =>
        simp only [List.getElem?_cons_zero, Option.some.injEq, Prod.mk.injEq] at hj
        obtain ⟨_, rfl⟩ := hj
        simp [hn']
      | succ j =>
        simp only [List.getElem?_cons_succ] at hj ⊢
        rw [h3 j d' f' hj]
        congr 4
        omega
    · rw [List.sum_cons, ← List.range'_append_1, List.map_append, List.zip_cons_cons,
        List.flatMap_cons]
      congr 1
      · rw [List.eq_replicate_iff]
        refine ⟨by simp, ?_⟩
        intro x hx
        rw [List.mem_map] at hx
        obtain ⟨v, hv, rfl⟩ := hx
        rw [List.mem_range'_1] at hv
        rw [hold v (by rw [B.num]; omega), B'.veh v (by omega) (by omega)]
      · rw [← h4, B.num]
        congr 2
        omega
    · intro v v1 v2
      by_cases hv : v ≤ s1.numVeh
      · rw [hold v hv, B'.veh v v1 (by rw [← B.num]; exact hv)]
        exact ⟨rfl, rfl⟩
      · exact h5 v (by omega) v2
    · intro hnone v v1 v2
      have e : rt = ratio := hrt (hnone d (by simp))
      by_cases hv : v ≤ s1.numVeh
      · rw [hold v hv, B'.veh v v1 (by rw [← B.num]; exact hv), e]
        by_cases r0 : ratio = 0
        · simp [r0]
        · by_cases r1 : ratio = 1
          · simp [r1]
          · simp [r0, r1]
      · rw [← e]
        exact h6 (fun x hx => hnone x (by simp at hx ⊢; tauto)) v (by omega) v2

end Verif.Net
