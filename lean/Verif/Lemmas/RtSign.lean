import Verif.Spec.Realtime

/-!
# Lemmas on message signs, samples and link travel times
-/

namespace Verif.Rt

/-! ## Alternatives of a sign -/

theorem insertNew_nodup : ∀ (outs : List ℤ) (m : List ℤ), (m ++ outs).Nodup →
    outs.foldl insertNew (m.map fun l => (l, [])) = (m ++ outs).map fun l => (l, []) := by
  intro outs
  induction outs with
  | nil => intro m _; simp
  | cons l outs ih =>
    intro m h
    have hl : l ∉ (m.map fun l => ((l, []) : ℤ × List (ℕ × ℕ))).map Prod.fst := by
      simp only [List.map_map, Function.comp_def, List.map_id']
      intro hm
      rw [List.nodup_append] at h
      exact h.2.2 l hm l (by simp) rfl
    have e : (m.map fun l => ((l, []) : ℤ × List (ℕ × ℕ))) ++ [(l, [])] = (m ++ [l]).map fun l => (l, []) := by simp
    rw [List.foldl_cons]
    unfold insertNew at ih ⊢
    rw [if_neg hl, e]
    have := ih (m ++ [l]) (by simpa using h)
    rw [this]
    simp

theorem push_map (outs : List ℤ) (X : ℤ → List (ℕ × ℕ)) (l : ℤ) (ij : ℕ × ℕ) :
    push l ij (outs.map fun k => (k, X k)) = outs.map fun k => (k, X k ++ if k = l then [ij] else []) := by
  unfold push
  rw [List.map_map]
  refine List.map_congr_left fun k _ => ?_
  simp only [Function.comp]
  by_cases h : k = l
  · rw [if_pos h, if_pos h]
  · rw [if_neg h, if_neg h, List.append_nil]

theorem hookOne_map (outs : List ℤ) (e : (ℕ × ℕ) × Pth) : ∀ (L : List ℤ) (X : ℤ → List (ℕ × ℕ)), L.Nodup →
    L.foldl (fun A l => if l ∈ e.2.links then push l e.1 A else A) (outs.map fun k => (k, X k)) =
      outs.map fun k => (k, X k ++ if k ∈ L ∧ k ∈ e.2.links then [e.1] else []) := by
  intro L
  induction L with
  | nil => intro X _; simp
  | cons l L ih =>
    intro X h
    obtain ⟨h1, h2⟩ := List.nodup_cons.1 h
    rw [List.foldl_cons]
    by_cases hl : l ∈ e.2.links
    · rw [if_pos hl, push_map, ih (fun k => X k ++ if k = l then [e.1] else []) h2]
      refine List.map_congr_left fun k _ => ?_
      by_cases hk : k = l
      · subst hk
        simp [h1, hl]
      · simp [hk]
    · rw [if_neg hl, ih X h2]
      refine List.map_congr_left fun k _ => ?_
      by_cases hk : k = l
      · subst hk
        simp [hl]
      · simp [hk]

theorem hook_map (outs : List ℤ) (hn : outs.Nodup) : ∀ (es : List ((ℕ × ℕ) × Pth)) (X : ℤ → List (ℕ × ℕ)),
    es.foldl (hookOne outs) (outs.map fun k => (k, X k)) =
      outs.map fun k => (k, X k ++ (es.filter fun e => decide (k ∈ e.2.links)).map Prod.fst) := by
  intro es
  induction es with
  | nil => intro X; simp
  | cons e es ih =>
    intro X
    rw [List.foldl_cons]
    have := hookOne_map outs e outs X hn
    unfold hookOne at ih ⊢
    rw [this, ih fun k => X k ++ if k ∈ outs ∧ k ∈ e.2.links then [e.1] else []]
    refine List.map_congr_left fun k hk => ?_
    by_cases h : k ∈ e.2.links
    · simp [hk, h]
    · simp [h]

theorem mem_places (tbl : List Od) (ij : ℕ × ℕ) (P : Pth) : (ij, P) ∈ places tbl ↔ At tbl ij P := by
  unfold places At
  simp only [List.mem_flatMap, List.mem_map, Prod.mk.injEq]
  constructor
  · rintro ⟨e, he, Q, hQ, rfl, rfl⟩
    exact ⟨e.1, List.mem_zipIdx_iff_getElem?.1 he, List.mem_zipIdx_iff_getElem?.1 hQ⟩
  · rintro ⟨e, he, hP⟩
    exact ⟨(e, ij.1), List.mem_zipIdx_iff_getElem?.2 he, (P, ij.2), List.mem_zipIdx_iff_getElem?.2 hP, rfl, rfl⟩

theorem places_nodup (tbl : List Od) : ((places tbl).map Prod.fst).Nodup := by
  unfold places
  rw [List.map_flatMap, List.nodup_flatMap]
  constructor
  · intro e _
    rw [List.map_map]
    have : (Prod.fst ∘ fun P : Pth × ℕ => ((e.2, P.2), P.1)) = (fun j => (e.2, j)) ∘ Prod.snd := rfl
    rw [this, ← List.map_map]
    refine List.Nodup.map (fun a b h => (Prod.mk.inj h).2) ?_
    rw [List.zipIdx_map_snd]
    exact List.nodup_range'
  · have hp : (tbl.zipIdx.map Prod.snd).Nodup := by
      rw [List.zipIdx_map_snd]
      exact List.nodup_range'
    refine List.Pairwise.imp ?_ (List.pairwise_map.1 hp)
    intro a b hab x hx hy
    simp only [List.mem_map] at hx hy
    obtain ⟨P, ⟨Q, _, rfl⟩, rfl⟩ := hx
    obtain ⟨P', ⟨Q', _, rfl⟩, h⟩ := hy
    exact hab (Prod.mk.inj h).1.symm

/-! ## Detours -/

theorem pathAt_of {tbl : List Od} {ij : ℕ × ℕ} {P : Pth} (h : At tbl ij P) : pathAt tbl ij = .ok P := by
  obtain ⟨e, h1, h2⟩ := h
  unfold pathAt
  rw [h1]
  simp only [h2]

theorem pathDemand_of {dem : ℤ → ℤ → Res ℚ} {P : Pth} (h : P.nodes ≠ []) :
    pathDemand dem P = dem (P.nodes.headD 0) (P.nodes.getLastD 0) := by
  unfold pathDemand
  cases hn : P.nodes with
  | nil => exact absurd hn h
  | cons a r =>
    simp only [List.head?_cons, List.headD_cons, List.getLastD_cons]
    rw [List.getLast?_cons]
    simp only [List.getLastD_eq_getLast?]

theorem altFlows_ok {dem : ℤ → ℤ → Res ℚ} {D : ℤ → ℤ → ℚ} {tbl : List Od} : ∀ (ijs : List (ℕ × ℕ)),
    Known dem D tbl ijs → ∃ a b, altFlows dem tbl ijs = .ok (a, b) ∧ a - b = gain D tbl ijs := by
  intro ijs
  induction ijs with
  | nil => exact fun _ => ⟨0, 0, rfl, by simp [gain]⟩
  | cons ij ijs ih =>
    intro h
    obtain ⟨a, b, h1, h2⟩ := ih fun x hx => h x (by simp [hx])
    obtain ⟨P, hP, hn, hd⟩ := h ij (by simp)
    refine ⟨P.best * D (P.nodes.headD 0) (P.nodes.getLastD 0) + a,
      P.real * D (P.nodes.headD 0) (P.nodes.getLastD 0) + b, ?_, ?_⟩
    · unfold altFlows
      rw [pathAt_of hP, Res.bind_ok', pathDemand_of hn, hd, Res.bind_ok', h1, Res.bind_ok']
    · obtain ⟨e, he, hp⟩ := hP
      unfold gain at h2 ⊢
      simp only [List.map_cons, List.sum_cons, he, Option.bind_some, hp]
      rw [← h2]
      ring

/-- The first of the best. -/
def FirstBest (val : ℤ × List (ℕ × ℕ) → ℚ) (alts : List (ℤ × List (ℕ × ℕ))) (a : ℤ × List (ℕ × ℕ)) : Prop :=
  ∃ pre post, alts = pre ++ a :: post ∧ (∀ b ∈ pre, val b < val a) ∧ ∀ b ∈ post, val b ≤ val a

theorem detourLoop_some {dem : ℤ → ℤ → Res ℚ} {D : ℤ → ℤ → ℚ} {tbl : List Od} :
    ∀ (r : List (ℤ × List (ℕ × ℕ))) (pre : List (ℤ × List (ℕ × ℕ))) (a : ℤ × List (ℕ × ℕ))
      (post : List (ℤ × List (ℕ × ℕ))), (∀ b ∈ r, Known dem D tbl b.2) →
      (∀ b ∈ pre, gain D tbl b.2 < gain D tbl a.2) → (∀ b ∈ post, gain D tbl b.2 ≤ gain D tbl a.2) →
      ∃ c, FirstBest (fun b => gain D tbl b.2) (pre ++ a :: post ++ r) c ∧
        detourLoop dem tbl (some (gain D tbl a.2, a.1)) r = .ok (some (gain D tbl c.2, c.1)) := by
  intro r
  induction r with
  | nil =>
    intro pre a post _ h1 h2
    exact ⟨a, ⟨pre, post, by simp, h1, h2⟩, rfl⟩
  | cons b r ih =>
    intro pre a post hk h1 h2
    obtain ⟨x, y, hf, hg⟩ := altFlows_ok b.2 (hk b (by simp))
    unfold detourLoop
    rw [hf, Res.bind_ok']
    simp only [hg]
    by_cases hb : gain D tbl b.2 > gain D tbl a.2
    · rw [if_pos hb]
      obtain ⟨c, h3, h4⟩ := ih (pre ++ a :: post) b [] (fun x hx => hk x (by simp [hx]))
        (fun x hx => by
          rcases List.mem_append.1 hx with hx | hx
          · exact (h1 x hx).trans hb
          · rcases List.mem_cons.1 hx with rfl | hx
            · exact hb
            · exact (h2 x hx).trans_lt hb) (by simp)
      exact ⟨c, by simpa using h3, h4⟩
    · rw [if_neg hb]
      obtain ⟨c, h3, h4⟩ := ih pre a (post ++ [b]) (fun x hx => hk x (by simp [hx])) h1
        (fun x hx => by
          rcases List.mem_append.1 hx with hx | hx
          · exact h2 x hx
          · rw [List.mem_singleton.1 hx]
            exact not_lt.1 hb)
      exact ⟨c, by simpa using h3, h4⟩

theorem detourLoop_none {dem : ℤ → ℤ → Res ℚ} {D : ℤ → ℤ → ℚ} {tbl : List Od} {alts : List (ℤ × List (ℕ × ℕ))}
    (hne : alts ≠ []) (hk : ∀ b ∈ alts, Known dem D tbl b.2) :
    ∃ c, FirstBest (fun b => gain D tbl b.2) alts c ∧
      detourLoop dem tbl none alts = .ok (some (gain D tbl c.2, c.1)) := by
  cases alts with
  | nil => exact absurd rfl hne
  | cons a r =>
    obtain ⟨x, y, hf, hg⟩ := altFlows_ok a.2 (hk a (by simp))
    obtain ⟨c, h1, h2⟩ := detourLoop_some r [] a [] (fun b hb => hk b (by simp [hb])) (by simp) (by simp)
    refine ⟨c, by simpa using h1, ?_⟩
    unfold detourLoop
    rw [hf, Res.bind_ok']
    simp only [hg]
    exact h2

/-! ## Samples -/

theorem sampleLoop_add (M S : ℤ) (tt : ℕ → ℚ) : ∀ (a b cur : ℕ) (avg : ℚ),
    sampleLoop M S tt (a + b) cur avg = (sampleLoop M S tt a cur avg).bind fun x =>
      sampleLoop M S tt b (cur + a) x := by
  intro a
  induction a with
  | zero => intro b cur avg; simp [sampleLoop, Res.bind]
  | succ a ih =>
    intro b cur avg
    rw [Nat.add_right_comm, sampleLoop.eq_2, sampleLoop.eq_2]
    by_cases h : S = 0 ∨ M.tdiv S = 0
    · rw [if_pos h, if_pos h]; rfl
    · rw [if_neg h, if_neg h, ih, Nat.add_right_comm, Nat.add_assoc]

variable {M S : ℕ}

theorem step_cast (M S : ℕ) : (M : ℤ).tdiv (S : ℤ) = ((M / S : ℕ) : ℤ) := by
  rw [Int.ofNat_tdiv]

/-- Intervals between two samples. -/
theorem sampleLoop_skip (hS : 0 < S) (hM : 0 < M / S) (tt : ℕ → ℚ) : ∀ (n cur : ℕ) (avg : ℚ),
    (∀ k < n, ¬ (M / S ∣ cur + k + 1)) → sampleLoop M S tt n cur avg = .ok avg := by
  intro n
  induction n with
  | zero => exact fun _ _ _ => rfl
  | succ n ih =>
    intro cur avg h
    unfold sampleLoop
    rw [if_neg (by rw [step_cast]; omega), if_neg]
    · exact ih (cur + 1) avg fun k hk => by
        have := h (k + 1) (by omega)
        rwa [show cur + (k + 1) + 1 = cur + 1 + k + 1 by omega] at this
    · rw [step_cast, show ((cur : ℤ) + 1) = ((cur + 1 : ℕ) : ℤ) by push_cast; rfl, ← Int.ofNat_tmod]
      intro h0
      exact h 0 (by omega) (Nat.dvd_of_mod_eq_zero (by exact_mod_cast h0))

/-- One sample. -/
theorem sampleLoop_block (hS : 0 < S) (hM : 0 < M / S) (tt : ℕ → ℚ) (q : ℕ) (avg : ℚ) :
    sampleLoop M S tt (M / S) (q * (M / S)) avg = .ok (avg + tt ((q + 1) * (M / S) - 1) / S) := by
  obtain ⟨t, ht⟩ : ∃ t, M / S = t + 1 := ⟨M / S - 1, by omega⟩
  have h1 := sampleLoop_add M S tt t 1 (q * (M / S)) avg
  rw [← ht] at h1
  rw [h1, sampleLoop_skip hS hM tt t _ avg, Res.bind_ok']
  · unfold sampleLoop
    rw [if_neg (by rw [step_cast]; omega), if_pos]
    · unfold sampleLoop
      have : q * (M / S) + t = (q + 1) * (M / S) - 1 := by
        rw [Nat.add_mul, ht]
        omega
      rw [this]
      simp
    · rw [step_cast, show ((q * (M / S) + t : ℕ) : ℤ) + 1 = (((q + 1) * (M / S) : ℕ) : ℤ) by
        rw [ht]; push_cast; ring, ← Int.ofNat_tmod, Nat.mul_mod_left]
      rfl
  · intro k hk hd
    have : M / S ∣ k + 1 := by
      rw [Nat.add_assoc] at hd
      exact (Nat.dvd_add_right (Dvd.intro_left q rfl)).1 hd
    exact absurd (Nat.le_of_dvd (by omega) this) (by omega)

theorem sampleLoop_blocks (hS : 0 < S) (hM : 0 < M / S) (tt : ℕ → ℚ) : ∀ (n : ℕ) (avg : ℚ),
    sampleLoop M S tt (n * (M / S)) 0 avg =
      .ok (avg + ((List.range n).map fun j => tt ((j + 1) * (M / S) - 1) / S).sum) := by
  intro n
  induction n with
  | zero => intro avg; simp [sampleLoop]
  | succ n ih =>
    intro avg
    rw [Nat.add_mul, Nat.one_mul, sampleLoop_add, ih, Res.bind_ok', Nat.zero_add, sampleLoop_block hS hM,
      List.range_succ, List.map_append, List.sum_append]
    simp [add_assoc]

/-! ## Link travel times -/

theorem update_eq (ts : ℤ) (m : LinkTt) (vs : List Seen) :
    m.update ts vs = Res.foldlM (fun m e => m.see e.1 e.2) m (vs.map fun v => (ts, v)) := by
  unfold LinkTt.update
  induction vs generalizing m with
  | nil => rfl
  | cons v vs ih =>
    rw [List.map_cons, Res.foldlM_cons, Res.foldlM_cons]
    cases m.see ts v with
    | ok m' => exact ih m'
    | throw e => rfl
    | ub => rfl
    | diverge => rfl

theorem run_eq (m : LinkTt) (h : List (ℤ × List Seen)) :
    m.run h = Res.foldlM (fun m e => m.see e.1 e.2) m (met h) := by
  unfold LinkTt.run met
  induction h generalizing m with
  | nil => rfl
  | cons e h ih =>
    rw [List.flatMap_cons, Res.foldlM_append, Res.foldlM_cons, update_eq]
    cases Res.foldlM (fun m e => m.see e.1 e.2) m (e.2.map fun v => (e.1, v)) with
    | ok m' => exact ih m'
    | throw e => rfl
    | ub => rfl
    | diverge => rfl

theorem lastMet_append (v : ℕ) (past : List (ℤ × Seen)) (e : ℤ × Seen) :
    lastMet v (past ++ [e]) = if e.2.id = v then some e else lastMet v past := by
  unfold lastMet
  rw [List.filter_append]
  by_cases h : e.2.id = v
  · rw [if_pos h]
    simp [h]
  · rw [if_neg h]
    simp [h]

/-- The tracker holds the last meetings. -/
def Tracks (m : LinkTt) (past : List (ℤ × Seen)) : Prop :=
  ∀ v, m.tracker v = (lastMet v past).map fun f => ⟨f.2.link, f.1⟩

theorem see_ok {m : LinkTt} {past : List (ℤ × Seen)} (ht : Tracks m past) (e : ℤ × Seen) (hd : e.2.done = false)
    (hm : ∀ f, lastMet e.2.id past = some f → f.2.link ≠ e.2.link) :
    ∃ m', m.see e.1 e.2 = .ok m' ∧ Tracks m' (past ++ [e]) ∧ m'.unit = m.unit ∧
      ∀ l, m'.tt l = (match lastMet e.2.id past with
        | some f => if f.2.link = l then [((e.1 - f.1 : ℤ) : ℚ) * m.unit] else []
        | none => []).foldl smooth (m.tt l) := by
  unfold LinkTt.see
  rw [ht]
  have tr : ∀ (t : ℕ → Option Rec), (∀ v, t v = upd m.tracker e.2.id (some ⟨e.2.link, e.1⟩) v) →
      ∀ v, t v = (lastMet v (past ++ [e])).map fun f => ⟨f.2.link, f.1⟩ := by
    intro t h v
    rw [h v, lastMet_append]
    by_cases hv : e.2.id = v
    · subst hv
      rw [if_pos rfl, upd_same]
      rfl
    · rw [if_neg hv, upd_other _ _ _ _ (Ne.symm hv), ht]
  cases hl : lastMet e.2.id past with
  | none =>
    refine ⟨_, rfl, tr _ fun v => rfl, rfl, fun l => rfl⟩
  | some f =>
    have hne := hm f hl
    simp only [Option.map_some, hd, Bool.false_eq_true, if_false, ne_eq, hne, not_false_eq_true, if_true]
    refine ⟨_, rfl, tr _ fun v => rfl, rfl, fun l => ?_⟩
    simp only
    by_cases h : f.2.link = l
    · subst h
      rw [upd_same, if_pos rfl]
      rfl
    · rw [upd_other _ _ _ _ (Ne.symm h), if_neg h]
      rfl

theorem see_throw {m : LinkTt} {past : List (ℤ × Seen)} (ht : Tracks m past) (e : ℤ × Seen) (hd : e.2.done = false)
    (f : ℤ × Seen) (hf : lastMet e.2.id past = some f) (hm : f.2.link = e.2.link) :
    m.see e.1 e.2 = .throw "invalid state" := by
  unfold LinkTt.see
  rw [ht, hf]
  simp [hd, hm]

theorem run_ok : ∀ (r past : List (ℤ × Seen)) (m : LinkTt), Tracks m past → (∀ e ∈ r, e.2.done = false) →
    (Moves past r → ∃ m', Res.foldlM (fun m e => m.see e.1 e.2) m r = .ok m' ∧
      ∀ l, m'.tt l = (measured m.unit l past r).foldl smooth (m.tt l)) ∧
    (¬ Moves past r → Res.foldlM (fun m e => m.see e.1 e.2) m r = .throw "invalid state") := by
  intro r
  induction r with
  | nil => exact fun past m _ _ => ⟨fun _ => ⟨m, rfl, fun l => rfl⟩, fun h => absurd trivial h⟩
  | cons e r ih =>
    intro past m ht hd
    by_cases h1 : ∀ f, lastMet e.2.id past = some f → f.2.link ≠ e.2.link
    · obtain ⟨m1, a, b, c, d⟩ := see_ok ht e (hd e (by simp)) h1
      obtain ⟨p, q⟩ := ih (past ++ [e]) m1 b fun x hx => hd x (by simp [hx])
      refine ⟨fun hm => ?_, fun hm => ?_⟩
      · obtain ⟨m', h2, h3⟩ := p hm.2
        refine ⟨m', by rw [Res.foldlM_cons, a]; exact h2, fun l => ?_⟩
        rw [h3, d, c, ← List.foldl_append]
        rfl
      · rw [Res.foldlM_cons, a]
        exact q fun h => hm ⟨h1, h⟩
    · refine ⟨fun hm => absurd hm.1 h1, fun _ => ?_⟩
      push Not at h1
      obtain ⟨f, hf, hl⟩ := h1
      rw [Res.foldlM_cons, see_throw ht e (hd e (by simp)) f hf hl]
      rfl

end Verif.Rt
