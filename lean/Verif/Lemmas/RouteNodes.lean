import Verif.Lemmas.Route

/-! # Routes of vehicles: the node, link and receiving phases -/

namespace Verif.Net
open Ults Curve Lnk

/-- What is known between two moves of the node phase. -/
structure NP (c : Cfg) (L : ℕ → ℕ → List ℕ) (s : State) : Prop where
  once : Once c s
  mem : ∀ v ∈ s.places c, v ∈ s.vehMap ∧ v ≤ s.numVeh
  tr : Tr c L s
  chosen : ∀ l ∈ c.linkIds, ∀ v ∈ s.fin l, Chosen c L l v s

/-- A move of the vehicles `vs`. -/
structure Mv (c : Cfg) (ts : ℕ) (vs : List ℕ) (src dst : Option ℕ) (s s' : State) : Prop where
  count : ∀ v, (s'.places c).count v = (s.places c).count v
  log : s'.log = s.log ++ vs.map fun v => ⟨ts, v, src, dst⟩
  veh : ∀ v, s'.vehs v = if v ∈ vs then { s.vehs v with cur := dst } else s.vehs v
  tracker : s'.tracker = s.tracker
  num : s'.numVeh = s.numVeh
  map : s'.vehMap = s.vehMap
  queue : ∀ v n, v ∉ vs → v ∈ s'.queue n → v ∈ s.queue n
  on : ∀ v l, v ∉ vs → v ∈ s'.on l → v ∈ s.on l
  fin : ∀ v l, v ∉ vs → v ∈ s'.fin l → v ∈ s.fin l
  vs1 : ∀ v, vs.count v ≤ 1
  old : ∀ v ∈ vs, v ∈ s.places c

theorem Mv.moves {c : Cfg} {ts : ℕ} {vs : List ℕ} {src dst : Option ℕ} {s s' : State}
    (m : Mv c ts vs src dst s s') (v : ℕ) :
    movesOf s'.log v = movesOf s.log v ++ if v ∈ vs then [(src, dst)] else [] := by
  rw [m.log, movesOf_append, movesOf_entry _ (fun _ => rfl) (m.vs1 v)]

theorem NP.move {c : Cfg} {L : ℕ → ℕ → List ℕ} {ts : ℕ} {vs : List ℕ} {src dst : Option ℕ} {s s' : State}
    (h : NP c L s) (m : Mv c ts vs src dst s s')
    (hq : ∀ v ∈ vs, (s.vehs v).adaptive = false → ∀ n ∈ c.nodeIds, v ∈ s'.queue n →
      (c.node n).isDest ∧ Done (L v) (s'.vehs v) (movesOf s'.log v))
    (ho : ∀ v ∈ vs, (s.vehs v).adaptive = false → ∀ l ∈ c.linkIds, v ∈ s'.on l →
      v ∉ s'.fin l ∧ OnLink (L v) l (s'.vehs v) (s'.tracker v) (movesOf s'.log v)) : NP c L s' := by
  have hmem : ∀ v, v ∈ s'.places c ↔ v ∈ s.places c := by
    intro v; rw [← List.count_pos_iff, m.count v, List.count_pos_iff]
  have hlog : ∀ v, v ∉ vs → movesOf s'.log v = movesOf s.log v := by
    intro v hv; rw [m.moves v, if_neg hv, List.append_nil]
  have hveh : ∀ v, v ∉ vs → s'.vehs v = s.vehs v := by
    intro v hv; rw [m.veh v, if_neg hv]
  have hadp : ∀ v, (s'.vehs v).adaptive = (s.vehs v).adaptive := by
    intro v; rw [m.veh v]; split <;> rfl
  refine ⟨fun v => by rw [m.count v]; exact h.once v, ?_, ⟨?_, ?_, ?_, ?_⟩, ?_⟩
  · intro v hv
    rw [m.map, m.num]; exact h.mem v ((hmem v).1 hv)
  · intro v ha n hn hv
    rw [hadp] at ha
    by_cases hvs : v ∈ vs
    · obtain ⟨d1, d2⟩ := hq v hvs ha n hn hv
      exact ⟨fun _ => d2, fun hd => absurd d1 hd⟩
    · rw [hveh v hvs, m.tracker, hlog v hvs]
      exact h.tr.queue v ha n hn (m.queue v n hvs hv)
  · intro v ha l hl hv
    rw [hadp] at ha
    by_cases hvs : v ∈ vs
    · exact Or.inr (ho v hvs ha l hl hv).2
    · rw [hveh v hvs, m.tracker, hlog v hvs]
      exact h.tr.on v ha l hl (m.on v l hvs hv)
  · intro v h1 h2 ha hm
    rw [hadp] at ha
    rw [m.map] at hm
    rw [m.num] at h2
    have hvs : v ∉ vs := fun e => hm (h.mem v (m.old v e)).1
    rw [hveh v hvs, hlog v hvs]
    exact h.tr.done v h1 h2 ha hm
  · intro v hv
    rw [m.num] at hv
    have hvs : v ∉ vs := fun e => absurd (h.mem v (m.old v e)).2 (by omega)
    rw [m.tracker, hlog v hvs]
    exact h.tr.fresh v hv
  · intro l hl v hv ha
    rw [hadp] at ha
    by_cases hvs : v ∈ vs
    · exact absurd hv (ho v hvs ha l hl (fin_on hv)).1
    · rw [hveh v hvs, m.tracker, hlog v hvs]
      exact h.chosen l hl v (m.fin v l hvs hv) ha

/-- Vehicles that enter link `o`. -/
theorem NP.enters {c : Cfg} {L : ℕ → ℕ → List ℕ} {ts o : ℕ} {vs : List ℕ} {src : Option ℕ} {s s' : State}
    (hol : o ∈ c.linkIds) (h : NP c L s) (m : Mv c ts vs src (some o) s s')
    (hin : ∀ v ∈ vs, v ∈ s'.inc o)
    (hst : ∀ v ∈ vs, (s.vehs v).adaptive = false → ∃ p E rest, (s.vehs v).path = some p ∧
      movesOf s.log v = legsPre E ∧ E.getLast? = src ∧ (s.vehs v).next = some o ∧
      s.tracker v = some rest ∧ E ++ o :: rest = L v p) : NP c L s' := by
  have honce : Once c s' := fun v => by rw [m.count v]; exact h.once v
  refine h.move m ?_ ?_
  · intro v hv _ n hn hvq
    exact (honce.queue_on hn hol hvq (inc_on (hin v hv))).elim
  · intro v hv ha l hl hvl
    have e := honce.on_on hl hol hvl (inc_on (hin v hv))
    subst e
    refine ⟨fun hf => honce.fin_inc hl hf (hin v hv), ?_⟩
    obtain ⟨p, E, rest, e1, e2, e3, e4, e5, e6⟩ := hst v hv ha
    refine ⟨p, E ++ [l], rest, ?_, ?_, by simp, ?_, ?_, by rw [m.tracker]; exact e5, by simpa using e6⟩
    · rw [m.veh v, if_pos hv]; exact e1
    · rw [m.moves v, if_pos hv, e2, legsPre_concat, e3]
    · rw [m.veh v, if_pos hv]
    · rw [m.veh v, if_pos hv]; exact e4

theorem NP.arrives {c : Cfg} {L : ℕ → ℕ → List ℕ} {ts l n0 : ℕ} {vs : List ℕ} {s s' : State}
    (hn0 : n0 ∈ c.nodeIds) (hd : (c.node n0).isDest) (h : NP c L s)
    (m : Mv c ts vs (some l) none s s') (hin : ∀ v ∈ vs, v ∈ s'.queue n0)
    (hst : ∀ v ∈ vs, (s.vehs v).adaptive = false → ∃ p, (s.vehs v).path = some p ∧
      movesOf s.log v = legsPre (L v p) ∧ (L v p).getLast? = some l) : NP c L s' := by
  have honce : Once c s' := fun v => by rw [m.count v]; exact h.once v
  refine h.move m ?_ ?_
  · intro v hv ha n hn hvq
    have e := honce.queue_queue hn hn0 hvq (hin v hv)
    subst e
    refine ⟨hd, ?_⟩
    obtain ⟨p, e1, e2, e3⟩ := hst v hv ha
    refine ⟨p, ?_, ?_⟩
    · rw [m.veh v, if_pos hv]; exact e1
    · rw [m.moves v, if_pos hv, e2, legs_eq, e3]
  · intro v hv _ k hk hvk
    exact (honce.queue_on hn0 hk (hin v hv) hvk).elim

/-- Changing curves changes nothing else. -/
theorem NP.curves {c : Cfg} {L : ℕ → ℕ → List ℕ} {s s' : State} (h : NP c L s) (r : OnlyCurves s s') :
    NP c L s' := by
  have hon : s'.on = s.on := by unfold State.on; funext l; rw [r.link]
  have hp : s'.places c = s.places c := by unfold State.places; rw [hon, r.queue]
  obtain ⟨f1, _, _, _, f5⟩ := r.factory
  refine ⟨fun v => by rw [hp]; exact h.once v, by rw [hp, f1, f5]; exact h.mem, ⟨?_, ?_, ?_, ?_⟩, ?_⟩
  · rw [r.vehs, r.queue, r.tracker, r.log]; exact h.tr.queue
  · rw [r.vehs, hon, r.tracker, r.log]; exact h.tr.on
  · rw [r.vehs, f1, f5, r.log]; exact h.tr.done
  · rw [f1, r.tracker, r.log]; exact h.tr.fresh
  · intro l hl v hv
    unfold Chosen
    rw [r.vehs, r.tracker, r.log]
    rw [r.fin] at hv
    exact h.chosen l hl v hv

theorem takeFirst_fst_mem {V : Type} {p : V → Bool} {n : ℕ} {q : List V} {v : V}
    (h : v ∈ (takeFirst p n q).1) : p v = true ∧ v ∈ q := by
  rw [takeFirst_fst] at h
  have := List.mem_of_mem_take h
  rw [List.mem_filter] at this
  exact ⟨this.2, this.1⟩

theorem mem_on_iff {s : State} {v l : ℕ} : v ∈ s.on l ↔ v ∈ s.fin l ∨ v ∈ s.trav l ∨ v ∈ s.inc l := by
  unfold State.on Link.holds State.fin State.trav State.inc
  simp only [List.mem_append]
  tauto

theorem originMove_np {c : Cfg} (hc : c.Ok) {L : ℕ → ℕ → List ℕ} {ts n : ℕ} (hn : n ∈ c.nodeIds)
    (hnd : ¬ (c.node n).isDest) {s s' : State} {lv : ℕ × ℤ} (hl : lv.1 ∈ c.linkIds) (h : NP c L s)
    (he : originMove c.scalar ts n s lv = .ok s') : NP c L s' := by
  have S := originMove_spec he
  obtain ⟨l, k⟩ := lv
  unfold originMove at he
  rw [Res.bind_eq_ok'] at he
  obtain ⟨cv, _, he⟩ := he
  simp only at he
  have hmem := fun v => takeFirst_fst_mem (p := s.heads l) (n := k.toNat) (q := s.queue n) (v := v)
  have hsub := takeFirst_sublist (s.heads l) k.toNat (s.queue n)
  have hperm := takeFirst_perm (s.heads l) k.toNat (s.queue n)
  generalize takeFirst (s.heads l) k.toNat (s.queue n) = r at *
  rw [Res.ok.injEq] at he
  have hinc : ∀ x, s'.inc x = if x = l then s.inc l ++ r.1 else s.inc x := by
    intro x; rw [← he]; simp only [State.inc, State.enter, upd]
    split <;> simp_all
  have hq : ∀ k, s'.queue k = if k = n then r.2 else s.queue k := by
    intro k; rw [← he]; simp only [State.enter, upd]
  have htrav : s'.trav = s.trav := funext fun l => S.frame.trav l
  have hm : Mv c ts r.1 none (some l) s s' := by
    refine ⟨?_, by rw [← he]; rfl, ?_, S.frame.tracker, S.frame.factory.1, S.frame.factory.2.2.2.2,
      ?_, ?_, ?_, ?_, ?_⟩
    · intro v
      have hqc := count_flatMap_upd hc.nodes hn (f := s.queue) (f' := s'.queue) S.queueOther v
      have hcnt := S.count c.linkIds hc.links (by simpa using hl) v
      have hf : c.linkIds.flatMap s'.fin = c.linkIds.flatMap s.fin := by
        apply List.flatMap_congr
        intro l _; exact S.fin l
      rw [places_count, places_count, htrav]
      unfold waitCount
      rw [hf]
      omega
    · intro v; rw [← he]; rfl
    · intro v m hv hvq
      rw [hq] at hvq
      split at hvq
      · rename_i e; subst e; exact hsub.subset hvq
      · exact hvq
    · intro v x hv hvx
      rw [mem_on_iff] at hvx ⊢
      rw [S.fin, htrav, hinc] at hvx
      split at hvx
      · rename_i e; subst e
        rw [List.mem_append] at hvx
        tauto
      · exact hvx
    · intro v x _ hvx; rwa [S.fin] at hvx
    · intro v
      have h1 := hperm.count_eq v
      rw [List.count_append] at h1
      have := h.once.queue_count hn v
      omega
    · intro v hv
      exact mem_places_queue hn (hmem v hv).2
  refine h.enters hl hm ?_ ?_
  · intro v hv
    rw [hinc, if_pos rfl]
    exact List.mem_append_right _ hv
  · intro v hv ha
    obtain ⟨h1, h2⟩ := hmem v hv
    have hnext : (s.vehs v).next = some l := of_decide_eq_true h1
    obtain ⟨q1, q2, q3⟩ := (h.tr.queue v ha n hn h2).2 hnd
    rcases q3 with ⟨_, _, q3⟩ | ⟨p, l', rest, a1, a2, a3, a4⟩
    · rw [hnext] at q3; simp at q3
    · rw [hnext] at a3
      cases a3
      exact ⟨p, [], rest, a1, q1, rfl, hnext, a2, a4.symm⟩

theorem destTake_np {c : Cfg} (hc : c.Ok) {L : ℕ → ℕ → List ℕ} {ts n l : ℕ} (hn : n ∈ c.nodeIds)
    (hd : (c.node n).isDest) {s s' : State} (hl : l ∈ c.linkIds) (h : NP c L s)
    (he : destTake c.scalar ts n s l = .ok s') : NP c L s' := by
  have S := destTake_spec he
  have htrav : s'.trav = s.trav := funext fun l => S.frame.trav l
  have hfin : ∀ x, s'.fin x = if x = l then [] else s.fin x := by
    intro x
    by_cases hx : x = l
    · rw [if_pos hx, hx]; exact (S.fin l (by simp)).1
    · rw [if_neg hx]; exact S.finOther x (by simpa using hx)
  have hq : s'.queue n = s.queue n ++ s.fin l := by simpa using S.queue
  unfold destTake at he
  simp only at he
  rw [Res.bind_eq_ok'] at he
  obtain ⟨cv, _, he⟩ := he
  split at he
  swap
  · simp at he
  rw [Res.ok.injEq] at he
  have hm : Mv c ts (s.fin l) (some l) none s s' := by
    refine ⟨?_, by rw [← he]; rfl, ?_, S.frame.tracker, S.frame.factory.1, S.frame.factory.2.2.2.2,
      ?_, ?_, ?_, ?_, ?_⟩
    · intro v
      have hqc := count_flatMap_upd hc.nodes hn (f := s.queue) (f' := s'.queue) S.queueOther v
      rw [hq, List.count_append] at hqc
      have hf := count_flatMap_upd hc.links hl (f := s.fin) (f' := s'.fin)
        (fun x hx => by rw [hfin, if_neg hx]) v
      rw [hfin, if_pos rfl, List.count_nil] at hf
      have hi : c.linkIds.flatMap s'.inc = c.linkIds.flatMap s.inc := by
        apply List.flatMap_congr
        intro l _; exact S.inc l
      rw [places_count, places_count, htrav]
      unfold waitCount
      rw [hi]
      omega
    · intro v; rw [← he]; rfl
    · intro v m hv hvq
      by_cases e : m = n
      · subst e
        rw [hq, List.mem_append] at hvq
        tauto
      · rwa [S.queueOther m e] at hvq
    · intro v x hv hvx
      rw [mem_on_iff] at hvx ⊢
      rw [hfin, htrav, S.inc] at hvx
      split at hvx
      · simp only [List.not_mem_nil, false_or] at hvx; tauto
      · exact hvx
    · intro v x _ hvx
      rw [hfin] at hvx
      split at hvx
      · simp at hvx
      · exact hvx
    · intro v
      have := h.once.on_count hl v
      rw [on_count_eq] at this
      omega
    · intro v hv
      exact mem_places_on hl (fin_on hv)
  refine h.arrives hn hd hm ?_ ?_
  · intro v hv
    rw [hq]; exact List.mem_append_right _ hv
  · intro v hv ha
    have hnext := S.none l (by simp) v hv
    obtain ⟨p, E, e1, e2, e3, e4, e5⟩ := h.chosen l hl v hv ha
    rcases e5 with ⟨_, _, e5, _⟩ | ⟨l', rest, e5, _⟩
    · subst e5; exact ⟨p, e1, e2, e3⟩
    · rw [hnext] at e5; simp at e5

theorem moveOne_np {c : Cfg} (hc : c.Ok) {L : ℕ → ℕ → List ℕ} {ts o i : ℕ} {n : ℤ}
    (ho : o ∈ c.linkIds) (hi : i ∈ c.linkIds) {s s' : State} (h : NP c L s)
    (he : moveOne ts o i n s = .ok s') : NP c L s' := by
  obtain ⟨a1, _, _, _, _, a6, a7, _, a9, a10, a11, a12⟩ := moveOne_spec he
  have hmem : ∀ v ∈ (s.waiting i o).take n.toNat, v ∈ s.fin i ∧ (s.vehs v).next = some o := by
    intro v hv
    have := List.mem_of_mem_take hv
    unfold State.waiting at this
    rw [List.mem_filter] at this
    exact ⟨this.1, of_decide_eq_true this.2⟩
  have htrav : s'.trav = s.trav := funext fun l => a1.toFrame.trav l
  have hm : Mv c ts ((s.waiting i o).take n.toNat) (some i) (some o) s s' := by
    refine ⟨?_, a12, ?_, a1.tracker, a1.factory.1, a1.factory.2.2.2.2, ?_, ?_, ?_, ?_, ?_⟩
    · intro v
      rw [places_count, places_count, htrav, a1.queue,
        moveOne_count he hc.links hc.links hi ho v]
    · intro v
      have hfst := takeFirst_fst (s.heads o) n.toNat (s.links i).link.finished
      have hW : s.waiting i o = (s.links i).link.finished.filter (s.heads o) := rfl
      unfold moveOne at he
      simp only at he
      split at he
      · cases he
        rw [hW, ← hfst]
        rfl
      · simp at he
    · intro v m _ hvq; rwa [a1.queue] at hvq
    · intro v x hv hvx
      rw [mem_on_iff] at hvx ⊢
      rw [htrav] at hvx
      rcases hvx with hvx | hvx | hvx
      · left
        by_cases e : x = i
        · subst e; exact a7.subset hvx
        · rwa [a6 x e] at hvx
      · exact Or.inr (Or.inl hvx)
      · right; right
        by_cases e : x = o
        · subst e
          rw [a9, List.mem_append] at hvx
          tauto
        · rwa [a10 x e] at hvx
    · intro v x _ hvx
      by_cases e : x = i
      · subst e; exact a7.subset hvx
      · rwa [a6 x e] at hvx
    · intro v
      have h1 := a11.count_eq v
      rw [List.count_append] at h1
      have := h.once.on_count hi v
      rw [on_count_eq] at this
      omega
    · intro v hv
      exact mem_places_on hi (fin_on (hmem v hv).1)
  refine h.enters ho hm ?_ ?_
  · intro v hv
    rw [a9]; exact List.mem_append_right _ hv
  · intro v hv ha
    obtain ⟨h1, h2⟩ := hmem v hv
    obtain ⟨p, E, e1, e2, e3, e4, e5⟩ := h.chosen i hi v h1 ha
    rcases e5 with ⟨e5, _⟩ | ⟨l', rest, e5, e6, e7, _⟩
    · rw [h2] at e5; simp at e5
    · rw [h2] at e5
      cases e5
      exact ⟨p, E, rest, e1, e2, e3, h2, e6, e7⟩

theorem moveAll_np {c : Cfg} (hc : c.Ok) {L : ℕ → ℕ → List ℕ} {ts : ℕ} {ins : List ℕ} {orc : NodeOracle}
    (hi : ∀ i ∈ ins, i ∈ c.linkIds) : ∀ (oms : List (ℕ × List ℤ)) (j : ℕ) (s s' : State),
    (∀ om ∈ oms, om.1 ∈ c.linkIds) → NP c L s → moveAll ts ins orc j s oms = .ok s' → NP c L s'
  | [], j, s, s', _, h, he => by
    simp only [moveAll, Res.ok.injEq] at he
    exact he ▸ h
  | om :: oms, j, s, s', ho, h, he => by
    simp only [moveAll] at he
    rw [Res.bind_eq_ok'] at he
    obtain ⟨s1, h1, h2⟩ := he
    refine moveAll_np hc hi oms (j + 1) s1 s' (fun x hx => ho x (by simp [hx])) ?_ h2
    unfold moveCol at h1
    refine Res.foldlM_inv (P := fun t => NP c L t) ?_ _ _ _ h h1
    intro b k b' hb hk
    cases e : ins[k]? with
    | none => rw [e] at hk; simp at hk
    | some l =>
      rw [e] at hk
      exact moveOne_np hc (ho om (by simp)) (hi l (List.mem_of_getElem? e)) hb hk

theorem recordOut_curves {scalar : ℚ} {ts : ℕ} {s s' : State} {om : ℕ × List ℤ}
    (h : recordOut scalar ts s om = .ok s') : OnlyCurves s s' := by
  have : Res.foldlM (recordOut scalar ts) s [om] = .ok s' := by
    rw [Res.foldlM_cons, h]; rfl
  exact (recordOut_spec [om] s s' this (by simp)).1

theorem recordIn_curves {scalar : ℚ} {ts : ℕ} {s s' : State} {im : ℕ × ℤ}
    (h : recordIn scalar ts s im = .ok s') : OnlyCurves s s' := by
  have : Res.foldlM (recordIn scalar ts) s [im] = .ok s' := by
    rw [Res.foldlM_cons, h]; rfl
  exact (recordIn_spec [im] s s' this (by simp)).1

theorem inout_np {c : Cfg} (hc : c.Ok) {L : ℕ → ℕ → List ℕ} {ts : ℕ} {grj : Bool} {ins outs : List ℕ}
    (hi : ∀ i ∈ ins, i ∈ c.linkIds) (ho : ∀ o ∈ outs, o ∈ c.linkIds) {orc : NodeOracle}
    {s s' : State} (h : NP c L s) (he : inoutEvolve c.scalar ts grj ins outs orc s = .ok s') :
    NP c L s' := by
  unfold inoutEvolve at he
  split at he
  swap
  · simp at he
  rw [Res.bind_eq_ok'] at he
  obtain ⟨sups, _, he⟩ := he
  rw [Res.bind_eq_ok'] at he
  obtain ⟨flows, _, he⟩ := he
  rw [Res.bind_eq_ok'] at he
  obtain ⟨mv, _, he⟩ := he
  rw [Res.bind_eq_ok'] at he
  obtain ⟨s1, h1, he⟩ := he
  rw [Res.bind_eq_ok'] at he
  obtain ⟨s2, h2, he⟩ := he
  have A : NP c L s1 := Res.foldlM_inv (P := fun t => NP c L t)
    (fun b a b' hb hk => hb.curves (recordOut_curves hk)) _ _ _ h h1
  have B : NP c L s2 := Res.foldlM_inv (P := fun t => NP c L t)
    (fun b a b' hb hk => hb.curves (recordIn_curves hk)) _ _ _ A h2
  refine moveAll_np hc hi _ _ _ _ ?_ B he
  intro om hom
  exact ho _ (List.of_mem_zip hom).1

theorem node_np {c : Cfg} (hc : c.Ok) {L : ℕ → ℕ → List ℕ} {o : NodeOracle} {n : ℕ}
    (hn : n ∈ c.nodeIds) {ts : ℕ} {s s' : State} (h : NP c L s)
    (he : (c.node n).evolve c.scalar ts n o s = .ok s') : NP c L s' := by
  have hi := (hc.ins n hn).2
  have ho := (hc.outs n hn).2
  cases hk : c.node n with
  | origin outs =>
    rw [hk] at he ho
    simp only [Node.outs] at ho
    simp only [Node.evolve, originEvolve] at he
    split at he
    swap
    · simp at he
    rw [Res.bind_eq_ok'] at he
    obtain ⟨lvs, h1, he⟩ := he
    have hfst : lvs.map Prod.fst = outs := (originVolumes_get h1).1
    refine Res.foldlM_inv_mem (P := fun t => NP c L t) lvs ?_ _ _ h he
    intro b lv b' hlv hb hbe
    refine originMove_np hc hn (by rw [hk]; exact fun h => h) (ho _ ?_) hb hbe
    rw [← hfst]; exact List.mem_map_of_mem hlv
  | dest ins =>
    rw [hk] at he hi
    simp only [Node.ins] at hi
    simp only [Node.evolve, destEvolve] at he
    refine Res.foldlM_inv_mem (P := fun t => NP c L t) ins ?_ _ _ h he
    intro b l b' hl hb hbe
    exact destTake_np hc hn (by rw [hk]; trivial) (hi l hl) hb hbe
  | fwj ins outs =>
    rw [hk] at he hi ho
    exact inout_np hc hi ho h he
  | grj ins outs =>
    rw [hk] at he hi ho
    exact inout_np hc hi ho h he

theorem stepNodes_np {c : Cfg} (hc : c.Ok) {L : ℕ → ℕ → List ℕ} {o : StepOracle} {ts : ℕ}
    {s s' : State} (h : NP c L s) (he : stepNodes c o ts s = .ok s') : NP c L s' := by
  refine Res.foldlM_inv_mem (P := fun t => NP c L t) c.nodeIds ?_ s s' h he
  intro b n b' hn hb hbe
  exact node_np hc hn hb hbe

theorem Tr.linksStep {c : Cfg} {L : ℕ → ℕ → List ℕ} {s s' : State} (hco : Core c s) (h : Tr c L s)
    (r : LinksStep s s') : Tr c L s' := by
  have hon : s'.on = s.on := funext fun l => r.holds hco.links l
  have e1 : s'.vehs = s.vehs := by rw [r.rest]
  have e2 : s'.queue = s.queue := by rw [r.rest]
  have e3 : s'.tracker = s.tracker := by rw [r.rest]
  have e4 : s'.log = s.log := by rw [r.rest]
  have e5 : s'.numVeh = s.numVeh := by rw [r.rest]
  have e6 : s'.vehMap = s.vehMap := by rw [r.rest]
  refine ⟨?_, ?_, ?_, ?_⟩
  · rw [e1, e2, e3, e4]; exact h.queue
  · rw [e1, hon, e3, e4]; exact h.on
  · rw [e1, e5, e6, e4]; exact h.done
  · rw [e5, e3, e4]; exact h.fresh

theorem Tr.receive {c : Cfg} (hc : c.Ok) {L : ℕ → ℕ → List ℕ} {ts d : ℕ} (hd : d ∈ c.destIds)
    {s s' : State} (hco : Core c s) (h : Tr c L s) (he : receive c ts s d = .ok s') : Tr c L s' := by
  obtain ⟨hn, ins, hk⟩ := hc.dests d hd
  have hnd := hco.queue_nodup hn
  obtain ⟨S, hq⟩ := receive_spec he hnd
  have hveh : ∀ v, v ∉ s.queue (c.destNode d) → s'.vehs v = s.vehs v := S.other
  have htr : ∀ v, v ∉ s.queue (c.destNode d) → s'.tracker v = s.tracker v := by
    intro v hv
    have := S.tracker v
    simp only [if_neg hv] at this
    exact this
  have hlog : s'.log = s.log := S.log
  have hnum : s'.numVeh = s.numVeh := S.num
  have hon : s'.on = s.on := by
    have : s'.links = s.links := S.links
    unfold State.on; rw [this]
  have hadp : ∀ v, (s'.vehs v).adaptive = (s.vehs v).adaptive := by
    intro v
    have := S.veh v; simp only [Veh.mk.injEq] at this; tauto
  have hpath : ∀ v, (s'.vehs v).path = (s.vehs v).path := by
    intro v
    have := S.veh v; simp only [Veh.mk.injEq] at this; tauto
  refine ⟨?_, ?_, ?_, ?_⟩
  · intro v ha n hn' hv
    rw [hadp] at ha
    rw [hq] at hv
    by_cases e : n = c.destNode d
    · subst e; simp at hv
    · rw [upd_other _ _ _ _ e] at hv
      have hnot : v ∉ s.queue (c.destNode d) := fun h2 => e (hco.once.queue_queue hn' hn hv h2)
      rw [hveh v hnot, htr v hnot, hlog]
      exact h.queue v ha n hn' hv
  · intro v ha l hl hv
    rw [hadp] at ha
    rw [hon] at hv
    have hnot : v ∉ s.queue (c.destNode d) := fun h2 => hco.once.queue_on hn hl h2 hv
    rw [hveh v hnot, htr v hnot, hlog]
    exact h.on v ha l hl hv
  · intro v h1 h2 ha hm
    rw [hadp] at ha
    rw [hnum] at h2
    rw [hlog]
    by_cases hv : v ∈ s.queue (c.destNode d)
    · obtain ⟨p, p1, p2⟩ := (h.queue v ha _ hn hv).1 (by rw [hk]; trivial)
      exact ⟨p, by rw [hpath]; exact p1, p2⟩
    · rw [hveh v hv]
      refine h.done v h1 h2 ha ?_
      intro hm'
      apply hm
      have := S.map v
      rw [List.count_eq_zero.2 hv] at this
      rw [← List.count_pos_iff] at hm' ⊢
      simp only at this
      omega
  · intro v hv
    rw [hnum] at hv
    have hnot : v ∉ s.queue (c.destNode d) := fun h2 =>
      absurd (hco.range v (hco.mem_map (mem_places_queue hn h2))).2 (by omega)
    rw [htr v hnot, hlog]
    exact h.fresh v hv

/-! ### Whole intervals -/

theorem loadOnce_tr {c : Cfg} (hc : c.Ok) (hsc : c.scalar ≠ 0) {L : ℕ → List ℕ}
    (hch : ∀ p, (L p).IsChain (· ≠ ·)) {o : StepOracle} (ho : o.Ok c)
    (hr : ∃ pt, o.routing.table = some pt ∧ pt.links = L) {ts assign : ℕ} {s s' : State}
    (hi : NetInv c ts s) (h : Tr c (fun _ => L) s) (r : loadOnce c o ts assign s = .ok s') : Tr c (fun _ => L) s' := by
  unfold loadOnce at r
  rw [Res.bind_eq_ok'] at r
  obtain ⟨s1, r1, r⟩ := r
  rw [Res.bind_eq_ok'] at r
  obtain ⟨s2, r2, r⟩ := r
  rw [Res.bind_eq_ok'] at r
  obtain ⟨s3, r3, r⟩ := r
  rw [Res.bind_eq_ok'] at r
  obtain ⟨s4, r4, r5⟩ := r
  have h4 := before_receive hc hsc ho hi r1 r2 r3 r4
  obtain ⟨k, R⟩ := stepRelease_rel ho r1
  have T := routing_routed r2
  have N := stepNodes_step hc ho r3
  have C1 := hi.core.rel hc R
  have C2 := C1.routed T
  have C3 := C2.node hsc N
  obtain ⟨pt, hpt, hL⟩ := hr
  obtain ⟨t2, t2'⟩ := routing_tr hc hch hpt hL C1 (h.rel hc hi.core R) r2
  have n2 : NP c (fun _ => L) s2 := ⟨C2.once, fun v hv => ⟨C2.mem_map hv, (C2.range v (C2.mem_map hv)).2⟩, t2, t2'⟩
  have t4 := (stepNodes_np hc n2 r3).tr.linksStep C3 (linksStep_all r4)
  have := Res.foldlM_inv_mem (P := fun t => RecvInv c ts t ∧ Tr c (fun _ => L) t) c.destIds (by
    intro b d b' hd hb hbe
    exact ⟨(hb.1.receive hc hd hbe).1, hb.2.receive hc hd hb.1.core hbe⟩) s4 s' ⟨h4, t4⟩ r5
  exact this.2

theorem loadMany_tr {c : Cfg} (hc : c.Ok) (hsc : c.scalar ≠ 0) {L : ℕ → List ℕ}
    (hch : ∀ p, (L p).IsChain (· ≠ ·)) : ∀ (os : List StepOracle) (ts assign : ℕ) (s : State)
    (r : State × ℕ × ℕ), (∀ o ∈ os, o.Ok c) →
    (∀ o ∈ os, ∃ pt, o.routing.table = some pt ∧ pt.links = L) → NetInv c ts s → Tr c (fun _ => L) s →
    loadMany c os ts assign s = .ok r → NetInv c r.2.1 r.1 ∧ Tr c (fun _ => L) r.1
  | [], ts, assign, s, r, _, _, hi, h, e => by
    simp only [loadMany, Res.ok.injEq] at e
    subst e
    exact ⟨hi, h⟩
  | o :: os, ts, assign, s, r, ho, hr, hi, h, e => by
    simp only [loadMany] at e
    rw [Res.bind_eq_ok'] at e
    obtain ⟨s1, e1, e2⟩ := e
    exact loadMany_tr hc hsc hch os _ _ s1 r (fun x hx => ho x (by simp [hx]))
      (fun x hx => hr x (by simp [hx])) (loadOnce_inv hc hsc (ho o (by simp)) hi e1)
      (loadOnce_tr hc hsc hch (ho o (by simp)) (hr o (by simp)) hi h e1) e2

/-- What the invariant says about a vehicle. -/
theorem Tr.story {c : Cfg} {L : ℕ → ℕ → List ℕ} {s : State} (T : Tr c L s) (I : Core c s) (v : ℕ)
    (h1 : 1 ≤ v) (h2 : v ≤ s.numVeh) (hv : (s.vehs v).adaptive = false) :
    ((s.vehs v).path = none → movesOf s.log v = [] ∧ ∃ n ∈ c.nodeIds, v ∈ s.queue n) ∧
    (∀ p, (s.vehs v).path = some p → movesOf s.log v <+: legs (L v p)) ∧
    (v ∉ s.vehMap → ∃ p, (s.vehs v).path = some p ∧ movesOf s.log v = legs (L v p)) ∧
    (∀ l ∈ c.linkIds, v ∈ s.on l → ∃ m, (movesOf s.log v).getLast? = some m ∧ m.2 = some l) := by
  have hlast : ∀ E : List ℕ, ∀ l, E.getLast? = some l →
      ∃ m, (legsPre E).getLast? = some m ∧ m.2 = some l := by
    intro E l hl
    rcases List.eq_nil_or_concat E with rfl | ⟨d, b, rfl⟩
    · simp at hl
    · simp only [List.concat_eq_append, List.getLast?_append, List.getLast?_singleton,
        Option.some_or, Option.some.injEq] at hl
      subst hl
      rw [List.concat_eq_append, legsPre_concat]
      exact ⟨_, by rw [List.getLast?_append, List.getLast?_singleton, Option.some_or], rfl⟩
  have hon : ∀ l ∈ c.linkIds, v ∈ s.on l → ∃ p E F, (s.vehs v).path = some p ∧
      movesOf s.log v = legsPre E ∧ E.getLast? = some l ∧ E ++ F = L v p := by
    intro l hl hvl
    rcases T.on v hv l hl hvl with ⟨p, E, e1, e2, e3, _, e5⟩ | ⟨p, E, rest, e1, e2, e3, _, _, _, e7⟩
    · rcases e5 with ⟨_, _, e5, _⟩ | ⟨l', rest, _, _, e5, _⟩
      · exact ⟨p, E, [], e1, e2, e3, by rw [List.append_nil]; exact e5⟩
      · exact ⟨p, E, _, e1, e2, e3, e5⟩
    · exact ⟨p, E, rest, e1, e2, e3, e7⟩
  have hplace : v ∈ s.vehMap → (∃ n ∈ c.nodeIds, v ∈ s.queue n) ∨
      ∃ l ∈ c.linkIds, v ∈ s.on l := by
    intro hm
    rw [← List.count_pos_iff, ← I.place v, List.count_pos_iff] at hm
    unfold State.places at hm
    rw [List.mem_append, List.mem_flatMap, List.mem_flatMap] at hm
    exact hm
  refine ⟨?_, ?_, T.done v h1 h2 hv, ?_⟩
  · intro hp
    by_cases hm : v ∈ s.vehMap
    · rcases hplace hm with ⟨n, hn, hq⟩ | ⟨l, hl, hq⟩
      · refine ⟨?_, n, hn, hq⟩
        by_cases hd : (c.node n).isDest
        · obtain ⟨p, e, _⟩ := (T.queue v hv n hn hq).1 hd
          rw [hp] at e; simp at e
        · exact ((T.queue v hv n hn hq).2 hd).1
      · obtain ⟨p, _, _, e, _⟩ := hon l hl hq
        rw [hp] at e; simp at e
    · obtain ⟨p, e, _⟩ := T.done v h1 h2 hv hm
      rw [hp] at e; simp at e
  · intro p hp
    by_cases hm : v ∈ s.vehMap
    · rcases hplace hm with ⟨n, hn, hq⟩ | ⟨l, hl, hq⟩
      · by_cases hd : (c.node n).isDest
        · obtain ⟨q, e, e2⟩ := (T.queue v hv n hn hq).1 hd
          rw [hp] at e; cases e
          rw [e2]; exact List.prefix_refl _
        · rw [((T.queue v hv n hn hq).2 hd).1]
          exact List.nil_prefix
      · obtain ⟨q, E, F, e, e2, _, e4⟩ := hon l hl hq
        rw [hp] at e; cases e
        rw [e2, ← e4]; exact legsPre_legs E F
    · obtain ⟨q, e, e2⟩ := T.done v h1 h2 hv hm
      rw [hp] at e; cases e
      rw [e2]; exact List.prefix_refl _
  · intro l hl hvl
    obtain ⟨p, E, F, _, e2, e3, _⟩ := hon l hl hvl
    rw [e2]; exact hlast E l e3

theorem fresh_tr {c : Cfg} {L : ℕ → ℕ → List ℕ} {s : State} (h : Fresh s) : Tr c L s := by
  obtain ⟨links, rfl, hl⟩ := h
  refine ⟨?_, ?_, ?_, ?_⟩
  · intro v _ n _ hv; simp [State.init] at hv
  · intro v _ l _ hv
    obtain ⟨⟨k, a, hk⟩, _⟩ := hl l
    have : (State.init links).on l = [] := (mkLink_empty hk).2
    rw [this] at hv; simp at hv
  · intro v h1 h2 _ _
    simp only [State.init] at h2
    omega
  · intro v _; exact ⟨rfl, rfl⟩

end Verif.Net
