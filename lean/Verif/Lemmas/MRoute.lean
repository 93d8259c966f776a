import Verif.Lemmas.RouteNodes
import Verif.Lemmas.MNetInv
import Verif.Spec.MRoute

/-! # Routes of cars and trucks under fixed routing -/

namespace Verif.MNet
open Ults Curve Net

/-- The links of the paths of each vehicle: `Lc` for cars, `Lt` for trucks. -/
def paths (truck : ℕ → Bool) (Lc Lt : ℕ → List ℕ) (v : ℕ) : ℕ → List ℕ := if truck v then Lt else Lc

theorem view_of_curves {s s' : State} (h : s' = { s with links := s'.links })
    (hl : ∀ l, (s'.links l).link = (s.links l).link) : s'.view = s.view := by
  rw [h]; unfold State.view
  simp only [Net.State.mk.injEq, and_true, true_and]
  funext l
  rw [hl l]

/-- A move as seen by the routing. -/
theorem mv_view {c : Cfg} {ts : ℕ} {vs : List ℕ} {src dst : Option ℕ} {s s' : State} (M : Mv c s s')
    (hlog : s'.log = s.log ++ vs.map fun v => ⟨ts, v, src, dst⟩)
    (hveh : ∀ v, s'.vehs v = if v ∈ vs then { s.vehs v with cur := dst } else s.vehs v)
    (hq : ∀ v n, v ∉ vs → v ∈ s'.queue n → v ∈ s.queue n)
    (hinc : ∀ v l, v ∉ vs → v ∈ s'.inc l → v ∈ s.inc l)
    (hfin : ∀ v l, v ∉ vs → v ∈ s'.fin l → v ∈ s.fin l)
    (vs1 : ∀ v, vs.count v ≤ 1) (old : ∀ v ∈ vs, v ∈ s.view.places c.net) :
    Net.Mv c.net ts vs src dst s.view s'.view := by
  have F := M.view.frame
  have htrav : s'.view.trav = s.view.trav := funext fun l => F.trav l
  refine ⟨?_, hlog, hveh, F.tracker, F.factory.1, F.factory.2.2.2.2, hq, ?_, ?_, vs1, old⟩
  · intro v
    rw [places_count, places_count, M.view.count v, htrav]
  · intro v l hv hvl
    rw [mem_on_iff] at hvl ⊢
    rw [htrav] at hvl
    simp only [view_fin, view_inc] at hvl ⊢
    rcases hvl with h | h | h
    · exact Or.inl (hfin v l hv h)
    · exact Or.inr (Or.inl h)
    · exact Or.inr (Or.inr (hinc v l hv h))
  · intro v l hv
    rw [view_fin, view_fin]; exact hfin v l hv

theorem split_count {vs left q : List ℕ} (h : (vs ++ left).Perm q) (hq : ∀ v, q.count v ≤ 1) (v : ℕ) :
    vs.count v ≤ 1 := by
  have h1 := h.count_eq v
  rw [List.count_append] at h1
  have := hq v
  omega

theorem fin_count {c : Cfg} {s : State} (h : Once c.net s.view) {l : ℕ} (hl : l ∈ c.net.linkIds) (v : ℕ) :
    (s.fin l).count v ≤ 1 := by
  have := h.on_count hl v
  rw [on_count_eq, view_fin] at this
  omega

theorem originMove_np {c : Cfg} (hc : c.net.Ok) {L : ℕ → ℕ → List ℕ} {ts n : ℕ}
    (hn : n ∈ c.net.nodeIds) (hnd : ¬ (c.net.node n).isDest) {s s' : State} {lv : ℕ × ℤ}
    (hl : lv.1 ∈ c.net.linkIds) (h : NP c.net L s.view)
    (he : originMove c.net.scalar ts n s lv = .ok s') : NP c.net L s'.view := by
  unfold originMove at he
  split at he
  swap
  · simp at he
  simp only at he
  have hsp := takeFirst_split (s.heads lv.1) lv.2.toNat (s.queue n)
  obtain ⟨M, hfin, hinc, _⟩ := enter_origin (ts := ts) hc hn hl hsp.1 hsp.2 rfl
  have hmem := fun v => takeFirst_fst_mem (p := s.heads lv.1) (n := lv.2.toNat) (q := s.queue n) (v := v)
  generalize hr : takeFirst (s.heads lv.1) lv.2.toNat (s.queue n) = r at *
  have hlog : (State.enter ts none lv.1 { s with queue := upd s.queue n r.2 } r.1).log
      = s.log ++ r.1.map fun v => ⟨ts, v, none, some lv.1⟩ := rfl
  have hveh : ∀ v, (State.enter ts none lv.1 { s with queue := upd s.queue n r.2 } r.1).vehs v
      = if v ∈ r.1 then { s.vehs v with cur := some lv.1 } else s.vehs v := fun _ => rfl
  have hq : (State.enter ts none lv.1 { s with queue := upd s.queue n r.2 } r.1).queue
      = upd s.queue n r.2 := rfl
  generalize hs1 : State.enter ts none lv.1 { s with queue := upd s.queue n r.2 } r.1 = s1 at *
  obtain ⟨a1, a2, _⟩ := noteIn_spec he
  rw [view_of_curves a1 a2]
  have m : Net.Mv c.net ts r.1 none (some lv.1) s.view s1.view := by
    refine mv_view M hlog hveh ?_ ?_ ?_ (split_count hsp.1 fun v => h.once.queue_count hn v) ?_
    · intro v k hv hk
      rw [hq] at hk
      by_cases e : k = n
      · subst e
        rw [upd_same] at hk
        exact hsp.2.subset hk
      · rwa [upd_other _ _ _ _ e] at hk
    · intro v k hv hk
      rw [hinc k] at hk
      split at hk
      · rw [List.mem_append] at hk; tauto
      · exact hk
    · intro v k hv hk
      rwa [hfin k] at hk
    · intro v hv
      exact mem_places_queue hn (hmem v hv).2
  refine h.enters hl m ?_ ?_
  · intro v hv
    rw [view_inc, hinc, if_pos rfl]
    exact List.mem_append_right _ hv
  · intro v hv ha
    obtain ⟨h1, h2⟩ := hmem v hv
    have hnext : (s.view.vehs v).next = some lv.1 := of_decide_eq_true h1
    obtain ⟨q1, q2, q3⟩ := (h.tr.queue v ha n hn h2).2 hnd
    rcases q3 with ⟨_, _, q3⟩ | ⟨p, l', rest, b1, b2, b3, b4⟩
    · rw [hnext] at q3; simp at q3
    · rw [hnext] at b3
      cases b3
      exact ⟨p, [], rest, b1, q1, rfl, hnext, b2, b4.symm⟩

theorem destTake_np {c : Cfg} (hc : c.net.Ok) {L : ℕ → ℕ → List ℕ} {ts n l : ℕ}
    (hn : n ∈ c.net.nodeIds) {ins : List ℕ} (hk : c.net.node n = .dest ins) {s s' : State}
    (hl : l ∈ c.net.linkIds) (h : NP c.net L s.view)
    (he : destTake c.net.scalar ts n s l = .ok s') : NP c.net L s'.view := by
  unfold destTake at he
  simp only at he
  split at he
  swap
  · simp at he
  rename_i hnone
  split at he
  swap
  · simp at he
  obtain ⟨M, hfin, hinc, _⟩ := leave_dest hc hn hl hk (s := s)
    (log := s.log ++ (s.fin l).map fun v => ⟨ts, v, some l, none⟩) rfl
  obtain ⟨a1, a2, _⟩ := noteOut_spec he
  rw [view_of_curves a1 a2]
  have m := mv_view (ts := ts) (vs := s.fin l) (src := some l) (dst := none) M rfl (fun _ => rfl)
    (by
      intro v k hv hq
      simp only at hq
      by_cases e : k = n
      · subst e
        rw [upd_same, List.mem_append] at hq
        tauto
      · rwa [upd_other _ _ _ _ e] at hq)
    (by intro v k hv hq; rwa [hinc k] at hq)
    (by
      intro v k hv hq
      rw [hfin k] at hq
      split at hq
      · simp at hq
      · exact hq)
    (fin_count h.once hl) (fun v hv => mem_places_on hl (fin_on (by rw [view_fin]; exact hv)))
  refine h.arrives (n0 := n) hn (by rw [hk]; trivial) m ?_ ?_
  · intro v hv
    show v ∈ upd s.queue n (s.queue n ++ s.fin l) n
    rw [upd_same]; exact List.mem_append_right _ hv
  · intro v hv ha
    have hnext : (s.view.vehs v).next = none := of_decide_eq_true (List.all_eq_true.1 hnone v hv)
    obtain ⟨p, E, e1, e2, e3, e4, e5⟩ := h.chosen l hl v (by rw [view_fin]; exact hv) ha
    rcases e5 with ⟨_, _, e5, _⟩ | ⟨l', rest, e5, _⟩
    · subst e5; exact ⟨p, e1, e2, e3⟩
    · rw [hnext] at e5; simp at e5

theorem takeEquiv_mem {eq : ℕ → ℚ} {p : ℕ → Bool} : ∀ {x : ℚ} {q : List ℕ} {v : ℕ},
    v ∈ (takeEquiv eq p x q).1 → p v = true ∧ v ∈ q
  | x, [], v, h => by simp [takeEquiv] at h
  | x, a :: q, v, h => by
    simp only [takeEquiv] at h
    split at h
    · split at h
      · rename_i hp
        rcases List.mem_cons.1 h with rfl | h
        · exact ⟨hp, by simp⟩
        · exact ⟨(takeEquiv_mem h).1, List.mem_cons_of_mem _ (takeEquiv_mem h).2⟩
      · exact ⟨(takeEquiv_mem h).1, List.mem_cons_of_mem _ (takeEquiv_mem h).2⟩
    · simp at h

theorem moveOne_np {c : Cfg} (hc : c.net.Ok) {L : ℕ → ℕ → List ℕ} {factor x : ℚ} {ts o i a b : ℕ}
    (hi : i ∈ c.net.linkIds) (ho : o ∈ c.net.linkIds) {t t' : State × Moved}
    (h : NP c.net L t.1.view) (e : moveOne factor ts o i a b x t = .ok t') : NP c.net L t'.1.view := by
  unfold moveOne at e
  simp only at e
  split at e
  · simp at e
  cases e
  have hsp := takeEquiv_split (equiv factor t.1.truck) (t.1.heads o) x (t.1.fin i)
  obtain ⟨M, hq, hfin, hinc, _⟩ := enter_link (ts := ts) hc hi ho hsp.1 hsp.2 rfl
  have hmem := fun v => takeEquiv_mem (eq := equiv factor t.1.truck) (p := t.1.heads o) (x := x)
    (q := t.1.fin i) (v := v)
  have hr' : takeEquiv (equiv factor t.1.truck) (t.1.heads o) x (t.1.links i).link.finished
    = takeEquiv (equiv factor t.1.truck) (t.1.heads o) x (t.1.fin i) := rfl
  rw [hr']
  generalize hr : takeEquiv (equiv factor t.1.truck) (t.1.heads o) x (t.1.fin i) = r at *
  have m := mv_view (ts := ts) (vs := r.1) (src := some i) (dst := some o) M rfl (fun _ => rfl)
    (by intro v k hv hk; rwa [hq] at hk)
    (by
      intro v k hv hk
      rw [hinc k] at hk
      split at hk
      · rw [List.mem_append] at hk; tauto
      · exact hk)
    (by
      intro v k hv hk
      rw [hfin k] at hk
      split at hk
      · rename_i e; subst e; exact hsp.2.subset hk
      · exact hk)
    (split_count hsp.1 (fin_count h.once hi))
    (fun v hv => mem_places_on hi (fin_on (by rw [view_fin]; exact (hmem v hv).2)))
  refine h.enters ho m ?_ ?_
  · intro v hv
    rw [view_inc, hinc, if_pos rfl]
    exact List.mem_append_right _ hv
  · intro v hv ha
    obtain ⟨h1, h2⟩ := hmem v hv
    have hnext : (t.1.view.vehs v).next = some o := of_decide_eq_true h1
    obtain ⟨p, E, e1, e2, e3, e4, e5⟩ := h.chosen i hi v (by rw [view_fin]; exact h2) ha
    rcases e5 with ⟨e5, _⟩ | ⟨l', rest, e5, e6, e7, _⟩
    · rw [hnext] at e5; simp at e5
    · rw [hnext] at e5
      cases e5
      exact ⟨p, E, rest, e1, e2, e3, hnext, e6, e7⟩

theorem moveAll_np {c : Cfg} (hc : c.net.Ok) {L : ℕ → ℕ → List ℕ} {scalar factor : ℚ} {ts : ℕ}
    {ins : List ℕ} {order : ℕ → List ℕ} (hi : ∀ i ∈ ins, i ∈ c.net.linkIds) :
    ∀ (cols : List (ℕ × List ℚ)) (b : ℕ) (t t' : State × Moved), (∀ om ∈ cols, om.1 ∈ c.net.linkIds) →
    NP c.net L t.1.view → moveAll scalar factor ts ins order b t cols = .ok t' → NP c.net L t'.1.view
  | [], b, t, t', _, h, he => by
    simp only [moveAll, Res.ok.injEq] at he
    exact he ▸ h
  | om :: cols, b, t, t', ho, h, he => by
    simp only [moveAll] at he
    rw [Res.bind_eq_ok'] at he
    obtain ⟨t1, h1, h2⟩ := he
    refine moveAll_np hc hi cols (b + 1) t1 t' (fun x hx => ho x (by simp [hx])) ?_ h2
    unfold moveCol at h1
    refine Res.foldlM_inv (P := fun t => NP c.net L t.1.view) ?_ _ _ _ h h1
    intro d k d' hb hk
    cases e : ins[k]? with
    | none => rw [e] at hk; simp at hk
    | some l =>
      rw [e] at hk
      exact moveOne_np hc (hi l (List.mem_of_getElem? e)) (ho om (by simp)) hb hk

theorem recordOuts_view {scalar : ℚ} {ts nIn : ℕ} {mv : Moved} : ∀ (os : List ℕ) (b : ℕ)
    (s s' : State), recordOuts scalar ts nIn mv b s os = .ok s' → s'.view = s.view
  | [], b, s, s', h => by simp only [recordOuts, Res.ok.injEq] at h; rw [h]
  | o :: os, b, s, s', h => by
    simp only [recordOuts] at h
    rw [Res.bind_eq_ok'] at h
    obtain ⟨s1, h1, h2⟩ := h
    obtain ⟨a1, a2, _⟩ := noteIn_spec h1
    rw [recordOuts_view os (b + 1) s1 s' h2, view_of_curves a1 a2]

theorem recordIns_view {scalar : ℚ} {ts nOut : ℕ} {mv : Moved} : ∀ (is : List ℕ) (a : ℕ)
    (s s' : State), recordIns scalar ts nOut mv a s is = .ok s' → s'.view = s.view
  | [], b, s, s', h => by simp only [recordIns, Res.ok.injEq] at h; rw [h]
  | o :: os, b, s, s', h => by
    simp only [recordIns] at h
    rw [Res.bind_eq_ok'] at h
    obtain ⟨s1, h1, h2⟩ := h
    obtain ⟨a1, a2, _⟩ := noteOut_spec h1
    rw [recordIns_view os (b + 1) s1 s' h2, view_of_curves a1 a2]

theorem node_np {c : Cfg} (hc : c.net.Ok) {L : ℕ → ℕ → List ℕ} {n : ℕ} (hn : n ∈ c.net.nodeIds)
    {ts : ℕ} {u : ℕ → ℚ} {order : ℕ → List ℕ} {s s' : State} (h : NP c.net L s.view)
    (he : nodeEvolve c.net.scalar c.factor ts n u order s (c.net.node n) = .ok s') :
    NP c.net L s'.view := by
  have hi := (hc.ins n hn).2
  have ho := (hc.outs n hn).2
  cases hk : c.net.node n with
  | origin outs =>
    rw [hk] at he ho
    simp only [Node.outs] at ho
    simp only [nodeEvolve, originEvolve] at he
    rw [Res.bind_eq_ok'] at he
    obtain ⟨lvs, h1, he⟩ := he
    have hfst := originVolumes_links h1
    refine Res.foldlM_inv_mem (P := fun t => NP c.net L (State.view t)) lvs ?_ _ _ h he
    intro b lv b' hlv hb hbe
    refine originMove_np hc hn (by rw [hk]; exact fun h => h) (ho _ ?_) hb hbe
    rw [← hfst]; exact List.mem_map_of_mem hlv
  | dest ins =>
    rw [hk] at he hi
    simp only [Node.ins] at hi
    simp only [nodeEvolve, destEvolve] at he
    refine Res.foldlM_inv_mem (P := fun t => NP c.net L (State.view t)) ins ?_ _ _ h he
    intro b l b' hl hb hbe
    exact destTake_np hc hn hk (hi l hl) hb hbe
  | fwj ins outs =>
    rw [hk] at he hi ho
    simp only [Node.ins] at hi
    simp only [Node.outs] at ho
    simp only [nodeEvolve, inoutEvolve] at he
    split at he
    swap
    · simp at he
    rw [Res.bind_eq_ok'] at he
    obtain ⟨sups, _, he⟩ := he
    rw [Res.bind_eq_ok'] at he
    obtain ⟨t, ht, he⟩ := he
    rw [Res.bind_eq_ok'] at he
    obtain ⟨s1, h1, h2⟩ := he
    rw [recordIns_view _ _ _ _ h2, recordOuts_view _ _ _ _ h1]
    refine moveAll_np hc hi _ _ _ _ ?_ h ht
    intro om hom
    exact ho _ (List.of_mem_zip hom).1
  | grj ins outs => rw [hk] at he; simp [nodeEvolve] at he

theorem stepNodes_np {c : Cfg} (hc : c.net.Ok) {L : ℕ → ℕ → List ℕ} {o : StepOracle} {ts : ℕ}
    {s s' : State} (h : NP c.net L s.view) (he : stepNodes c o ts s = .ok s') : NP c.net L s'.view := by
  refine Res.foldlM_inv_mem (P := fun t => NP c.net L (State.view t)) c.net.nodeIds ?_ s s' h he
  intro b n b' hn hb hbe
  exact node_np hc hn hb hbe

/-! ### Other phases -/

theorem tr_links {c : Cfg} {L : ℕ → ℕ → List ℕ} {s s' : State} (h : Tr c.net L s.view)
    (r : LStep c s s') : Tr c.net L s'.view := by
  have e1 : s'.view.vehs = s.view.vehs := by rw [r.rest]; rfl
  have e2 : s'.view.queue = s.view.queue := by rw [r.rest]; rfl
  have e3 : s'.view.tracker = s.view.tracker := by rw [r.rest]; rfl
  have e4 : s'.view.log = s.view.log := by rw [r.rest]; rfl
  have e5 : s'.view.numVeh = s.view.numVeh := by rw [r.rest]; rfl
  have e6 : s'.view.vehMap = s.view.vehMap := by rw [r.rest]; rfl
  have hon : ∀ l v, v ∈ s'.view.on l ↔ v ∈ s.view.on l := by
    intro l v
    rw [← List.count_pos_iff, ← List.count_pos_iff, view_on, view_on, (r.on l).count_eq]
  refine ⟨?_, ?_, ?_, ?_⟩
  · rw [e1, e2, e3, e4]; exact h.queue
  · rw [e1, e3, e4]
    intro v ha l hl hv
    exact h.on v ha l hl ((hon l v).1 hv)
  · rw [e1, e5, e6, e4]; exact h.done
  · rw [e5, e3, e4]; exact h.fresh

/-- Only the paths of vehicles in the network matter. -/
theorem tr_paths {c : Net.Cfg} {L L' : ℕ → ℕ → List ℕ} {s : Net.State} (hco : Core c s) (h : Tr c L s)
    (hL : ∀ v, v ≤ s.numVeh → L' v = L v) : Tr c L' s := by
  refine ⟨?_, ?_, ?_, h.fresh⟩
  · intro v ha n hn hv
    rw [hL v (hco.range v (hco.mem_map (mem_places_queue hn hv))).2]
    exact h.queue v ha n hn hv
  · intro v ha l hl hv
    rw [hL v (hco.range v (hco.mem_map (mem_places_on hl hv))).2]
    exact h.on v ha l hl hv
  · intro v h1 h2 ha hm
    rw [hL v h2]
    exact h.done v h1 h2 ha hm

theorem updateView_tr {c : Net.Cfg} (hc : c.Ok) {truck : ℕ → Bool} {Lc Lt : ℕ → List ℕ}
    (hcc : ∀ p, (Lc p).IsChain (· ≠ ·)) (hct : ∀ p, (Lt p).IsChain (· ≠ ·)) {r : Routing}
    {pc pt : PathTable} (hr : r.tables = some (pc, pt)) (hLc : pc.links = Lc) (hLt : pt.links = Lt)
    {o : RouteOracle} {s s' : Net.State} (hco : Core c s) (h : Tr c (paths truck Lc Lt) s)
    (he : r.updateView c truck o s = .ok s') :
    Tr c (paths truck Lc Lt) s' ∧
      ∀ l ∈ c.linkIds, ∀ v ∈ s'.fin l, Chosen c (paths truck Lc Lt) l v s' := by
  have hch : ∀ v p, (paths truck Lc Lt v p).IsChain (· ≠ ·) := by
    intro v p
    unfold paths
    split
    · exact hct p
    · exact hcc p
  cases r with
  | net r =>
    simp only [Routing.tables, Option.map_eq_some_iff, Prod.mk.injEq] at hr
    obtain ⟨t, ht, rfl, rfl⟩ := hr
    have e : Lc = Lt := hLc.symm.trans hLt
    subst e
    have e2 : paths truck Lc Lc = fun _ => Lc := by funext v; unfold paths; simp
    rw [e2] at h ⊢
    exact routing_tr hc hcc ht hLc hco h he
  | biclass tr p q =>
    simp only [Routing.tables, Option.some.injEq, Prod.mk.injEq] at hr
    obtain ⟨rfl, rfl⟩ := hr
    simp only [Routing.updateView] at he
    rw [Res.bind_eq_ok'] at he
    obtain ⟨s1, h1, he⟩ := he
    rw [Res.bind_eq_ok'] at he
    obtain ⟨s2, h2, h3⟩ := he
    have k : StaticKept s s1 := by
      cases tr with
      | none => cases h1; exact StaticKept.refl _
      | some t => exact adaptiveRouting_kept h1
    have hco1 := hco.routed k.routed
    obtain ⟨r2, t2, c2, _⟩ := fixedSome_tr (K := fun v => truck v = false) hc hch
      (by intro v hv; rw [hLc]; unfold paths; simp [hv]) hco1 (h.kept k) h2
    obtain ⟨r3, t3, c3, k3⟩ := fixedSome_tr (K := fun v => truck v = true) hc hch
      (by intro v hv; rw [hLt]; unfold paths; simp [hv]) (hco1.routed r2) t2 h3
    refine ⟨t3, ?_⟩
    intro l hl v hv
    cases hb : truck v with
    | true => exact c3 l hl v hv hb
    | false =>
      refine k3 l hl v hv (c2 l hl v ?_ hb)
      rw [← r3.fin_eq]; exact hv

/-! ### Whole intervals -/

/-- Cars follow `Lc`, trucks `Lt`. -/
def MTr (c : Cfg) (Lc Lt : ℕ → List ℕ) (s : State) : Prop := Tr c.net (paths s.truck Lc Lt) s.view

theorem release_routes {c : Cfg} (hc : c.net.Ok) {Lc Lt : ℕ → List ℕ}
    (hcc : ∀ p, (Lc p).IsChain (· ≠ ·)) (hct : ∀ p, (Lt p).IsChain (· ≠ ·)) {o : StepOracle}
    (ho : o.Ok c) {pc pt : PathTable} (hr : o.routing.tables = some (pc, pt)) (hLc : pc.links = Lc)
    (hLt : pt.links = Lt) {ts assign : ℕ} {s s1 s2 : State} (h : MCore c s) (ht : MTr c Lc Lt s)
    (r1 : stepRelease c o ts assign s = .ok s1) (r2 : o.routing.update c.net o.route s1 = .ok s2) :
    MTr c Lc Lt s2 ∧ ∀ l ∈ c.net.linkIds, ∀ v ∈ s2.fin l,
      Chosen c.net (paths s2.truck Lc Lt) l v s2.view := by
  obtain ⟨k, R⟩ := stepRelease_rel ho r1
  have h1 := h.rel hc R
  obtain ⟨T, Te, Tv⟩ := update_routed r2
  have htr : s2.truck = s1.truck := by rw [Te]
  have t1 : MTr c Lc Lt s1 := by
    have : Tr c.net (paths s1.truck Lc Lt) s.view := tr_paths h.view ht (by
      intro v hv
      unfold paths
      rw [R.truck v hv])
    exact this.rel hc h.view R.view
  obtain ⟨t2, c2⟩ := updateView_tr hc hcc hct hr hLc hLt h1.view t1 Tv
  unfold MTr
  rw [htr]
  refine ⟨t2, ?_⟩
  intro l hl v hv
  exact c2 l hl v (by rw [view_fin]; exact hv)

theorem loadOnce_tr {c : Cfg} (hc : c.net.Ok) (hsc : c.net.scalar ≠ 0) {Lc Lt : ℕ → List ℕ}
    (hcc : ∀ p, (Lc p).IsChain (· ≠ ·)) (hct : ∀ p, (Lt p).IsChain (· ≠ ·)) {o : StepOracle}
    (ho : o.Ok c) (hr : ∃ pc pt, o.routing.tables = some (pc, pt) ∧ pc.links = Lc ∧ pt.links = Lt)
    {ts assign : ℕ} {s s' : State} (h : MInv c ts s) (ht : MTr c Lc Lt s)
    (r : loadOnce c o ts assign s = .ok s') : MTr c Lc Lt s' := by
  obtain ⟨pc, pt, hr, hLc, hLt⟩ := hr
  unfold loadOnce at r
  rw [Res.bind_eq_ok'] at r
  obtain ⟨s0, r0, r⟩ := r
  rw [Res.bind_eq_ok'] at r
  obtain ⟨s1, r1, r⟩ := r
  rw [Res.bind_eq_ok'] at r
  obtain ⟨s2, r2, r⟩ := r
  rw [Res.bind_eq_ok'] at r
  obtain ⟨s3, r3, r⟩ := r
  rw [Res.bind_eq_ok'] at r
  obtain ⟨s4, r4, r5⟩ := r
  have L0 := setAttrs_step h.inv r0
  have h0 := h.attrs L0
  have t0 : MTr c Lc Lt s0 := by
    unfold MTr; rw [L0.truck]; exact tr_links ht L0
  obtain ⟨k, R⟩ := stepRelease_rel ho r1
  have h1 := h0.toMCore.rel hc R
  obtain ⟨T, Te, _⟩ := update_routed r2
  have h2 := h1.routed T Te
  obtain ⟨t2, c2⟩ := release_routes hc hcc hct ho hr hLc hLt h0.toMCore t0 r1 r2
  have n2 : NP c.net (paths s2.truck Lc Lt) s2.view :=
    ⟨h2.view.once, fun v hv => ⟨h2.view.mem_map hv, (h2.view.range v (h2.view.mem_map hv)).2⟩, t2,
      fun l hl v hv => c2 l hl v (by rw [view_fin] at hv; exact hv)⟩
  have N := stepNodes_step hc ho r3
  have h3 := h2.node hsc N
  have L := linksStep_all h3.inv r4
  have h4 := h3.links L
  have t4 : Tr c.net (paths s2.truck Lc Lt) s4.view := tr_links (stepNodes_np hc n2 r3).tr L
  have hL : s4.view = { s3.view with links := s4.view.links } := by rw [L.rest]; rfl
  have I4 := recvInv_of hc h0.net R.view T N.view h4.view hL
  obtain ⟨h5, e5⟩ := receive_allM hc _ _ _ (fun _ h => h) h4 I4 r5
  have t5 := Res.foldlM_inv_mem (P := fun t => RecvInv c.net ts t ∧ Tr c.net (paths s2.truck Lc Lt) t)
    c.net.destIds (by
      intro b d b' hd hb hbe
      exact ⟨(hb.1.receive hc hd hbe).1, hb.2.receive hc hd hb.1.core hbe⟩) s4.view s'.view ⟨I4, t4⟩ e5
  have htr : s'.truck = s2.truck := by
    have a : s4.truck = s2.truck := L.truck.trans N.rest.truck
    rw [← a]
    refine Res.foldlM_inv (P := fun t => State.truck t = s4.truck) ?_ _ _ _ rfl r5
    intro b d b' hb he
    rw [(receive_view he).2.truck, hb]
  unfold MTr
  rw [htr]; exact t5.2

theorem loadMany_tr {c : Cfg} (hc : c.net.Ok) (hsc : c.net.scalar ≠ 0) {Lc Lt : ℕ → List ℕ}
    (hcc : ∀ p, (Lc p).IsChain (· ≠ ·)) (hct : ∀ p, (Lt p).IsChain (· ≠ ·)) :
    ∀ (os : List StepOracle) (ts assign : ℕ) (s : State) (r : State × ℕ × ℕ), (∀ o ∈ os, o.Ok c) →
    (∀ o ∈ os, ∃ pc pt, o.routing.tables = some (pc, pt) ∧ pc.links = Lc ∧ pt.links = Lt) →
    MInv c ts s → MTr c Lc Lt s → loadMany c os ts assign s = .ok r →
    MInv c r.2.1 r.1 ∧ MTr c Lc Lt r.1
  | [], ts, assign, s, r, _, _, hi, h, e => by
    simp only [loadMany, Res.ok.injEq] at e
    subst e
    exact ⟨hi, h⟩
  | o :: os, ts, assign, s, r, ho, hr, hi, h, e => by
    simp only [loadMany] at e
    rw [Res.bind_eq_ok'] at e
    obtain ⟨s1, e1, e2⟩ := e
    exact loadMany_tr hc hsc hcc hct os _ _ s1 r (fun x hx => ho x (by simp [hx]))
      (fun x hx => hr x (by simp [hx])) (loadOnce_inv hc hsc (ho o (by simp)) hi e1)
      (loadOnce_tr hc hsc hcc hct (ho o (by simp)) (hr o (by simp)) hi h e1) e2

theorem fresh_mtr {c : Cfg} {Lc Lt : ℕ → List ℕ} {s : State} (h : Fresh s) : MTr c Lc Lt s := by
  have I := fresh_inv (c := c) h
  obtain ⟨links, rfl, hl⟩ := h
  refine ⟨?_, ?_, ?_, ?_⟩
  · intro v _ n _ hv; simp [State.view, State.init] at hv
  · intro v _ l hl' hv
    have := (I.view.range v (I.view.mem_map (mem_places_on hl' hv)))
    simp [State.view, State.init] at this
    omega
  · intro v h1 h2 _ _
    simp only [State.view, State.init] at h2
    omega
  · intro v _; exact ⟨rfl, rfl⟩

end Verif.MNet
