import Verif.Spec.MHistory
import Verif.Lemmas.MNetInv
import Verif.Lemmas.History

/-! # Lemmas: the curves of a link record the cars and trucks that moved -/

namespace Verif.MNet
open Ults Curve Net Tt

/-- What the movements `es` of one node phase do to the log, the links and the queues. -/
structure MHist (c : Cfg) (truck : ℕ → Bool) (ts : ℕ) (s s' : State) (es : List Event) : Prop where
  log : s'.log = s.log ++ es
  time : ∀ e ∈ es, e.t = ts
  inc : ∀ l, s'.inc l = s.inc l ++ (es.filter fun e => decide (e.dst = some l)).map Event.veh
  fin : ∀ l b, cls truck b (s.fin l)
    = cls truck b (s'.fin l) + (es.filter fun e => decide (e.src = some l ∧ truck e.veh = b)).length
  dst : ∀ e ∈ es, ∀ l, e.dst = some l → l ∈ c.net.linkIds
  node : ∀ e ∈ es, ∀ l, e.dst = some l → ∃ n ∈ c.net.nodeIds, l ∈ (c.net.node n).outs ∧
    (e.src = none ↔ ∃ outs, c.net.node n = .origin outs)
  dest : ∀ e ∈ es, e.dst = none → ∃ n ∈ c.net.nodeIds, (c.net.node n).isDest ∧ e.veh ∈ s'.queue n
  queue : ∀ n, (c.net.node n).isDest → ∀ v ∈ s.queue n, v ∈ s'.queue n

theorem MHist.refl (c : Cfg) (truck : ℕ → Bool) (ts : ℕ) (s : State) : MHist c truck ts s s [] :=
  ⟨by simp, by simp, by simp, by simp, by simp, by simp, by simp, fun _ _ _ h => h⟩

theorem MHist.trans {c : Cfg} {truck : ℕ → Bool} {ts : ℕ} {a b d : State} {es fs : List Event}
    (h : MHist c truck ts a b es) (k : MHist c truck ts b d fs) : MHist c truck ts a d (es ++ fs) := by
  refine ⟨by rw [k.log, h.log, List.append_assoc], ?_, ?_, ?_, ?_, ?_, ?_,
    fun n hn v hv => k.queue n hn v (h.queue n hn v hv)⟩
  · intro e he
    rcases List.mem_append.1 he with he | he
    · exact h.time e he
    · exact k.time e he
  · intro l; rw [k.inc, h.inc, List.filter_append, List.map_append, List.append_assoc]
  · intro l x; rw [List.filter_append, List.length_append, h.fin, k.fin]; omega
  · intro e he
    rcases List.mem_append.1 he with he | he
    · exact h.dst e he
    · exact k.dst e he
  · intro e he
    rcases List.mem_append.1 he with he | he
    · exact h.node e he
    · exact k.node e he
  · intro e he hd
    rcases List.mem_append.1 he with he | he
    · obtain ⟨n, h1, h2, h3⟩ := h.dest e he hd
      exact ⟨n, h1, h2, k.queue n h2 _ h3⟩
    · exact k.dest e he hd

/-- A step that changes nothing but curves moves nobody. -/
theorem MHist.curves {c : Cfg} {truck : ℕ → Bool} {ts : ℕ} {s s' : State} (r : OnlyCurves s s') :
    MHist c truck ts s s' [] := by
  have hi : ∀ l, s'.inc l = s.inc l := fun l => by unfold State.inc; rw [r.link]
  have hf : ∀ l, s'.fin l = s.fin l := fun l => by unfold State.fin; rw [r.link]
  have e := r.rest
  refine ⟨by rw [e]; simp, by simp, by intro l; rw [hi]; simp, by intro l b; rw [hf]; simp,
    by simp, by simp, by simp, ?_⟩
  intro n _ v hv
  rw [e]; exact hv

theorem filter_cls (truck : ℕ → Bool) (p : Event → Bool) (b : Bool) (es : List Event) :
    cls truck b ((es.filter p).map Event.veh)
      = (es.filter fun e => p e && decide (truck e.veh = b)).length := by
  unfold cls
  induction es with
  | nil => rfl
  | cons e es ih =>
    cases hp : p e <;> by_cases ht : truck e.veh = b <;>
      simp [hp, ht, ih, List.countP_cons]

theorem MHist.inCls {c : Cfg} {truck : ℕ → Bool} {ts : ℕ} {s s' : State} {es : List Event}
    (h : MHist c truck ts s s' es) (l : ℕ) (b : Bool) :
    cls truck b (s'.inc l) = cls truck b (s.inc l)
      + (es.filter fun e => decide (e.dst = some l ∧ truck e.veh = b)).length := by
  rw [h.inc l, cls_append, filter_cls]
  simp only [Bool.decide_and]

theorem filter_vehs (truck : ℕ → Bool) (b : Bool) (vs : List ℕ) (f : ℕ → Event) (p : Event → Prop)
    [DecidablePred p] (hf : ∀ v, (f v).veh = v) (hp : ∀ v, p (f v)) :
    ((vs.map f).filter fun e => decide (p e ∧ truck e.veh = b)).length = cls truck b vs := by
  unfold cls
  induction vs with
  | nil => rfl
  | cons v vs ih =>
    by_cases ht : truck v = b <;> simp_all [List.countP_cons]

/-- Vehicles enter link `l` from the queue of an origin node. -/
theorem enter_origin_hist {c : Cfg} {truck : ℕ → Bool} (hc : c.net.Ok) {n l ts : ℕ} (hn : n ∈ c.net.nodeIds)
    {outs : List ℕ} (hk : c.net.node n = .origin outs) (hl : l ∈ outs) {s s' : State} {vs left : List ℕ}
    (hs' : State.enter ts none l { s with queue := upd s.queue n left } vs = s')
    (hfin : ∀ k, s'.fin k = s.fin k) (hinc : ∀ k, s'.inc k = if k = l then s.inc k ++ vs else s.inc k) :
    MHist c truck ts s s' (vs.map fun v => ⟨ts, v, none, some l⟩) := by
  refine ⟨by rw [← hs']; rfl, by simp, ?_, ?_, ?_, ?_, by simp, ?_⟩
  · intro x
    rw [hinc]
    by_cases hx : x = l
    · subst hx
      rw [if_pos rfl, filter_entry (b := true) (by simp), if_pos rfl, List.map_map]
      congr 1
      simp [Function.comp_def]
    · rw [if_neg hx, filter_entry (b := false) (by simp [Ne.symm hx])]
      simp
  · intro x b
    rw [hfin, filter_entry (b := false) (by simp)]
    simp
  · intro e h x hx
    simp only [List.mem_map] at h
    obtain ⟨v, _, rfl⟩ := h
    simp only [Option.some.injEq] at hx
    exact hx ▸ (hc.outs n hn).2 l (by rw [hk]; exact hl)
  · intro e h x hx
    simp only [List.mem_map] at h
    obtain ⟨v, _, rfl⟩ := h
    simp only [Option.some.injEq] at hx
    exact ⟨n, hn, by rw [hk, ← hx]; exact hl, by simp [hk]⟩
  · intro m hm v hv
    rw [← hs']
    have : m ≠ n := by rintro rfl; rw [hk] at hm; exact hm
    simp only [State.enter, upd_other _ _ _ _ this]; exact hv

/-- What the movements `es` of a node phase do, with the curves. -/
structure MHistStep (c : Cfg) (truck : ℕ → Bool) (ts : ℕ) (s s' : State) (es : List Event) : Prop extends
    MHist c truck ts s s' es where
  nIn : ∀ l b, Adds c.net.scalar ts (es.filter fun e => decide (e.dst = some l ∧ truck e.veh = b)).length
    ((s.links l).nIn b) ((s'.links l).nIn b)
  nOut : ∀ l b, Adds c.net.scalar ts (es.filter fun e => decide (e.src = some l ∧ truck e.veh = b)).length
    ((s.links l).nOut b) ((s'.links l).nOut b)

theorem MHistStep.refl (c : Cfg) (truck : ℕ → Bool) (ts : ℕ) (s : State) : MHistStep c truck ts s s [] :=
  ⟨MHist.refl c truck ts s, fun _ _ => Adds.refl _ _ _, fun _ _ => Adds.refl _ _ _⟩

theorem MHistStep.trans {c : Cfg} {truck : ℕ → Bool} {ts : ℕ} {a b d : State} {es fs : List Event}
    (h : MHistStep c truck ts a b es) (k : MHistStep c truck ts b d fs) :
    MHistStep c truck ts a d (es ++ fs) := by
  refine ⟨h.toMHist.trans k.toMHist, ?_, ?_⟩
  · intro l x
    rw [List.filter_append, List.length_append]
    exact (h.nIn l x).trans (k.nIn l x)
  · intro l x
    rw [List.filter_append, List.length_append]
    exact (h.nOut l x).trans (k.nOut l x)

theorem originMove_hist {c : Cfg} (hc : c.net.Ok) {n ts : ℕ} (hn : n ∈ c.net.nodeIds) {outs : List ℕ}
    (hk : c.net.node n = .origin outs) {lv : ℕ × ℤ} (hlo : lv.1 ∈ outs) {s s' : State}
    (h : originMove c.net.scalar ts n s lv = .ok s') : ∃ es, MHistStep c s.truck ts s s' es := by
  have hl : lv.1 ∈ c.net.linkIds := (hc.outs n hn).2 lv.1 (by rw [hk]; exact hlo)
  unfold originMove at h
  split at h
  swap
  · simp at h
  simp only at h
  have hsp := takeFirst_split (s.heads lv.1) lv.2.toNat (s.queue n)
  obtain ⟨M, hfin, hinc, hcv⟩ := enter_origin (ts := ts) hc hn hl hsp.1 hsp.2 rfl
  generalize hr : takeFirst (s.heads lv.1) lv.2.toNat (s.queue n) = r at *
  have H := enter_origin_hist (c := c) (truck := s.truck) (ts := ts) hc hn hk hlo (s := s) (vs := r.1)
    (left := r.2) rfl hfin hinc
  generalize hs1 : State.enter ts none lv.1 { s with queue := upd s.queue n r.2 } r.1 = s1 at *
  obtain ⟨a1, a2, a3, a4, a5⟩ := noteIn_spec h
  refine ⟨_, by simpa using H.trans (MHist.curves ⟨a1, a2⟩), ?_, ?_⟩
  · intro l b
    by_cases e : l = lv.1
    · subst e
      have := (a5 b).adds
      rw [cls_if] at this
      rw [filter_vehs s.truck b r.1 _ (fun e => e.dst = some lv.1) (fun _ => rfl) (fun _ => rfl), ← (hcv _ b).1]
      exact this
    · rw [filter_entry (b := false) (by simp [Ne.symm e]), a4 l b e, (hcv l b).1]
      exact Adds.refl _ _ _
  · intro l b
    rw [filter_entry (b := false) (by simp), a3 l b, (hcv l b).2]
    exact Adds.refl _ _ _

theorem destTake_hist {c : Cfg} (hc : c.net.Ok) {n ts l : ℕ} (hn : n ∈ c.net.nodeIds)
    (hl : l ∈ c.net.linkIds) {ins : List ℕ} (hk : c.net.node n = .dest ins) {s s' : State}
    (h : destTake c.net.scalar ts n s l = .ok s') : ∃ es, MHistStep c s.truck ts s s' es := by
  unfold destTake at h
  simp only at h
  split at h
  swap
  · simp at h
  split at h
  swap
  · simp at h
  obtain ⟨M, hfin, hinc, hcv⟩ := leave_dest hc hn hl hk (s := s)
    (log := s.log ++ (s.fin l).map fun v => ⟨ts, v, some l, none⟩) rfl
  obtain ⟨a1, a2, a3, a4, a5⟩ := noteOut_spec h
  have H : MHist c s.truck ts s { s with
        links := upd s.links l { s.links l with link := (s.links l).link.setFinished [] }
        vehs := fun v => if v ∈ s.fin l then { s.vehs v with cur := none } else s.vehs v
        queue := upd s.queue n (s.queue n ++ s.fin l)
        log := s.log ++ (s.fin l).map fun v => ⟨ts, v, some l, none⟩ }
      ((s.fin l).map fun v => ⟨ts, v, some l, none⟩) := by
    refine ⟨rfl, by simp, ?_, ?_, by simp, by simp, ?_, ?_⟩
    · intro x
      rw [hinc, filter_entry (b := false) (by simp)]
      simp
    · intro x b
      rw [hfin]
      by_cases hx : x = l
      · subst hx
        rw [if_pos rfl, filter_vehs s.truck b _ _ (fun e => e.src = some x) (fun _ => rfl) (fun _ => rfl)]
        simp
      · rw [if_neg hx, filter_entry (b := false) (by simp [Ne.symm hx])]
        simp
    · intro e h _
      simp only [List.mem_map] at h
      obtain ⟨v, hv, rfl⟩ := h
      exact ⟨n, hn, by rw [hk]; trivial, by simp [hv]⟩
    · intro m _ v hv
      by_cases e : m = n
      · subst e; simp [hv]
      · simp only [upd_other _ _ _ _ e]; exact hv
  refine ⟨_, by simpa using H.trans (MHist.curves ⟨a1, a2⟩), ?_, ?_⟩
  · intro k b
    rw [filter_entry (b := false) (by simp), a3 k b, show _ = _ from (hcv k b).1]
    exact Adds.refl _ _ _
  · intro k b
    by_cases e : k = l
    · subst e
      have := (a5 b).adds
      rw [cls_if] at this
      rw [filter_vehs s.truck b _ _ (fun e => e.src = some k) (fun _ => rfl) (fun _ => rfl)]
      rw [show _ = _ from (hcv k b).2] at this
      exact this
    · rw [filter_entry (b := false) (by simp [Ne.symm e]), a4 k b e, show _ = _ from (hcv k b).2]
      exact Adds.refl _ _ _

theorem moveOne_hist {c : Cfg} (hc : c.net.Ok) {n : ℕ} (hn : n ∈ c.net.nodeIds)
    (hno : ∀ outs, c.net.node n ≠ .origin outs) {factor x : ℚ} {ts o i a b : ℕ} (hi : i ∈ c.net.linkIds)
    (ho : o ∈ (c.net.node n).outs) {t t' : State × Moved} (e : moveOne factor ts o i a b x t = .ok t') :
    ∃ es, MHist c t.1.truck ts t.1 t'.1 es := by
  have hol := (hc.outs n hn).2 o ho
  unfold moveOne at e
  simp only at e
  split at e
  · simp at e
  cases e
  have hsp := takeEquiv_split (equiv factor t.1.truck) (t.1.heads o) x (t.1.fin i)
  obtain ⟨M, hq, hfin, hinc, hcv⟩ := enter_link (ts := ts) hc hi hol hsp.1 hsp.2 rfl
  generalize hr : takeEquiv (equiv factor t.1.truck) (t.1.heads o) x (t.1.fin i) = r at *
  have hr' : takeEquiv (equiv factor t.1.truck) (t.1.heads o) x (t.1.links i).link.finished = r := hr
  rw [hr']
  refine ⟨r.1.map fun v => ⟨ts, v, some i, some o⟩, rfl, by simp, ?_, ?_, ?_, ?_, by simp, ?_⟩
  · intro l
    rw [hinc]
    by_cases hl : l = o
    · subst hl
      rw [if_pos rfl, filter_entry (b := true) (by simp), if_pos rfl, List.map_map]
      congr 1
      simp [Function.comp_def]
    · rw [if_neg hl, filter_entry (b := false) (by simp [Ne.symm hl])]
      simp
  · intro l y
    rw [hfin]
    by_cases hl : l = i
    · subst hl
      rw [if_pos rfl, filter_vehs t.1.truck y r.1 _ (fun e => e.src = some l) (fun _ => rfl) (fun _ => rfl),
        ← cls_perm hsp.1, cls_append]
      omega
    · rw [if_neg hl, filter_entry (b := false) (by simp [Ne.symm hl])]
      simp
  · intro e h l hl
    simp only [List.mem_map] at h
    obtain ⟨v, _, rfl⟩ := h
    simp only [Option.some.injEq] at hl
    exact hl ▸ hol
  · intro e h l hl
    simp only [List.mem_map] at h
    obtain ⟨v, _, rfl⟩ := h
    simp only [Option.some.injEq] at hl
    refine ⟨n, hn, hl ▸ ho, ?_⟩
    simp only [reduceCtorEq, false_iff, not_exists]
    exact hno
  · intro m _ v hv
    simp only
    rw [hq]; exact hv

theorem moveOne_truck {factor x : ℚ} {ts o i a b : ℕ} {t t' : State × Moved}
    (e : moveOne factor ts o i a b x t = .ok t') : t'.1.truck = t.1.truck := by
  unfold moveOne at e
  simp only at e
  split at e
  · simp at e
  cases e
  rfl

theorem moveAll_hist {c : Cfg} (hc : c.net.Ok) {n : ℕ} (hn : n ∈ c.net.nodeIds)
    (hno : ∀ outs, c.net.node n ≠ .origin outs) {ins : List ℕ} (hi : ∀ l ∈ ins, l ∈ c.net.linkIds)
    {factor scalar : ℚ} {ts : ℕ} {order : ℕ → List ℕ} :
    ∀ (cols : List (ℕ × List ℚ)) (b : ℕ) (t t' : State × Moved), (∀ p ∈ cols, p.1 ∈ (c.net.node n).outs) →
      moveAll scalar factor ts ins order b t cols = .ok t' →
      (∃ es, MHist c t.1.truck ts t.1 t'.1 es) ∧ t'.1.truck = t.1.truck
  | [], b, t, t', _, e => by
    simp only [moveAll, Res.ok.injEq] at e
    subst e
    exact ⟨⟨[], MHist.refl c _ ts _⟩, rfl⟩
  | (o, f) :: cols, b, t, t', ho, e => by
    simp only [moveAll] at e
    rw [Res.bind_eq_ok'] at e
    obtain ⟨t1, e1, e2⟩ := e
    unfold moveCol at e1
    obtain ⟨⟨es, H⟩, ht⟩ := Res.foldlM_inv
      (P := fun u => (∃ es, MHist c t.1.truck ts t.1 u.1 es) ∧ u.1.truck = t.1.truck) (by
        intro u a u' hu hk
        obtain ⟨⟨es, hu⟩, ht⟩ := hu
        cases ha : ins[a]? with
        | none => rw [ha] at hk; simp at hk
        | some i =>
          rw [ha] at hk
          obtain ⟨fs, hf⟩ := moveOne_hist hc hn hno (hi i (List.mem_of_getElem? ha)) (ho (o, f) (by simp)) hk
          rw [ht] at hf
          exact ⟨⟨es ++ fs, hu.trans hf⟩, (moveOne_truck hk).trans ht⟩) _ _ _
      ⟨⟨[], MHist.refl c _ ts _⟩, rfl⟩ e1
    obtain ⟨⟨fs, K⟩, ht2⟩ := moveAll_hist hc hn hno hi cols (b + 1) t1 t' (fun p hp => ho p (by simp [hp])) e2
    rw [ht] at K
    exact ⟨⟨es ++ fs, H.trans K⟩, ht2.trans ht⟩

theorem inout_hist {c : Cfg} (hc : c.net.Ok) {n : ℕ} (hn : n ∈ c.net.nodeIds)
    (hno : ∀ outs, c.net.node n ≠ .origin outs)
    {ins outs : List ℕ} (hi : (c.net.node n).ins = ins) (ho : (c.net.node n).outs = outs) {ts : ℕ}
    {factor : ℚ} {order : ℕ → List ℕ} (hord : ∀ k, (order k).Perm (List.range ins.length)) {s s' : State}
    (h : inoutEvolve c.net.scalar factor ts ins outs order s = .ok s') :
    ∃ es, MHistStep c s.truck ts s s' es := by
  have hins := hc.ins n hn
  have houts := hc.outs n hn
  rw [hi] at hins
  rw [ho] at houts
  unfold inoutEvolve at h
  split at h
  swap
  · simp at h
  rw [Res.bind_eq_ok'] at h
  obtain ⟨sups, hsup, h⟩ := h
  simp only at h
  rw [Res.bind_eq_ok'] at h
  obtain ⟨t, ht, h⟩ := h
  rw [Res.bind_eq_ok'] at h
  obtain ⟨s1, h1, h2⟩ := h
  have hsl := supplies_length hsup
  obtain ⟨⟨es, H⟩, -⟩ := moveAll_hist hc hn hno hins.2 _ 0 _ t (by
    intro p hp
    rw [ho]; exact (List.of_mem_zip hp).1) ht
  have I : MI c ins outs s t := by
    refine moveAll_MI hc hins.1 houts.1 hins.2 houts.2 (fun k => (hord k).nodup_iff.2 List.nodup_range)
      _ 0 _ t ?_ ?_ (MI.refl c ins outs s) (fun _ _ _ => rfl) ht
    · intro k
      by_cases hk : k < outs.length
      · left
        rw [List.map_fst_zip (by simp [hsl])]
        rw [Nat.zero_add, List.getElem?_eq_getElem hk]; rfl
      · right; simp [hsl]; omega
    · simp [hsl]
  obtain ⟨a1, a2, a3, a4⟩ := recordOuts_spec outs 0 _ _ houts.1 h1
  obtain ⟨b1, b2, b3, b4⟩ := recordIns_spec ins 0 _ _ hins.1 h2
  simp only at H
  refine ⟨es, by simpa using H.trans (MHist.curves (a1.trans b1)), ?_, ?_⟩
  · intro l x
    have hlen := H.inCls l x
    by_cases hl : l ∈ outs
    · have := (a4 _ l x (idxOf_get? hl)).adds
      rw [Nat.zero_add] at this
      rw [I.inc _ l x (idxOf_get? hl)] at hlen
      rw [← Nat.add_left_cancel hlen, b2, ← (I.curves l x).1]
      exact this
    · rw [I.incOther l hl] at hlen
      have e : (es.filter fun e => decide (e.dst = some l ∧ s.truck e.veh = x)).length = 0 := by omega
      rw [e, b2, a3 l x hl, (I.curves l x).1]
      exact Adds.refl _ _ _
  · intro l x
    have hlen := H.fin l x
    by_cases hl : l ∈ ins
    · have := (b4 _ l x (idxOf_get? hl)).adds
      rw [Nat.zero_add] at this
      rw [I.fin _ l x (idxOf_get? hl)] at hlen
      rw [← Nat.add_left_cancel hlen, ← (I.curves l x).2, ← a2]
      exact this
    · rw [I.finOther l hl] at hlen
      have e : (es.filter fun e => decide (e.src = some l ∧ s.truck e.veh = x)).length = 0 := by omega
      rw [e, b3 l x hl, a2, (I.curves l x).2]
      exact Adds.refl _ _ _

theorem node_hist {c : Cfg} (hc : c.net.Ok) {o : StepOracle} (ho : o.Ok c) {n : ℕ}
    (hn : n ∈ c.net.nodeIds) {ts : ℕ} {s s' : State}
    (h : nodeEvolve c.net.scalar c.factor ts n (o.u n) (o.order n) s (c.net.node n) = .ok s') :
    ∃ es, MHistStep c s.truck ts s s' es := by
  have hord := ho.order n
  have houts := hc.outs n hn
  have hins := hc.ins n hn
  cases hk : c.net.node n with
  | origin outs =>
    rw [hk] at h
    simp only [nodeEvolve] at h
    unfold originEvolve at h
    rw [Res.bind_eq_ok'] at h
    obtain ⟨lvs, h1, h2⟩ := h
    have e1 := originVolumes_links h1
    refine (Res.foldlM_inv_mem (P := fun t => (∃ es, MHistStep c s.truck ts s t es) ∧ NStep c s t) lvs ?_ s s'
      ⟨⟨[], MHistStep.refl c _ ts s⟩, NStep.refl c s⟩ h2).1
    intro t lv t' hlv ht he
    obtain ⟨⟨es, ht⟩, N⟩ := ht
    have hlo : lv.1 ∈ outs := by rw [← e1]; exact List.mem_map_of_mem hlv
    obtain ⟨fs, hf⟩ := originMove_hist hc hn hk hlo he
    rw [N.rest.truck] at hf
    exact ⟨⟨es ++ fs, ht.trans hf⟩, N.trans (originMove_step hc hn (houts.2 _ (by rw [hk]; exact hlo)) he)⟩
  | dest ins =>
    rw [hk] at h
    simp only [nodeEvolve] at h
    unfold destEvolve at h
    refine (Res.foldlM_inv_mem (P := fun t => (∃ es, MHistStep c s.truck ts s t es) ∧ NStep c s t) ins ?_ s s'
      ⟨⟨[], MHistStep.refl c _ ts s⟩, NStep.refl c s⟩ h).1
    intro t l t' hl ht he
    obtain ⟨⟨es, ht⟩, N⟩ := ht
    have hll := hins.2 l (by rw [hk]; exact hl)
    obtain ⟨fs, hf⟩ := destTake_hist hc hn hll hk he
    rw [N.rest.truck] at hf
    exact ⟨⟨es ++ fs, ht.trans hf⟩, N.trans (destTake_step hc hn hll hk he)⟩
  | fwj ins outs =>
    rw [hk] at h hord
    exact inout_hist hc hn (by simp [hk]) (by rw [hk, Node.ins]) (by rw [hk, Node.outs]) hord h
  | grj ins outs => rw [hk] at h; simp [nodeEvolve] at h

theorem stepNodes_hist {c : Cfg} (hc : c.net.Ok) {o : StepOracle} (ho : o.Ok c) {ts : ℕ} {s s' : State}
    (h : stepNodes c o ts s = .ok s') : ∃ es, MHistStep c s.truck ts s s' es := by
  refine (Res.foldlM_inv_mem (P := fun t => (∃ es, MHistStep c s.truck ts s t es) ∧ NStep c s t)
    c.net.nodeIds ?_ s s' ⟨⟨[], MHistStep.refl c _ ts s⟩, NStep.refl c s⟩ h).1
  intro b n b' hn hb he
  obtain ⟨⟨es, hb⟩, N⟩ := hb
  obtain ⟨fs, hf⟩ := node_hist hc ho hn he
  rw [N.rest.truck] at hf
  exact ⟨⟨es ++ fs, hb.trans hf⟩, N.trans (node_step hc ho hn he)⟩

/-! ### Whole loadings -/

/-- What holds of the log, the curves and the vehicles at the beginning of interval `ts`. -/
structure MHistInv (c : Cfg) (ts : ℕ) (s : State) : Prop where
  nIn : ∀ l b k, (s.links l).nIn b = some k →
    Res.foldlM addIncrement install (flows c.net.scalar (came s.truck s.log b l)) = .ok k
  nOut : ∀ l b k, (s.links l).nOut b = some k →
    Res.foldlM addIncrement install (flows c.net.scalar (went s.truck s.log b l)) = .ok k
  time : ∀ e ∈ s.log, e.t < ts
  sorted : s.log.Pairwise fun a b => a.t ≤ b.t
  balance : ∀ l ∈ c.net.linkIds, ∀ b, (came s.truck s.log b l).length = (went s.truck s.log b l).length + cls s.truck b (s.on l)
  le : ∀ l ∈ c.net.linkIds, ∀ b t, upTo (went s.truck s.log b l) t ≤ upTo (came s.truck s.log b l) t
  node : ∀ e ∈ s.log, ∀ l, e.dst = some l → ∃ n ∈ c.net.nodeIds, l ∈ (c.net.node n).outs ∧
    (e.src = none ↔ ∃ outs, c.net.node n = .origin outs)
  moved : ∀ e ∈ s.log, (1 ≤ e.veh ∧ e.veh ≤ s.numVeh) ∧
    ∀ n ∈ c.net.nodeIds, ¬ (c.net.node n).isDest → e.veh ∉ s.queue n

theorem filter_event_congr {truck truck' : ℕ → Bool} {log : List Event} (h : ∀ e ∈ log, truck' e.veh = truck e.veh)
    (p : Event → Prop) [DecidablePred p] (b : Bool) :
    (log.filter fun e => decide (p e ∧ truck' e.veh = b)) = log.filter fun e => decide (p e ∧ truck e.veh = b) :=
  List.filter_congr fun e he => by rw [h e he]

theorem came_congr {truck truck' : ℕ → Bool} {log : List Event} (h : ∀ e ∈ log, truck' e.veh = truck e.veh)
    (b : Bool) (l : ℕ) : came truck' log b l = came truck log b l := by
  unfold came; rw [filter_event_congr h]

theorem went_congr {truck truck' : ℕ → Bool} {log : List Event} (h : ∀ e ∈ log, truck' e.veh = truck e.veh)
    (b : Bool) (l : ℕ) : went truck' log b l = went truck log b l := by
  unfold went; rw [filter_event_congr h]

theorem came_append (truck : ℕ → Bool) (x y : List Event) (b : Bool) (l : ℕ) :
    came truck (x ++ y) b l = came truck x b l ++ came truck y b l := by
  unfold came; rw [List.filter_append, List.map_append]

theorem went_append (truck : ℕ → Bool) (x y : List Event) (b : Bool) (l : ℕ) :
    went truck (x ++ y) b l = went truck x b l ++ went truck y b l := by
  unfold went; rw [List.filter_append, List.map_append]

/-- Classes, log and vehicles on links are the same, as far as histories are concerned. -/
theorem MHistInv.same {c : Cfg} {ts : ℕ} {s s' : State} (h : MHistInv c ts s)
    (hi : ∀ l b, (s'.links l).nIn b = (s.links l).nIn b) (ho : ∀ l b, (s'.links l).nOut b = (s.links l).nOut b)
    (hl : s'.log = s.log) (ht : ∀ e ∈ s.log, s'.truck e.veh = s.truck e.veh)
    (hon : ∀ l ∈ c.net.linkIds, ∀ b, cls s'.truck b (s'.on l) = cls s.truck b (s.on l))
    (hm : ∀ e ∈ s.log, (1 ≤ e.veh ∧ e.veh ≤ s'.numVeh) ∧
      ∀ n ∈ c.net.nodeIds, ¬ (c.net.node n).isDest → e.veh ∉ s'.queue n) : MHistInv c ts s' := by
  refine ⟨?_, ?_, by rw [hl]; exact h.time, by rw [hl]; exact h.sorted, ?_, ?_, by rw [hl]; exact h.node,
    by rw [hl]; exact hm⟩
  · intro l b k hk
    rw [hi] at hk
    rw [hl, came_congr ht]; exact h.nIn l b k hk
  · intro l b k hk
    rw [ho] at hk
    rw [hl, went_congr ht]; exact h.nOut l b k hk
  · intro l hll b
    rw [hl, came_congr ht, went_congr ht, hon l hll]; exact h.balance l hll b
  · intro l hll b t
    rw [hl, came_congr ht, went_congr ht]; exact h.le l hll b t

theorem mem_on_places {c : Cfg} {s : State} {l : ℕ} (hl : l ∈ c.net.linkIds) {v : ℕ} (hv : v ∈ s.on l) :
    v ∈ s.places c := by
  unfold State.places
  rw [List.mem_append, List.mem_flatMap, List.mem_flatMap]
  exact Or.inr ⟨l, hl, hv⟩

theorem mem_queue_places {c : Cfg} {s : State} {n : ℕ} (hn : n ∈ c.net.nodeIds) {v : ℕ} (hv : v ∈ s.queue n) :
    v ∈ s.places c := by
  unfold State.places
  rw [List.mem_append, List.mem_flatMap, List.mem_flatMap]
  exact Or.inl ⟨n, hn, hv⟩

theorem MCore.range {c : Cfg} {s : State} (h : MCore c s) {v : ℕ} (hv : v ∈ s.places c) :
    1 ≤ v ∧ v ≤ s.numVeh := by
  rw [← List.count_pos_iff, h.place v, List.count_pos_iff] at hv
  exact h.view.range v hv

theorem MCore.count_le {c : Cfg} {s : State} (h : MCore c s) (v : ℕ) : (s.places c).count v ≤ 1 := by
  rw [h.place v]
  exact List.nodup_iff_count_le_one.1 h.view.nodup v

theorem two_places {A : Type} [DecidableEq A] {is js : List A} {f g : A → List ℕ} {i j : A} {v : ℕ}
    (hi : i ∈ is) (hj : j ∈ js) (hv : v ∈ f i) (hw : v ∈ g j) :
    2 ≤ (is.flatMap f ++ js.flatMap g).count v := by
  rw [List.count_append]
  have h1 : 0 < (is.flatMap f).count v := List.count_pos_iff.2 (List.mem_flatMap.2 ⟨i, hi, hv⟩)
  have h2 : 0 < (js.flatMap g).count v := List.count_pos_iff.2 (List.mem_flatMap.2 ⟨j, hj, hw⟩)
  omega

theorem MCore.queue_on {c : Cfg} {s : State} (h : MCore c s) {n l v : ℕ} (hn : n ∈ c.net.nodeIds)
    (hl : l ∈ c.net.linkIds) (hv : v ∈ s.queue n) (hw : v ∈ s.on l) : False := by
  have h1 := two_places hn hl hv hw
  have h2 := h.count_le v
  unfold State.places at h2
  omega

theorem MCore.queue_queue {c : Cfg} {s : State} (hc : c.net.Ok) (h : MCore c s) {n m v : ℕ} (hn : n ∈ c.net.nodeIds)
    (hm : m ∈ c.net.nodeIds) (hv : v ∈ s.queue n) (hw : v ∈ s.queue m) : n = m :=
  h.view.once.queue_queue (s := s.view) hn hm hv hw

theorem MHistInv.rel {c : Cfg} {ts k : ℕ} {s s' : State} (hco : MCore c s) (h : MHistInv c ts s)
    (r : MRel c ts k s s') : MHistInv c ts s' := by
  have hlog : s'.log = s.log := r.view.log
  refine h.same (by rw [r.links]; exact fun _ _ => rfl) (by rw [r.links]; exact fun _ _ => rfl) hlog ?_ ?_ ?_
  · intro e he; exact r.truck _ (h.moved e he).1.2
  · intro l hl b
    rw [on_links r.links]
    exact cls_congr fun v hv => r.truck v (hco.on_old hl hv)
  · intro e he
    obtain ⟨h1, h2⟩ := h.moved e he
    rw [r.numVeh]
    refine ⟨by omega, ?_⟩
    intro n hn hd hv
    have hv' := (r.view.queue n).mem_iff.1 hv
    rw [List.mem_append, List.mem_filter, List.mem_range'_1] at hv'
    rcases hv' with hv' | ⟨hv', _⟩
    · exact h2 n hn hd hv'
    · have : s.view.numVeh = s.numVeh := rfl
      omega

theorem MHistInv.routed {c : Cfg} {ts : ℕ} {s s' : State} (h : MHistInv c ts s)
    (e : s' = { s with vehs := s'.vehs, tracker := s'.tracker }) : MHistInv c ts s' := by
  have hl : s'.links = s.links := by rw [e]
  have ht : s'.truck = s.truck := by rw [e]
  refine h.same (by rw [hl]; exact fun _ _ => rfl) (by rw [hl]; exact fun _ _ => rfl) (by rw [e])
    (by rw [ht]; exact fun _ _ => rfl) ?_ ?_
  · intro l _ b; rw [on_links hl, ht]
  · rw [show s'.numVeh = s.numVeh by rw [e], show s'.queue = s.queue by rw [e]]; exact h.moved

theorem MHistInv.linksStep {c : Cfg} {ts : ℕ} {s s' : State} (h : MHistInv c ts s) (r : LStep c s s') :
    MHistInv c ts s' := by
  have e := r.rest
  have ht : s'.truck = s.truck := r.truck
  refine h.same r.nIn r.nOut (by rw [e]) (by rw [ht]; exact fun _ _ => rfl) ?_ ?_
  · intro l _ b; rw [ht]; exact cls_perm (r.on l)
  · rw [show s'.numVeh = s.numVeh by rw [e], show s'.queue = s.queue by rw [e]]; exact h.moved

theorem MHistInv.receive {c : Cfg} (hc : c.net.Ok) {ts t d : ℕ} (hd : d ∈ c.net.destIds) {s s' : State}
    (hco : MCore c s) (h : MHistInv c ts s) (he : receive c t s d = .ok s') : MHistInv c ts s' := by
  have hnode := (hc.dests d hd).1
  obtain ⟨e, R⟩ := receive_view he
  obtain ⟨S, hq⟩ := receive_spec e (hco.view.queue_nodup hnode)
  have hlog : s'.log = s.log := S.log
  have hn : s'.numVeh = s.numVeh := S.num
  have hq : s'.queue = upd s.queue (c.net.destNode d) [] := hq
  refine h.same (by rw [R.links]; exact fun _ _ => rfl) (by rw [R.links]; exact fun _ _ => rfl) hlog
    (by rw [R.truck]; exact fun _ _ => rfl) ?_ ?_
  · intro l _ b; rw [on_links R.links, R.truck]
  · rw [hn, hq]
    intro e hme
    obtain ⟨h1, h2⟩ := h.moved e hme
    refine ⟨h1, ?_⟩
    intro n hn' hnd hv
    by_cases en : n = c.net.destNode d
    · subst en; simp at hv
    · rw [upd_other _ _ _ _ en] at hv; exact h2 n hn' hnd hv

theorem MHistInv.nodes {c : Cfg} (hc : c.net.Ok) {ts : ℕ} {s s' : State} {es : List Event} (h : MHistInv c ts s)
    (N : NStep c s s') (C : MCore c s') (H : MHistStep c s.truck ts s s' es) : MHistInv c (ts + 1) s' := by
  have ht : s'.truck = s.truck := N.rest.truck
  have hnum : s'.numVeh = s.numVeh := by rw [N.rest]
  have curve : ∀ {k0 k1 : Option Curve} (p : Event → Bool) (k : Curve),
      Adds c.net.scalar ts (es.filter p).length k0 k1 → k1 = some k →
      (∀ k, k0 = some k → Res.foldlM addIncrement install
        (flows c.net.scalar ((s.log.filter p).map fun e => (e.t + 1, 1))) = .ok k) →
      Res.foldlM addIncrement install
        (flows c.net.scalar (((s.log ++ es).filter p).map fun e => (e.t + 1, 1))) = .ok k := by
    intro k0 k1 p k ha hk hold
    cases k0 with
    | none => simp only [Adds] at ha; rw [ha] at hk; simp at hk
    | some x =>
      obtain ⟨y, rfl, ha⟩ := ha
      cases hk
      rw [List.filter_append, List.map_append, flows_append, Res.foldlM_append, hold x rfl, Res.ok_bind,
        flows_same H.time]
      exact ha
  have hbal : ∀ l ∈ c.net.linkIds, ∀ b, (came s.truck s'.log b l).length
      = (went s.truck s'.log b l).length + cls s.truck b (s'.on l) := by
    intro l hl b
    have h1 := h.balance l hl b
    have h2 := H.inCls l b
    have h3 := H.fin l b
    have h4 : road (s'.links l).link = road (s.links l).link := by rw [N.link l, road_moved]
    rw [H.log, came_append, went_append, List.length_append, List.length_append]
    unfold State.on at h1 ⊢
    rw [cls_append, cls_append] at h1 ⊢
    rw [h4]
    simp only [came, went, List.length_map] at h1 ⊢
    omega
  refine ⟨?_, ?_, ?_, ?_, by rw [ht]; exact hbal, ?_, ?_, ?_⟩
  · intro l b k hk
    rw [H.log, ht]
    exact curve _ k (H.nIn l b) hk (h.nIn l b)
  · intro l b k hk
    rw [H.log, ht]
    exact curve _ k (H.nOut l b) hk (h.nOut l b)
  · rw [H.log]
    intro e he
    rcases List.mem_append.1 he with he | he
    · have := h.time e he; omega
    · have := H.time e he; omega
  · rw [H.log, List.pairwise_append]
    refine ⟨h.sorted, ?_, ?_⟩
    · refine List.pairwise_of_forall_mem_list ?_
      intro a ha b hb
      rw [H.time a ha, H.time b hb]
    · intro a ha b hb
      rw [H.time b hb]; exact (h.time a ha).le
  · intro l hl b t
    rw [ht]
    rcases le_or_gt t ts with hts | hts
    · rw [H.log, came_append, went_append, upTo_append, upTo_append]
      have e1 : upTo (went s.truck es b l) t = 0 := upTo_late fun p hp => by
        obtain ⟨e, he, rfl⟩ := List.mem_map.1 hp
        have := H.time e (List.mem_of_mem_filter he)
        simp only; omega
      have := h.le l hl b t
      omega
    · rw [upTo_all, upTo_all]
      · have := hbal l hl b
        omega
      all_goals
        intro p hp
        obtain ⟨e, he, rfl⟩ := List.mem_map.1 hp
        have he := List.mem_of_mem_filter he
        rw [H.log] at he
        refine ⟨rfl, ?_⟩
        simp only
        rcases List.mem_append.1 he with he | he
        · have := h.time e he; omega
        · have := H.time e he; omega
  · rw [H.log]
    intro e he
    rcases List.mem_append.1 he with he | he
    · exact h.node e he
    · exact H.node e he
  · rw [H.log, hnum]
    intro e he
    rcases List.mem_append.1 he with he | he
    · obtain ⟨h1, h2⟩ := h.moved e he
      refine ⟨h1, ?_⟩
      intro n hn hd hv
      rcases N.view.queue n with hs | ⟨ins, hk, _⟩
      · exact h2 n hn hd (hs.subset hv)
      · rw [hk] at hd; exact hd trivial
    · cases hdst : e.dst with
      | some l =>
        have hl := H.dst e he l hdst
        have hin : e.veh ∈ s'.on l := by
          unfold State.on
          refine List.mem_append_right _ ?_
          rw [H.inc]
          refine List.mem_append_right _ (List.mem_map_of_mem ?_)
          rw [List.mem_filter]; exact ⟨he, by simp [hdst]⟩
        refine ⟨by rw [← hnum]; exact C.range (mem_on_places hl hin), ?_⟩
        intro n hn _ hv
        exact C.queue_on hn hl hv hin
      | none =>
        obtain ⟨n, hn, hd, hq⟩ := H.dest e he hdst
        refine ⟨by rw [← hnum]; exact C.range (mem_queue_places hn hq), ?_⟩
        intro m hm hd' hv
        have := C.queue_queue hc hm hn hv hq
        subst this
        exact hd' hd

theorem loadOnce_hist {c : Cfg} (hc : c.net.Ok) (hsc : c.net.scalar ≠ 0) {o : StepOracle}
    (ho : o.Ok c) {ts assign : ℕ} {s s' : State} (h : MInv c ts s) (H : MHistInv c ts s)
    (r : loadOnce c o ts assign s = .ok s') : MHistInv c (ts + 1) s' := by
  unfold loadOnce at r
  rw [Res.bind_eq_ok'] at r
  obtain ⟨s0, r0, r⟩ := r
  rw [Res.bind_eq_ok'] at r
  obtain ⟨s1, r1, r⟩ := r
  rw [Res.bind_eq_ok'] at r
  obtain ⟨s2, r2, r⟩ := r
  rw [Res.bind_eq_ok'] at r
  obtain ⟨s3, r3, r⟩ := r
  rw [Res.bind_eq_ok'] at r
  obtain ⟨s4, r4, r5⟩ := r
  have L0 := setAttrs_step h.inv r0
  have h0 := h.attrs L0
  obtain ⟨k, R⟩ := stepRelease_rel ho r1
  have h1 := h0.toMCore.rel hc R
  obtain ⟨T, Te, _⟩ := update_routed r2
  have h2 := h1.routed T Te
  have N := stepNodes_step hc ho r3
  obtain ⟨es, HS⟩ := stepNodes_hist hc ho r3
  have h3 := h2.node hsc N
  have L := linksStep_all h3.inv r4
  have h4 := h3.links L
  have hL : s4.view = { s3.view with links := s4.view.links } := by rw [L.rest]; rfl
  have I4 := recvInv_of hc h0.net R.view T N.view h4.view hL
  have H4 := (((((H.linksStep L0).rel h0.toMCore R).routed Te).nodes hc N h3 HS).linksStep L)
  exact (Res.foldlM_inv_mem (P := fun t => (MCore c t ∧ RecvInv c.net ts t.view) ∧ MHistInv c (ts + 1) t)
    c.net.destIds (by
      intro b d b' hd hb hbe
      exact ⟨hb.1.1.receive hc hd hb.1.2 hbe, hb.2.receive hc hd hb.1.1 hbe⟩) s4 s' ⟨⟨h4, I4⟩, H4⟩ r5).2

theorem loadMany_hist {c : Cfg} (hc : c.net.Ok) (hsc : c.net.scalar ≠ 0) : ∀ (os : List StepOracle)
    (ts assign : ℕ) (s : State) (r : State × ℕ × ℕ), (∀ o ∈ os, o.Ok c) → MInv c ts s →
    MHistInv c ts s → loadMany c os ts assign s = .ok r → MHistInv c r.2.1 r.1
  | [], ts, assign, s, r, _, _, h, e => by
    simp only [loadMany, Res.ok.injEq] at e
    subst e
    exact h
  | o :: os, ts, assign, s, r, ho, hi, h, e => by
    simp only [loadMany] at e
    rw [Res.bind_eq_ok'] at e
    obtain ⟨s1, e1, e2⟩ := e
    exact loadMany_hist hc hsc os _ _ s1 r (fun x hx => ho x (by simp [hx]))
      (loadOnce_inv hc hsc (ho o (by simp)) hi e1) (loadOnce_hist hc hsc (ho o (by simp)) hi h e1) e2

theorem fresh_hist {c : Cfg} {s : State} (h : Fresh s) : MHistInv c 0 s := by
  have I := fresh_inv (c := c) h
  obtain ⟨links, rfl, hl⟩ := h
  refine ⟨?_, ?_, by simp [State.init], by simp [State.init], ?_,
    by simp [State.init, went, came], by simp [State.init], by simp [State.init]⟩
  · intro l b k hk
    rcases (hl l).2 b with ⟨h1, _⟩ | ⟨h1, _⟩
    · simp only [State.init] at hk; rw [h1] at hk; simp at hk
    · simp only [State.init] at hk; rw [h1] at hk; cases hk; rfl
  · intro l b k hk
    rcases (hl l).2 b with ⟨_, h1⟩ | ⟨_, h1⟩
    · simp only [State.init] at hk; rw [h1] at hk; simp at hk
    · simp only [State.init] at hk; rw [h1] at hk; cases hk; rfl
  · intro l hll b
    have : (State.init links).on l = [] := by
      rw [List.eq_nil_iff_forall_not_mem]
      intro v hv
      have := I.toMCore.on_map hll hv
      simp [State.init] at this
    rw [this]; rfl

end Verif.MNet
