import Verif.Spec.History
import Verif.Lemmas.RouteNodes
import Verif.Lemmas.TravelTime

/-! # Lemmas: the curves of a link record what happened -/

namespace Verif.Net
open Ults Curve Lnk Tt

theorem approxLt_self (t : ℚ) : approxLt t t tol = false := by
  unfold approxLt tol
  simp only [decide_eq_false_iff_not, not_lt]
  exact le_add_of_nonneg_right (by positivity)

/-- A curve to which a batch has been added accepts further records of the same time. -/
theorem addIncrement_merge {k k1 : Curve} {t a b : ℚ} (h : addIncrement k (t, a) = .ok k1) :
    addIncrement k1 (t, b) = addIncrement k (t, a + b) := by
  unfold addIncrement at h ⊢
  cases e : k.getLast? with
  | none =>
    rw [e] at h
    simp only [Res.ok.injEq] at h
    subst h
    rw [List.getLast?_eq_none_iff] at e
    subst e
    simp [addRecord, approxLt_self, approxEq_self]
  | some best =>
    rw [e] at h
    simp only at h ⊢
    split at h
    · simp at h
    rename_i h1
    rw [if_neg h1]
    split at h
    · rename_i h2
      rw [Res.ok.injEq] at h
      subst h
      rw [if_pos h2]
      simp only [List.getLast?_append, List.getLast?_singleton, Option.some_or]
      rw [if_neg h1, if_pos h2]
      simp [add_assoc]
    · rename_i h2
      rw [Res.ok.injEq] at h
      subst h
      rw [if_neg h2]
      simp only [List.getLast?_append, List.getLast?_singleton, Option.some_or]
      rw [if_neg (by rw [approxLt_self]; simp), if_pos (approxEq_self t)]
      simp only [List.dropLast_concat, Res.ok.injEq, List.append_cancel_left_eq, List.cons.injEq,
        Prod.mk.injEq, and_true, true_and]
      ring

theorem addIncrement_replicate {t a : ℚ} : ∀ (n : ℕ) (k k' : Curve),
    addIncrement k (t, (n + 1 : ℕ) * a) = .ok k' →
    Res.foldlM addIncrement k (List.replicate (n + 1) (t, a)) = .ok k'
  | 0, k, k', h => by
    simp only [List.replicate, Res.foldlM_cons]
    simp only [zero_add, Nat.cast_one, one_mul] at h
    rw [h]; rfl
  | n + 1, k, k', h => by
    rw [List.replicate_succ, Res.foldlM_cons]
    have hex : ∃ k1, addIncrement k (t, a) = .ok k1 := by
      unfold addIncrement at h ⊢
      cases e : k.getLast? with
      | none => exact ⟨_, rfl⟩
      | some best =>
        rw [e] at h
        simp only at h ⊢
        split at h
        · simp at h
        · rename_i h1
          rw [if_neg h1]
          split
          · exact ⟨_, rfl⟩
          · exact ⟨_, rfl⟩
    obtain ⟨k1, h1⟩ := hex
    rw [h1, Res.ok_bind]
    apply addIncrement_replicate n k1 k'
    rw [addIncrement_merge h1, ← h]
    congr 2
    push_cast; ring

/-- The curve `c'` is `c` after `n` vehicles have been recorded one by one at the end of interval `ts`. -/
def Adds (σ : ℚ) (ts n : ℕ) (c c' : Option Curve) : Prop :=
  match c with
  | none => c' = none
  | some k => ∃ k', c' = some k' ∧
      Res.foldlM addIncrement k (List.replicate n ((ts : ℚ) + 1, 1 / σ)) = .ok k'

theorem Adds.refl (σ : ℚ) (ts : ℕ) (c : Option Curve) : Adds σ ts 0 c c := by
  cases c with
  | none => rfl
  | some k => exact ⟨k, rfl, rfl⟩

theorem Adds.trans {σ : ℚ} {ts n m : ℕ} {a b c : Option Curve} (h : Adds σ ts n a b)
    (k : Adds σ ts m b c) : Adds σ ts (n + m) a c := by
  cases a with
  | none => simp only [Adds] at h; subst h; exact k
  | some x =>
    obtain ⟨y, rfl, h⟩ := h
    obtain ⟨z, rfl, k⟩ := k
    refine ⟨z, rfl, ?_⟩
    rw [List.replicate_add, Res.foldlM_append, h]
    exact k

theorem Recorded.adds {σ : ℚ} {ts n : ℕ} {c c' : Option Curve} (h : Recorded σ ts n c c') :
    Adds σ ts n c c' := by
  unfold Recorded at h
  cases n with
  | zero => simp only [Nat.cast_zero, lt_self_iff_false, if_false] at h; subst h; exact Adds.refl _ _ _
  | succ n =>
    rw [if_pos (by positivity)] at h
    cases c with
    | none => exact h
    | some k =>
      obtain ⟨k', h1, h2⟩ := h
      refine ⟨k', h2, addIncrement_replicate n k k' ?_⟩
      rw [← h1]
      congr 2
      push_cast; ring

/-- What the movements `es` of one node phase do to the log and the queues. -/
structure Hist (c : Cfg) (ts : ℕ) (s s' : State) (es : List Event) : Prop where
  log : s'.log = s.log ++ es
  time : ∀ e ∈ es, e.t = ts
  inc : ∀ l, s'.inc l = s.inc l ++ (es.filter fun e => decide (e.dst = some l)).map Event.veh
  fin : ∀ l, (s.fin l).length = (s'.fin l).length + (es.filter fun e => decide (e.src = some l)).length
  dst : ∀ e ∈ es, ∀ l, e.dst = some l → l ∈ c.linkIds
  node : ∀ e ∈ es, ∀ l, e.dst = some l → ∃ n ∈ c.nodeIds, l ∈ (c.node n).outs ∧
    (e.src = none ↔ ∃ outs, c.node n = .origin outs)
  dest : ∀ e ∈ es, e.dst = none → ∃ n ∈ c.nodeIds, (c.node n).isDest ∧ e.veh ∈ s'.queue n
  queue : ∀ n, (c.node n).isDest → ∀ v ∈ s.queue n, v ∈ s'.queue n

theorem Hist.refl (c : Cfg) (ts : ℕ) (s : State) : Hist c ts s s [] :=
  ⟨by simp, by simp, by simp, by simp, by simp, by simp, by simp, fun _ _ _ h => h⟩

theorem Hist.trans {c : Cfg} {ts : ℕ} {a b d : State} {es fs : List Event} (h : Hist c ts a b es)
    (k : Hist c ts b d fs) : Hist c ts a d (es ++ fs) := by
  refine ⟨by rw [k.log, h.log, List.append_assoc], ?_, ?_, ?_, ?_, ?_, ?_,
    fun n hn v hv => k.queue n hn v (h.queue n hn v hv)⟩
  · intro e he
    rcases List.mem_append.1 he with he | he
    · exact h.time e he
    · exact k.time e he
  · intro l; rw [k.inc, h.inc, List.filter_append, List.map_append, List.append_assoc]
  · intro l; rw [List.filter_append, List.length_append, h.fin, k.fin]; omega
  · intro e he
    rcases List.mem_append.1 he with he | he
    · exact h.dst e he
    · exact k.dst e he
  · intro e he
    rcases List.mem_append.1 he with he | he
    · exact h.node e he
    · exact k.node e he
  · intro e he hd
    rcases List.mem_append.1 he with he | he
    · obtain ⟨n, h1, h2, h3⟩ := h.dest e he hd
      exact ⟨n, h1, h2, k.queue n h2 _ h3⟩
    · exact k.dest e he hd

theorem Hist.curves {c : Cfg} {ts : ℕ} {s s' : State} (r : OnlyCurves s s') : Hist c ts s s' [] := by
  have hi : ∀ l, s'.inc l = s.inc l := fun l => by unfold State.inc; rw [r.link]
  exact ⟨by rw [r.log]; simp, by simp, by intro l; rw [hi]; simp, by intro l; rw [r.fin]; simp,
    by simp, by simp, by simp, by intro n _ v hv; rwa [r.queue]⟩

/-- A phase that consists of movements. -/
def Moved (c : Cfg) (ts : ℕ) (s s' : State) : Prop := ∃ es, Hist c ts s s' es

theorem Moved.refl (c : Cfg) (ts : ℕ) (s : State) : Moved c ts s s := ⟨[], Hist.refl c ts s⟩

theorem Moved.trans {c : Cfg} {ts : ℕ} {a b d : State} (h : Moved c ts a b) (k : Moved c ts b d) :
    Moved c ts a d := by
  obtain ⟨es, h⟩ := h
  obtain ⟨fs, k⟩ := k
  exact ⟨es ++ fs, h.trans k⟩

theorem filter_entry {vs : List ℕ} {f : ℕ → Event} {p : Event → Bool} {b : Bool}
    (h : ∀ v, p (f v) = b) : (vs.map f).filter p = if b then vs.map f else [] := by
  induction vs with
  | nil => simp
  | cons v vs ih => cases b <;> simp_all

theorem moveOne_moved {c : Cfg} (hc : c.Ok) {ts o i m : ℕ} {n : ℤ} (hm : m ∈ c.nodeIds)
    (hno : ∀ outs, c.node m ≠ .origin outs) (ho : o ∈ (c.node m).outs) {s s' : State}
    (he : moveOne ts o i n s = .ok s') : Moved c ts s s' := by
  obtain ⟨a1, _, _, _, _, a6, a7, _, a9, a10, a11, a12⟩ := moveOne_spec he
  generalize (s.waiting i o).take n.toNat = vs at *
  refine ⟨vs.map fun v => ⟨ts, v, some i, some o⟩, a12, by simp, ?_, ?_, ?_, ?_, by simp, ?_⟩
  · intro l
    by_cases hl : l = o
    · subst hl
      rw [a9, filter_entry (b := true) (by simp), if_pos rfl, List.map_map]
      congr 1
      simp [Function.comp_def]
    · rw [a10 l hl, filter_entry (b := false) (by simp [Ne.symm hl])]
      simp
  · intro l
    by_cases hl : l = i
    · subst hl
      rw [filter_entry (b := true) (by simp), if_pos rfl, List.length_map, a11.length_eq,
        List.length_append]
      omega
    · rw [a6 l hl, filter_entry (b := false) (by simp [Ne.symm hl])]
      simp
  · intro e h l hl
    simp only [List.mem_map] at h
    obtain ⟨v, _, rfl⟩ := h
    simp only [Option.some.injEq] at hl
    exact hl ▸ (hc.outs m hm).2 o ho
  · intro e h l hl
    simp only [List.mem_map] at h
    obtain ⟨v, _, rfl⟩ := h
    simp only [Option.some.injEq] at hl
    refine ⟨m, hm, hl ▸ ho, ?_⟩
    simp only [reduceCtorEq, false_iff, not_exists]
    exact hno
  · intro n _ v hv; rwa [a1.queue]

theorem originMove_moved {c : Cfg} (hc : c.Ok) {ts n : ℕ} (hn : n ∈ c.nodeIds) {outs : List ℕ}
    (hk : c.node n = .origin outs) {s s' : State} {lv : ℕ × ℤ} (hl : lv.1 ∈ outs) (he : originMove c.scalar ts n s lv = .ok s') : Moved c ts s s' := by
  have S := originMove_spec he
  obtain ⟨l, k⟩ := lv
  unfold originMove at he
  rw [Res.bind_eq_ok'] at he
  obtain ⟨cv, _, he⟩ := he
  simp only at he
  generalize takeFirst (s.heads l) k.toNat (s.queue n) = r at *
  rw [Res.ok.injEq] at he
  have hinc : ∀ x, s'.inc x = if x = l then s.inc l ++ r.1 else s.inc x := by
    intro x; rw [← he]; simp only [State.inc, State.enter, upd]
    split <;> simp_all
  refine ⟨r.1.map fun v => ⟨ts, v, none, some l⟩, by rw [← he]; rfl, by simp, ?_, ?_, ?_, ?_, by simp, ?_⟩
  · intro x
    rw [hinc]
    by_cases hx : x = l
    · subst hx
      rw [if_pos rfl, filter_entry (b := true) (by simp), if_pos rfl, List.map_map]
      congr 1
      simp [Function.comp_def]
    · rw [if_neg hx, filter_entry (b := false) (by simp [Ne.symm hx])]
      simp
  · intro x
    rw [S.fin, filter_entry (b := false) (by simp)]
    simp
  · intro e h x hx
    simp only [List.mem_map] at h
    obtain ⟨v, _, rfl⟩ := h
    simp only [Option.some.injEq] at hx
    exact hx ▸ (hc.outs n hn).2 l (by rw [hk]; exact hl)
  · intro e h x hx
    simp only [List.mem_map] at h
    obtain ⟨v, _, rfl⟩ := h
    simp only [Option.some.injEq] at hx
    exact ⟨n, hn, by rw [hk, ← hx]; exact hl, by simp [hk]⟩
  · intro m hm v hv
    rw [S.queueOther m (by rintro rfl; rw [hk] at hm; exact hm)]; exact hv

theorem destTake_moved {c : Cfg} {ts n l : ℕ} (hn : n ∈ c.nodeIds) (hd : (c.node n).isDest)
    {s s' : State} (he : destTake c.scalar ts n s l = .ok s') : Moved c ts s s' := by
  have S := destTake_spec he
  have hq : s'.queue n = s.queue n ++ s.fin l := by simpa using S.queue
  unfold destTake at he
  simp only at he
  rw [Res.bind_eq_ok'] at he
  obtain ⟨cv, _, he⟩ := he
  split at he
  swap
  · simp at he
  rw [Res.ok.injEq] at he
  refine ⟨(s.fin l).map fun v => ⟨ts, v, some l, none⟩, by rw [← he]; rfl, by simp, ?_, ?_, by simp, by simp, ?_, ?_⟩
  · intro x
    rw [S.inc, filter_entry (b := false) (by simp)]
    simp
  · intro x
    by_cases hx : x = l
    · subst hx
      rw [filter_entry (b := true) (by simp), if_pos rfl, List.length_map, (S.fin x (by simp)).1]
      simp
    · rw [S.finOther x (by simpa using hx), filter_entry (b := false) (by simp [Ne.symm hx])]
      simp
  · intro e h _
    simp only [List.mem_map] at h
    obtain ⟨v, hv, rfl⟩ := h
    exact ⟨n, hn, hd, by rw [hq]; exact List.mem_append_right _ hv⟩
  · intro m _ v hv
    by_cases e : m = n
    · subst e; rw [hq]; exact List.mem_append_left _ hv
    · rwa [S.queueOther m e]

theorem moveAll_moved {c : Cfg} (hc : c.Ok) {ts m : ℕ} (hm : m ∈ c.nodeIds)
    (hno : ∀ outs, c.node m ≠ .origin outs) {ins : List ℕ} {orc : NodeOracle} :
    ∀ (oms : List (ℕ × List ℤ)) (j : ℕ) (s s' : State), (∀ om ∈ oms, om.1 ∈ (c.node m).outs) →
    moveAll ts ins orc j s oms = .ok s' → Moved c ts s s'
  | [], j, s, s', _, he => by
    simp only [moveAll, Res.ok.injEq] at he
    exact he ▸ Moved.refl c ts s
  | om :: oms, j, s, s', ho, he => by
    simp only [moveAll] at he
    rw [Res.bind_eq_ok'] at he
    obtain ⟨s1, h1, h2⟩ := he
    refine Moved.trans ?_ (moveAll_moved hc hm hno oms (j + 1) s1 s' (fun x hx => ho x (by simp [hx])) h2)
    unfold moveCol at h1
    refine Res.foldlM_inv (P := fun t => Moved c ts s t) ?_ _ _ _ (Moved.refl c ts s) h1
    intro b k b' hb hk
    cases e : ins[k]? with
    | none => rw [e] at hk; simp at hk
    | some l =>
      rw [e] at hk
      exact hb.trans (moveOne_moved hc hm hno (ho om (by simp)) hk)

theorem inout_moved {c : Cfg} (hc : c.Ok) {ts m : ℕ} (hm : m ∈ c.nodeIds)
    (hno : ∀ outs, c.node m ≠ .origin outs) {grj : Bool} {ins outs : List ℕ}
    (ho : (c.node m).outs = outs) {orc : NodeOracle} {s s' : State}
    (he : inoutEvolve c.scalar ts grj ins outs orc s = .ok s') : Moved c ts s s' := by
  unfold inoutEvolve at he
  split at he
  swap
  · simp at he
  rw [Res.bind_eq_ok'] at he
  obtain ⟨sups, _, he⟩ := he
  rw [Res.bind_eq_ok'] at he
  obtain ⟨flows, _, he⟩ := he
  rw [Res.bind_eq_ok'] at he
  obtain ⟨mv, _, he⟩ := he
  rw [Res.bind_eq_ok'] at he
  obtain ⟨s1, h1, he⟩ := he
  rw [Res.bind_eq_ok'] at he
  obtain ⟨s2, h2, he⟩ := he
  have A : Moved c ts s s1 := Res.foldlM_inv (P := fun t => Moved c ts s t)
    (fun b a b' hb hk => hb.trans ⟨[], Hist.curves (recordOut_curves hk)⟩) _ _ _ (Moved.refl c ts s) h1
  have B : Moved c ts s s2 := Res.foldlM_inv (P := fun t => Moved c ts s t)
    (fun b a b' hb hk => hb.trans ⟨[], Hist.curves (recordIn_curves hk)⟩) _ _ _ A h2
  refine B.trans (moveAll_moved hc hm hno _ _ _ _ ?_ he)
  intro om hom
  rw [ho]; exact (List.of_mem_zip hom).1

/-- What the movements `es` of a node phase do, with the curves. -/
structure HistStep (c : Cfg) (ts : ℕ) (s s' : State) (es : List Event) : Prop extends
    Hist c ts s s' es where
  nIn : (∀ l, BothCurves s l) → ∀ l, Adds c.scalar ts
    (es.filter fun e => decide (e.dst = some l)).length (s.links l).nIn (s'.links l).nIn
  nOut : (∀ l, BothCurves s l) → ∀ l, Adds c.scalar ts
    (es.filter fun e => decide (e.src = some l)).length (s.links l).nOut (s'.links l).nOut

theorem Adds.some {σ : ℚ} {ts n : ℕ} {c c' : Option Curve} (h : Adds σ ts n c c') :
    c'.isSome = c.isSome := by
  cases c with
  | none => simp only [Adds] at h; rw [h]
  | some k => obtain ⟨k', rfl, _⟩ := h; rfl

theorem HistStep.both {c : Cfg} {ts : ℕ} {s s' : State} {es : List Event} (h : HistStep c ts s s' es)
    (hb : ∀ l, BothCurves s l) : ∀ l, BothCurves s' l := by
  intro l
  have := hb l
  unfold BothCurves at this ⊢
  rw [(h.nIn hb l).some, (h.nOut hb l).some, this]

theorem HistStep.trans {c : Cfg} {ts : ℕ} {a b d : State} {es fs : List Event} (h : HistStep c ts a b es)
    (k : HistStep c ts b d fs) : HistStep c ts a d (es ++ fs) := by
  refine ⟨h.toHist.trans k.toHist, ?_, ?_⟩
  · intro hb l
    rw [List.filter_append, List.length_append]
    exact (h.nIn hb l).trans (k.nIn (h.both hb) l)
  · intro hb l
    rw [List.filter_append, List.length_append]
    exact (h.nOut hb l).trans (k.nOut (h.both hb) l)

theorem Hist.inLen {c : Cfg} {ts : ℕ} {s s' : State} {es : List Event} (h : Hist c ts s s' es) (l : ℕ) :
    (s'.inc l).length = (s.inc l).length + (es.filter fun e => decide (e.dst = some l)).length := by
  rw [h.inc l, List.length_append, List.length_map]

theorem node_hist {c : Cfg} (hc : c.Ok) {o : StepOracle} (ho : o.Ok c) {n : ℕ} (hn : n ∈ c.nodeIds)
    {ts : ℕ} {s s' : State} (h : (c.node n).evolve c.scalar ts n (o.node n) s = .ok s') :
    ∃ es, HistStep c ts s s' es := by
  have hord := ho.order n
  have hins := hc.ins n hn
  have houts := hc.outs n hn
  have inout : ∀ grj ins outs, (∀ outs, c.node n ≠ .origin outs) → (c.node n).ins = ins → (c.node n).outs = outs →
      inoutEvolve c.scalar ts grj ins outs (o.node n) s = .ok s' → ∃ es, HistStep c ts s s' es := by
    intro grj ins outs hno hi ho' he
    obtain ⟨es, H⟩ := inout_moved hc hn hno ho' he
    rw [hi] at hins hord
    rw [ho'] at houts
    obtain ⟨hright, sups, flows, mv, _, _, _, _, _, S⟩ := inout_spec he hins.1 houts.1 hord
    refine ⟨es, H, ?_, ?_⟩
    · intro hb l
      have hlen := H.inLen l
      by_cases hl : l ∈ outs
      · obtain ⟨m, sup, f1, _, _, _, f2, f3, _⟩ := S.col _ l (idxOf_get? hl)
        have := S.curveIn _ l m (idxOf_get? hl) f1 (hb l)
        rw [f2, List.length_append] at hlen
        rw [← f3] at this
        have e : (blocks s ins l m ((o.node n).order (outs.idxOf l))).length
          = (es.filter fun e => decide (e.dst = some l)).length := by omega
        rw [← e]; exact Recorded.adds this
      · rw [S.incOther l hl] at hlen
        have e : (es.filter fun e => decide (e.dst = some l)).length = 0 := by omega
        rw [S.curveInOther l hl, e]; exact Adds.refl _ _ _
    · intro hb l
      have hlen := H.fin l
      by_cases hl : l ∈ ins
      · have := S.curveOut _ l (idxOf_get? hl) (hb l)
        rw [leaving_count S houts.1 hright (idxOf_get? hl)] at this
        have e : (s.fin l).length - (s'.fin l).length
          = (es.filter fun e => decide (e.src = some l)).length := by omega
        rw [← e]; exact Recorded.adds this
      · rw [S.finOther l hl] at hlen
        have e : (es.filter fun e => decide (e.src = some l)).length = 0 := by omega
        rw [S.curveOutOther l hl, e]; exact Adds.refl _ _ _
  cases hk : c.node n with
  | origin outs =>
    rw [hk] at h houts
    simp only [Node.outs] at houts
    have hM : Moved c ts s s' := by
      simp only [Node.evolve, originEvolve] at h
      split at h
      swap
      · simp at h
      rw [Res.bind_eq_ok'] at h
      obtain ⟨lvs, h1, h⟩ := h
      have hfst : lvs.map Prod.fst = outs := (originVolumes_get h1).1
      refine Res.foldlM_inv_mem (P := fun t => Moved c ts s t) lvs ?_ _ _ (Moved.refl c ts s) h
      intro b lv b' hlv hb hbe
      refine hb.trans (originMove_moved hc hn hk ?_ hbe)
      rw [← hfst]; exact List.mem_map_of_mem hlv
    obtain ⟨es, H⟩ := hM
    have hu : ∀ k, 0 ≤ (fun i => (o.node n).u i 0) k := fun k => ho.draw n k 0
    simp only [Node.evolve] at h
    obtain ⟨_, lvs, e1, S, hv⟩ := origin_spec h houts.1
    refine ⟨es, H, ?_, ?_⟩
    · intro _ l
      have hlen := H.inLen l
      by_cases hl : l ∈ outs
      · obtain ⟨m, sup, hm, _, hcase⟩ := hv _ l (idxOf_get? hl)
        obtain ⟨a1, _, a3⟩ := S.out l m hm
        rw [a1, List.length_append, List.length_take] at hlen
        by_cases hpos : 0 < m
        · have hle : m.toNat ≤ (s.queued n l).length := by
            rcases hcase with ⟨_, rfl⟩ | ⟨hlt, rfl⟩
            · simp
            · have := roundVal_le (u := (o.node n).u (outs.idxOf l) 0) (hu _) hlt hpos
              omega
          have e : m.toNat = (es.filter fun e => decide (e.dst = some l)).length := by omega
          rw [← e]
          apply Recorded.adds
          rw [Int.toNat_of_nonneg hpos.le]; exact a3
        · have h0 : m.toNat = 0 := by omega
          have e : (es.filter fun e => decide (e.dst = some l)).length = 0 := by omega
          unfold Recorded at a3
          rw [if_neg hpos] at a3
          rw [a3, e]; exact Adds.refl _ _ _
      · have hl' : l ∉ lvs.map Prod.fst := by rw [e1]; exact hl
        rw [S.incOther l hl'] at hlen
        have e : (es.filter fun e => decide (e.dst = some l)).length = 0 := by omega
        rw [S.nInOther l hl', e]; exact Adds.refl _ _ _
    · intro _ l
      have hlen := H.fin l
      rw [S.fin] at hlen
      have e : (es.filter fun e => decide (e.src = some l)).length = 0 := by omega
      rw [S.nOut, e]; exact Adds.refl _ _ _
  | dest ins =>
    rw [hk] at h hins
    simp only [Node.ins] at hins
    simp only [Node.evolve] at h
    have hM : Moved c ts s s' := by
      unfold destEvolve at h
      refine Res.foldlM_inv_mem (P := fun t => Moved c ts s t) ins ?_ _ _ (Moved.refl c ts s) h
      intro b l b' hl hb hbe
      exact hb.trans (destTake_moved hn (by rw [hk]; trivial) hbe)
    obtain ⟨es, H⟩ := hM
    have S := dest_spec ins s s' h hins.1
    refine ⟨es, H, ?_, ?_⟩
    · intro _ l
      have hlen := H.inLen l
      rw [S.inc] at hlen
      have e : (es.filter fun e => decide (e.dst = some l)).length = 0 := by omega
      rw [S.nIn, e]; exact Adds.refl _ _ _
    · intro _ l
      have hlen := H.fin l
      by_cases hl : l ∈ ins
      · rw [(S.fin l hl).1] at hlen
        simp only [List.length_nil, zero_add] at hlen
        rw [← hlen]; exact Recorded.adds (S.fin l hl).2
      · rw [S.finOther l hl] at hlen
        have e : (es.filter fun e => decide (e.src = some l)).length = 0 := by omega
        rw [S.nOutOther l hl, e]; exact Adds.refl _ _ _
  | fwj ins outs => rw [hk] at h; exact inout false ins outs (by simp [hk]) (by rw [hk]; rfl) (by rw [hk]; rfl) h
  | grj ins outs => rw [hk] at h; exact inout true ins outs (by simp [hk]) (by rw [hk]; rfl) (by rw [hk]; rfl) h

theorem stepNodes_hist {c : Cfg} (hc : c.Ok) {o : StepOracle} (ho : o.Ok c) {ts : ℕ} {s s' : State}
    (h : stepNodes c o ts s = .ok s') : ∃ es, HistStep c ts s s' es := by
  refine Res.foldlM_inv_mem (P := fun t => ∃ es, HistStep c ts s t es) c.nodeIds ?_ s s'
    ⟨[], Hist.refl c ts s, fun _ _ => Adds.refl _ _ _, fun _ _ => Adds.refl _ _ _⟩ h
  intro b n b' hn hb he
  obtain ⟨es, hb⟩ := hb
  obtain ⟨fs, hf⟩ := node_hist hc ho hn he
  exact ⟨es ++ fs, hb.trans hf⟩

/-! ### Whole loadings -/

/-- What holds of the log, the curves and the vehicles at the beginning of interval `ts`. -/
structure HistInv (c : Cfg) (ts : ℕ) (s : State) : Prop where
  nIn : ∀ l k, (s.links l).nIn = some k →
    Res.foldlM addIncrement install (flows c.scalar (entries s.log l)) = .ok k
  nOut : ∀ l k, (s.links l).nOut = some k →
    Res.foldlM addIncrement install (flows c.scalar (exits s.log l)) = .ok k
  time : ∀ e ∈ s.log, e.t < ts
  sorted : s.log.Pairwise fun a b => a.t ≤ b.t
  balance : ∀ l, (entries s.log l).length = (exits s.log l).length + (s.on l).length
  le : ∀ l t, upTo (exits s.log l) t ≤ upTo (entries s.log l) t
  node : ∀ e ∈ s.log, ∀ l, e.dst = some l → ∃ n ∈ c.nodeIds, l ∈ (c.node n).outs ∧
    (e.src = none ↔ ∃ outs, c.node n = .origin outs)
  moved : ∀ e ∈ s.log, (1 ≤ e.veh ∧ e.veh ≤ s.numVeh) ∧ ∀ n ∈ c.nodeIds, ¬ (c.node n).isDest → e.veh ∉ s.queue n

theorem entries_append (a b : List Event) (l : ℕ) : entries (a ++ b) l = entries a l ++ entries b l := by
  unfold entries; rw [List.filter_append, List.map_append]

theorem exits_append (a b : List Event) (l : ℕ) : exits (a ++ b) l = exits a l ++ exits b l := by
  unfold exits; rw [List.filter_append, List.map_append]

theorem upTo_append (a b : List (ℕ × ℕ)) (t : ℕ) : upTo (a ++ b) t = upTo a t + upTo b t := by
  unfold upTo; rw [List.filter_append, List.map_append, List.sum_append]

theorem upTo_late {h : List (ℕ × ℕ)} {t : ℕ} (hl : ∀ p ∈ h, t < p.1) : upTo h t = 0 := by
  unfold upTo
  rw [List.filter_eq_nil_iff.2 fun p hp => by have := hl p hp; simp; omega]
  rfl

theorem upTo_all {h : List (ℕ × ℕ)} {t : ℕ} (hl : ∀ p ∈ h, p.2 = 1 ∧ p.1 ≤ t) : upTo h t = h.length := by
  unfold upTo
  rw [List.filter_eq_self.2 fun p hp => by simpa using (hl p hp).2]
  induction h with
  | nil => rfl
  | cons p h ih =>
    rw [List.map_cons, List.sum_cons, List.length_cons, ih fun q hq => hl q (by simp [hq]), (hl p (by simp)).1]
    omega

theorem flows_append (σ : ℚ) (a b : List (ℕ × ℕ)) : flows σ (a ++ b) = flows σ a ++ flows σ b :=
  List.map_append

theorem flows_same {σ : ℚ} {ts : ℕ} {es : List Event} (h : ∀ e ∈ es, e.t = ts) (p : Event → Bool) :
    flows σ ((es.filter p).map fun e => (e.t + 1, 1))
      = List.replicate (es.filter p).length ((ts : ℚ) + 1, 1 / σ) := by
  unfold flows
  rw [List.map_map, List.eq_replicate_iff]
  refine ⟨by simp, ?_⟩
  intro b hb
  rw [List.mem_map] at hb
  obtain ⟨e, he, rfl⟩ := hb
  have := h e (List.mem_of_mem_filter he)
  simp [this]

theorem on_length (s : State) (l : ℕ) :
    (s.on l).length = (s.fin l).length + (s.trav l).length + (s.inc l).length := by
  unfold State.on Link.holds State.fin State.trav State.inc
  simp [Nat.add_assoc]

theorem HistInv.rel {c : Cfg} (hc : c.Ok) {ts k : ℕ} {s s' : State} (h : HistInv c ts s)
    (r : Rel c ts k s s') : HistInv c ts s' := by
  have hon : s'.on = s.on := by unfold State.on; rw [r.links]
  refine ⟨by rw [r.links, r.log]; exact h.nIn, by rw [r.links, r.log]; exact h.nOut,
    by rw [r.log]; exact h.time, by rw [r.log]; exact h.sorted, by rw [r.log, hon]; exact h.balance,
    by rw [r.log]; exact h.le, by rw [r.log]; exact h.node, ?_⟩
  rw [r.log, r.num]
  intro e he
  obtain ⟨h1, h2⟩ := h.moved e he
  refine ⟨by omega, ?_⟩
  intro n hn hd hv
  have hv' := (r.queue n).mem_iff.1 hv
  rw [List.mem_append, List.mem_filter, List.mem_range'_1] at hv'
  rcases hv' with hv' | ⟨hv', _⟩
  · exact h2 n hn hd hv'
  · omega

theorem HistInv.routed {c : Cfg} {ts : ℕ} {s s' : State} (h : HistInv c ts s) (r : Routed s s') :
    HistInv c ts s' := by
  refine ⟨by rw [r.links, r.log]; exact h.nIn, by rw [r.links, r.log]; exact h.nOut,
    by rw [r.log]; exact h.time, by rw [r.log]; exact h.sorted, by rw [r.log, r.on_eq]; exact h.balance,
    by rw [r.log]; exact h.le, by rw [r.log]; exact h.node, ?_⟩
  rw [r.log, r.num, r.queue]; exact h.moved

theorem HistInv.nodes {c : Cfg} {ts : ℕ} {s s' : State} {es : List Event} (h : HistInv c ts s)
    (hco : Core c s) (N : NodeStep c s s') (C : Core c s') (H : HistStep c ts s s' es) :
    HistInv c (ts + 1) s' := by
  have curve : ∀ {k0 k1 : Option Curve} (p : Event → Bool) (k : Curve),
      Adds c.scalar ts (es.filter p).length k0 k1 → k1 = some k →
      (∀ k, k0 = some k → Res.foldlM addIncrement install
        (flows c.scalar ((s.log.filter p).map fun e => (e.t + 1, 1))) = .ok k) →
      Res.foldlM addIncrement install
        (flows c.scalar (((s.log ++ es).filter p).map fun e => (e.t + 1, 1))) = .ok k := by
    intro k0 k1 p k ha hk hold
    cases k0 with
    | none => simp only [Adds] at ha; rw [ha] at hk; simp at hk
    | some x =>
      obtain ⟨y, rfl, ha⟩ := ha
      cases hk
      rw [List.filter_append, List.map_append, flows_append, Res.foldlM_append, hold x rfl, Res.ok_bind,
        flows_same H.time]
      exact ha
  have hbal : ∀ l, (entries s'.log l).length = (exits s'.log l).length + (s'.on l).length := by
    intro l
    have h1 := h.balance l
    have h2 := H.inLen l
    have h3 := H.fin l
    have h4 : s'.trav l = s.trav l := N.frame.trav l
    rw [H.log, entries_append, exits_append, List.length_append, List.length_append]
    rw [on_length] at h1 ⊢
    rw [h4]
    simp only [entries, exits, List.length_map] at h1 ⊢
    omega
  refine ⟨?_, ?_, ?_, ?_, hbal, ?_, ?_, ?_⟩
  · intro l k hk
    rw [H.log]
    exact curve _ k (H.nIn hco.both l) hk (h.nIn l)
  · intro l k hk
    rw [H.log]
    exact curve _ k (H.nOut hco.both l) hk (h.nOut l)
  · rw [H.log]
    intro e he
    rcases List.mem_append.1 he with he | he
    · have := h.time e he; omega
    · have := H.time e he; omega
  · rw [H.log, List.pairwise_append]
    refine ⟨h.sorted, ?_, ?_⟩
    · refine List.pairwise_of_forall_mem_list ?_
      intro a ha b hb
      rw [H.time a ha, H.time b hb]
    · intro a ha b hb
      rw [H.time b hb]; exact (h.time a ha).le
  · intro l t
    rcases le_or_gt t ts with ht | ht
    · rw [H.log, entries_append, exits_append, upTo_append, upTo_append]
      have e1 : upTo (exits es l) t = 0 := upTo_late fun p hp => by
        obtain ⟨e, he, rfl⟩ := List.mem_map.1 hp
        have := H.time e (List.mem_of_mem_filter he)
        simp only; omega
      have := h.le l t
      omega
    · rw [upTo_all, upTo_all]
      · have := hbal l
        simp only [entries, exits, List.length_map] at this ⊢
        omega
      all_goals
        intro p hp
        obtain ⟨e, he, rfl⟩ := List.mem_map.1 hp
        have he := List.mem_of_mem_filter he
        rw [H.log] at he
        refine ⟨rfl, ?_⟩
        simp only
        rcases List.mem_append.1 he with he | he
        · have := h.time e he; omega
        · have := H.time e he; omega
  · rw [H.log]
    intro e he
    rcases List.mem_append.1 he with he | he
    · exact h.node e he
    · exact H.node e he
  · rw [H.log, N.frame.factory.1]
    intro e he
    rcases List.mem_append.1 he with he | he
    · obtain ⟨h1, h2⟩ := h.moved e he
      refine ⟨h1, ?_⟩
      intro n hn hd hv
      rcases N.queue n with hs | ⟨ins, hk, _⟩
      · exact h2 n hn hd (hs.subset hv)
      · rw [hk] at hd; exact hd trivial
    · cases hdst : e.dst with
      | some l =>
        have hl := H.dst e he l hdst
        have hin : e.veh ∈ s'.inc l := by
          rw [H.inc]
          refine List.mem_append_right _ (List.mem_map_of_mem ?_)
          rw [List.mem_filter]; exact ⟨he, by simp [hdst]⟩
        have hp := mem_places_on hl (inc_on hin)
        refine ⟨by rw [← N.frame.factory.1]; exact C.range _ (C.mem_map hp), ?_⟩
        intro n hn _ hv
        exact C.once.queue_on hn hl hv (inc_on hin)
      | none =>
        obtain ⟨n, hn, hd, hq⟩ := H.dest e he hdst
        have hp := mem_places_queue hn hq
        refine ⟨by rw [← N.frame.factory.1]; exact C.range _ (C.mem_map hp), ?_⟩
        intro m hm hd' hv
        have := C.once.queue_queue hm hn hv hq
        subst this
        exact hd' hd

theorem HistInv.linksStep {c : Cfg} {ts : ℕ} {s s' : State} (h : HistInv c ts s) (hco : Core c s)
    (r : LinksStep s s') : HistInv c ts s' := by
  have hon : s'.on = s.on := funext fun l => r.holds hco.links l
  have e1 : s'.log = s.log := by rw [r.rest]
  have e2 : s'.queue = s.queue := by rw [r.rest]
  have e3 : s'.numVeh = s.numVeh := by rw [r.rest]
  refine ⟨?_, ?_, by rw [e1]; exact h.time, by rw [e1]; exact h.sorted, by rw [e1, hon]; exact h.balance,
    by rw [e1]; exact h.le, by rw [e1]; exact h.node, by rw [e1, e2, e3]; exact h.moved⟩
  · intro l k; rw [r.nIn, e1]; exact h.nIn l k
  · intro l k; rw [r.nOut, e1]; exact h.nOut l k

theorem HistInv.receive {c : Cfg} (hc : c.Ok) {ts t d : ℕ} (hd : d ∈ c.destIds) {s s' : State}
    (hco : Core c s) (h : HistInv c ts s) (he : receive c t s d = .ok s') : HistInv c ts s' := by
  obtain ⟨hn, ins, hk⟩ := hc.dests d hd
  obtain ⟨S, hq⟩ := receive_spec he (hco.queue_nodup hn)
  have e1 : s'.log = s.log := S.log
  have e2 : s'.links = s.links := S.links
  have e3 : s'.numVeh = s.numVeh := S.num
  have hon : s'.on = s.on := by unfold State.on; rw [e2]
  refine ⟨by rw [e1, e2]; exact h.nIn, by rw [e1, e2]; exact h.nOut, by rw [e1]; exact h.time,
    by rw [e1]; exact h.sorted, by rw [e1, hon]; exact h.balance, by rw [e1]; exact h.le,
    by rw [e1]; exact h.node, ?_⟩
  rw [e1, e3]
  intro e hme
  obtain ⟨h1, h2⟩ := h.moved e hme
  refine ⟨h1, ?_⟩
  intro n hn' hnd hv
  rw [hq] at hv
  by_cases en : n = c.destNode d
  · subst en; simp at hv
  · rw [upd_other _ _ _ _ en] at hv; exact h2 n hn' hnd hv

theorem loadOnce_hist {c : Cfg} (hc : c.Ok) (hsc : c.scalar ≠ 0) {o : StepOracle} (ho : o.Ok c)
    {ts assign : ℕ} {s s' : State} (hi : NetInv c ts s) (h : HistInv c ts s)
    (r : loadOnce c o ts assign s = .ok s') : HistInv c (ts + 1) s' := by
  unfold loadOnce at r
  rw [Res.bind_eq_ok'] at r
  obtain ⟨s1, r1, r⟩ := r
  rw [Res.bind_eq_ok'] at r
  obtain ⟨s2, r2, r⟩ := r
  rw [Res.bind_eq_ok'] at r
  obtain ⟨s3, r3, r⟩ := r
  rw [Res.bind_eq_ok'] at r
  obtain ⟨s4, r4, r5⟩ := r
  have h4 := before_receive hc hsc ho hi r1 r2 r3 r4
  obtain ⟨k, R⟩ := stepRelease_rel ho r1
  have T := routing_routed r2
  have N := stepNodes_step hc ho r3
  obtain ⟨es, H⟩ := stepNodes_hist hc ho r3
  have C2 := (hi.core.rel hc R).routed T
  have C3 := C2.node hsc N
  have t4 := (((h.rel hc R).routed T).nodes C2 N C3 H).linksStep C3 (linksStep_all r4)
  have := Res.foldlM_inv_mem (P := fun t => RecvInv c ts t ∧ HistInv c (ts + 1) t) c.destIds (by
    intro b d b' hd hb hbe
    exact ⟨(hb.1.receive hc hd hbe).1, hb.2.receive hc hd hb.1.core hbe⟩) s4 s' ⟨h4, t4⟩ r5
  exact this.2

theorem loadMany_hist {c : Cfg} (hc : c.Ok) (hsc : c.scalar ≠ 0) : ∀ (os : List StepOracle)
    (ts assign : ℕ) (s : State) (r : State × ℕ × ℕ), (∀ o ∈ os, o.Ok c) → NetInv c ts s →
    HistInv c ts s → loadMany c os ts assign s = .ok r → HistInv c r.2.1 r.1
  | [], ts, assign, s, r, _, _, h, e => by
    simp only [loadMany, Res.ok.injEq] at e
    subst e
    exact h
  | o :: os, ts, assign, s, r, ho, hi, h, e => by
    simp only [loadMany] at e
    rw [Res.bind_eq_ok'] at e
    obtain ⟨s1, e1, e2⟩ := e
    exact loadMany_hist hc hsc os _ _ s1 r (fun x hx => ho x (by simp [hx]))
      (loadOnce_inv hc hsc (ho o (by simp)) hi e1) (loadOnce_hist hc hsc (ho o (by simp)) hi h e1) e2

theorem fresh_hist {c : Cfg} {s : State} (h : Fresh s) : HistInv c 0 s := by
  obtain ⟨links, rfl, hl⟩ := h
  refine ⟨?_, ?_, by simp [State.init], by simp [State.init], ?_,
    by simp [State.init, exits, entries], by simp [State.init], by simp [State.init]⟩
  · intro l k hk
    rcases (hl l).2 with ⟨a, b⟩ | ⟨a, b⟩
    · simp only [State.init] at hk; rw [a] at hk; simp at hk
    · simp only [State.init] at hk; rw [a] at hk; cases hk; rfl
  · intro l k hk
    rcases (hl l).2 with ⟨a, b⟩ | ⟨a, b⟩
    · simp only [State.init] at hk; rw [b] at hk; simp at hk
    · simp only [State.init] at hk; rw [b] at hk; cases hk; rfl
  · intro l
    obtain ⟨⟨k, a, hk⟩, _⟩ := hl l
    have : (State.init links).on l = [] := (mkLink_empty hk).2
    rw [this]; rfl

end Verif.Net
