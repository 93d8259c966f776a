import Verif.Spec.MEmission
import Verif.Lemmas.MHistory
import Verif.Lemmas.MRoute
import Verif.Lemmas.Emission
import Verif.Lemmas.MLinkWait
import Mathlib.Tactic.FieldSimp

namespace Verif.MNet
open Ults Curve Net

/-! ### Current links and the log -/

/-- The current link after some movements. -/
def after (c : Option ℕ) (es : List Event) (v : ℕ) : Option ℕ :=
  es.foldl (fun c e => if e.veh = v then e.dst else c) c

theorem after_append (c : Option ℕ) (es fs : List Event) (v : ℕ) :
    after c (es ++ fs) v = after (after c es v) fs v := List.foldl_append ..

theorem after_map {ts : ℕ} {src dst : Option ℕ} (v : ℕ) : ∀ (vs : List ℕ) (c : Option ℕ),
    after c (vs.map fun v => ⟨ts, v, src, dst⟩) v = if v ∈ vs then dst else c
  | [], c => by simp [after]
  | w :: vs, c => by
    have ih := after_map (ts := ts) (src := src) (dst := dst) v vs
    unfold after at ih ⊢
    rw [List.map_cons, List.foldl_cons, ih]
    by_cases h : w = v
    · subst h; simp
    · simp [h, Ne.symm h]

/-- The current link comes from a movement. -/
theorem after_some {l v : ℕ} : ∀ (es : List Event) (c : Option ℕ), after c es v = some l →
    c = some l ∨ ∃ e ∈ es, e.veh = v ∧ e.dst = some l
  | [], c, h => Or.inl h
  | e :: es, c, h => by
    have h' : after (if e.veh = v then e.dst else c) es v = some l := h
    rcases after_some es _ h' with h1 | ⟨f, hf, h1⟩
    · split at h1
      · rename_i hv; exact Or.inr ⟨e, by simp, hv, h1⟩
      · exact Or.inl h1
    · exact Or.inr ⟨f, by simp [hf], h1⟩

/-- When all movements of a vehicle go to the same place, it is there. -/
theorem after_same {v : ℕ} {x : Option ℕ} : ∀ (es : List Event) (c : Option ℕ),
    (∀ e ∈ es, e.veh = v → e.dst = x) → (c = x ∨ ∃ e ∈ es, e.veh = v) → after c es v = x
  | [], c, _, h => by
    rcases h with h | ⟨e, he, _⟩
    · exact h
    · simp at he
  | e :: es, c, ha, h => by
    show after (if e.veh = v then e.dst else c) es v = x
    refine after_same es _ (fun f hf => ha f (by simp [hf])) ?_
    split
    · rename_i hv; exact Or.inl (ha e (by simp) hv)
    · rename_i hv
      rcases h with h | ⟨f, hf, hfv⟩
      · exact Or.inl h
      · rcases List.mem_cons.1 hf with rfl | hf
        · exact absurd hfv hv
        · exact Or.inr ⟨f, hf, hfv⟩

/-- Movements set the current links. -/
def CurEv (s s' : State) : Prop :=
  ∃ es, s'.log = s.log ++ es ∧ ∀ v, (s'.vehs v).cur = after (s.vehs v).cur es v

theorem CurEv.refl (s : State) : CurEv s s := ⟨[], by simp, fun _ => rfl⟩

theorem CurEv.trans {a b d : State} (h : CurEv a b) (k : CurEv b d) : CurEv a d := by
  obtain ⟨es, h1, h2⟩ := h
  obtain ⟨fs, k1, k2⟩ := k
  refine ⟨es ++ fs, by rw [k1, h1, List.append_assoc], ?_⟩
  intro v; rw [k2, h2, after_append]

theorem CurEv.same {s s' : State} (hl : s'.log = s.log) (hv : ∀ v, (s'.vehs v).cur = (s.vehs v).cur) :
    CurEv s s' := ⟨[], by simp [hl], hv⟩

theorem CurEv.move {s s' : State} {ts : ℕ} {vs : List ℕ} {src dst : Option ℕ}
    (hl : s'.log = s.log ++ vs.map fun v => ⟨ts, v, src, dst⟩)
    (hv : ∀ v, s'.vehs v = if v ∈ vs then { s.vehs v with cur := dst } else s.vehs v) : CurEv s s' := by
  refine ⟨_, hl, ?_⟩
  intro v
  rw [after_map, hv]
  split <;> rfl

theorem curves_cur {s s' : State} (h : s' = { s with links := s'.links }) : CurEv s s' := by
  refine CurEv.same (by rw [h]) ?_
  intro v; rw [h]

theorem originMove_cur {scalar : ℚ} {ts n : ℕ} {s s' : State} {lv : ℕ × ℤ}
    (h : originMove scalar ts n s lv = .ok s') : CurEv s s' := by
  unfold originMove at h
  split at h
  swap
  · simp at h
  simp only at h
  obtain ⟨a1, _⟩ := noteIn_spec h
  refine CurEv.trans ?_ (curves_cur a1)
  exact CurEv.move (ts := ts) (src := none) (dst := some lv.1)
    (vs := (takeFirst (s.heads lv.1) lv.2.toNat (s.queue n)).1) rfl (fun _ => rfl)

theorem destTake_cur {scalar : ℚ} {ts n l : ℕ} {s s' : State} (h : destTake scalar ts n s l = .ok s') :
    CurEv s s' := by
  unfold destTake at h
  simp only at h
  split at h
  swap
  · simp at h
  split at h
  swap
  · simp at h
  obtain ⟨a1, _⟩ := noteOut_spec h
  refine CurEv.trans ?_ (curves_cur a1)
  exact CurEv.move (ts := ts) (src := some l) (dst := none) (vs := (s.links l).link.finished) rfl (fun _ => rfl)

theorem moveOne_cur {factor x : ℚ} {ts o i a b : ℕ} {t t' : State × Moved}
    (e : moveOne factor ts o i a b x t = .ok t') : CurEv t.1 t'.1 := by
  unfold moveOne at e
  simp only at e
  split at e
  · simp at e
  cases e
  exact CurEv.move (ts := ts) (src := some i) (dst := some o)
    (vs := (takeEquiv (equiv factor t.1.truck) (t.1.heads o) x (t.1.links i).link.finished).1) rfl (fun _ => rfl)

theorem moveAll_cur {scalar factor : ℚ} {ts : ℕ} {ins : List ℕ} {order : ℕ → List ℕ} :
    ∀ (cols : List (ℕ × List ℚ)) (b : ℕ) (t t' : State × Moved),
      moveAll scalar factor ts ins order b t cols = .ok t' → CurEv t.1 t'.1
  | [], b, t, t', e => by
    simp only [moveAll, Res.ok.injEq] at e
    subst e
    exact CurEv.refl _
  | (o, f) :: cols, b, t, t', e => by
    simp only [moveAll] at e
    rw [Res.bind_eq_ok'] at e
    obtain ⟨t1, e1, e2⟩ := e
    unfold moveCol at e1
    refine CurEv.trans ?_ (moveAll_cur cols (b + 1) t1 t' e2)
    refine Res.foldlM_inv (P := fun u : State × Moved => CurEv t.1 u.1) ?_ (order b) t t1 (CurEv.refl _) e1
    intro u a u' hu hk
    cases ha : ins[a]? with
    | none => rw [ha] at hk; simp at hk
    | some i => rw [ha] at hk; exact hu.trans (moveOne_cur hk)

theorem recordOuts_cur {scalar : ℚ} {ts nIn : ℕ} {mv : Moved} : ∀ (os : List ℕ) (b : ℕ) (s s' : State),
    recordOuts scalar ts nIn mv b s os = .ok s' → CurEv s s'
  | [], b, s, s', h => by
    simp only [recordOuts, Res.ok.injEq] at h
    subst h; exact CurEv.refl _
  | o :: os, b, s, s', h => by
    simp only [recordOuts] at h
    rw [Res.bind_eq_ok'] at h
    obtain ⟨s1, h1, h2⟩ := h
    exact (curves_cur (noteIn_spec h1).1).trans (recordOuts_cur os (b + 1) s1 s' h2)

theorem recordIns_cur {scalar : ℚ} {ts nOut : ℕ} {mv : Moved} : ∀ (is : List ℕ) (a : ℕ) (s s' : State),
    recordIns scalar ts nOut mv a s is = .ok s' → CurEv s s'
  | [], b, s, s', h => by
    simp only [recordIns, Res.ok.injEq] at h
    subst h; exact CurEv.refl _
  | i :: is, a, s, s', h => by
    simp only [recordIns] at h
    rw [Res.bind_eq_ok'] at h
    obtain ⟨s1, h1, h2⟩ := h
    exact (curves_cur (noteOut_spec h1).1).trans (recordIns_cur is (a + 1) s1 s' h2)

theorem node_cur {scalar factor : ℚ} {ts n : ℕ} {u : ℕ → ℚ} {order : ℕ → List ℕ} {s s' : State} {k : Node}
    (h : nodeEvolve scalar factor ts n u order s k = .ok s') : CurEv s s' := by
  cases k with
  | origin outs =>
    simp only [nodeEvolve] at h
    unfold originEvolve at h
    rw [Res.bind_eq_ok'] at h
    obtain ⟨lvs, _, h2⟩ := h
    exact Res.foldlM_inv (P := fun t => CurEv s t) (fun t lv t' ht he => ht.trans (originMove_cur he)) lvs s s'
      (CurEv.refl s) h2
  | dest ins =>
    simp only [nodeEvolve] at h
    unfold destEvolve at h
    exact Res.foldlM_inv (P := fun t => CurEv s t) (fun t l t' ht he => ht.trans (destTake_cur he)) ins s s'
      (CurEv.refl s) h
  | fwj ins outs =>
    simp only [nodeEvolve] at h
    unfold inoutEvolve at h
    split at h
    swap
    · simp at h
    rw [Res.bind_eq_ok'] at h
    obtain ⟨sups, _, h⟩ := h
    simp only at h
    rw [Res.bind_eq_ok'] at h
    obtain ⟨t, ht, h⟩ := h
    rw [Res.bind_eq_ok'] at h
    obtain ⟨s1, h1, h2⟩ := h
    exact ((moveAll_cur _ _ _ _ ht).trans (recordOuts_cur _ _ _ _ h1)).trans (recordIns_cur _ _ _ _ h2)
  | grj ins outs => simp [nodeEvolve] at h

theorem stepNodes_cur {c : Cfg} {o : StepOracle} {ts : ℕ} {s s' : State} (h : stepNodes c o ts s = .ok s') :
    CurEv s s' :=
  Res.foldlM_inv (P := fun t => CurEv s t) (fun _ _ _ hb he => hb.trans (node_cur he)) c.net.nodeIds s s'
    (CurEv.refl s) h

/-- The current link of every vehicle is the one it entered last. -/
def CurLog (s : State) : Prop := ∀ v, (s.vehs v).cur = after none s.log v

theorem CurLog.ev {s s' : State} (h : CurLog s) (k : CurEv s s') : CurLog s' := by
  obtain ⟨es, k1, k2⟩ := k
  intro v
  rw [k2, h v, k1, after_append]

theorem after_other {v : ℕ} {c : Option ℕ} {es : List Event} (h : ∀ e ∈ es, e.veh ≠ v) : after c es v = c := by
  refine after_same es c (fun e he hv => absurd hv (h e he)) (Or.inl rfl)

theorem CurLog.rel {c : Cfg} {ts t k : ℕ} {s s' : State} (h : CurLog s) (H : MHistInv c t s) (r : MRel c ts k s s') :
    CurLog s' := by
  have hlog : s'.log = s.log := r.view.log
  intro v
  rw [hlog]
  by_cases hv : v ≤ s.numVeh ∨ s.numVeh + k < v
  · have e : s'.vehs v = s.vehs v := r.view.old v hv
    rw [e]; exact h v
  · push Not at hv
    have e : (s'.vehs v).cur = none := (r.view.new v hv.1 hv.2).2.2.1
    rw [e, after_other]
    intro e he hev
    have := (H.moved e he).1.2
    omega

/-! ### Kinds and parameters of links -/

/-- What only new attributes change of a link: flow scalar, unit of time, whether it is a point queue, lanes, length,
speed and capacity of cars. -/
def par : MLnk.Link ℕ → ℚ × ℚ × Bool × ℤ × ℚ × ℚ × ℚ
  | .ctm l => (l.args.scalar, l.args.unit, false, l.args.lanes, l.args.length, l.args.ffsCar, l.args.capCar)
  | .lq l => (l.args.scalar, l.args.unit, false, l.args.lanes, l.args.length, l.dia.ffsCar, l.dia.capCar)
  | .pq l => (l.args.scalar, l.args.unit, true, l.args.lanes, l.args.length, l.args.ffsCar, 0)

/-- What new attributes do not change. -/
def tag (l : MLnk.Link ℕ) : ℚ × ℚ × Bool := ((par l).1, (par l).2.1, (par l).2.2.1)

theorem tag_eq (l : MLnk.Link ℕ) : (tag l).1 = l.scalar ∧ (tag l).2.2 = isPq l := by
  cases l <;> exact ⟨rfl, rfl⟩

theorem tag_par {l l' : MLnk.Link ℕ} (h : par l' = par l) : tag l' = tag l := by
  unfold tag; rw [h]

theorem par_moved (l : MLnk.Link ℕ) (a b : List ℕ) : par ((l.setFinished a).setIncoming b) = par l := by
  cases l <;> rfl

/-- The parameters are in range. -/
def Fine (l : MLnk.Link ℕ) : Prop :=
  0 < (par l).1 ∧ 0 < (par l).2.1 ∧ 0 < (par l).2.2.2.1 ∧ 0 < (par l).2.2.2.2.1 ∧ 0 < (par l).2.2.2.2.2.1 ∧
    0 ≤ (par l).2.2.2.2.2.2

theorem Fine.par {l l' : MLnk.Link ℕ} (h : Fine l) (e : par l' = par l) : Fine l' := by
  unfold Fine; rw [e]; exact h

theorem liftCell_pos {unit scalar c : ℚ} (hu : 0 < unit) (hs : 0 < scalar) : 0 ≤ MLnk.liftCell unit scalar c := by
  unfold MLnk.liftCell
  split
  · positivity
  · rename_i h
    push Not at h
    by_contra hc
    push Not at hc
    have : c * unit * scalar ≤ 0 := by
      have := mul_pos hu hs
      rw [mul_assoc]
      exact mul_nonpos_of_nonpos_of_nonneg hc.le this.le
    linarith

theorem liftCap_pos {unit scalar c : ℚ} {lanes : ℤ} (hu : 0 < unit) (hs : 0 < scalar) (hl : 0 < lanes) :
    0 ≤ MLnk.liftCap unit scalar lanes c := by
  have hl' : (0 : ℚ) < lanes := by exact_mod_cast hl
  unfold MLnk.liftCap
  split
  · positivity
  · rename_i h
    push Not at h
    by_contra hc
    push Not at hc
    have : c * unit * scalar * lanes ≤ 0 := by
      have h1 := mul_pos (mul_pos hu hs) hl'
      rw [mul_assoc, mul_assoc, ← mul_assoc unit]
      exact mul_nonpos_of_nonpos_of_nonneg hc.le h1.le
    linarith

theorem derive_fine {a : MLnk.Args} {r : MLnk.Derived} (h : MLnk.derive a = .ok r) (hu : 0 < a.unit)
    (hs : 0 < a.scalar) (hl : 0 < a.lanes) (hlen : 0 < a.length) (hf : 0 ≤ a.ffsCar) :
    0 < r.args.lanes ∧ 0 < r.args.length ∧ 0 < r.args.ffsCar ∧ 0 ≤ r.args.capCar := by
  unfold MLnk.derive at h
  split at h
  · simp at h
  rename_i hf0
  have hf' : 0 < a.ffsCar := lt_of_le_of_ne hf (Ne.symm hf0)
  rw [Res.bind_eq_ok'] at h
  obtain ⟨n, _, h⟩ := h
  simp only at h
  split at h
  · simp at h
  split at h
  · simp at h
  cases h
  refine ⟨hl, ?_, hf', liftCap_pos hu hs hl⟩
  simp only
  split
  · positivity
  · exact hlen

theorem checkAttrs_fine {a a' : MLnk.Args} (h : MLnk.checkAttrs a = .ok a') :
    a'.lanes = a.lanes ∧ a'.length = a.length ∧ a'.ffsCar = a.ffsCar ∧ 0 ≤ a.ffsCar := by
  unfold MLnk.checkAttrs at h
  split at h
  · simp at h
  split at h
  · simp at h
  split at h
  · simp at h
  rename_i h1 h2 h3
  push Not at h3
  cases h; exact ⟨rfl, rfl, rfl, h3.1⟩

theorem lqDiagram_fine {a : MLnk.Args} {d : MLnk.Diagram} (h : MLnk.lqDiagram a = .ok d) :
    0 < a.length ∧ 0 < d.ffsCar ∧ 0 ≤ d.capCar ∧ 0 < a.scalar ∧ 0 < a.unit := by
  unfold MLnk.lqDiagram at h
  simp only at h
  split at h
  · simp at h
  rename_i hn
  push Not at hn
  cases h
  exact ⟨hn.2.2.1, hn.2.2.2.1, liftCell_pos hn.1 hn.2.1, hn.2.1, hn.1⟩

theorem ctm_modify_args {l l' : MLnk.Ctm ℕ} {b : MLnk.Args} (h : l.modify b = .ok l') :
    ∃ a r, MLnk.checkAttrs { b with unit := l.args.unit, factor := l.args.factor, scalar := l.args.scalar } = .ok a ∧
      MLnk.derive a = .ok r ∧ l'.args = r.args := by
  unfold MLnk.Ctm.modify at h
  rw [Res.bind_eq_ok'] at h
  obtain ⟨a, ha, h⟩ := h
  rw [Res.bind_eq_ok'] at h
  obtain ⟨r, hr, h⟩ := h
  refine ⟨a, r, ha, hr, ?_⟩
  split at h
  · simp at h
  split at h
  · split at h
    · split at h
      · cases h; rfl
      · simp at h
    · split at h
      · cases h; rfl
      · simp at h
  · simp at h

theorem modify_tag {l l' : MLnk.Link ℕ} {b : MLnk.Args} (h : l.modify b = .ok l') : tag l' = tag l := by
  cases l with
  | ctm l =>
    simp only [MLnk.Link.modify] at h
    rw [Res.bind_eq_ok'] at h
    obtain ⟨x, hx, h⟩ := h
    cases h
    obtain ⟨a, r, ha, hr, e⟩ := ctm_modify_args hx
    obtain ⟨c1, c2, _⟩ := MLnk.checkAttrs_keep ha
    obtain ⟨d1, d2, _⟩ := MLnk.derive_keep hr
    simp only [tag, par, e, d1, d2, c1, c2]
  | lq l =>
    simp only [MLnk.Link.modify] at h
    rw [Res.bind_eq_ok'] at h
    obtain ⟨x, hx, h⟩ := h
    cases h
    unfold MLnk.Lq.modify at hx
    simp only at hx
    rw [Res.bind_eq_ok'] at hx
    obtain ⟨d, _, hx⟩ := hx
    cases hx; rfl
  | pq l =>
    simp only [MLnk.Link.modify] at h
    cases h; rfl

/-- New attributes in range. -/
def GoodArgs (a : MLnk.Args) : Prop := 0 < a.lanes ∧ 0 < a.length ∧ 0 < a.ffsCar

theorem modify_fine {l l' : MLnk.Link ℕ} {b : MLnk.Args} (hb : GoodArgs b) (hl : Fine l)
    (h : l.modify b = .ok l') : Fine l' := by
  obtain ⟨b1, b2, b3⟩ := hb
  cases l with
  | ctm l =>
    simp only [MLnk.Link.modify] at h
    rw [Res.bind_eq_ok'] at h
    obtain ⟨x, hx, h⟩ := h
    cases h
    obtain ⟨a, r, ha, hr, e⟩ := ctm_modify_args hx
    obtain ⟨c1, c2, _⟩ := MLnk.checkAttrs_keep ha
    obtain ⟨d1, d2, _⟩ := MLnk.derive_keep hr
    obtain ⟨e1, e2, e3, _⟩ := checkAttrs_fine ha
    obtain ⟨l1, l2, _⟩ := hl
    simp only [par] at l1 l2
    simp only at c1 c2 e1 e2 e3
    obtain ⟨f1, f2, f3, f4⟩ := derive_fine hr (by rw [c1]; exact l2) (by rw [c2]; exact l1) (by rw [e1]; exact b1)
      (by rw [e2]; exact b2) (by rw [e3]; exact b3.le)
    refine ⟨?_, ?_, ?_, ?_, ?_, ?_⟩ <;> simp only [par, e]
    · rw [d2, c2]; exact l1
    · rw [d1, c1]; exact l2
    · exact f1
    · exact f2
    · exact f3
    · exact f4
  | lq l =>
    simp only [MLnk.Link.modify] at h
    rw [Res.bind_eq_ok'] at h
    obtain ⟨x, hx, h⟩ := h
    cases h
    unfold MLnk.Lq.modify at hx
    simp only at hx
    rw [Res.bind_eq_ok'] at hx
    obtain ⟨d, hd, hx⟩ := hx
    cases hx
    obtain ⟨f1, f2, f3, f4, f5⟩ := lqDiagram_fine hd
    exact ⟨f4, f5, b1, b2, f2, f3⟩
  | pq l =>
    simp only [MLnk.Link.modify] at h
    cases h
    obtain ⟨l1, l2, _⟩ := hl
    exact ⟨l1, l2, b1, b2, b3, le_refl _⟩

theorem mk_fine {k : MLnk.Kind} {a : MLnk.Args} {l : MLnk.Link ℕ} (ha : GoodArgs a) (h : MLnk.mkLink k a = .ok l) :
    Fine l := by
  obtain ⟨u1, u2, u3, u4⟩ := MLnk.mk_unit_scalar h
  obtain ⟨b1, b2, b3⟩ := ha
  cases k with
  | ctm =>
    simp only [MLnk.mkLink] at h
    rw [Res.bind_eq_ok'] at h
    obtain ⟨x, hx, h⟩ := h
    cases h
    unfold MLnk.Ctm.mk' at hx
    rw [Res.bind_eq_ok'] at hx
    obtain ⟨_, _, hx⟩ := hx
    rw [Res.bind_eq_ok'] at hx
    obtain ⟨c, hc, hx⟩ := hx
    obtain ⟨c1, c2, c3⟩ := MLnk.checkAttrs_keep hc
    obtain ⟨e1, e2, e3, _⟩ := checkAttrs_fine hc
    split at hx
    · simp at hx
    split at hx
    · simp at hx
    split at hx
    · simp at hx
    rw [Res.bind_eq_ok'] at hx
    obtain ⟨r, hr, hx⟩ := hx
    obtain ⟨d1, d2, d3⟩ := MLnk.derive_keep hr
    obtain ⟨f1, f2, f3, f4⟩ := derive_fine hr (by rw [c1]; exact u3) (by rw [c2]; exact u4) (by rw [e1]; exact b1)
      (by rw [e2]; exact b2) (by rw [e3]; exact b3.le)
    cases hx
    refine ⟨?_, ?_, f1, f2, f3, f4⟩ <;> simp only [par]
    · rw [d2, c2]; exact u4
    · rw [d1, c1]; exact u3
  | lq =>
    simp only [MLnk.mkLink] at h
    rw [Res.bind_eq_ok'] at h
    obtain ⟨x, hx, h⟩ := h
    cases h
    unfold MLnk.Lq.mk' at hx
    rw [Res.bind_eq_ok'] at hx
    obtain ⟨_, _, hx⟩ := hx
    rw [Res.bind_eq_ok'] at hx
    obtain ⟨d, hd, hx⟩ := hx
    cases hx
    obtain ⟨f1, f2, f3, f4, f5⟩ := lqDiagram_fine hd
    exact ⟨f4, f5, b1, b2, f2, f3⟩
  | pq =>
    simp only [MLnk.mkLink] at h
    rw [Res.bind_eq_ok'] at h
    obtain ⟨x, hx, h⟩ := h
    cases h
    unfold MLnk.Pq.mk' at hx
    rw [Res.bind_eq_ok'] at hx
    obtain ⟨_, _, hx⟩ := hx
    split at hx
    · simp at hx
    rw [Res.bind_eq_ok'] at hx
    obtain ⟨m, _, hx⟩ := hx
    cases hx
    exact ⟨u4, u3, b1, b2, b3, le_refl _⟩

theorem clear_par {truck : ℕ → Bool} {l l' : MLnk.Link ℕ} (h : l.clear truck = .ok l') :
    par l' = par l ∧ (isPq l = false → l'.incoming = []) := by
  cases l with
  | ctm l =>
    simp only [MLnk.Link.clear] at h
    rw [Res.bind_eq_ok'] at h
    obtain ⟨x, hx, h⟩ := h
    cases h
    unfold MLnk.Ctm.clear at hx
    split at hx
    · simp at hx
    · cases hx; exact ⟨rfl, fun _ => rfl⟩
  | lq l => simp only [MLnk.Link.clear] at h; cases h; exact ⟨rfl, fun _ => rfl⟩
  | pq l => simp only [MLnk.Link.clear] at h; cases h; exact ⟨rfl, fun h => by simp [isPq] at h⟩

theorem evolve_par {truck hasNext : ℕ → Bool} {u : MLnk.Draws} {l l' : MLnk.Link ℕ}
    (h : l.evolve truck hasNext u = .ok l') : par l' = par l := by
  cases l with
  | ctm l =>
    simp only [MLnk.Link.evolve] at h
    rw [Res.bind_eq_ok'] at h
    obtain ⟨x, hx, h⟩ := h
    cases h
    unfold MLnk.Ctm.evolve at hx
    rw [Res.bind_eq_ok'] at hx
    obtain ⟨_, _, hx⟩ := hx
    rw [Res.bind_eq_ok'] at hx
    obtain ⟨_, _, hx⟩ := hx
    rw [Res.bind_eq_ok'] at hx
    obtain ⟨_, _, hx⟩ := hx
    cases hx; rfl
  | lq l =>
    simp only [MLnk.Link.evolve] at h
    rw [Res.bind_eq_ok'] at h
    obtain ⟨x, hx, h⟩ := h
    cases h
    unfold MLnk.Lq.evolve at hx
    simp only at hx
    rw [Res.bind_eq_ok'] at hx
    obtain ⟨_, _, hx⟩ := hx
    rw [Res.bind_eq_ok'] at hx
    obtain ⟨_, _, hx⟩ := hx
    rw [Res.bind_eq_ok'] at hx
    obtain ⟨_, _, hx⟩ := hx
    rw [Res.bind_eq_ok'] at hx
    obtain ⟨_, _, hx⟩ := hx
    rw [Res.bind_eq_ok'] at hx
    obtain ⟨_, _, hx⟩ := hx
    split at hx
    · simp at hx
    · cases hx; rfl
  | pq l => simp only [MLnk.Link.evolve] at h; cases h; rfl

theorem isPq_par {l l' : MLnk.Link ℕ} (h : par l' = par l) : isPq l' = isPq l := by
  rw [← (tag_eq l').2, ← (tag_eq l).2, tag_par h]

theorem linksStep_par {c : Cfg} {o : StepOracle} : ∀ (ls : List ℕ) (s s' : State), (∀ l ∈ ls, l ∈ c.net.linkIds) →
    (∀ l ∈ c.net.linkIds, MLnk.Inv s.truck (s.links l).link) →
    Res.foldlM (linkStep o) s ls = .ok s' →
    (∀ l, par (s'.links l).link = par (s.links l).link) ∧
      (∀ l, l ∉ ls → s'.links l = s.links l) ∧
      ∀ l ∈ ls, isPq (s.links l).link = false → s'.inc l = []
  | [], s, s', _, _, h => by
    rw [Res.foldlM_nil] at h
    cases h
    exact ⟨fun _ => rfl, fun _ _ => rfl, by simp⟩
  | k :: ls, s, s', hk, hi, h => by
    rw [Res.foldlM_cons, Res.bind_eq_ok] at h
    obtain ⟨s1, h1, h2⟩ := h
    have S := linkStep_step (c := c) (hk k (by simp)) hi h1
    obtain ⟨a1, a2, a3⟩ := linksStep_par (c := c) ls s1 s' (fun l hl => hk l (by simp [hl])) (by
      rw [S.truck]; exact S.inv) h2
    unfold linkStep at h1
    rw [Res.bind_eq_ok'] at h1
    obtain ⟨x, hx, h1⟩ := h1
    rw [Res.bind_eq_ok'] at h1
    obtain ⟨y, hy, h1⟩ := h1
    have e1 := clear_par hx
    have e2 := evolve_par hy
    have e3 := (MLnk.evolve_inv (MLnk.clear_inv (hi k (hk k (by simp))) hx).1 hy).2.2.1
    have hs1 : s1.links = upd s.links k { s.links k with link := y } := by cases h1; rfl
    have hp : ∀ l, par (s1.links l).link = par (s.links l).link := by
      intro l
      rw [hs1]
      by_cases hl : l = k
      · subst hl; rw [upd_same]; exact e2.trans e1.1
      · rw [upd_other _ _ _ _ hl]
    refine ⟨fun l => (a1 l).trans (hp l), ?_, ?_⟩
    · intro l hl
      simp only [List.mem_cons, not_or] at hl
      rw [a2 l hl.2, hs1, upd_other _ _ _ _ hl.1]
    · intro l hl hpq
      by_cases hm : l ∈ ls
      · exact a3 l hm (by rw [isPq_par (hp l)]; exact hpq)
      · have : l = k := by
          rcases List.mem_cons.1 hl with h | h
          · exact h
          · exact absurd h hm
        subst this
        unfold State.inc
        rw [a2 l hm, hs1, upd_same]
        exact e3.trans (e1.2 hpq)

end Verif.MNet
