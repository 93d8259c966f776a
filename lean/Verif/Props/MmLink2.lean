import Verif.Props.MmLink
import Verif.Lemmas.MmRead

/-!
# C162 to C166: time on links with stops, links without buses, placing of stops, flows
-/

namespace Verif
open MLnk MmLnk

variable {V : Type} [DecidableEq V]

/-! ## C162: time on a point queue -/

/-- C162.  A vehicle at position `p` of a point queue with stops is, after `e` intervals in which it
was held `h` times, at position `p + e - h`, or it has left, which is when that is not below the
number of positions (the free flow time in intervals). -/
theorem C162_time_on_point_queue (K : Kinds V) (hK : K.Wf) (a : MLnk.Args) (hs : 1 ≤ a.scalar)
    (stops : List Stop) (origin : Bool) (wait : V → ℤ) (l : MmLnk.Pq V)
    (hl : MmLnk.Pq.mk' a origin wait stops = .ok l)
    (hw : StopsWf stops (MmLnk.Link.pq l).places) (ops₁ : List (MmLnk.Op V)) (r₁ : MmLnk.Link V × List V)
    (h₁ : (MmLnk.Link.pq l).run K ops₁ = .ok r₁) (v : V) (p : ℕ) (hv : v ∈ r₁.1.at_ p)
    (ops₂ : List (MmLnk.Op V)) (r₂ : MmLnk.Link V × List V) (h₂ : r₁.1.run K ops₂ = .ok r₂)
    (hn : v ∉ MmLnk.arrivals ops₂) :
    ∃ h, holds v r₂.1.bay.log = holds v r₁.1.bay.log + h ∧
      (v ∈ r₂.1.travelling ↔ p + intervals ops₂ < (MmLnk.Link.pq l).places + h) ∧
      (∀ s, v ∈ r₂.1.at_ s → s + h = p + intervals ops₂) ∧
      (v ∉ r₂.1.travelling → v ∈ r₂.2 ++ r₂.1.com.finished) := by
  have hacc := reach hK (.pq origin wait l hl) hs hw h₁
  have hpq : ∃ y, r₁.1 = .pq y := by
    have : ∀ (ops : List (MmLnk.Op V)) (y : MmLnk.Pq V) (r : MmLnk.Link V × List V),
        (MmLnk.Link.pq y).run K ops = .ok r → ∃ z, r.1 = .pq z := by
      intro ops
      induction ops with
      | nil =>
        intro y r hr
        simp only [MmLnk.Link.run, Res.ok.injEq] at hr
        exact ⟨y, by rw [← hr]⟩
      | cons op ops ih =>
        intro y r hr
        simp only [MmLnk.Link.run] at hr
        rw [Res.bind_eq_ok'] at hr
        obtain ⟨r1, e1, hr⟩ := hr
        rw [Res.bind_eq_ok'] at hr
        obtain ⟨r2, e2, hr⟩ := hr
        simp only [Res.ok.injEq] at hr
        subst hr
        have hz : ∃ z, r1.1 = .pq z := by
          cases op with
          | arrive w => simp only [MmLnk.Link.step] at e1; split at e1 <;> cases e1; exact ⟨_, rfl⟩
          | depart f => simp only [MmLnk.Link.step] at e1; split at e1 <;> cases e1 <;> exact ⟨_, rfl⟩
          | clear t =>
            simp only [MmLnk.Link.step] at e1
            rw [Res.bind_eq_ok'] at e1
            obtain ⟨x, _, e1⟩ := e1
            cases e1; exact ⟨_, rfl⟩
          | evolve t rnd ds orc =>
            simp only [MmLnk.Link.step] at e1
            rw [Res.bind_eq_ok'] at e1
            obtain ⟨x, _, e1⟩ := e1
            cases e1; exact ⟨_, rfl⟩
        obtain ⟨z, hz⟩ := hz
        rw [hz] at e2
        exact ih z r2 e2
    exact this ops₁ l r₁ h₁
  obtain ⟨y, hy⟩ := hpq
  rw [hy] at hacc hv h₂
  have hmem : (v, p) ∈ y.queue := by
    simp only [MmLnk.Link.at_, List.mem_map, List.mem_filter, decide_eq_true_eq] at hv
    obtain ⟨⟨w, q⟩, ⟨h1, h2⟩, h3⟩ := hv
    simp only at h2 h3
    rw [← h2, ← h3]; exact h1
  have hlow : p < (MmLnk.Link.pq l).places := by
    rw [← hacc.inv.2.2]; exact hacc.inv.1.low _ hmem
  obtain ⟨z, hz, hg⟩ := run_gone (p := p) (h0 := holds v y.bay.log) hK ops₂ (e := 0) hacc h₂ hn
    (.inl ⟨p, hmem, by omega⟩)
  rw [Nat.zero_add] at hg
  have hmono : holds v y.bay.log ≤ holds v z.bay.log := by
    have key : ∀ (ops : List (MmLnk.Op V)) (x : MmLnk.Link V) (r : MmLnk.Link V × List V) (arr dep : List V),
        Acc K stops (MmLnk.Link.pq l).places x arr dep → (∃ q, x = .pq q) → x.run K ops = .ok r →
        holds v x.bay.log ≤ holds v r.1.bay.log := by
      intro ops
      induction ops with
      | nil =>
        intro x r arr dep _ _ hr
        simp only [MmLnk.Link.run, Res.ok.injEq] at hr
        rw [← hr]
      | cons op ops ih =>
        intro x r arr dep ha hx hr
        obtain ⟨q, rfl⟩ := hx
        simp only [MmLnk.Link.run] at hr
        rw [Res.bind_eq_ok'] at hr
        obtain ⟨r1, e1, hr⟩ := hr
        rw [Res.bind_eq_ok'] at hr
        obtain ⟨r2, e2, hr⟩ := hr
        simp only [Res.ok.injEq] at hr
        subst hr
        have h1 : (∃ q', r1.1 = .pq q') ∧ holds v q.bay.log ≤ holds v r1.1.bay.log := by
          cases op with
          | arrive w =>
            simp only [MmLnk.Link.step] at e1
            split at e1 <;> cases e1
            exact ⟨⟨_, rfl⟩, le_rfl⟩
          | depart f =>
            simp only [MmLnk.Link.step] at e1
            split at e1 <;> cases e1 <;> exact ⟨⟨_, rfl⟩, le_rfl⟩
          | clear t =>
            simp only [MmLnk.Link.step] at e1
            rw [Res.bind_eq_ok'] at e1
            obtain ⟨x, hx, e1⟩ := e1
            cases e1
            refine ⟨⟨_, rfl⟩, ?_⟩
            simp only [MmLnk.Pq.clear] at hx
            rw [Res.bind_eq_ok'] at hx
            obtain ⟨d, hd, hx⟩ := hx
            cases hx
            exact le_of_eq (letIn_holds (v := v) _ _ _ _ _ hd).1.symm
          | evolve t rnd ds orc =>
            simp only [MmLnk.Link.step] at e1
            rw [Res.bind_eq_ok'] at e1
            obtain ⟨x, hx, e1⟩ := e1
            cases e1
            refine ⟨⟨_, rfl⟩, ?_⟩
            simp only [MmLnk.Pq.evolve] at hx
            rw [Res.bind_eq_ok'] at hx
            obtain ⟨d, hd, hx⟩ := hx
            cases hx
            have hnd : (q.queue.map Prod.fst).Nodup := by
              have := ha.nodup
              simp only [MmLnk.Link.present, List.nodup_append] at this
              exact this.1.2.1
            by_cases hin : ∃ s, (v, s) ∈ q.queue
            · obtain ⟨s, hin⟩ := hin
              rcases scan_time rfl _ _ _ _ hd hnd hin with g | g | g
              · exact le_trans (Nat.le_succ _) (le_of_eq g.1.symm)
              · exact le_of_eq g.1.symm
              · exact le_of_eq g.1.symm
            · refine le_of_eq (scan_other _ _ _ _ hd ?_).1.symm
              intro hm
              obtain ⟨⟨w, s⟩, h1, rfl⟩ := List.mem_map.1 hm
              exact hin ⟨s, h1⟩
        obtain ⟨⟨q', e3⟩, h2⟩ := h1
        exact le_trans h2 (ih _ r2 _ _ (step_acc hK ha e1) ⟨q', e3⟩ e2)
    have := key ops₂ _ _ _ _ hacc ⟨y, rfl⟩ h₂
    rw [hz] at this
    exact this
  have hacc2 := run_acc hK ops₂ hacc h₂
  rw [hz] at hacc2 ⊢
  have hnd : ((z.queue.map Prod.fst)).Nodup := by
    have := hacc2.nodup
    simp only [MmLnk.Link.present, List.nodup_append] at this
    exact this.1.2.1
  have hat : ∀ s, v ∈ (MmLnk.Link.pq z).at_ s → (v, s) ∈ z.queue := by
    intro s hs
    simp only [MmLnk.Link.at_, List.mem_map, List.mem_filter, decide_eq_true_eq] at hs
    obtain ⟨⟨w, q⟩, ⟨h1, h2⟩, h3⟩ := hs
    simp only at h2 h3
    rw [← h2, ← h3]; exact h1
  refine ⟨holds v z.bay.log - holds v y.bay.log, by rw [hy]; show holds v z.bay.log = holds v y.bay.log + _; omega, ?_, ?_, ?_⟩
  · rcases hg with ⟨s, g1, g2⟩ | ⟨g1, g2, g3⟩
    · have hs' : s < (MmLnk.Link.pq l).places := by
        rw [← hacc2.inv.2.2]; exact hacc2.inv.1.low _ g1
      refine ⟨fun _ => by omega, fun _ => List.mem_map.2 ⟨_, g1, rfl⟩⟩
    · exact ⟨fun h => absurd h g2, fun h => by omega⟩
  · intro s hs'
    have hm := hat s hs'
    rcases hg with ⟨s', g1, g2⟩ | ⟨g1, g2, g3⟩
    · have : s = s' := by
        have := List.inj_on_of_nodup_map hnd hm g1 rfl
        exact (Prod.mk.inj this).2
      omega
    · exact absurd (List.mem_map.2 ⟨_, hm, rfl⟩) g2
  · intro hnt
    have hin : v ∉ z.base.com.incoming := by
      rcases hg with ⟨s, g1, g2⟩ | ⟨g1, g2, g3⟩
      · exact absurd (List.mem_map.2 ⟨_, g1, rfl⟩) hnt
      · exact g1
    -- conservation, before and after
    have c1 := hacc.inv.count v
    have c2 := hacc2.inv.count v
    have d1 := hacc.came.count_eq v
    have d2 := hacc2.came.count_eq v
    have w1 := hacc.went.count_eq v
    have w2 := hacc2.went.count_eq v
    simp only [List.count_append] at d1 d2 w1 w2
    have z1 : (MmLnk.arrivals ops₂).count v = 0 := List.count_eq_zero.2 hn
    have z2 : (MmLnk.Link.pq z).com.incoming.count v = 0 := List.count_eq_zero.2 hin
    have z3 : (MmLnk.Link.pq z).travelling.count v = 0 := List.count_eq_zero.2 hnt
    have z4 : 1 ≤ (MmLnk.Link.pq y).travelling.count v := by
      rw [List.one_le_count_iff]
      exact List.mem_map.2 ⟨_, hmem, rfl⟩
    have hnd1 := hacc.nodup
    have z5 : (MmLnk.Link.pq y).com.finished.count v = 0 := by
      rw [List.count_eq_zero]
      intro hm
      simp only [MmLnk.Link.present, List.nodup_append, List.mem_append] at hnd1
      exact hnd1.2.2 v (.inr (List.mem_map.2 ⟨_, hmem, rfl⟩)) v hm rfl
    rw [← List.one_le_count_iff, List.count_append]
    omega

/-- C162, who is held: whatever happens on a link with stops, a stop deals only with buses of its
route.  So cars and trucks are never held, and cross a point queue in the free flow time. -/
theorem C162_only_own_buses (K : Kinds V) (a : MLnk.Args) (stops : List Stop) (l : MmLnk.Link V)
    (hf : MmLnk.Fresh a stops l) (ops : List (MmLnk.Op V)) (r : MmLnk.Link V × List V)
    (hr : l.run K ops = .ok r) :
    (∀ e ∈ r.1.bay.log, ∀ i v, e.2.atStop = some (i, v) → ∃ (ρ : ℤ) (p : ℕ),
      K.bus v = some ρ ∧ stops[i]? = some ⟨ρ, p⟩) ∧
    ∀ v, K.bus v = none → holds v r.1.bay.log = 0 := by
  have h0 : l.bay.log = [] ∧ l.stops = stops := by
    cases hf with
    | ctm l h =>
      simp only [MmLnk.Ctm.mk'] at h
      rw [Res.bind_eq_ok'] at h
      obtain ⟨m, _, h⟩ := h
      simp only [Res.ok.injEq] at h
      subst h
      exact ⟨rfl, rfl⟩
    | pq o w l h =>
      simp only [MmLnk.Pq.mk'] at h
      rw [Res.bind_eq_ok'] at h
      obtain ⟨m, _, h⟩ := h
      simp only [Res.ok.injEq] at h
      subst h
      exact ⟨rfl, rfl⟩
  obtain ⟨g1, g2⟩ := run_ok (K := K) ops (by rw [h0.1]; intro e he; simp at he) hr
  rw [g2, h0.2] at g1
  exact ⟨g1, fun v hv => holds_pos g1 hv⟩

/-- A bus that is held at two stops, and a car, on a point queue of three intervals. -/
example : ((MmLnk.Pq.mk' mmAt false (fun _ => 0) mmStops : Res (MmLnk.Pq ℕ)).bind fun l =>
    ((MmLnk.Link.pq l).run mmK [.arrive 100, .arrive 1, .clear 0, .clear 1]).bind fun r₁ =>
      (r₁.1.run mmK [.evolve 0 (fun _ => 0) [] mmAsk, .evolve 1 (fun _ => 0) [] mmAsk,
        .evolve 2 (fun _ => 0) [] mmAsk, .evolve 3 (fun _ => 0) [] mmAsk]).bind fun r₂ =>
        .ok (r₁.1.at_ 0, r₂.1.at_ 1, holds 100 r₁.1.bay.log, holds 100 r₂.1.bay.log, r₂.1.com.finished)) =
    .ok ([100, 1], [100], 0, 3, [1]) := by decide +kernel

/-! ## C163: at most one cell per interval -/

/-- C163, for cars: in one interval of a cell transmission link with stops a car stays in its cell,
goes to the next one, or leaves from the last one.  For trucks and buses this is false, see
`C163_false_truck_jumps`. -/
theorem C163_cars_one_cell_partial (K : Kinds V) (hK : K.Wf) (a : MLnk.Args) (hs : 1 ≤ a.scalar)
    (stops : List Stop) (l : MmLnk.Link V) (hf : MmLnk.Fresh a stops l)
    (hw : StopsWf stops l.places) (ops : List (MmLnk.Op V)) (r : MmLnk.Link V × List V)
    (hr : l.run K ops = .ok r) (y : MmLnk.Ctm V) (hy : r.1 = .ctm y) (t : ℕ) (rnd : ℕ → ℚ)
    (ds : List ℚ) (orc : ℕ → ℤ × Bool) (r' : MmLnk.Link V × List V)
    (hr' : r.1.step K (.evolve t rnd ds orc) = .ok r') (v : V) (hc : K.truck v = false) (p : ℕ)
    (hv : v ∈ r.1.at_ p) :
    v ∈ r'.1.at_ p ∨ v ∈ r'.1.at_ (p + 1) ∨ (p + 1 = l.places ∧ v ∈ r'.1.com.finished) := by
  have h := reach hK hf hs hw hr
  rw [hy] at h hr' hv
  simp only [MmLnk.Link.step] at hr'
  rw [Res.bind_eq_ok'] at hr'
  obtain ⟨y', h1, hr'⟩ := hr'
  simp only [Res.ok.injEq] at hr'
  subst hr'
  have := ctm_car_step h.inv.1 h1 ((cls_truck hK v).1 hc) hv
  rw [h.inv.2.2] at this
  exact this

set_option synthInstance.maxSize 1024 in
/-- The bus stands in the middle cell, the truck in the first: after one interval, in which the bus is
held, the truck is in the last cell. -/
theorem C163_false_truck_jumps : ((MmLnk.Ctm.mk' mmAt [⟨7, 1⟩] : Res (MmLnk.Ctm ℕ)).bind fun l =>
    ((MmLnk.Link.ctm l).run mmK [.arrive 100, .clear 0, .evolve 0 (fun _ => 0) [] mmAsk, .arrive 10,
      .clear 1]).bind fun r =>
      (r.1.step mmK (.evolve 1 (fun _ => 0) [] mmAsk)).bind fun r' =>
        .ok (r.1.at_ 0, r.1.at_ 1, r.1.at_ 2, r'.1.at_ 0, r'.1.at_ 1, r'.1.at_ 2)) =
    .ok ([10], [100], [], [], [100], [10]) := by decide +kernel

/-- The hypotheses of the theorem are met by a car in the first cell, behind a bus. -/
example : ((MmLnk.Ctm.mk' mmAt [⟨7, 1⟩] : Res (MmLnk.Ctm ℕ)).bind fun l =>
    ((MmLnk.Link.ctm l).run mmK [.arrive 100, .clear 0, .evolve 0 (fun _ => 0) [] mmAsk, .arrive 1,
      .clear 1]).bind fun r =>
      (r.1.step mmK (.evolve 1 (fun _ => 0) [] mmAsk)).bind fun r' =>
        .ok (r.1.at_ 0, r.1.at_ 1, r'.1.at_ 1, mmK.truck 1)) =
    .ok ([1], [100], [1, 100], false) := by decide +kernel

/-! ## C164: without buses -/

/-- C164, cell transmission: without buses an interval does what it does on the two-class link, with
the same draws (the last draw of the list is the first of the numbering there). -/
theorem C164_ctm_interval (K : Kinds V) (hK : ∀ v, K.bus v = none) (l : MmLnk.Ctm V) (c : MLnk.Cell V)
    (hc : l.base.cells.getLast? = some c) (u : MLnk.Draws) (ds : List ℚ)
    (hd : c.queueCar.length + c.queueTruck.length ≤ ds.length)
    (hp : ∀ j, j < c.queueCar.length + c.queueTruck.length →
      ds[c.queueCar.length + c.queueTruck.length - 1 - j]? = some (u.pick j)) (t : ℕ)
    (orc : ℕ → ℤ × Bool) (m : MLnk.Ctm V) :
    MLnk.Ctm.evolve K.truck K.hasNext u l.base = .ok m ↔
      ∃ l', l.evolve K t u.rnd ds orc = .ok l' ∧ l'.base = m := by
  rcases ctm_evolve_same (t := t) (rnd := u.rnd) (orc := orc) l hK c hc hd u.pick hp with
    ⟨l', h1, h2⟩ | ⟨h1, h2⟩
  · rw [h2, h1]
    constructor
    · intro h; exact ⟨l', rfl, by simpa using h⟩
    · rintro ⟨l'', h3, rfl⟩
      rw [Res.ok.inj h3]
  · constructor
    · intro h; rw [h] at h2; simp [Res.isOk] at h2
    · rintro ⟨l', h, _⟩
      rw [h] at h1; simp [Res.isOk] at h1

/-- C164, admitting vehicles to a cell transmission link. -/
theorem C164_ctm_admit (K : Kinds V) (hK : ∀ v, K.bus v = none) (l : MmLnk.Ctm V) (t : ℕ)
    (m : MLnk.Ctm V) : MLnk.Ctm.clear K.truck l.base = .ok m ↔
      ∃ l', l.clear K t = .ok l' ∧ l'.base = m := by
  rcases ctm_clear_same (t := t) l hK with ⟨l', h1, h2⟩ | ⟨h1, h2⟩
  · rw [h2, h1]
    constructor
    · intro h; exact ⟨l', rfl, by simpa using h⟩
    · rintro ⟨l'', h3, rfl⟩
      rw [Res.ok.inj h3]
  · rw [h1, h2]
    constructor
    · intro h; exact absurd h (by simp)
    · rintro ⟨l', h, _⟩; exact absurd h (by simp)

/-- The two-class point queue with the vehicles of the deque in its pool. -/
def mmPlain (l : MmLnk.Pq V) : MLnk.Pq V :=
  { l.base with pool := l.queue.map fun e => (e.1, (e.2 : ℤ)) }

/-- C164, point queue: without buses intervals do what they do on the two-class point queue, and so
does admitting vehicles, except for the volumes (C166). -/
theorem C164_pq (K : Kinds V) (hK : ∀ v, K.bus v = none) (l : MmLnk.Pq V) (t : ℕ)
    (orc : ℕ → ℤ × Bool) :
    (∃ l', l.evolve K t orc = .ok l' ∧ mmPlain l' = MLnk.Pq.evolve K.truck (mmPlain l)) ∧
    (l.origin = false → ∃ l', l.clear K t = .ok l' ∧
      { mmPlain l' with
        volCar := (MLnk.Pq.clear K.truck (mmPlain l)).volCar
        volTruck := (MLnk.Pq.clear K.truck (mmPlain l)).volTruck } = MLnk.Pq.clear K.truck (mmPlain l)) := by
  constructor
  · obtain ⟨q', b', h1, h2⟩ := scan_same (stops := l.stops) (k := Ults.trunc l.base.args.scalar) (orc := orc)
      (t := t) (ms := l.base.maxStamp) hK l.queue l.base.com.finished l.bay
    refine ⟨_, by simp only [MmLnk.Pq.evolve, h1, Res.bind_ok']; rfl, ?_⟩
    simp only [mmPlain, MLnk.Pq.evolve, h2]
  · intro ho
    obtain ⟨b', h1⟩ := letIn_same (K := K) (stops := l.stops) (t := t) hK l.base.com.incoming
      (l.base.supply * l.base.args.scalar) l.wait l.bay
    rw [← ho] at h1
    refine ⟨_, by simp only [MmLnk.Pq.clear, h1, Res.bind_ok']; rfl, ?_⟩
    simp only [mmPlain, MLnk.Pq.clear, MLnk.Pq.supply, List.map_append, List.map_map, Function.comp_def,
      Nat.cast_zero]

/-- A state with cars and trucks in the last cell; the hypotheses are met. -/
example : ∃ (l : MmLnk.Ctm ℕ) (c : MLnk.Cell ℕ), l.base.cells.getLast? = some c ∧
    c.queueCar.length + c.queueTruck.length = 2 ∧ (∀ j, j < 2 →
      [(1/10 : ℚ), 9/10][2 - 1 - j]? = some (([9/10, 1/10] : List ℚ).getD j 0)) ∧
    (l.evolve { mmK with bus := fun _ => none } 5 (fun _ => 0) [1/10, 9/10] mmAsk).isOk = true := by
  have key : ((MmLnk.Ctm.mk' mmAt mmStops : Res (MmLnk.Ctm ℕ)).bind fun l =>
      ((MmLnk.Link.ctm l).run { mmK with bus := fun _ => none } [.arrive 1, .arrive 10, .arrive 2, .clear 0,
        .evolve 0 (fun _ => 0) [] mmAsk, .evolve 1 (fun _ => 0) [] mmAsk]).bind fun r =>
        match r.1 with
        | .ctm y => match y.base.cells.getLast? with
          | some c => .ok (decide (c.queueCar.length + c.queueTruck.length = 2),
              (y.evolve { mmK with bus := fun _ => none } 5 (fun _ => 0) [1/10, 9/10] mmAsk).isOk)
          | none => .ub
        | _ => .ub) = .ok (true, true) := by decide +kernel
  rw [Res.bind_eq_ok'] at key
  obtain ⟨l, hl, key⟩ := key
  rw [Res.bind_eq_ok'] at key
  obtain ⟨⟨r, d⟩, hr, key⟩ := key
  cases r with
  | pq y => simp at key
  | ctm y =>
    simp only at key
    split at key
    · rename_i c hc
      simp only [Res.ok.injEq, Prod.mk.injEq, decide_eq_true_eq] at key
      exact ⟨y, c, hc, key.1, by decide +kernel, key.2⟩
    · simp at key

/-! ## C165: where the stops are put -/

omit [DecidableEq V] in
/-- C165, cell transmission: the stops the reader puts on a link are those of the file, in its order,
each in the cell that contains its location (locations before the link in the first cell, beyond it
in the last), and no two of one route in one cell.  So the hypotheses of C159 to C161 are met. -/
theorem C165_stops_on_cells (a : MLnk.Args) (m : MLnk.Ctm V) (hm : MLnk.Ctm.mk' a = .ok m)
    (rows : List MmLnk.Row) (stops : List Stop) (hr : readCtm m rows = .ok stops) :
    StopsWf stops m.cells.length ∧ stops.length = rows.length ∧
    ∀ (i : ℕ) (row : MmLnk.Row) (s : Stop), rows[i]? = some row → stops[i]? = some s →
      s.route = row.route ∧
      (s.pos ≠ 0 → (s.pos : ℚ) * (a.ffsCar * a.unit) < row.loc) ∧
      (s.pos + 1 ≠ m.cells.length → row.loc ≤ ((s.pos : ℚ) + 1) * (a.ffsCar * a.unit)) := by
  obtain ⟨p1, p2, p3, p4, p5, c, rest, p6, p7⟩ := ctm_parts hm
  simp only [readCtm, p6] at hr
  obtain ⟨g1, g2, g3⟩ := readStops_pos _ _ _ hr
  have hpos : ∀ (i : ℕ) (row : MmLnk.Row) (s : Stop), rows[i]? = some row → stops[i]? = some s →
      (s.pos : ℤ) < m.numCells ∧ (s.pos ≠ 0 → (s.pos : ℚ) * (a.ffsCar * a.unit) < row.loc) ∧
        ((s.pos : ℤ) + 1 ≠ m.numCells → row.loc ≤ ((s.pos : ℚ) + 1) * (a.ffsCar * a.unit)) := by
    intro i row s hi hs
    obtain ⟨_, _, e3⟩ := g3 i row s hi hs
    by_cases h1 : m.numCells = 1
    · obtain ⟨f1, _, _⟩ := cellOf_spec p1 (.inr h1) e3
      exact ⟨f1, fun h => by omega, fun h => by omega⟩
    · rw [p7 h1] at e3
      exact cellOf_spec p1 (.inl p5) e3
  refine ⟨⟨?_, g1⟩, g2, ?_⟩
  · intro s hs
    obtain ⟨i, hi, rfl⟩ := List.mem_iff_getElem.1 hs
    have hir : i < rows.length := by omega
    have := (hpos i rows[i] stops[i] (List.getElem?_eq_getElem hir) (List.getElem?_eq_getElem hi)).1
    omega
  · intro i row s hi hs
    obtain ⟨_, f2, f3⟩ := hpos i row s hi hs
    exact ⟨(g3 i row s hi hs).1, f2, fun h => f3 (by omega)⟩

omit [DecidableEq V] in
/-- C165, point queue: the same with the intervals of the free flow time. -/
theorem C165_stops_on_intervals (a : MLnk.Args) (m : MLnk.Pq V) (hm : MLnk.Pq.mk' a = .ok m)
    (rows : List MmLnk.Row) (stops : List Stop) (hr : readPq m rows = .ok stops) :
    StopsWf stops (max 1 m.maxStamp).toNat ∧ stops.length = rows.length ∧
    ∀ (i : ℕ) (row : MmLnk.Row) (s : Stop), rows[i]? = some row → stops[i]? = some s →
      s.route = row.route ∧
      (s.pos ≠ 0 → (s.pos : ℚ) * (a.ffsCar * a.unit) < row.loc) ∧
      (s.pos + 1 ≠ (max 1 m.maxStamp).toNat → row.loc ≤ ((s.pos : ℚ) + 1) * (a.ffsCar * a.unit)) := by
  obtain ⟨p1, p2, p3⟩ := pq_parts hm
  simp only [readPq, p2] at hr
  obtain ⟨g1, g2, g3⟩ := readStops_pos _ _ _ hr
  refine ⟨⟨?_, g1⟩, g2, ?_⟩
  · intro s hs
    obtain ⟨i, hi, rfl⟩ := List.mem_iff_getElem.1 hs
    have hir : i < rows.length := by omega
    have := (timeOf_spec p1 p3
      (g3 i rows[i] stops[i] (List.getElem?_eq_getElem hir) (List.getElem?_eq_getElem hi)).2.2).1
    omega
  · intro i row s hi hs
    obtain ⟨e1, _, e3⟩ := g3 i row s hi hs
    obtain ⟨_, f2, f3⟩ := timeOf_spec p1 p3 e3
    exact ⟨e1, f2, fun h => f3 (by omega)⟩

/-- C165, refusals: whatever the positions `f` are, the program goes on exactly if every stop has a
route and no two stops of one route have the same position; two such stops end the program. -/
theorem C165_too_close_refused (pos : ℚ → Res ℕ) (f : MmLnk.Row → ℕ) (rows : List MmLnk.Row)
    (h : ∀ r ∈ rows, pos r.loc = .ok (f r)) (hr : ∀ r ∈ rows, r.route ≠ -1) :
    ((∃ stops, readStops pos rows = .ok stops) ↔
      rows.Pairwise fun x y => ¬(x.route = y.route ∧ f x = f y)) ∧
    (¬(rows.Pairwise fun x y => ¬(x.route = y.route ∧ f x = f y)) → ∃ e, readStops pos rows = .throw e) := by
  have hn : (rows.map fun r => (⟨r.route, f r⟩ : Stop)).Nodup ↔
      rows.Pairwise fun x y => ¬(x.route = y.route ∧ f x = f y) := by
    simp only [List.Nodup, List.pairwise_map, ne_eq, Stop.mk.injEq]
  obtain ⟨g1, g2⟩ := readStops_eq pos f rows h
  rw [← hn]
  refine ⟨⟨?_, ?_⟩, g2 hr⟩
  · rintro ⟨stops, hs⟩
    obtain ⟨_, e2, e3⟩ := (g1 stops).1 hs
    rw [← e2]; exact e3
  · intro h
    exact ⟨_, (g1 _).2 ⟨hr, rfl, h⟩⟩

/-- Stops before, on and beyond a link of 30 meters with cells of 10 meters; and two too close. -/
example : ((MLnk.Ctm.mk' mmAt : Res (MLnk.Ctm ℕ)).bind fun m =>
      readCtm m [⟨7, 0⟩, ⟨8, 10⟩, ⟨7, 21/2⟩, ⟨7, 29⟩, ⟨8, 40⟩]) =
      .ok [⟨7, 0⟩, ⟨8, 0⟩, ⟨7, 1⟩, ⟨7, 2⟩, ⟨8, 2⟩] ∧
    ((MLnk.Pq.mk' mmAt : Res (MLnk.Pq ℕ)).bind fun m =>
      readPq m [⟨7, 0⟩, ⟨8, 10⟩, ⟨7, 21/2⟩, ⟨7, 29⟩, ⟨8, 40⟩]) =
      .ok [⟨7, 0⟩, ⟨8, 0⟩, ⟨7, 1⟩, ⟨7, 2⟩, ⟨8, 2⟩] ∧
    ((MLnk.Ctm.mk' mmAt : Res (MLnk.Ctm ℕ)).bind fun m => readCtm m [⟨7, 11⟩, ⟨7, 12⟩]).isOk = false := by
  decide +kernel

/-! ## C166: flows -/

/-- C166, what the flows say: right after vehicles are admitted, the flows of a point queue with stops
are the vehicles waiting at its exit. -/
theorem C166_flow_at_exit_partial (K : Kinds V) (hK : K.Wf) (a : MLnk.Args) (hs : 1 ≤ a.scalar)
    (stops : List Stop) (l : MmLnk.Link V) (hf : MmLnk.Fresh a stops l)
    (hw : StopsWf stops l.places) (ops : List (MmLnk.Op V)) (r : MmLnk.Link V × List V)
    (hr : l.run K ops = .ok r) (t : ℕ) (y y' : MmLnk.Pq V) (hy : r.1 = .pq y)
    (hy' : r.1.step K (.clear t) = .ok (.pq y', [])) :
    y'.flowCar = (r.1.com.finished.countP fun v => !K.truck v) / y.base.args.scalar ∧
    y'.flowTruck = (r.1.com.finished.countP K.truck) / y.base.args.scalar := by
  have h := reach hK hf hs hw hr
  rw [hy] at h hy' ⊢
  simp only [MmLnk.Link.step] at hy'
  rw [Res.bind_eq_ok'] at hy'
  obtain ⟨x, hx, hy'⟩ := hy'
  simp only [Res.ok.injEq, Prod.mk.injEq, MmLnk.Link.pq.injEq, and_true] at hy'
  subst hy'
  have hp := h.inv.1.pool
  simp only [MmLnk.Pq.clear] at hx
  rw [Res.bind_eq_ok'] at hx
  obtain ⟨d, _, hx⟩ := hx
  simp only [Res.ok.injEq] at hx
  subst hx
  simp [MmLnk.Pq.flowCar, MmLnk.Pq.flowTruck, hp, cars, trucks, MmLnk.Link.com]

/-- The vehicles travelling on the link are not in its flow: a car is on the link, and the flow is 0. -/
theorem C166_false_travelling_not_counted :
    ((MmLnk.Pq.mk' mmAt false (fun _ => 0) mmStops : Res (MmLnk.Pq ℕ)).bind fun l =>
    ((MmLnk.Link.pq l).run mmK [.arrive 1, .clear 0, .evolve 0 (fun _ => 0) [] mmAsk, .clear 1]).bind fun r =>
      match r.1 with
      | .pq y => .ok (r.1.travelling, y.flowCar)
      | _ => .ub) = .ok ([1], 0) := by decide +kernel

/-- A truck at the exit is counted. -/
example : ((MmLnk.Pq.mk' mmAt false (fun _ => 0) mmStops : Res (MmLnk.Pq ℕ)).bind fun l =>
    ((MmLnk.Link.pq l).run mmK [.arrive 10, .clear 0, .evolve 0 (fun _ => 0) [] mmAsk,
      .evolve 1 (fun _ => 0) [] mmAsk, .evolve 2 (fun _ => 0) [] mmAsk, .clear 3]).bind fun r =>
      match r.1 with
      | .pq y => .ok (r.1.com.finished, y.flowTruck)
      | _ => .ub) = .ok ([10], 1) := by decide +kernel

end Verif
