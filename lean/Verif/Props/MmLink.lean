import Verif.Lemmas.MmOk

/-!
# C159 to C161: driving links with bus stops
-/

namespace Verif
open MLnk MmLnk

variable {V : Type} [DecidableEq V]

/-- A link of three cells (or three intervals) for the examples. -/
def mmAt : MLnk.Args := ⟨1, 30, 1/5, 1/5, 1/2, 1/2, 10, 10, 1, 2, 1⟩

/-- Cars below 10, trucks below 100, then buses of route 7 and, from 200, of route 8. -/
def mmK : Kinds ℕ where
  truck v := decide (10 ≤ v)
  bus v := if v < 100 then none else if v < 200 then some 7 else some 8
  lost _ := 1
  pnr _ := false
  hasNext _ := true

theorem mmK_wf : mmK.Wf := by
  intro v r h
  simp only [mmK] at h ⊢
  split at h
  · simp at h
  · simp; omega

/-- Route 7 has stops at the positions 0 and 1, route 8 at 1. -/
def mmStops : List Stop := [⟨7, 0⟩, ⟨8, 1⟩, ⟨7, 1⟩]

/-- Two intervals of dwelling wished, whoever asks. -/
def mmAsk : ℕ → ℤ × Bool := fun _ => (2, false)

/-- A history: two buses of one route, one of the other, a car and a truck; several intervals. -/
def mmOps : List (MmLnk.Op ℕ) :=
  [.arrive 100, .arrive 1, .arrive 10, .arrive 200, .arrive 101, .clear 0,
    .evolve 0 (fun _ => 0) (List.replicate 20 0) mmAsk, .clear 1,
    .evolve 1 (fun _ => 0) (List.replicate 20 0) mmAsk, .arrive 2, .clear 2,
    .evolve 2 (fun _ => 0) (List.replicate 20 0) mmAsk, .depart (fun _ => true), .clear 3,
    .evolve 3 (fun _ => 0) (List.replicate 20 0) mmAsk, .clear 4,
    .evolve 4 (fun _ => 0) (List.replicate 20 0) mmAsk, .clear 5,
    .evolve 5 (fun _ => 0) (List.replicate 20 0) mmAsk]

/-! ## C159: order and conservation -/

/-- C159.  Whatever happens to a driving link with bus stops: the cars leave in the order in which
they came, and so do the trucks, and the buses of each route; the vehicles that came and did not
reach the exit are on the link, once each; vehicles that arrived came onto the link or wait before
it, in the order of arrival; vehicles that reached the exit departed or wait there; and no vehicle is
there twice. -/
theorem C159_order_and_conservation (K : Kinds V) (hK : K.Wf) (a : MLnk.Args) (hs : 1 ≤ a.scalar)
    (stops : List Stop) (l : MmLnk.Link V) (hf : MmLnk.Fresh a stops l)
    (hw : StopsWf stops l.places) (ops : List (MmLnk.Op V)) (r : MmLnk.Link V × List V)
    (hr : l.run K ops = .ok r) :
    (∀ c, K.only c (entered r.1.bay.log) = K.only c (reachedExit r.1.bay.log) ++ K.only c r.1.travelling) ∧
    (entered r.1.bay.log).Perm (reachedExit r.1.bay.log ++ r.1.travelling) ∧
    (arrivals ops).Perm (entered r.1.bay.log ++ r.1.com.incoming) ∧
    (r.1.InOrder → arrivals ops = entered r.1.bay.log ++ r.1.com.incoming) ∧
    (reachedExit r.1.bay.log).Perm (r.2 ++ r.1.com.finished) ∧
    r.1.present.Nodup := by
  have h := reach hK hf hs hw hr
  refine ⟨?_, ?_, h.came, h.order, h.went, h.nodup⟩
  · obtain ⟨k, A, _, hI, _, h1, _⟩ := h.inv.facts
    intro c
    rw [h1]; exact hI.fifo c
  · rw [List.perm_iff_count]
    intro v
    rw [List.count_append]; exact h.inv.count v

/-- A history with dwelling buses; cars and a truck leave before a bus that came first. -/
example : ((MmLnk.Ctm.mk' mmAt mmStops : Res (MmLnk.Ctm ℕ)).bind fun l =>
    ((MmLnk.Link.ctm l).run mmK mmOps).bind fun r =>
      .ok [r.2, r.1.com.finished, r.1.travelling, entered r.1.bay.log, reachedExit r.1.bay.log]) =
    .ok [[1], [10, 2], [200, 100, 101], [100, 1, 10, 200, 101, 2], [1, 10, 2]] := by
  decide +kernel

/-- The same on a point queue. -/
example : ((MmLnk.Pq.mk' mmAt false (fun _ => 0) mmStops : Res (MmLnk.Pq ℕ)).bind fun l =>
    ((MmLnk.Link.pq l).run mmK mmOps).bind fun r =>
      .ok [r.2, r.1.com.finished, r.1.travelling, entered r.1.bay.log, reachedExit r.1.bay.log]) =
    .ok [[], [1, 10], [100, 200, 101, 2], [100, 1, 10, 200, 101, 2], [1, 10]] := by
  decide +kernel

theorem mmStops_wf : StopsWf mmStops 3 := ⟨by decide, by decide⟩

/-- Both links meet the hypotheses. -/
example : (∃ l : MmLnk.Link ℕ, MmLnk.Fresh mmAt mmStops l ∧ StopsWf mmStops l.places ∧
    (l.run mmK mmOps).isOk = true ∧ l.InOrder) ∧
    ∃ l : MmLnk.Ctm ℕ, MmLnk.Fresh mmAt mmStops (.ctm l) ∧ StopsWf mmStops (MmLnk.Link.ctm l).places ∧
      ((MmLnk.Link.ctm l).run mmK mmOps).isOk = true := by
  constructor
  · have key : ((MmLnk.Pq.mk' mmAt false (fun _ => 0) mmStops : Res (MmLnk.Pq ℕ)).bind fun l =>
        .ok (decide ((MmLnk.Link.pq l).places = 3), ((MmLnk.Link.pq l).run mmK mmOps).isOk, l.origin)) =
        .ok (true, true, false) := by decide +kernel
    rw [Res.bind_eq_ok'] at key
    obtain ⟨l, hl, key⟩ := key
    simp only [Res.ok.injEq, Prod.mk.injEq, decide_eq_true_eq] at key
    exact ⟨.pq l, .pq _ _ _ hl, by rw [key.1]; exact mmStops_wf, key.2.1, key.2.2⟩
  · have key : ((MmLnk.Ctm.mk' mmAt mmStops : Res (MmLnk.Ctm ℕ)).bind fun l =>
        .ok (decide ((MmLnk.Link.ctm l).places = 3), ((MmLnk.Link.ctm l).run mmK mmOps).isOk)) =
        .ok (true, true) := by decide +kernel
    rw [Res.bind_eq_ok'] at key
    obtain ⟨l, hl, key⟩ := key
    simp only [Res.ok.injEq, Prod.mk.injEq, decide_eq_true_eq] at key
    exact ⟨l, .ctm _ hl, by rw [key.1]; exact mmStops_wf, key.2⟩

/-! ## C160: buses and stops -/

/-- C160.  Whatever happens, every bus is received and then released by every stop of its route
exactly once per trip, in the order of the stops along the link, and the trip it is on has come to
the stops up to its position.  The buses a stop keeps are those of its route at its position, in
order. -/
theorem C160_every_stop_served (K : Kinds V) (hK : K.Wf) (a : MLnk.Args) (hs : 1 ≤ a.scalar)
    (stops : List Stop) (l : MmLnk.Link V) (hf : MmLnk.Fresh a stops l)
    (hw : StopsWf stops l.places) (ops : List (MmLnk.Op V)) (r : MmLnk.Link V × List V)
    (hr : l.run K ops = .ok r) :
    (∀ v ρ, K.bus v = some ρ → ∃ m, ∃ now,
      story v r.1.bay.log = (List.replicate m (trip stops ρ v l.places)).flatten ++ now ∧
      (v ∉ r.1.travelling → now = []) ∧
      ∀ p, v ∈ r.1.at_ p → now = sofar stops ρ v p) ∧
    (∀ i ρ p, stops[i]? = some ⟨ρ, p⟩ → r.1.bay.queue i = K.only (.bus ρ) (r.1.at_ p)) := by
  have h := reach hK hf hs hw hr
  obtain ⟨k, A, _, hI, _, h1, h2⟩ := h.inv.facts
  constructor
  · intro v ρ hv
    obtain ⟨m, cur, e1, e2, e3⟩ := hI.told v ρ hv
    have hc : K.cls v = .bus ρ := cls_bus.2 hv
    refine ⟨m, cur, e1, ?_, ?_⟩
    · intro hn
      apply e3
      intro p hp
      apply hn
      have : v ∈ K.only (.bus ρ) r.1.travelling := by
        rw [h1, mem_trav]; exact ⟨p, hI.lt hp, hp⟩
      exact (mem_only.1 this).1
    · intro p hp
      apply e2
      rw [← h2, mem_only]; exact ⟨hp, hc⟩
  · intro i ρ p hi
    rw [h2]; exact hI.queue i ρ p hi

/-- C160, dwelling: a bus that dwells is the first of its route at a stop of its route; so at each
stop at most one bus dwells. -/
theorem C160_dwelling_first (K : Kinds V) (hK : K.Wf) (a : MLnk.Args) (hs : 1 ≤ a.scalar)
    (stops : List Stop) (l : MmLnk.Link V) (hf : MmLnk.Fresh a stops l)
    (hw : StopsWf stops l.places) (ops : List (MmLnk.Op V)) (r : MmLnk.Link V × List V)
    (hr : l.run K ops = .ok r) (v : V) (hd : r.1.bay.stopped v ≠ 0) :
    0 < r.1.bay.stopped v ∧ ∃ (i : ℕ) (ρ : ℤ) (p : ℕ) (q : List V), stops[i]? = some ⟨ρ, p⟩ ∧ K.bus v = some ρ ∧
      K.only (.bus ρ) (r.1.at_ p) = v :: q := by
  have h := reach hK hf hs hw hr
  obtain ⟨k, A, _, hI, _, h1, h2⟩ := h.inv.facts
  obtain ⟨i, ρ, p, e1, e2⟩ := hI.idle v hd
  refine ⟨lt_of_le_of_ne (hI.nonneg v) (Ne.symm hd), i, ρ, p, ?_⟩
  cases hA : A (.bus ρ) p with
  | nil => rw [hA] at e2; exact absurd e2 (by simp)
  | cons w q =>
    rw [hA] at e2
    rcases List.mem_cons.1 e2 with rfl | hm
    · refine ⟨q, e1, ?_, by rw [h2, hA]⟩
      exact cls_bus.1 (hI.cls _ _ v (by rw [hA]; exact List.mem_cons_self))
    · exact absurd (hI.tail i ρ p v e1 (by rw [hA]; exact hm)) hd

/-- More intervals. -/
def mmLong (n : ℕ) : List (MmLnk.Op ℕ) :=
  mmOps ++ (List.range n).flatMap fun t =>
    [.depart (fun _ => true), .clear (6 + t), .evolve (6 + t) (fun _ => 0) (List.replicate 20 0) mmAsk]

/-- The trips of two buses: the first is complete, the second dwells at its second stop. -/
example : ((MmLnk.Ctm.mk' mmAt mmStops : Res (MmLnk.Ctm ℕ)).bind fun l =>
    ((MmLnk.Link.ctm l).run mmK (mmLong 7)).bind fun r =>
      .ok (story 100 r.1.bay.log, story 101 r.1.bay.log, r.1.bay.stopped 101, r.1.bay.queue 2)) =
    .ok (trip mmStops 7 100 3, sofar mmStops 7 101 1, 1, [101]) ∧
    trip mmStops 7 100 3 =
      [.enter 100, .receive 0 100, .release 0 100, .receive 2 100, .release 2 100, .leave 100] ∧
    sofar mmStops 7 101 1 = [.enter 101, .receive 0 101, .release 0 101, .receive 2 101] := by
  decide +kernel

/-! ## C161: intervals go through -/

/-- C161.  Whatever the history: admitting the incoming vehicles never fails; an interval of a point
queue never fails; and an interval of a cell transmission link ends with an exception only if a
vehicle on it has no next link. In particular none of the consistency checks at the stops fails. -/
theorem C161_no_inconsistency (K : Kinds V) (hK : K.Wf) (a : MLnk.Args) (hs : 1 ≤ a.scalar)
    (stops : List Stop) (l : MmLnk.Link V) (hf : MmLnk.Fresh a stops l)
    (hw : StopsWf stops l.places) (ops : List (MmLnk.Op V)) (r : MmLnk.Link V × List V)
    (hr : l.run K ops = .ok r) :
    (∀ t, ∃ x, r.1.step K (.clear t) = .ok x) ∧
    (∀ t rnd ds orc e, r.1.step K (.evolve t rnd ds orc) = .throw e →
      ∃ v ∈ r.1.travelling, K.hasNext v = false) ∧
    (∀ y, r.1 = .pq y → ∀ t rnd ds orc, ∃ x, r.1.step K (.evolve t rnd ds orc) = .ok x) := by
  have h := reach hK hf hs hw hr
  obtain ⟨m, dep⟩ := r
  cases m with
  | ctm y =>
    refine ⟨?_, ?_, by simp⟩
    · intro t
      obtain ⟨l', e1, _⟩ := ctm_clear_inv (t := t) hK h.inv.1 h.nodup
      exact ⟨_, by simp only [MmLnk.Link.step, e1, Res.bind_ok']; rfl⟩
    · intro t rnd ds orc e he
      simp only [MmLnk.Link.step] at he
      rcases ctm_evolve_inv (t := t) (rnd := rnd) (ds := ds) (orc := orc) h.inv.1 with
        f | f | ⟨_, _, v, hv⟩ | ⟨l', out, f, _⟩
      · rw [f] at he; simp [Res.bind] at he
      · rw [f] at he; simp [Res.bind] at he
      · exact ⟨v, hv⟩
      · rw [f] at he; simp [Res.bind] at he
  | pq y =>
    have hev : ∀ t (rnd : ℕ → ℚ) (ds : List ℚ) orc,
        ∃ x, (MmLnk.Link.pq y).step K (.evolve t rnd ds orc) = .ok x := by
      intro t rnd ds orc
      obtain ⟨l', out, e1, _⟩ := pq_evolve_inv (t := t) (orc := orc) h.inv.1
      exact ⟨_, by simp only [MmLnk.Link.step, e1, Res.bind_ok']; rfl⟩
    refine ⟨?_, ?_, ?_⟩
    · intro t
      obtain ⟨l', ins, e1, _⟩ := pq_clear_inv (t := t) h.inv.1 h.nodup
      exact ⟨_, by simp only [MmLnk.Link.step, e1, Res.bind_ok']; rfl⟩
    · intro t rnd ds orc e he
      obtain ⟨x, hx⟩ := hev t rnd ds orc
      rw [hx] at he; simp at he
    · intro _ _ t rnd ds orc
      exact hev t rnd ds orc

/-- C161, cell transmission: below the jam densities, with capacities in the range of `int`, next links
for all vehicles, and as many draws below 1 / N as there are vehicles, N, an interval goes through. -/
theorem C161_interval_goes_through (K : Kinds V) (hK : K.Wf) (a : MLnk.Args) (hs : 1 ≤ a.scalar)
    (stops : List Stop) (l : MmLnk.Link V) (hf : MmLnk.Fresh a stops l)
    (hw : StopsWf stops l.places) (ops : List (MmLnk.Op V)) (r : MmLnk.Link V × List V)
    (hr : l.run K ops = .ok r) (y : MmLnk.Ctm V) (hy : r.1 = .ctm y)
    (hj : ∀ c ∈ y.base.cells,
      (c.volCar : ℚ) / y.base.args.scalar / c.length ≤ c.dia.holdCar ∧
      (c.volTruck : ℚ) / y.base.args.scalar / c.length ≤ c.dia.holdTruck ∧
      c.dia.capCar * y.base.args.unit * y.base.args.scalar < 2147483647 ∧
      c.dia.capTruck * y.base.args.unit * y.base.args.scalar < 2147483647)
    (hn : ∀ v ∈ r.1.travelling, K.hasNext v = true) (ds : List ℚ)
    (hd : r.1.travelling.length ≤ ds.countP fun d => decide (d * (r.1.travelling.length : ℚ) < 1)) (t : ℕ)
    (rnd : ℕ → ℚ) (orc : ℕ → ℤ × Bool) : ∃ x, r.1.step K (.evolve t rnd ds orc) = .ok x := by
  have h := reach hK hf hs hw hr
  have hb := MmLnk.run_built ops (MmLnk.fresh_built hf) hr
  rw [hy] at h hb hn hd ⊢
  obtain ⟨l', e⟩ := MmLnk.ctm_evolve_ok (t := t) (rnd := rnd) (orc := orc) h.inv.1 hb
    (fun c hc => ⟨(hj c hc).1, (hj c hc).2.1⟩) (fun c hc => ⟨(hj c hc).2.2.1, (hj c hc).2.2.2⟩) hn hd
  exact ⟨_, by simp only [MmLnk.Link.step, e, Res.bind_ok']; rfl⟩

/-- The hypotheses are met after the history of the example. -/
example : ∃ (l : MmLnk.Ctm ℕ) (y : MmLnk.Ctm ℕ) (d : List ℕ), MmLnk.Ctm.mk' mmAt mmStops = .ok l ∧
    (MmLnk.Link.ctm l).run mmK mmOps = .ok (.ctm y, d) ∧ (MmLnk.Link.ctm y).travelling = [200, 100, 101] ∧
    (∀ c ∈ y.base.cells,
      (c.volCar : ℚ) / y.base.args.scalar / c.length ≤ c.dia.holdCar ∧
      (c.volTruck : ℚ) / y.base.args.scalar / c.length ≤ c.dia.holdTruck ∧
      c.dia.capCar * y.base.args.unit * y.base.args.scalar < 2147483647 ∧
      c.dia.capTruck * y.base.args.unit * y.base.args.scalar < 2147483647) ∧
    3 ≤ [(0 : ℚ), 9/10, 1/4, 3/10].countP fun d => decide (d * 3 < 1) := by
  have key : ((MmLnk.Ctm.mk' mmAt mmStops : Res (MmLnk.Ctm ℕ)).bind fun l =>
      ((MmLnk.Link.ctm l).run mmK mmOps).bind fun r =>
        match r.1 with
        | .ctm y => .ok (r.1.travelling, y.base.cells.all fun c => decide
            ((c.volCar : ℚ) / y.base.args.scalar / c.length ≤ c.dia.holdCar ∧
            (c.volTruck : ℚ) / y.base.args.scalar / c.length ≤ c.dia.holdTruck ∧
            c.dia.capCar * y.base.args.unit * y.base.args.scalar < 2147483647 ∧
            c.dia.capTruck * y.base.args.unit * y.base.args.scalar < 2147483647))
        | _ => .ub) = .ok ([200, 100, 101], true) := by decide +kernel
  rw [Res.bind_eq_ok'] at key
  obtain ⟨l, hl, key⟩ := key
  rw [Res.bind_eq_ok'] at key
  obtain ⟨⟨r, d⟩, hr, key⟩ := key
  cases r with
  | pq y => simp at key
  | ctm y =>
    simp only [Res.ok.injEq, Prod.mk.injEq, List.all_eq_true, decide_eq_true_eq] at key
    exact ⟨l, y, d, hl, hr, key.1, key.2, by decide +kernel⟩

/-- The draws matter: with a car at the exit and a bus held there, the loop at the exit goes on as long
as the draws are not below the share of cars. -/
theorem C161_loop_waits_for_draw (m t : ℕ) (b : Bay ℕ) (orc : ℕ → ℤ × Bool) :
    lastLoop mmK [] 1 orc t 0 (1/2) (List.replicate m (9/10)) 1 1 [1] [] [] b = .diverge := by
  induction m with
  | zero => rw [lastLoop.eq_def]; rfl
  | succ m ih =>
    rw [List.replicate_succ, lastLoop.eq_def]
    dsimp only
    rw [if_neg (by simp), if_neg (by norm_num)]
    exact ih

end Verif
