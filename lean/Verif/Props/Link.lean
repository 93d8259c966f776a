import Verif.Lemmas.LinkMisc

/-! # Properties C15 – C21 and C57: single-class links -/

namespace Verif
open Lnk Ults Curve
variable {V : Type}

/-- C15.  A point-queue link never loses or duplicates a vehicle: after any history of arrivals,
departures, `clear_incoming_array` and `evolve` calls, in any order, the vehicles that departed
together with those the link holds are exactly those that arrived. -/
theorem C15_pq_conservation (hasNext : V → Bool) (a : LinkArgs) (l : Link V)
    (hl : mkLink .pq a = .ok l) (ops : List (LinkOp V)) (r : Link V × List V)
    (hr : l.run hasNext ops = .ok r) :
    (r.2 ++ (r.1.finished ++ r.1.travelling ++ r.1.incoming)).Perm (arrivals ops) := by
  obtain ⟨h1, h2⟩ := mkLink_empty hl
  have := run_perm h1 hr
  rwa [h2] at this

/-- C15, no call fails: on a point queue whose capacity is within the range of `int` every
history goes through. -/
theorem C15_pq_never_fails (hasNext : V → Bool) (a : LinkArgs) (l : Link V)
    (hl : mkLink .pq a = .ok l) (hcap : -2147483648 ≤ a.cap * a.lanes * a.unit * a.scalar)
    (hcap' : a.cap * a.lanes * a.unit * a.scalar < 2147483648) (ops : List (LinkOp V)) :
    ∃ r, l.run hasNext ops = .ok r := by
  simp only [mkLink] at hl
  rw [Res.bind_eq_ok'] at hl
  obtain ⟨x, hx, hl⟩ := hl
  cases hl
  unfold Pq.mk' at hx
  rw [Res.bind_eq_ok'] at hx
  obtain ⟨_, _, hx⟩ := hx
  split at hx
  · simp at hx
  · rw [Res.bind_eq_ok'] at hx
    obtain ⟨m, _, hx⟩ := hx
    cases hx
    exact pq_run_ok ops _ hcap hcap'

/-- A link 30 m long, 10 m/s, interval 1 s, capacity 2 vehicles per interval. -/
example : ((mkLink .pq ⟨1/5, 2, 1, 30, 10, 1, 1⟩ : Res (Link ℕ)).bind fun l =>
    (l.run (fun _ => true) [.move (.arrive 1), .move (.arrive 2), .move (.arrive 3), .clear,
      .evolve (fun _ => 0), .clear, .evolve (fun _ => 0), .evolve (fun _ => 0),
      .move (.depart fun v => v == 2)]).bind fun r =>
      .ok (r.2, r.1.finished, r.1.travelling, r.1.incoming)) = .ok ([2], [1], [3], []) := by
  decide +kernel

/-- C16, order.  On a point queue vehicles become ready, and leave, in arrival order.  In
general: if every departure takes the first waiting vehicle of some class `k` (say, bound for the
next link `k`), then within each class the vehicles that departed, followed by those still on the
link from exit to entrance, are exactly the arrivals of that class in order. -/
theorem C16_pq_fifo {κ : Type} [DecidableEq κ] (cls : V → κ) (hasNext : V → Bool) (a : LinkArgs)
    (l : Link V) (hl : mkLink .pq a = .ok l) (ops : List (LinkOp V)) (r : Link V × List V)
    (hd : ∀ p, LinkOp.move (.depart p) ∈ ops → ∃ k, ∀ v, p v = decide (cls v = k))
    (hr : l.run hasNext ops = .ok r) (k : κ) :
    (r.2 ++ (r.1.finished ++ r.1.travelling ++ r.1.incoming)).filter (fun v => decide (cls v = k))
      = (arrivals ops).filter (fun v => decide (cls v = k)) := by
  obtain ⟨h1, h2⟩ := mkLink_empty hl
  have := run_fifo cls h1 hd hr k
  rwa [h2] at this

/-- C16, delay.  Let `M` be the free-flow time in intervals that the link reports (at least one).
Over consecutive intervals (nodes act, `clear_incoming_array`, `evolve`) the vehicles that become
ready at the end of interval `j + M - 1` are exactly those admitted in interval `j`, in the same
order; nothing becomes ready before. -/
theorem C16_pq_exact_delay (hasNext : V → Bool) (a : LinkArgs) (l : Link V)
    (hl : mkLink .pq a = .ok l) (is : List (Interval V)) (r : Link V × List (IntervalLog V))
    (hr : l.intervals hasNext is = .ok r) :
    ∃ M : ℕ, l.ffttLoading = .ok (M : ℤ) ∧ 1 ≤ M ∧ r.2.length = is.length ∧
      (∀ j, j + (M - 1) < is.length →
        (r.2.map (·.ready))[j + (M - 1)]? = (r.2.map (·.admitted))[j]?) ∧
      (∀ j, j < M - 1 → j < is.length → (r.2.map (·.ready))[j]? = some []) := by
  simp only [mkLink] at hl
  rw [Res.bind_eq_ok'] at hl
  obtain ⟨x, hx, hl⟩ := hl
  cases hl
  unfold Pq.mk' at hx
  rw [Res.bind_eq_ok'] at hx
  obtain ⟨_, _, hx⟩ := hx
  split at hx
  · simp at hx
  rw [Res.bind_eq_ok'] at hx
  obtain ⟨m, hm, hx⟩ := hx
  cases hx
  have hm1 : 1 ≤ m := by
    unfold roundDownTime at hm
    split at hm
    · simp at hm; omega
    · rename_i h
      obtain ⟨e, _⟩ := toInt_ok_iff.1 hm
      rw [e, trunc_nonneg (by linarith [not_lt.1 h])]
      rw [Int.le_floor]; exact_mod_cast not_lt.1 h
  have hlen : ∀ (is : List (Interval V)) (l : Link V) (r : Link V × List (IntervalLog V)),
      l.intervals hasNext is = .ok r → r.2.length = is.length := by
    intro is
    induction is with
    | nil => intro l r h; simp [Link.intervals] at h; subst h; rfl
    | cons i is ih =>
      intro l r h
      simp only [Link.intervals] at h
      rw [Res.bind_eq_ok'] at h
      obtain ⟨x, hx, h⟩ := h
      rw [Res.bind_eq_ok'] at h
      obtain ⟨y, hy, h⟩ := h
      cases h
      simp [ih _ _ hy]
  obtain ⟨D', h1, h2⟩ := pq_intervals is (D := List.replicate (m.toNat - 1) [])
    (by simp; omega)
    (by
      have : ∀ n, line (List.replicate n ([] : List V)) = [] := by
        intro n; induction n with
        | zero => rfl
        | succ n ih => simp [List.replicate_succ, line, ih]
      simp [this]) hr
  have hl := hlen _ _ _ hr
  refine ⟨m.toNat, by simp [Link.ffttLoading]; omega, by omega, hl, ?_, ?_⟩
  · intro j hj
    have e1 : (r.2.map (·.ready))[j + (m.toNat - 1)]?
        = (r.2.map (·.ready) ++ D')[j + (m.toNat - 1)]? := by
      rw [List.getElem?_append_left (by simp; omega)]
    rw [e1, ← h1, List.getElem?_append_right (by simp)]
    simp
  · intro j hj hj'
    have e1 : (r.2.map (·.ready))[j]? = (r.2.map (·.ready) ++ D')[j]? := by
      rw [List.getElem?_append_left (by simp; omega)]
    rw [e1, ← h1, List.getElem?_append_left (by simp; omega)]
    simp [hj]

example : ((mkLink .pq ⟨1/5, 2, 1, 30, 10, 1, 1⟩ : Res (Link ℕ)).bind fun l =>
    (l.intervals (fun _ => true) [⟨[.arrive 1, .arrive 2, .arrive 3], fun _ => 0⟩,
      ⟨[.arrive 4], fun _ => 0⟩, ⟨[], fun _ => 0⟩, ⟨[.depart fun _ => true], fun _ => 0⟩]).bind
        fun r => .ok (r.2.map (·.admitted), r.2.map (·.ready)))
    = .ok ([[1, 2], [3, 4], [], []], [[], [], [1, 2], [3, 4]]) := by decide +kernel

/-- C17.  A cell-transmission link never loses or duplicates a vehicle and keeps the arrival
order within each class of departures (see `C16_pq_fifo` for the reading), for any number of
cells, any parameters, any draws and any order of calls. -/
theorem C17_ctm_conservation_fifo {κ : Type} [DecidableEq κ] (cls : V → κ) (hasNext : V → Bool)
    (a : LinkArgs) (l : Link V) (hl : mkLink .ctm a = .ok l) (ops : List (LinkOp V))
    (r : Link V × List V) (hr : l.run hasNext ops = .ok r) :
    (r.2 ++ (r.1.finished ++ r.1.travelling ++ r.1.incoming)).Perm (arrivals ops) ∧
    ((∀ p, LinkOp.move (.depart p) ∈ ops → ∃ k, ∀ v, p v = decide (cls v = k)) → ∀ k,
      (r.2 ++ (r.1.finished ++ r.1.travelling ++ r.1.incoming)).filter (fun v => decide (cls v = k))
        = (arrivals ops).filter (fun v => decide (cls v = k))) := by
  obtain ⟨h1, h2⟩ := mkLink_empty hl
  have e1 := run_perm h1 hr
  rw [h2] at e1
  refine ⟨e1, fun hd k => ?_⟩
  have := run_fifo cls h1 hd hr k
  rwa [h2] at this

/-- Three cells; the third draw decides a fractional vehicle. -/
example : ((mkLink .ctm ⟨1/5, 1/2, 1, 30, 10, 1, 1⟩ : Res (Link ℕ)).bind fun l =>
    (l.run (fun _ => true) [.move (.arrive 1), .clear, .evolve (fun _ => 0), .move (.arrive 2),
      .clear, .evolve (fun _ => 0), .evolve (fun _ => 0), .move (.depart fun _ => true),
      .move (.arrive 3), .clear]).bind fun r =>
      .ok (r.2, r.1.finished, r.1.travelling, r.1.incoming)) = .ok ([1], [], [2, 3], []) := by
  decide +kernel

/-- C17, no undefined behaviour: on every cell-transmission link of positive length reached over
intervals, `evolve` succeeds, provided the vehicles on it have a next link and the cell
capacities fit in an `int`. -/
theorem C17_ctm_evolve_succeeds (hasNext : V → Bool) (a : LinkArgs) (l : Ctm V)
    (hl : Ctm.mk' a.hold a.cap a.lanes a.length a.ffs a.unit a.scalar = .ok l)
    (hlen : 0 < a.length) (hcap : ∀ c ∈ l.cells, c.cap * a.scalar < 2147483647)
    (is : List (Interval V)) (hu : ∀ i ∈ is, ∀ k, 0 ≤ i.draws k) (r : Link V × List (IntervalLog V))
    (hr : (Link.ctm l).intervals hasNext is = .ok r) (hn : ∀ v ∈ r.1.travelling, hasNext v = true)
    (u : ℕ → ℚ) :
    ∃ l'', r.1.evolve hasNext u = .ok l'' := by
  obtain ⟨c, h1, hok⟩ := ctm_intervals is (ctm_mk_ok hl) hu hr
  obtain ⟨c', h1', hat⟩ := ctm_intervals_attrs is hr
  rw [h1] at h1' hn
  cases h1'
  obtain ⟨es, _, hw, _, _, hne, _⟩ := ctm_mk_wf hl
  have hcells : c.cells ≠ [] := by
    intro h0
    rw [h0] at hat
    exact hne hlen (by simpa [cellAttrs] using hat.symm)
  have hcap' : ∀ y ∈ c.cells, y.cap * c.scalar < 2147483647 := by
    intro y hy
    have hm : (y.hold, y.cap, y.scalar) ∈ cellAttrs l.cells := by
      rw [← hat]; exact List.mem_map.2 ⟨y, hy, rfl⟩
    obtain ⟨z, hz, e⟩ := List.mem_map.1 hm
    simp only [Prod.mk.injEq] at e
    rw [← (hok.wf y hy).2, ← e.2.1, ← e.2.2, (hw z hz).2.1]
    exact hcap z hz
  obtain ⟨l'', h⟩ := ctm_evolve_ok (hasNext := hasNext) (u := u) hcells hok.scalar
    (fun y hy => ⟨(hok.wf y hy).1, hcap' y hy⟩)
    (fun y hy v hv => hn v (by
      simp only [Link.travelling, List.mem_flatten, List.mem_map]
      exact ⟨y.queue, ⟨y, by simpa using hy, rfl⟩, hv⟩))
  exact ⟨.ctm l'', by rw [h1]; simp [Link.evolve, h]⟩

/-- C17, a corner the constructor accepts: a cell-transmission link of length zero has no cell,
and its first use reads outside the cell array. -/
theorem C17_zero_length_link_is_undefined (a : LinkArgs) (h0 : a.length = 0) (l : Link V)
    (hl : mkLink .ctm a = .ok l) (hasNext : V → Bool) (u : ℕ → ℚ) :
    l.clear = .ub ∧ l.evolve hasNext u = .ub ∧ l.supply = .ub := by
  simp only [mkLink] at hl
  rw [Res.bind_eq_ok'] at hl
  obtain ⟨x, hx, hl⟩ := hl
  cases hl
  have hcells : x.cells = [] := by
    unfold Ctm.mk' at hx
    rw [Res.bind_eq_ok'] at hx
    obtain ⟨_, _, hx⟩ := hx
    split at hx
    · simp at hx
    split at hx
    · simp at hx
    split at hx
    · simp at hx
    rw [Res.bind_eq_ok'] at hx
    obtain ⟨n0, hn0, hx⟩ := hx
    obtain ⟨e, _⟩ := toInt_ok_iff.1 hn0
    rw [trunc_int, h0] at e
    simp at e
    subst e
    unfold Ctm.build at hx
    simp only at hx
    split at hx
    · simp at hx
    split at hx
    · simp at hx
    cases hx
    simp [Ctm.cellCount, h0]
  refine ⟨?_, ?_, ?_⟩
  · simp [Link.clear, Ctm.clear, hcells]
  · simp [Link.evolve, Ctm.evolve, hcells, Ctm.updateOut]
  · simp [Link.supply, Ctm.supply, hcells]

example : (mkLink .ctm ⟨1/5, 1/2, 1, 0, 10, 1, 1⟩ : Res (Link ℕ)).isOk = true := by decide +kernel

/-- C18, capacities: on every cell of a link made by the constructor, in every state of the cell
(any stored volume and queue), demand and supply are non-negative and at most the flow capacity,
and demand is at most the vehicles counted in the cell. -/
theorem C18_demand_supply_bounds (hold cap : ℚ) (lanes : ℤ) (length ffs unit scalar : ℚ) (l : Ctm V)
    (hl : Ctm.mk' hold cap lanes length ffs unit scalar = .ok l) (c : Cell V) (hc : c ∈ l.cells)
    (vol : ℕ) (q : List V) (o : ℤ) :
    let c' := { c with volume := vol, queue := q, outVeh := o }
    0 ≤ c'.demand ∧ c'.demand ≤ c.cap ∧ c'.demand * c.scalar ≤ vol ∧ 0 ≤ c'.supply ∧
      c'.supply ≤ c.cap := by
  intro c'
  obtain ⟨_, _, h, _⟩ := ctm_mk_wf hl
  have hwf : CellWf c' := (h c hc).1.upd q vol o
  exact ⟨(demand_bounds hwf).1, (demand_bounds hwf).2.1, (demand_bounds hwf).2.2,
    (supply_bounds hwf).1, (supply_bounds hwf).2⟩

/-- C18, flows: `evolve` is a simultaneous shift.  There are numbers `out i` (vehicles leaving
cell `i`) such that every cell loses its first `out i` vehicles and receives, behind the rest,
those leaving the cell before it; the last cell passes everything it had to the exit.  For two
consecutive cells `c`, `d`, `out i` is the smaller of the vehicles present in `c` and the rounding
(down or up, by the draw) of `min demand supply`, hence less than that minimum plus one. -/
theorem C18_flow_between_cells (hasNext : V → Bool) (u : ℕ → ℚ) (hu : ∀ i, 0 ≤ u i) (l l' : Ctm V)
    (hpos : ∀ i c d, l.cells[i]? = some c → l.cells[i + 1]? = some d →
      0 ≤ min c.demand d.supply * l.scalar)
    (h : l.evolve hasNext u = .ok l') :
    ∃ out : ℕ → ℕ,
      (∀ i c, l.cells[i]? = some c → out i ≤ c.queue.length ∧
        ∃ c', l'.cells[i]? = some c' ∧
          c'.queue = c.queue.drop (out i) ++
            (if i = 0 then [] else ((l.cells[i - 1]?).elim [] fun b => b.queue.take (out (i - 1))))) ∧
      (∀ i c d, l.cells[i]? = some c → l.cells[i + 1]? = some d →
        ∃ n : ℕ, out i = min c.queue.length n ∧
          (n = ⌊min c.demand d.supply * l.scalar⌋₊ ∨ n = ⌊min c.demand d.supply * l.scalar⌋₊ + 1) ∧
          (n : ℚ) < min c.demand d.supply * l.scalar + 1) ∧
      (∀ i c, l.cells[i]? = some c → l.cells[i + 1]? = none → out i = c.queue.length ∧
        l'.finished = l.finished ++ c.queue) := by
  obtain ⟨hne, rfl⟩ := ctm_evolve_eq h
  let f : ℕ → ℕ := fun i =>
    ((withOut l.scalar u 0 l.cells)[i]?).elim 0 fun x => x.outVeh.toNat
  have hf : ∀ i c, l.cells[i]? = some c → f i = ((l.cells[i + 1]?).elim (c.queue.length : ℤ) fun d =>
        min (c.queue.length : ℤ) (roundVal (min c.demand d.supply * l.scalar) (u (0 + i)))).toNat := by
    intro i c hc
    simp only [f, withOut_get hc, Option.elim]
  refine ⟨f, ?_, ?_, ?_⟩
  · intro i c hc
    have hw := withOut_get (s := l.scalar) (u := u) (k := 0) hc
    constructor
    · rw [hf i c hc]
      cases l.cells[i + 1]? with
      | none => simp
      | some d => simp
    · obtain ⟨c', h1, h2⟩ := shifted_get
        (fin := (l.finished ++ leaving (withOut l.scalar u 0 l.cells)).length) (inflow := []) hw
      refine ⟨c', h1, ?_⟩
      rw [h2]
      simp only
      have e1 : f i = ((l.cells[i + 1]?).elim (c.queue.length : ℤ) fun d =>
        min (c.queue.length : ℤ) (roundVal (min c.demand d.supply * l.scalar) (u (0 + i)))).toNat :=
        hf i c hc
      rw [← e1]
      congr 1
      split
      · rfl
      · rename_i hi
        cases hb : l.cells[i - 1]? with
        | none =>
          have h3 := List.getElem?_eq_none_iff.1 hb
          have h4 := (List.getElem?_eq_some_iff.1 hc).1
          omega
        | some b =>
          have hwb := withOut_get (s := l.scalar) (u := u) (k := 0) hb
          have e2 := hf (i - 1) b hb
          rw [hwb]
          simp only [Option.elim] at e2 ⊢
          rw [e2]
  · intro i c d hc hd
    have hx := hpos i c d hc hd
    have e := hf i c hc
    rw [hd] at e
    simp only [Option.elim] at e
    have hr0 := roundVal_natCast_nonneg (u := u (0 + i)) hx
    refine ⟨(roundVal (min c.demand d.supply * l.scalar) (u (0 + i))).toNat, ?_, ?_, ?_⟩
    · rw [e]; omega
    · have hb := roundVal_bounds (u := u (0 + i)) hx
      have hfl : (⌊min c.demand d.supply * l.scalar⌋₊ : ℤ) = ⌊min c.demand d.supply * l.scalar⌋ :=
        Int.natCast_floor_eq_floor hx
      omega
    · apply out_lt hx (hu (0 + i)) (q := (roundVal (min c.demand d.supply * l.scalar) (u (0 + i))).toNat)
      omega
  · intro i c hc hd
    have e := hf i c hc
    rw [hd] at e
    simp only [Option.elim, Int.toNat_natCast] at e
    refine ⟨e, ?_⟩
    simp only
    congr 1
    have key : ∀ (cs : List (Cell V)) (k i : ℕ) (c : Cell V), cs[i]? = some c → cs[i + 1]? = none →
        leaving (withOut l.scalar u k cs) = c.queue := by
      intro cs
      induction cs with
      | nil => intro k i c h; simp at h
      | cons x xs ih =>
        intro k i c hc hd
        cases xs with
        | nil =>
          cases i with
          | zero => simp at hc; subst hc; simp [withOut, leaving]
          | succ i => simp at hc
        | cons y ys =>
          cases i with
          | zero => simp at hd
          | succ i =>
            simp only [List.getElem?_cons_succ] at hc hd
            simp only [withOut]
            rw [leaving_cons _ (withOut_ne (by simp))]
            exact ih (k + 1) i c hc hd
    exact key _ _ _ _ hc hd

/-- C18, density: over any number of intervals with any arrivals, departures and draws, the
number of cells stays the same and no cell ever holds more than the holding capacity it was made
with (in vehicles) plus one; for the last cell this includes the vehicles waiting at the exit. -/
theorem C18_density_bound (hasNext : V → Bool) (hold cap : ℚ) (lanes : ℤ)
    (length ffs unit scalar : ℚ) (l : Ctm V)
    (hl : Ctm.mk' hold cap lanes length ffs unit scalar = .ok l) (is : List (Interval V))
    (hu : ∀ i ∈ is, ∀ k, 0 ≤ i.draws k) (r : Link V × List (IntervalLog V))
    (hr : (Link.ctm l).intervals hasNext is = .ok r) :
    ∃ l', r.1 = .ctm l' ∧ l'.cells.length = l.cells.length ∧
      ∀ i c0 c, l.cells[i]? = some c0 → l'.cells[i]? = some c →
        ((c.queue.length + (if i + 1 = l.cells.length then l'.finished.length else 0) : ℕ) : ℚ)
          ≤ c0.hold * scalar + 1 := by
  obtain ⟨l', h1, h2⟩ := ctm_intervals is (ctm_mk_ok hl) hu hr
  obtain ⟨c', h1', hat⟩ := ctm_intervals_attrs is hr
  rw [h1] at h1'
  cases h1'
  have hlen : l'.cells.length = l.cells.length := by
    simpa [cellAttrs] using congrArg List.length hat
  refine ⟨l', h1, hlen, ?_⟩
  intro i c0 c hc0 hc
  have e : (c.hold, c.cap, c.scalar) = (c0.hold, c0.cap, c0.scalar) := by
    have := congrArg (fun x => x[i]?) hat
    simp only [cellAttrs, List.getElem?_map, hc0, hc, Option.map_some, Option.some.injEq] at this
    exact this
  simp only [Prod.mk.injEq] at e
  have hs : c.scalar = scalar := by
    rw [e.2.2]
    exact ((ctm_mk_wf hl).2.2.1 c0 (List.mem_of_getElem? hc0)).2.1
  split
  · rename_i hi
    have hlast : l'.cells.getLast? = some c := by
      rw [List.getLast?_eq_getElem?, hlen, ← hi]; simpa using hc
    have := h2.dens.last c hlast
    rwa [hs, e.1] at this
  · have := h2.dens.cell c (List.mem_of_getElem? hc)
    rw [hs, e.1] at this
    simpa using this

example : ((Ctm.mk' (1/5) (1/2) 1 30 10 1 1 : Res (Ctm ℕ)).bind fun l =>
    ((Link.ctm l).intervals (fun _ => true) [⟨[.arrive 1], fun _ => 0⟩, ⟨[.arrive 2], fun _ => 0⟩,
      ⟨[.arrive 3], fun _ => 0⟩]).bind fun r =>
      .ok (r.1.finished, r.1.travelling)) = .ok ([1], [2, 3]) := by decide +kernel

/-- C19.  A link-queue link never loses or duplicates a vehicle and keeps the arrival order
within each class of departures, also when vehicles are pulled back from the exit. -/
theorem C19_lq_conservation_fifo {κ : Type} [DecidableEq κ] (cls : V → κ) (hasNext : V → Bool)
    (a : LinkArgs) (l : Link V) (hl : mkLink .lq a = .ok l) (ops : List (LinkOp V))
    (r : Link V × List V) (hr : l.run hasNext ops = .ok r) :
    (r.2 ++ (r.1.finished ++ r.1.travelling ++ r.1.incoming)).Perm (arrivals ops) ∧
    ((∀ p, LinkOp.move (.depart p) ∈ ops → ∃ k, ∀ v, p v = decide (cls v = k)) → ∀ k,
      (r.2 ++ (r.1.finished ++ r.1.travelling ++ r.1.incoming)).filter (fun v => decide (cls v = k))
        = (arrivals ops).filter (fun v => decide (cls v = k))) := by
  obtain ⟨h1, h2⟩ := mkLink_empty hl
  have e1 := run_perm h1 hr
  rw [h2] at e1
  refine ⟨e1, fun hd k => ?_⟩
  have := run_fifo cls h1 hd hr k
  rwa [h2] at this

/-- A history with a pull-back: three vehicles wait at the exit, one departs, and the next
`evolve` puts one of the others back on the link. -/
example : ((mkLink .lq ⟨1, 1, 1, 10, 10, 1, 5⟩ : Res (Link ℕ)).bind fun l =>
    (l.run (fun _ => true) [.move (.arrive 1), .move (.arrive 2), .move (.arrive 3), .clear,
      .evolve (fun _ => 0), .move (.depart fun _ => true), .clear, .move (.depart fun _ => true),
      .clear, .evolve (fun _ => 0)]).bind
      fun r => .ok (r.2, r.1.finished, r.1.travelling, r.1.incoming)) = .ok ([1, 2], [3], [], []) := by
  decide +kernel

/-- C19, the amount released.  `evolve` never fails for a demand that is not negative and fits an int,
and it fills the exit up to the demand, as far as there are vehicles: the number of vehicles at the exit
is within one of the demand or of all vehicles on the link, whichever is less. -/
theorem C19_lq_release (u : ℕ → ℚ) (hu : 0 ≤ u 0) (l : Lq V) (hs : 0 < l.scalar) (hd : 0 ≤ l.demand)
    (hi : l.demand * l.scalar < 2147483647) :
    ∃ l', l.evolve u = .ok l' ∧ l'.finished ++ l'.queue = l.finished ++ l.queue ∧
      (l'.finished.length : ℚ) < l.demand * l.scalar + 1 ∧
      min (l.demand * l.scalar) (l.finished ++ l.queue).length - 1 < l'.finished.length := by
  have hds : 0 ≤ l.demand * l.scalar := mul_nonneg hd hs.le
  unfold Lq.evolve releaseOrPull
  by_cases hlt : l.demand < l.finished.length / l.scalar
  · rw [if_pos hlt, toInt_ok_of hds (by linarith)]
    simp only [Res.bind_ok']
    rw [lt_div_iff₀ hs] at hlt
    have hf : ⌊l.demand * l.scalar⌋ ≤ (l.finished.length : ℤ) := by
      have : ⌊l.demand * l.scalar⌋ < (l.finished.length : ℤ) := by
        rw [Int.floor_lt]; push_cast; exact hlt
      omega
    have hf0 : (0 : ℤ) ≤ ⌊l.demand * l.scalar⌋ := Int.floor_nonneg.2 hds
    obtain ⟨p, hp⟩ := pullBack_total (V := V)
      (min ((l.finished.length : ℤ) - ⌊l.demand * l.scalar⌋) l.finished.length).toNat l.finished l.queue
      (by omega)
    obtain ⟨e1, e2⟩ := pullBack_inv hp
    rw [hp]
    refine ⟨_, rfl, e1, ?_, ?_⟩
    all_goals
      have e3 : (p.1.length : ℤ) = ⌊l.demand * l.scalar⌋ := by omega
      have e4 : (p.1.length : ℚ) = (⌊l.demand * l.scalar⌋ : ℤ) := by exact_mod_cast e3
      have g1 := Int.floor_le (l.demand * l.scalar)
      have g2 := Int.lt_floor_add_one (l.demand * l.scalar)
    · show (p.1.length : ℚ) < _
      rw [e4]; linarith
    · show _ < (p.1.length : ℚ)
      rw [e4]
      have := min_le_left (l.demand * l.scalar) ((l.finished ++ l.queue).length : ℚ)
      linarith
  · rw [if_neg hlt, round_nonneg_ok hds hi]
    simp only [Res.bind_ok']
    rw [not_lt, div_le_iff₀ hs] at hlt
    have hr : l.demand * l.scalar < (roundVal (l.demand * l.scalar) (u 0) : ℚ) + 1 ∧
        (roundVal (l.demand * l.scalar) (u 0) : ℚ) < l.demand * l.scalar + 1 := by
      have g1 := Int.floor_le (l.demand * l.scalar)
      have g2 := Int.lt_floor_add_one (l.demand * l.scalar)
      have g3 := Int.floor_add_fract (l.demand * l.scalar)
      rw [roundVal_nonneg hds]
      split
      · push_cast; constructor <;> linarith
      · constructor <;> linarith
    have hnn : (l.finished.length : ℤ) ≤ roundVal (l.demand * l.scalar) (u 0) := by
      have : ((l.finished.length : ℤ) : ℚ) < roundVal (l.demand * l.scalar) (u 0) + 1 := by
        push_cast; linarith [hr.1]
      have : (l.finished.length : ℤ) < roundVal (l.demand * l.scalar) (u 0) + 1 := by exact_mod_cast this
      omega
    rw [moveQueue_ok _ _ _ (by omega)]
    refine ⟨_, rfl, by simp, ?_, ?_⟩
    · show ((l.finished ++ _).length : ℚ) < _
      rw [List.length_append, List.length_take]
      have : ((l.finished.length + min (min (roundVal (l.demand * l.scalar) (u 0) - (l.finished.length : ℤ)) l.queue.length).toNat l.queue.length : ℕ) : ℤ)
          ≤ roundVal (l.demand * l.scalar) (u 0) := by omega
      have h2 : ((l.finished.length + min (min (roundVal (l.demand * l.scalar) (u 0) - (l.finished.length : ℤ)) l.queue.length).toNat l.queue.length : ℕ) : ℚ)
          ≤ roundVal (l.demand * l.scalar) (u 0) := by exact_mod_cast this
      linarith [hr.2]
    · show _ < ((l.finished ++ _).length : ℚ)
      rw [List.length_append (bs := l.queue), List.length_append, List.length_take]
      rcases le_total (roundVal (l.demand * l.scalar) (u 0)) ((l.finished.length + l.queue.length : ℕ) : ℤ) with hc | hc
      · have : ((l.finished.length + min (min (roundVal (l.demand * l.scalar) (u 0) - (l.finished.length : ℤ)) l.queue.length).toNat l.queue.length : ℕ) : ℤ)
          = roundVal (l.demand * l.scalar) (u 0) := by omega
        have h2 : ((l.finished.length + min (min (roundVal (l.demand * l.scalar) (u 0) - (l.finished.length : ℤ)) l.queue.length).toNat l.queue.length : ℕ) : ℚ)
          = roundVal (l.demand * l.scalar) (u 0) := by exact_mod_cast this
        rw [h2]
        have := min_le_left (l.demand * l.scalar) ((l.finished.length + l.queue.length : ℕ) : ℚ)
        linarith [hr.1]
      · have : l.finished.length + min (min (roundVal (l.demand * l.scalar) (u 0) - (l.finished.length : ℤ)) l.queue.length).toNat l.queue.length
          = l.finished.length + l.queue.length := by omega
        rw [this]
        have := min_le_right (l.demand * l.scalar) ((l.finished.length + l.queue.length : ℕ) : ℚ)
        linarith

example : ((mkLink .lq ⟨1, 1, 1, 10, 10, 1, 5⟩ : Res (Link ℕ)).bind fun l =>
    (l.run (fun _ => true) [.move (.arrive 1), .move (.arrive 2), .clear]).bind fun r =>
      match r.1 with
      | .lq l => .ok (decide (0 < l.demand ∧ l.demand * l.scalar < 2147483647))
      | _ => .ok false) = .ok true := by decide +kernel

/-- C20.  A link-transmission link never loses or duplicates a vehicle and keeps the arrival
order within each class of departures. -/
theorem C20_ltm_conservation_fifo {κ : Type} [DecidableEq κ] (cls : V → κ) (hasNext : V → Bool)
    (a : LinkArgs) (l : Link V) (hl : mkLink .ltm a = .ok l) (ops : List (LinkOp V))
    (r : Link V × List V) (hr : l.run hasNext ops = .ok r) :
    (r.2 ++ (r.1.finished ++ r.1.travelling ++ r.1.incoming)).Perm (arrivals ops) ∧
    ((∀ p, LinkOp.move (.depart p) ∈ ops → ∃ k, ∀ v, p v = decide (cls v = k)) → ∀ k,
      (r.2 ++ (r.1.finished ++ r.1.travelling ++ r.1.incoming)).filter (fun v => decide (cls v = k))
        = (arrivals ops).filter (fun v => decide (cls v = k))) := by
  obtain ⟨h1, h2⟩ := mkLink_empty hl
  have e1 := run_perm h1 hr
  rw [h2] at e1
  refine ⟨e1, fun hd k => ?_⟩
  have := run_fifo cls h1 hd hr k
  rwa [h2] at this

/-- C21, bounds.  On a cell-transmission link with at least one lane and positive length, for
every flow, the travel time is a positive number; below jam density it lies between the free-flow
time and a thousand times that; from jam density on it is one hour. -/
theorem C21_travel_time_bounds_partial (hold cap : ℚ) (lanes : ℤ) (length ffs unit scalar : ℚ) (l : Ctm V)
    (hl : Ctm.mk' hold cap lanes length ffs unit scalar = .ok l) (hlanes : 0 < lanes)
    (hlen : 0 < length) (flow : ℚ) :
    ∃ t, linkTt (1 / 1000) l.lanes l.length l.ffs l.hold l.cap flow = some t ∧ 0 < t ∧
      (l.hold ≤ flow / lanes / length → t = 3600) ∧
      (flow / lanes / length < l.hold → length / ffs ≤ t ∧ t ≤ 1000 * (length / ffs)) := by
  obtain ⟨_, _, _, _, _, _, e1, e2, e3, _, _, hf, _, hcap, _⟩ := ctm_mk_wf hl
  rw [e1, e2, e3]
  obtain ⟨t, h1, h2, h3, h4⟩ := linkTt_bounds (lowest := 1 / 1000) (flow := flow) (hold := l.hold)
    (by norm_num) (by norm_num) hlanes hlen hf hcap
  refine ⟨t, h1, h2, h3, fun h => ⟨(h4 h).1, ?_⟩⟩
  have := (h4 h).2.1
  linarith

/-- C21, monotonicity below jam density. -/
theorem C21_travel_time_monotone (hold cap : ℚ) (lanes : ℤ) (length ffs unit scalar : ℚ) (l : Ctm V)
    (hl : Ctm.mk' hold cap lanes length ffs unit scalar = .ok l) (hlanes : 0 < lanes)
    (hlen : 0 < length) (f g s t : ℚ) (hfg : f ≤ g) (hg : g / lanes / length < l.hold)
    (hs : linkTt (1 / 1000) l.lanes l.length l.ffs l.hold l.cap f = some s)
    (ht : linkTt (1 / 1000) l.lanes l.length l.ffs l.hold l.cap g = some t) : s ≤ t := by
  obtain ⟨_, _, _, _, _, _, e1, e2, e3, _, _, hf, _, hcap, _⟩ := ctm_mk_wf hl
  rw [e1, e2, e3] at hs ht
  exact linkTt_mono (by norm_num) (by norm_num) hlanes hlen hf hcap hfg hg hs ht

/-- C21, the travel time of a link in use: after any history the value is the formula of
`C21_travel_time_bounds_partial` at the reported flow, with the parameters the link was made with. -/
theorem C21_travel_time_of_link (hasNext : V → Bool) (hold cap : ℚ) (lanes : ℤ)
    (length ffs unit scalar : ℚ) (l : Ctm V)
    (hl : Ctm.mk' hold cap lanes length ffs unit scalar = .ok l) (ops : List (LinkOp V))
    (r : Link V × List V) (hr : (Link.ctm l).run hasNext ops = .ok r) :
    r.1.tt = linkTt (1 / 1000) lanes length ffs l.hold l.cap r.1.flow ∧ 0 ≤ r.1.flow := by
  have hp := run_params hr
  obtain ⟨es, hs, _, _, _, _, e1, e2, e3, _⟩ := ctm_mk_wf hl
  cases hr1 : r.1 with
  | pq x => rw [hr1] at hp; simp [Link.params] at hp
  | lq x => rw [hr1] at hp; simp [Link.params] at hp
  | ltm x => rw [hr1] at hp; simp [Link.params] at hp
  | ctm x =>
    rw [hr1] at hp
    simp only [Link.params, Prod.mk.injEq, true_and] at hp
    obtain ⟨p1, p2, p3, p4, p5, p6⟩ := hp
    refine ⟨?_, ?_⟩
    · simp only [Link.tt, Link.flow]
      rw [p1, p2, p3, p4, p5, e1, e2, e3]
    · simp only [Link.flow, Ctm.flow]
      rw [p6, es]
      exact div_nonneg (by positivity) hs.le

/-- C21, the part that fails: from jam density on the travel time is one hour even when the
free-flow time is longer, so "at least free flow" is false for links longer than an hour. -/
theorem C21_false_at_jam_density :
    ∃ l : Ctm ℕ, Ctm.mk' (1/10) (1/2) 1 40000 10 5 1 = .ok l ∧
      linkTt (1 / 1000) l.lanes l.length l.ffs l.hold l.cap 4000 = some 3600 ∧
      (3600 : ℚ) < l.length / l.ffs := by
  have h : ((Ctm.mk' (1/10) (1/2) 1 40000 10 5 1 : Res (Ctm ℕ)).bind fun l =>
      .ok (linkTt (1 / 1000) l.lanes l.length l.ffs l.hold l.cap 4000, l.length / l.ffs))
      = .ok (some 3600, 4000) := by decide +kernel
  rw [Res.bind_eq_ok'] at h
  obtain ⟨l, hl, h⟩ := h
  simp only [Res.ok.injEq, Prod.mk.injEq] at h
  exact ⟨l, hl, h.1, by rw [h.2]; norm_num⟩

/-- C57.  After each interval, the flow a link reports, multiplied by the flow scalar, is the
number of vehicles on it (travelling or waiting at the exit) for point-queue, link-queue and
link-transmission links; a cell-transmission link counts the vehicles waiting at its exit
twice. -/
theorem C57_reported_flow_partial (hasNext : V → Bool) (k : LinkKind) (a : LinkArgs) (l : Link V)
    (hl : mkLink k a = .ok l) (is : List (Interval V)) (i : Interval V)
    (l1 l2 : Link V) (logs : List (IntervalLog V)) (log : IntervalLog V)
    (h1 : l.intervals hasNext is = .ok (l1, logs)) (h2 : l1.interval hasNext i = .ok (l2, log)) :
    l2.flow * a.scalar = ((l2.finished.length + l2.travelling.length
      + (if k = .ctm then l2.finished.length else 0) : ℕ) : ℚ) := by
  obtain ⟨p1, p2, p3⟩ := mkLink_params hl
  obtain ⟨i1, q1⟩ := intervals_inv (mkLink_empty hl).1 h1
  have q2 := (interval_params h2).trans q1
  simp only at q2
  have hsc : l2.scalar = a.scalar := by
    rw [← p2]
    cases l <;> cases l2 <;> simp_all [Link.params, Link.scalar]
  have := interval_flow i1 (by rw [hsc]; exact p3.ne') h2
  simp only [hsc, q2, p1] at this
  exact this

/-- C57, witness that the double counting happens: a cell-transmission link with one vehicle,
waiting at the exit, reports two. -/
theorem C57_ctm_double_count :
    ((mkLink .ctm ⟨1/5, 1/2, 1, 10, 10, 1, 1⟩ : Res (Link ℕ)).bind fun l =>
      (l.intervals (fun _ => true) [⟨[.arrive 7], fun _ => 0⟩]).bind fun r =>
        .ok (r.1.flow, r.1.finished ++ r.1.travelling)) = .ok (2, [7]) := by decide +kernel

end Verif
