import Verif.Lemmas.MLinkOk
import Verif.Lemmas.MLinkRoad

/-! # Properties C52 and C69 – C72: links carrying cars and trucks

`truck v` tells whether vehicle `v` is a truck.  A history (`Verif.Spec.MLink`) consists of
arrivals, departures, `clear_incoming_array`, `evolve` and `modify_property` calls in any order,
with any random draws. -/

namespace Verif
open MLnk Ults Curve
variable {V : Type}

/-- C52, conservation.  After any history on a two-class link of any kind, the trucks that departed
together with those on the link are exactly the trucks that arrived, and the same for cars. -/
theorem C52_classes_conserved (truck hasNext : V → Bool) (k : Kind) (a : Args) (l : Link V)
    (hl : mkLink k a = .ok l) (ops : List (Op V)) (r : Link V × List V)
    (hr : l.run truck hasNext ops = .ok r) :
    (r.2.filter truck ++ (r.1.finished.filter truck ++ r.1.travellingTrucks truck
        ++ r.1.incoming.filter truck)).Perm ((arrivals ops).filter truck) ∧
    (r.2.filter (fun v => !truck v) ++ (r.1.finished.filter (fun v => !truck v)
        ++ r.1.travellingCars truck ++ r.1.incoming.filter (fun v => !truck v))).Perm
      ((arrivals ops).filter (fun v => !truck v)) := by
  obtain ⟨h1, _, _⟩ := mkLink_inv (truck := truck) hl
  obtain ⟨_, h2, _⟩ := run_inv h1 hr
  constructor
  · have := h2 true
    rw [lane_mk hl] at this
    simpa [ofCls_true, Link.lane, Link.travelling] using this
  · have := h2 false
    rw [lane_mk hl] at this
    simpa [ofCls_false, Link.lane, Link.travelling] using this

/-- C52, the classes are kept apart: what travels among the trucks is a truck, what travels among
the cars is a car. -/
theorem C52_classes_apart (truck hasNext : V → Bool) (k : Kind) (a : Args) (l : Link V)
    (hl : mkLink k a = .ok l) (ops : List (Op V)) (r : Link V × List V)
    (hr : l.run truck hasNext ops = .ok r) :
    (∀ v ∈ r.1.travellingTrucks truck, truck v = true) ∧
      ∀ v ∈ r.1.travellingCars truck, truck v = false := by
  obtain ⟨h1, _, _⟩ := mkLink_inv (truck := truck) hl
  obtain ⟨h2, _, _⟩ := run_inv h1 hr
  exact ⟨travelling_cls h2 true, travelling_cls h2 false⟩

/-- C52, order.  If every departure takes the first waiting vehicle bound for some next link
(`key`), then among the trucks bound for a given link those that departed, followed by those
still on the link from exit to entrance, are the arrivals in order; the same for cars.  Vehicles
of one class never overtake one another. -/
theorem C52_fifo_within_class {κ : Type} [DecidableEq κ] (key : V → κ) (truck hasNext : V → Bool)
    (k : Kind) (a : Args) (l : Link V) (hl : mkLink k a = .ok l) (ops : List (Op V))
    (r : Link V × List V) (hd : ∀ p, Op.depart p ∈ ops → ∃ j, ∀ v, p v = decide (key v = j))
    (hr : l.run truck hasNext ops = .ok r) (j : κ) :
    (r.2.filter truck ++ (r.1.finished.filter truck ++ r.1.travellingTrucks truck
        ++ r.1.incoming.filter truck)).filter (fun v => decide (key v = j))
      = ((arrivals ops).filter truck).filter (fun v => decide (key v = j)) ∧
    (r.2.filter (fun v => !truck v) ++ (r.1.finished.filter (fun v => !truck v)
        ++ r.1.travellingCars truck ++ r.1.incoming.filter (fun v => !truck v))).filter
          (fun v => decide (key v = j))
      = ((arrivals ops).filter (fun v => !truck v)).filter (fun v => decide (key v = j)) := by
  obtain ⟨h1, _, _⟩ := mkLink_inv (truck := truck) hl
  obtain ⟨_, _, h2⟩ := run_inv h1 hr
  constructor
  · have := h2 key hd true j
    rw [lane_mk hl] at this
    simpa only [ofCls_true, Link.lane, Link.travelling, if_true, List.nil_append] using this
  · have := h2 key hd false j
    rw [lane_mk hl] at this
    simpa only [ofCls_false, Link.lane, Link.travelling, Bool.false_eq_true, if_false,
      List.nil_append] using this

/-- A cell transmission link of three cells, even vehicles are trucks. -/
def mAt : Args := ⟨1, 30, 1/10, 1/10, 1/2, 1/4, 10, 10, 1, 2, 4⟩

example : ((mkLink .ctm mAt : Res (Link ℕ)).bind fun l =>
    (l.run (fun v => v % 2 == 0) (fun _ => true) [.arrive 1, .arrive 2, .arrive 3, .clear,
      .evolve ⟨fun _ => 0, fun _ => 0⟩, .evolve ⟨fun _ => 0, fun _ => 0⟩, .modify mAt,
      .arrive 4, .clear, .evolve ⟨fun _ => 0, fun _ => 0⟩, .depart (fun _ => true)]).bind fun r =>
      .ok ([r.2, r.1.finished, r.1.travellingCars (fun v => v % 2 == 0),
        r.1.travellingTrucks (fun v => v % 2 == 0)])) = .ok [[1], [3, 2], [], [4]] := by
  decide +kernel

example : ((mkLink .lq mAt : Res (Link ℕ)).bind fun l =>
    (l.run (fun v => v % 2 == 0) (fun _ => true) [.arrive 1, .arrive 2, .arrive 3, .clear,
      .evolve ⟨fun _ => 0, fun _ => 0⟩, .depart (fun _ => true)]).bind fun r =>
      .ok ([r.2, r.1.finished, r.1.travellingCars (fun v => v % 2 == 0),
        r.1.travellingTrucks (fun v => v % 2 == 0)])) = .ok [[1], [2], [3], []] := by
  decide +kernel

/-- C69, volumes of link queues and point queues.  After any history followed by an interval
(`clear_incoming_array`, `evolve`) the car, truck and total volumes the link reports are the
numbers of cars, trucks and vehicles on the link (travelling or waiting at the exit), each vehicle
counted exactly once, in units of the flow scalar.  Partial: not for cell transmission links, see
below. -/
theorem C69_volume_exact_partial (truck hasNext : V → Bool) (k : Kind) (hk : k ≠ .ctm) (a : Args)
    (l : Link V) (hl : mkLink k a = .ok l) (ops : List (Op V)) (u : Draws) (r : Link V × List V)
    (hr : l.run truck hasNext (ops ++ [.clear, .evolve u]) = .ok r) :
    r.1.flowCar truck = ((r.1.travellingCars truck).length + r.1.finished.countP (fun v => !truck v)
        : ℕ) / a.scalar ∧
    r.1.flowTruck truck = ((r.1.travellingTrucks truck).length + r.1.finished.countP truck : ℕ)
        / a.scalar ∧
    r.1.flow = r.1.flowCar truck + r.1.flowTruck truck := by
  obtain ⟨s, m, h1, h2, h3⟩ := run_two hr
  obtain ⟨i0, _, _⟩ := mkLink_inv (truck := truck) hl
  obtain ⟨i1, _, _⟩ := run_inv i0 h1
  obtain ⟨i2, _, _⟩ := clear_inv i1 h2
  obtain ⟨_, e2, _⟩ := mk_unit_scalar hl
  have hsc : r.1.scalar = a.scalar := by
    rw [(run_wait _ l r hr).2.1, e2]
  have k1 := clear_kept (run_kept ops l s (mk_kept hl) h1) h2
  cases k with
  | ctm => exact absurd rfl hk
  | lq =>
    cases m with
    | ctm x => exact k1.elim
    | pq x => exact k1.elim
    | lq x =>
      simp only [Link.evolve] at h3
      rw [Res.bind_eq_ok'] at h3
      obtain ⟨y, hy, h3⟩ := h3
      simp only [Res.ok.injEq] at h3
      obtain ⟨v1, v2⟩ := lq_volume i2 k1.1 k1.2 hy
      rw [← h3] at hsc ⊢
      simp only [Link.flowCar, Link.flowTruck, Link.flow]
      have hsc : y.args.scalar = a.scalar := hsc
      rw [v1, v2, hsc]
      exact ⟨rfl, rfl, by push_cast; ring⟩
  | pq =>
    cases m with
    | ctm x => exact k1.elim
    | lq x => exact k1.elim
    | pq x =>
      cases hs : s.1 with
      | ctm z =>
        have := run_kept ops l s (mk_kept hl) h1
        rw [hs] at this; exact this.elim
      | lq z =>
        have := run_kept ops l s (mk_kept hl) h1
        rw [hs] at this; exact this.elim
      | pq z =>
        rw [hs] at h2 i1
        simp only [Link.clear, Res.ok.injEq, Link.pq.injEq] at h2
        simp only [Link.evolve, Res.ok.injEq] at h3
        obtain ⟨v1, v2⟩ := pq_volume (hasNext := hasNext) (u := u) i1
        rw [h2] at v1 v2
        rw [← h3] at hsc ⊢
        simp only [Link.flowCar, Link.flowTruck, Link.flow]
        have hsc : (x.evolve truck).args.scalar = a.scalar := hsc
        rw [v1, v2, hsc]
        exact ⟨rfl, rfl, by push_cast; ring⟩

/-- C69, volumes of cell transmission links: the vehicles waiting at the exit are counted twice. -/
theorem C69_ctm_counts_exit_twice (truck hasNext : V → Bool) (a : Args)
    (l : Link V) (hl : mkLink .ctm a = .ok l) (ops : List (Op V)) (u : Draws) (r : Link V × List V)
    (hr : l.run truck hasNext (ops ++ [.clear, .evolve u]) = .ok r) :
    r.1.flowCar truck = ((r.1.travellingCars truck).length
        + 2 * r.1.finished.countP (fun v => !truck v) : ℕ) / a.scalar ∧
    r.1.flowTruck truck = ((r.1.travellingTrucks truck).length + 2 * r.1.finished.countP truck : ℕ)
        / a.scalar ∧
    r.1.flow = r.1.flowCar truck + r.1.flowTruck truck := by
  obtain ⟨s, m, h1, h2, h3⟩ := run_two hr
  obtain ⟨_, e2, _⟩ := mk_unit_scalar hl
  have hsc : r.1.scalar = a.scalar := by
    rw [(run_wait _ l r hr).2.1, e2]
  have k1 := clear_kept (run_kept ops l s (mk_kept hl) h1) h2
  cases m with
  | lq x => exact k1.elim
  | pq x => exact k1.elim
  | ctm x =>
    simp only [Link.evolve] at h3
    rw [Res.bind_eq_ok'] at h3
    obtain ⟨y, hy, h3⟩ := h3
    simp only [Res.ok.injEq] at h3
    obtain ⟨v1, v2⟩ := ctm_volume hy
    rw [← h3] at hsc ⊢
    have hsc : y.args.scalar = a.scalar := hsc
    have w := cars_add_trucks truck y.com.finished
    simp only [Link.flowCar, Link.flowTruck, Link.flow, Ctm.flowCar, Ctm.flowTruck, Ctm.flow]
    rw [v1, v2, hsc, ← w]
    refine ⟨?_, ?_, by push_cast; ring⟩
    · congr 2; simp only [Link.finished, Link.com, cars]; omega
    · congr 2; simp only [Link.finished, Link.com, trucks]; omega

/-- C69 for cell transmission links is false of the code: two vehicles at the exit, volume 4. -/
theorem C69_ctm_double_count_witness :
    ((mkLink .ctm mAt : Res (Link ℕ)).bind fun l =>
      (l.run (fun v => v % 2 == 0) (fun _ => true) [.arrive 1, .arrive 2, .clear,
        .evolve ⟨fun _ => 0, fun _ => 0⟩, .evolve ⟨fun _ => 0, fun _ => 0⟩,
        .clear, .evolve ⟨fun _ => 0, fun _ => 0⟩]).bind fun r =>
        .ok ([r.1.flow * 4], [r.1.finished, r.1.travellingCars (fun v => v % 2 == 0),
          r.1.travellingTrucks (fun v => v % 2 == 0)])) = .ok ([4], [[1, 2], [], []]) := by
  decide +kernel

/-- Volumes of a link queue with two vehicles travelling and one waiting. -/
example : ((mkLink .lq mAt : Res (Link ℕ)).bind fun l =>
    (l.run (fun v => v % 2 == 0) (fun _ => true) ([.arrive 1, .arrive 2, .arrive 3, .clear,
      .evolve ⟨fun _ => 0, fun _ => 0⟩, .depart (fun _ => true)] ++
      [.clear, .evolve ⟨fun _ => 0, fun _ => 0⟩])).bind fun r =>
      .ok ([r.1.flow, r.1.flowCar (fun v => v % 2 == 0), r.1.flowTruck (fun v => v % 2 == 0)],
        [r.1.finished, r.1.travellingCars (fun v => v % 2 == 0)])) =
      .ok ([2/4, 1/4, 1/4], [[2], [3]]) := by
  decide +kernel


/-- C70.  After any history the waiting times at the exit that a link reports are exactly the
vehicle-intervals spent in the exit queue, in seconds and in units of the flow scalar: for all
vehicles, for cars and for trucks. -/
theorem C70_waiting_times (truck hasNext : V → Bool) (k : Kind) (a : Args) (l : Link V)
    (hl : mkLink k a = .ok l) (ops : List (Op V)) (r : Link V × List V)
    (hr : l.run truck hasNext ops = .ok r) :
    r.1.com.wait = (waited (fun _ => true) truck hasNext l ops : ℚ) / a.scalar * a.unit ∧
    r.1.com.waitCar = (waited (fun v => !truck v) truck hasNext l ops : ℚ) / a.scalar * a.unit ∧
    r.1.com.waitTruck = (waited truck truck hasNext l ops : ℚ) / a.scalar * a.unit := by
  obtain ⟨_, _, h0⟩ := mkLink_inv (truck := truck) hl
  obtain ⟨e1, e2, _⟩ := mk_unit_scalar hl
  obtain ⟨_, _, h⟩ := run_wait ops l r hr
  rw [h0, e1, e2] at h
  simpa [Common.empty] using h

/-- C70, the total is the sum over the classes, and no part is negative. -/
theorem C70_waiting_split (truck hasNext : V → Bool) (k : Kind) (a : Args) (l : Link V)
    (hl : mkLink k a = .ok l) (ops : List (Op V)) (r : Link V × List V)
    (hr : l.run truck hasNext ops = .ok r) :
    r.1.com.wait = r.1.com.waitCar + r.1.com.waitTruck ∧ 0 ≤ r.1.com.waitCar ∧
      0 ≤ r.1.com.waitTruck := by
  obtain ⟨h1, h2, h3⟩ := C70_waiting_times truck hasNext k a l hl ops r hr
  obtain ⟨_, _, hu, hs⟩ := mk_unit_scalar hl
  rw [h1, h2, h3, waited_split]
  refine ⟨by push_cast; ring, ?_, ?_⟩ <;> positivity

example : ((mkLink .pq mAt : Res (Link ℕ)).bind fun l =>
    (l.run (fun v => v % 2 == 0) (fun _ => true) [.arrive 1, .arrive 2, .clear,
      .evolve ⟨fun _ => 0, fun _ => 0⟩, .evolve ⟨fun _ => 0, fun _ => 0⟩,
      .evolve ⟨fun _ => 0, fun _ => 0⟩, .depart (fun v => v == 2),
      .evolve ⟨fun _ => 0, fun _ => 0⟩]).bind fun r =>
      .ok [r.1.com.wait, r.1.com.waitCar, r.1.com.waitTruck]) = .ok [3/4, 1/2, 1/4] := by
  decide +kernel

/-- C71, how cars and trucks share the road.  In every cell of a cell transmission link, after any
history without attribute changes, the space fractions of the two classes sum to one, and the
density a class perceives times its fraction is its actual density (so the perceived road holds
exactly the vehicles of the class); below the jam densities the fractions are not negative.
`perceived = none` stands for an infinite perceived density. -/
theorem C71_space_fractions_partial (truck hasNext : V → Bool) (a : Args) (l : Link V)
    (hl : mkLink .ctm a = .ok l) (ops : List (Op V)) (hm : ∀ b, Op.modify b ∉ ops)
    (r : Link V × List V) (hr : l.run truck hasNext ops = .ok r) (x : Ctm V)
    (hx : r.1 = .ctm x) (c : Cell V) (hc : c ∈ x.cells) :
    c.per.fracCar + c.per.fracTruck = 1 ∧
    (∀ ρ, c.per.densCar = some ρ →
      c.per.fracCar * ρ = (c.volCar : ℚ) / a.scalar / c.length) ∧
    (∀ ρ, c.per.densTruck = some ρ →
      c.per.fracTruck * ρ = (c.volTruck : ℚ) / a.scalar / c.length) ∧
    ((c.volCar : ℚ) / a.scalar / c.length ≤ c.dia.holdCar →
      (c.volTruck : ℚ) / a.scalar / c.length ≤ c.dia.holdTruck →
      0 ≤ c.per.fracCar ∧ 0 ≤ c.per.fracTruck) := by
  have hb := run_built ops l r (mk_built hl) hm hr
  obtain ⟨_, e2, _⟩ := mk_unit_scalar hl
  obtain ⟨_, s, _⟩ := run_wait ops l r hr
  rw [hx] at hb s
  rw [e2] at s
  have hs : x.args.scalar = a.scalar := s
  obtain ⟨_, b2, _, b4⟩ := hb
  obtain ⟨g1, g2, g3⟩ := b4 c hc
  obtain ⟨h1, h2, h3, h4⟩ := cell_frac b2 g1 g2 g3
  rw [hs] at h2 h3 h4
  exact ⟨h1, h3, h4, fun j1 j2 => h2 ⟨j1, j2⟩⟩

/-- Six trucks and a car on the first cell: above the jam density for trucks. -/
def mJam : Args := ⟨1, 30, 1/5, 1/10, 1/4, 1/2, 10, 10, 1, 2, 4⟩

/-- C71, above the jam density of a class the space fraction of the other class becomes
negative. -/
theorem C71_negative_fraction_witness :
    ((mkLink .ctm mJam : Res (Link ℕ)).bind fun l =>
      (l.run (fun v => v % 2 == 0) (fun _ => true) [.arrive 1, .arrive 2, .arrive 4, .arrive 6,
        .arrive 8, .arrive 10, .arrive 12, .clear]).bind fun r =>
        match r.1 with
        | .ctm x => .ok (x.cells.map fun c => [c.per.fracCar, c.per.fracTruck])
        | _ => .ub) = .ok [[-2/19, 21/19], [1, 0], [1, 0]] := by
  decide +kernel

/-- A cell with a car and a truck sharing the road below jam. -/
example :
    ((mkLink .ctm mAt : Res (Link ℕ)).bind fun l =>
      (l.run (fun v => v % 2 == 0) (fun _ => true) [.arrive 1, .arrive 3, .arrive 2, .clear]).bind
        fun r => match r.1 with
        | .ctm x => .ok (x.cells.map fun c => ([c.per.fracCar, c.per.fracTruck],
            [c.per.densCar, c.per.densTruck]))
        | _ => .ub) = .ok [([3/5, 2/5], [some (1/12), some (1/16)]),
          ([1, 0], [some 0, some 0]), ([1, 0], [some 0, some 0])] := by
  decide +kernel

/-- C71, the room a link offers is never negative. -/
theorem C71_supply_nonneg (truck hasNext : V → Bool) (k : Kind) (hk : k ≠ .pq) (a : Args)
    (l : Link V) (hl : mkLink k a = .ok l) (ops : List (Op V)) (hm : ∀ b, Op.modify b ∉ ops)
    (r : Link V × List V) (hr : l.run truck hasNext ops = .ok r) (x : ℚ)
    (hx : r.1.supply = .ok x) : 0 ≤ x := by
  have hb := run_built ops l r (mk_built hl) hm hr
  have hkept := run_kept ops l r (mk_kept hl) hr
  cases h : r.1 with
  | ctm y =>
    rw [h] at hx hb
    simp only [Link.supply, Ctm.supply] at hx
    split at hx
    · simp at hx
    · cases hx
      exact mul_nonneg (le_max_left _ _) hb.1.le
  | lq y =>
    rw [h] at hx hb
    simp only [Link.supply, Lq.supply] at hx
    split at hx
    · simp at hx
    · cases hx
      refine add_nonneg ?_ (mul_nonneg hb.2.2.2.1.le ?_) <;> split <;> exact le_max_left _ _
  | pq y => rw [h] at hkept; cases k <;> first | exact absurd rfl hk | exact hkept.elim

/-- C71, a link queue that has not been through an `evolve` has no perceived densities: asking for
its room reads an uninitialised value. -/
theorem C71_lq_supply_uninitialised (truck hasNext : V → Bool) (a : Args) (l : Link V)
    (hl : mkLink .lq a = .ok l) : l.supply = .ub := by
  simp only [mkLink] at hl
  rw [Res.bind_eq_ok'] at hl
  obtain ⟨x, hx, hl⟩ := hl
  cases hl
  unfold Lq.mk' at hx
  rw [Res.bind_eq_ok'] at hx
  obtain ⟨_, _, hx⟩ := hx
  rw [Res.bind_eq_ok'] at hx
  obtain ⟨r, hr, hx⟩ := hx
  cases hx
  rfl

example : ((mkLink .lq mAt : Res (Link ℕ)).bind fun l => l.supply) = .ub := by decide +kernel

/-- The hypotheses of C72: no more vehicles than the jam densities allow, capacities and queue
within the range of `int`, and every travelling vehicle knows its next link. -/
structure Loadable (truck hasNext : V → Bool) (l : Link V) : Prop where
  ctm : ∀ x, l = .ctm x → ∀ c ∈ x.cells,
    (c.volCar : ℚ) / x.args.scalar / c.length ≤ c.dia.holdCar ∧
    (c.volTruck : ℚ) / x.args.scalar / c.length ≤ c.dia.holdTruck ∧
    c.dia.capCar * x.args.unit * x.args.scalar < 2147483647 ∧
    c.dia.capTruck * x.args.unit * x.args.scalar < 2147483647
  lq : ∀ x, l = .lq x →
    ((x.queueCar.length + x.com.finished.countP (fun v => !truck v) : ℕ) : ℚ) / x.args.scalar
      / x.args.length ≤ x.dia.holdCar ∧
    ((x.queueTruck.length + x.com.finished.countP truck : ℕ) : ℚ) / x.args.scalar
      / x.args.length ≤ x.dia.holdTruck ∧
    1 ≤ x.args.factor ∧
    (x.dia.capCar + x.args.factor * x.dia.capTruck) * x.args.unit * x.args.scalar < 2147483647 ∧
    x.com.finished.length < 2147483647
  next : ∀ v ∈ l.travellingCars truck ++ l.travellingTrucks truck, hasNext v = true

/-- C72.  Whatever the history (without attribute changes), admitting the incoming vehicles never
fails, and below the jam densities neither does an interval, whatever the random draws. -/
theorem C72_interval_goes_through (truck hasNext : V → Bool) (k : Kind) (a : Args) (l : Link V)
    (hl : mkLink k a = .ok l) (ops : List (Op V)) (hm : ∀ b, Op.modify b ∉ ops)
    (r : Link V × List V) (hr : l.run truck hasNext ops = .ok r) :
    (∃ l', r.1.clear truck = .ok l') ∧
    (Loadable truck hasNext r.1 → ∀ u, ∃ l', r.1.evolve truck hasNext u = .ok l') := by
  have hb := run_built ops l r (mk_built hl) hm hr
  constructor
  · cases h : r.1 with
    | ctm y =>
      rw [h] at hb
      obtain ⟨_, _, b3, _⟩ := hb
      cases hc : y.cells with
      | nil => exact absurd hc b3
      | cons c cs => exact ⟨_, by simp only [Link.clear, Ctm.clear, hc, Res.bind_ok']; rfl⟩
    | lq y => exact ⟨_, rfl⟩
    | pq y => exact ⟨_, rfl⟩
  · intro hld u
    have hn : ∀ b, ∀ v ∈ r.1.travelling truck b, hasNext v = true := by
      intro b v hv
      apply hld.next
      cases b
      · exact List.mem_append_left _ hv
      · exact List.mem_append_right _ hv
    cases h : r.1 with
    | ctm y =>
      rw [h] at hb hn
      have hy := hld.ctm y h
      obtain ⟨l', e⟩ := ctm_evolve_ok (u := u) hb (fun c hc => ⟨(hy c hc).1, (hy c hc).2.1⟩)
        (fun c hc => ⟨(hy c hc).2.2.1, (hy c hc).2.2.2⟩) hn
      exact ⟨.ctm l', by simp [Link.evolve, e]⟩
    | lq y =>
      rw [h] at hb hn
      obtain ⟨h1, h2, h3, h4, h5⟩ := hld.lq y h
      obtain ⟨l', e⟩ := lq_evolve_ok (u := u) hb ⟨h1, h2⟩ h3 h4 h5 hn
      exact ⟨.lq l', by simp [Link.evolve, e]⟩
    | pq y => exact ⟨_, rfl⟩

/-- A link with a car and a truck on it meets the hypotheses. -/
example : ∃ l r, (mkLink .ctm mAt : Res (Link ℕ)) = .ok l ∧
    l.run (fun v => v % 2 == 0) (fun _ => true) [.arrive 1, .arrive 2, .clear] = .ok r ∧
    Loadable (fun v => v % 2 == 0) (fun _ => true) r.1 := by
  have key : ((mkLink .ctm mAt : Res (Link ℕ)).bind fun l =>
      (l.run (fun v => v % 2 == 0) (fun _ => true) [.arrive 1, .arrive 2, .clear]).bind fun r =>
        match r.1 with
        | .ctm x => .ok (x.cells.all fun c => decide
            ((c.volCar : ℚ) / x.args.scalar / c.length ≤ c.dia.holdCar ∧
            (c.volTruck : ℚ) / x.args.scalar / c.length ≤ c.dia.holdTruck ∧
            c.dia.capCar * x.args.unit * x.args.scalar < 2147483647 ∧
            c.dia.capTruck * x.args.unit * x.args.scalar < 2147483647))
        | _ => .ub) = .ok true := by decide +kernel
  rw [Res.bind_eq_ok'] at key
  obtain ⟨l, hl, key⟩ := key
  rw [Res.bind_eq_ok'] at key
  obtain ⟨r, hr, key⟩ := key
  refine ⟨l, r, hl, hr, ?_, ?_, by simp⟩
  · intro x hx
    rw [hx] at key
    simpa using key
  · intro x hx
    rw [hx] at key
    simp at key

/-! ## C87: the parameters of a link -/

/-- C87, a new cell transmission link: all its cells have the same two triangular fundamental diagrams,
those of the configured lanes with the jam densities and capacities cut off at 400 vehicles per mile and
3500 vehicles per hour, and capacities that let at least one vehicle pass per interval.  The cells
together are as long as the link (or one interval of free flow, if that is longer); all but the last
take exactly one interval of free flow, the last one at least one and less than two. -/
theorem C87_new_ctm_link (a : Args) (l : Link V) (hl : mkLink .ctm a = .ok l) :
    ∃ x, l = .ctm x ∧
      (∀ c ∈ x.cells, RoadOf a (min a.holdCar (400 / 1600)) (min a.holdTruck (400 / 1600))
        (min a.capCar (3500 / 3600)) (min a.capTruck (3500 / 3600)) c.dia) ∧
      (x.cells.map (·.length)).sum = max a.length (a.ffsCar * a.unit) ∧
      ∃ pre last, x.cells = pre ++ [last] ∧ (∀ c ∈ pre, c.length = a.ffsCar * a.unit) ∧
        a.ffsCar * a.unit ≤ last.length ∧ last.length < 2 * (a.ffsCar * a.unit) := by
  obtain ⟨_, _, hu, hs⟩ := mk_unit_scalar hl
  simp only [mkLink] at hl
  rw [Res.bind_eq_ok'] at hl
  obtain ⟨x, hx, h⟩ := hl
  cases h
  unfold Ctm.mk' at hx
  rw [Res.bind_eq_ok'] at hx
  obtain ⟨_, hb, hx⟩ := hx
  rw [Res.bind_eq_ok'] at hx
  obtain ⟨c, hc, hx⟩ := hx
  obtain ⟨c1, c2, c3⟩ := checkAttrs_keep hc
  obtain ⟨f1, f2, f3, f4, f5⟩ := checkAttrs_ffs hc
  split at hx
  · simp at hx
  split at hx
  · simp at hx
  split at hx
  · simp at hx
  rw [Res.bind_eq_ok'] at hx
  obtain ⟨r, hr, hx⟩ := hx
  cases hx
  have hbase : 0 ≤ a.lanes ∧ 0 ≤ a.length := by
    unfold Lnk.checkBase at hb
    split at hb
    · simp at hb
    split at hb
    · simp at hb
    split at hb
    · simp at hb
    rename_i g1 g2
    exact ⟨by omega, by linarith⟩
  have hroad := (derive_road hr (by rw [c1]; exact hu) (by rw [c2]; exact hs)
    (by rw [f3]; exact hbase.1) f1 f2).of_check hc
  obtain ⟨n1, n2, n3, n4, n5⟩ := derive_cells hr (by rw [c1]; exact hu) (by rw [f4]; exact hbase.2) f1
  rw [f4, f5, c1] at n3
  rw [f5, c1] at n2
  refine ⟨_, rfl, ?_, ?_, _, _, rfl, ?_, n2 ▸ n4, n2 ▸ n5⟩
  · intro y hy
    rcases List.mem_append.1 hy with hy | hy
    · rw [(List.mem_replicate.1 hy).2]
      exact hroad
    · simp at hy; subst hy
      exact hroad
  · rw [← n3]
    simp [Cell.mk', List.sum_replicate]
  · intro y hy
    rw [(List.mem_replicate.1 hy).2]
    exact n2

/-- C87, changing a cell transmission link, in any state it can get into, gives every cell the diagrams
of the new attributes and changes neither the cells' lengths nor the vehicles on them. -/
theorem C87_modified_ctm_link (truck hasNext : V → Bool) (a : Args) (l : Link V)
    (hl : mkLink .ctm a = .ok l) (ops : List (Op V)) (r : Link V × List V)
    (hr : l.run truck hasNext ops = .ok r) (b : Args) (hb : 0 ≤ b.lanes) (l' : Link V)
    (hm : r.1.modify b = .ok l') :
    ∃ x y, r.1 = .ctm x ∧ l' = .ctm y ∧
      (∀ c ∈ y.cells, RoadOf { b with unit := a.unit, scalar := a.scalar } (min b.holdCar (400 / 1600))
        (min b.holdTruck (400 / 1600)) (min b.capCar (3500 / 3600)) (min b.capTruck (3500 / 3600)) c.dia) ∧
      y.cells.map (fun c => (c.length, c.queueCar, c.queueTruck)) =
        x.cells.map fun c => (c.length, c.queueCar, c.queueTruck) := by
  obtain ⟨e1, e2, hu, hs⟩ := mk_unit_scalar hl
  obtain ⟨s1, s2, _⟩ := run_wait ops l r hr
  have hk := run_kept ops l r (mk_kept hl) hr
  cases h : r.1 with
  | lq x => rw [h] at hk; exact hk.elim
  | pq x => rw [h] at hk; exact hk.elim
  | ctm x =>
    rw [h] at s1 s2 hm
    have u1 : x.args.unit = a.unit := s1.trans e1
    have u2 : x.args.scalar = a.scalar := s2.trans e2
    simp only [Link.modify] at hm
    rw [Res.bind_eq_ok'] at hm
    obtain ⟨y, hy, hm⟩ := hm
    cases hm
    unfold Ctm.modify at hy
    rw [Res.bind_eq_ok'] at hy
    obtain ⟨c, hc, hy⟩ := hy
    obtain ⟨c1, c2, c3⟩ := checkAttrs_keep hc
    obtain ⟨f1, f2, f3, f4, f5⟩ := checkAttrs_ffs hc
    rw [Res.bind_eq_ok'] at hy
    obtain ⟨d, hd, hy⟩ := hy
    have hroad := (derive_road hd (by rw [c1]; exact u1 ▸ hu) (by rw [c2]; exact u2 ▸ hs)
      (by rw [f3]; exact hb) f1 f2).of_check hc
    simp only [u1, u2] at hroad
    have key : y.cells = x.cells.map fun c => { c with dia := d.dia } := by
      split at hy
      · simp at hy
      split at hy
      · split at hy
        · split at hy
          · cases hy; rfl
          · simp at hy
        · split at hy
          · cases hy; rfl
          · simp at hy
      · simp at hy
    refine ⟨x, y, rfl, rfl, ?_, ?_⟩
    · intro z hz
      rw [key] at hz
      obtain ⟨w, _, rfl⟩ := List.mem_map.1 hz
      obtain ⟨h1, h2, h3, h4, h5, h6, h7, h8, h9⟩ := hroad
      exact ⟨h1, h2, h3, h4, h5, h6, h7, h8, h9⟩
    · rw [key, List.map_map]
      rfl

/-- C87, a new link queue, or one changed in any state it can get into, has the two triangular diagrams
of its attributes (here nothing is cut off). -/
theorem C87_link_queue (truck hasNext : V → Bool) (a : Args) (l : Link V)
    (hl : mkLink .lq a = .ok l) (ops : List (Op V)) (r : Link V × List V)
    (hr : l.run truck hasNext ops = .ok r) :
    (∃ x, l = .lq x ∧ RoadOf a a.holdCar a.holdTruck a.capCar a.capTruck x.dia) ∧
    ∀ b l', r.1.modify b = .ok l' → ∃ y, l' = .lq y ∧
      RoadOf { b with unit := a.unit, scalar := a.scalar } b.holdCar b.holdTruck b.capCar b.capTruck
        y.dia := by
  obtain ⟨e1, e2, hu, hs⟩ := mk_unit_scalar hl
  obtain ⟨s1, s2, _⟩ := run_wait ops l r hr
  have hk := run_kept ops l r (mk_kept hl) hr
  constructor
  · simp only [mkLink] at hl
    rw [Res.bind_eq_ok'] at hl
    obtain ⟨x, hx, h⟩ := hl
    cases h
    unfold Lq.mk' at hx
    rw [Res.bind_eq_ok'] at hx
    obtain ⟨_, _, hx⟩ := hx
    rw [Res.bind_eq_ok'] at hx
    obtain ⟨d, hd, hx⟩ := hx
    cases hx
    exact ⟨_, rfl, lqDiagram_road hd⟩
  · intro b l' hm
    cases h : r.1 with
    | ctm x => rw [h] at hk; exact hk.elim
    | pq x => rw [h] at hk; exact hk.elim
    | lq x =>
      rw [h] at s1 s2 hm
      have u1 : x.args.unit = a.unit := s1.trans e1
      have u2 : x.args.scalar = a.scalar := s2.trans e2
      simp only [Link.modify] at hm
      rw [Res.bind_eq_ok'] at hm
      obtain ⟨y, hy, hm⟩ := hm
      cases hm
      unfold Lq.modify at hy
      simp only at hy
      rw [Res.bind_eq_ok'] at hy
      obtain ⟨d, hd, hy⟩ := hy
      cases hy
      have hroad := lqDiagram_road hd
      simp only [u1, u2] at hroad
      obtain ⟨h1, h2, h3, h4, h5, h6, h7, h8, h9⟩ := hroad
      exact ⟨_, rfl, h1, h2, h3, h4, h5, h6, h7, h8, h9⟩

/-- A narrow link: the capacity for trucks is raised from 1/20 to 1/4 vehicles per second. -/
example : ((mkLink .ctm ⟨2, 30, 1/10, 1/10, 1/2, 1/40, 10, 5, 1, 2, 4⟩ : Res (Link ℕ)).bind fun l =>
    match l with
    | .ctm x => .ok (x.cells.map fun c => (c.length, c.dia.capCar, c.dia.capTruck))
    | _ => .ub) = .ok [(10, 1, 1/4), (10, 1, 1/4), (10, 1, 1/4)] := by decide +kernel

/-- Changing a link with vehicles on it. -/
example : ((mkLink .ctm mAt : Res (Link ℕ)).bind fun l =>
    (l.run (fun v => v % 2 == 0) (fun _ => true) [.arrive 1, .arrive 2, .clear]).bind fun r =>
      (r.1.modify { mAt with capCar := 1/4 }).bind fun l' =>
        match l' with
        | .ctm x => .ok (x.cells.map fun c => (c.queueCar, c.queueTruck, c.dia.capCar))
        | _ => .ub) = .ok [([1], [2], 1/4), ([], [], 1/4), ([], [], 1/4)] := by decide +kernel

end Verif
