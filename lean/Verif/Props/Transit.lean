import Verif.Lemmas.TransitVisit
import Verif.Lemmas.TransitLots
import Verif.Lemmas.TransitCount
import Verif.Props.TransitExample
import Verif.Props.History

/-!
# C105 to C112: passengers of multimodal networks

`loadMany c orcs 0 0 (State.init c) = .ok r` says that the first intervals of a loading (one for each element of
`orcs`) end with the state `r.1`; `Within` adds the part of an interval up to a call of a bus at a stop.
-/

namespace Verif
open Tr Ults Curve

private theorem lax {c : Cfg} (hc : c.Wf) (R : Routes) : Hyp c R False := ⟨hc, by simp⟩

/-- C105, the statement: every passenger made so far is in exactly one container, no container holds a passenger
twice or a passenger that was not made, and the link a passenger is on is the one its container belongs to. -/
def OnePlaceEach (c : Cfg) (s : State) : Prop :=
  (∀ p, 1 ≤ p ∧ p ≤ s.num ↔ ∃ a, p ∈ s.loc a) ∧
  (∀ p a b, p ∈ s.loc a → p ∈ s.loc b → a = b) ∧
  (∀ a, (s.loc a).Nodup) ∧
  (∀ p l, p ∈ s.loc (.incoming l) ∨ p ∈ s.loc (.walking l) ∨ p ∈ s.loc (.finished l) → (s.pax p).cur = some l) ∧
  (∀ p b, p ∈ s.loc (.bus b) → ∃ i, (s.pax p).cur = some i ∧ (c.link i).kind = .bus (c.busRoute b)) ∧
  (∀ p o, p ∈ s.loc (.origin o) ∨ p ∈ s.loc (.lot o) ∨ p ∈ s.loc (.dest o) ∨ p ∈ s.loc .gone →
    (s.pax p).cur = none)

private theorem onePlace {c : Cfg} {R : Routes} {st : Prop} {s : State} {ts : ℕ} (i : Inv c R st s)
    (m : More c ts s) : OnePlaceEach c s := by
  refine ⟨fun p => (i.placed.mem p).symm, fun p a b h1 h2 => i.placed.uniq a b p h1 h2, i.placed.nodup, ?_,
    fun p b hp => m.buses.ride b p hp, ?_⟩
  · rintro p l (h | h | h) <;> exact i.located _ p h
  · rintro p o (h | h | h | h) <;> exact i.located _ p h

/-- C105: after every number of intervals every passenger is in exactly one place. -/
theorem C105_every_passenger_in_one_place (c : Cfg) (hc : c.Wf) (R : Routes) (orcs : List Orc)
    (hok : ∀ o ∈ orcs, o.Ok R) (r : State × ℕ × ℕ) (h : loadMany c orcs 0 0 (State.init c) = .ok r) :
    OnePlaceEach c r.1 :=
  let f := load_full (lax hc R) hok h
  onePlace f.inv f.more

/-- C105: and also at every moment of an interval at which a bus calls at a stop. -/
theorem C105_every_passenger_in_one_place_at_stops (c : Cfg) (hc : c.Wf) (R : Routes) (orcs : List Orc) (o : Orc)
    (evs : List BusEv) (x : State) (hok : ∀ o ∈ orcs, o.Ok R) (ho : o.Ok R) (he : ∀ e ∈ evs, e ∈ o.buses)
    (h : Within c orcs o evs x) : OnePlaceEach c x := by
  obtain ⟨i, m⟩ := within_more (lax hc R) hok ho he h
  exact onePlace i m

set_option synthInstance.maxSize 1024 in
example : Ex.routes.links 0 = [0, 1, 2, 3, 4] ∧ (Ex.cfg true).Wf ∧ (∀ o ∈ Ex.days.take 9, o.Ok Ex.routes) ∧
    ((loadMany (Ex.cfg true) (Ex.days.take 9) 0 0 (State.init (Ex.cfg true))).bind fun r =>
      .ok (r.1.num, r.1.loc (.bus 0), r.1.loc (.finished 3), r.1.loc (.finished 4), (r.1.pax 3).cur, (r.1.pax 1).cur))
      = .ok (3, [3], [2], [1], some 2, some 4) :=
  ⟨rfl, Ex.wf true, fun o ho => Ex.days_ok o (List.mem_of_mem_take ho), by decide +kernel⟩

/-- C106: the movements of a passenger form a trip: the first one starts at an origin or a parking lot, each of
the others on the link where the one before it ended, and the last one ends where the passenger is now. -/
theorem C106_trips_are_continuous (c : Cfg) (hc : c.Wf) (R : Routes) (orcs : List Orc)
    (hok : ∀ o ∈ orcs, o.Ok R) (r : State × ℕ × ℕ) (h : loadMany c orcs 0 0 (State.init c) = .ok r) (p : ℕ) :
    Continuous none (r.1.pax p).cur (moves r.1.log p) :=
  (load_full (lax hc R) hok h).more.trips p

/-- C106: a passenger on a fixed route that has set out has a path of its origin and destination (a passenger from
a parking lot the one its car came with) and has entered the links of that path, in order, from the first one on
and no others; once it has arrived it has entered all of them.  (No path has a link twice in a row.) -/
theorem C106_passengers_follow_their_paths (c : Cfg) (hc : c.Wf) (R : Routes)
    (hR : ∀ q, (R.links q).IsChain (· ≠ ·)) (orcs : List Orc) (hok : ∀ o ∈ orcs, o.Ok R) (r : State × ℕ × ℕ)
    (h : loadMany c orcs 0 0 (State.init c) = .ok r) (p : ℕ) (h1 : 1 ≤ p) (h2 : p ≤ r.1.num)
    (hf : (r.1.pax p).adaptive = false) :
    (trav r.1.log p = [] ∨ ∃ q, (r.1.pax p).path = some q ∧ Chosen c R (r.1.pax p) q ∧ trav r.1.log p <+: R.links q) ∧
    (p ∈ r.1.loc .gone → ∃ q, (r.1.pax p).path = some q ∧ Chosen c R (r.1.pax p) q ∧ trav r.1.log p = R.links q) := by
  have f := load_full (strict := True) ⟨hc, fun _ => hR⟩ hok h
  obtain ⟨a, ha⟩ := (f.inv.placed.mem p).2 ⟨h1, h2⟩
  have key := f.inv.follow trivial a p ha hf
  refine ⟨?_, fun hg => ?_⟩
  · have pre : ∀ q rest, HasPath c R r.1 p q → trav r.1.log p ++ rest = R.links q →
        ∃ q, (r.1.pax p).path = some q ∧ Chosen c R (r.1.pax p) q ∧ trav r.1.log p <+: R.links q :=
      fun q rest hq e => ⟨q, hq.1, hq.2, rest, e⟩
    cases a with
    | origin o => exact .inl key.1
    | lot o => exact .inl key.1
    | incoming l => obtain ⟨q, rest, hq, _, _, e, _⟩ := key; exact .inr (pre q _ hq e)
    | walking l => obtain ⟨q, rest, hq, _, _, e, _⟩ := key; exact .inr (pre q _ hq e)
    | finished l =>
      obtain ⟨q, rest, hq, _, _, h⟩ := key
      rcases h with ⟨_, e⟩ | ⟨n, _, _, e, _⟩ | ⟨_, _, e⟩
      · exact .inr (pre q _ hq e)
      · exact .inr (pre q _ hq e)
      · exact .inr (pre q [] hq (by simpa using e))
    | bus b =>
      obtain ⟨q, rest, i, hq, _, _, _, h⟩ := key
      rcases h with ⟨_, e⟩ | ⟨n, _, _, e⟩
      · exact .inr (pre q _ hq e)
      · exact .inr (pre q _ hq e)
    | dest d => obtain ⟨q, hq, e⟩ := key; exact .inr (pre q [] hq (by simpa using e))
    | gone => obtain ⟨q, hq, e⟩ := key; exact .inr (pre q [] hq (by simpa using e))
  · obtain ⟨q, hq, e⟩ := f.inv.follow trivial .gone p hg hf
    exact ⟨q, hq.1, hq.2, e⟩

/-- C106: a passenger that has arrived has arrived at its own destination, over a link that leads to it, in the
interval recorded as the end of its trip; every other passenger has not arrived anywhere. -/
theorem C106_passengers_arrive_at_their_destinations (c : Cfg) (hc : c.Wf) (R : Routes) (orcs : List Orc)
    (hok : ∀ o ∈ orcs, o.Ok R) (r : State × ℕ × ℕ) (h : loadMany c orcs 0 0 (State.init c) = .ok r) (p : ℕ) :
    (p ∈ r.1.loc .gone → ∃ t d l, d ∈ c.destIds ∧ l ∈ (c.dest d).walkIn ∧
      (c.dest (r.1.pax p).dest).node = (c.dest d).node ∧
      (moves r.1.log p).getLast? = some ⟨t, p, some l, none⟩ ∧ (r.1.pax p).finish = t) ∧
    (p ∉ r.1.loc .gone → (r.1.pax p).finish = -1 ∧ ∀ e ∈ moves r.1.log p, e.dst ≠ none) := by
  have T := load_tally (lax hc R) hok h
  refine ⟨fun hg => ?_, fun hg => ⟨T.full.more.factory.finish p hg, fun e he hd => hg ?_⟩⟩
  · obtain ⟨t, d, l, h1, h2, h3, h4, h5⟩ := T.full.arrived.gone p hg
    exact ⟨t, d, l, h1, h2, h3, h4, h5.symm⟩
  · obtain ⟨he, hv⟩ := List.mem_filter.1 he
    have := T.ended e he hd
    rwa [of_decide_eq_true hv] at this

set_option synthInstance.maxSize 1024 in
example : (Ex.cfg true).Wf ∧ (∀ o ∈ Ex.days, o.Ok Ex.routes) ∧ (∀ q, (Ex.routes.links q).IsChain (· ≠ ·)) ∧
    ((loadMany (Ex.cfg true) Ex.days 0 0 (State.init (Ex.cfg true))).bind fun r =>
      .ok (r.1.loc .gone, trav r.1.log 1, trav r.1.log 3, (moves r.1.log 2).map fun e => (e.t, e.src, e.dst)))
      = .ok ([1, 2, 3], [0, 1, 2, 3, 4], [5, 1, 2, 3, 4], [(0, none, some 0), (2, some 0, some 1),
        (3, some 1, some 2), (8, some 2, some 3), (9, some 3, some 4), (10, some 4, none)]) :=
  ⟨Ex.wf true, Ex.days_ok, Ex.chain, by decide +kernel⟩

/-- C107: the curves of a link of the transit graph say how many passengers have entered and left it, in flow
units; no more have left than entered, and the others are on the link. -/
theorem C107_curves_count_passengers (c : Cfg) (hc : c.Wf) (hsc : 0 < c.scalar) (R : Routes) (orcs : List Orc)
    (hok : ∀ o ∈ orcs, o.Ok R) (hT : orcs.length < 10000) (r : State × ℕ × ℕ)
    (h : loadMany c orcs 0 0 (State.init c) = .ok r) (l t : ℕ) (ht : t < 10000) :
    getResult (r.1.nIn l) t = .ok ((r.1.log.countP fun e => decide (e.dst = some l ∧ e.t < t) : ℕ) / c.scalar) ∧
    getResult (r.1.nOut l) t = .ok ((r.1.log.countP fun e => decide (e.src = some l ∧ e.t < t) : ℕ) / c.scalar) ∧
    (r.1.log.countP fun e => decide (e.src = some l ∧ e.t < t))
      ≤ (r.1.log.countP fun e => decide (e.dst = some l ∧ e.t < t)) ∧
    (r.1.log.countP fun e => decide (e.dst = some l))
      = (r.1.log.countP fun e => decide (e.src = some l)) + onLink r.1 l := by
  have f := load_full (lax hc R) hok h
  have cu := f.more.curves
  have key : ∀ p : Net.Event → Bool, Tt.History orcs.length ((r.1.log.filter p).map fun e => (e.t + 1, 1)) := by
    intro p
    refine ⟨?_, ?_⟩
    · intro x hx
      obtain ⟨e, he, rfl⟩ := List.mem_map.1 hx
      have := f.past e (List.mem_of_mem_filter he)
      exact ⟨by simp only; omega, by simp only; omega⟩
    · rw [List.pairwise_map]
      refine (cu.order.filter p).imp ?_
      intro a b h
      simp only; omega
  obtain ⟨c1, a1, b1⟩ := Tt.run_holds (h := Net.entries r.1.log l) hsc hT (key _)
  obtain ⟨c2, a2, b2⟩ := Tt.run_holds (h := Net.exits r.1.log l) hsc hT (key _)
  rw [cu.nIn l] at a1
  rw [cu.nOut l] at a2
  cases a1; cases a2
  refine ⟨?_, ?_, ?_, ?_⟩
  · rw [← upTo_entries]; exact b1.get t ht
  · rw [← upTo_exits]; exact b2.get t ht
  · rw [← upTo_entries, ← upTo_exits]; exact cu.le l t
  · have := cu.count l
    simp only [Net.entries, Net.exits, List.length_map] at this
    rw [List.countP_eq_length_filter, List.countP_eq_length_filter]
    exact this

example : (Ex.cfg true).Wf ∧ (∀ o ∈ Ex.days.take 9, o.Ok Ex.routes) ∧
    ((loadMany (Ex.cfg true) (Ex.days.take 9) 0 0 (State.init (Ex.cfg true))).bind fun r =>
      (getResult (r.1.nIn 2) 4).bind fun a => (getResult (r.1.nOut 2) 9).bind fun b => .ok (a, b, onLink r.1 2))
      = .ok (2, 2, 1) :=
  ⟨Ex.wf true, fun o ho => Ex.days_ok o (List.mem_of_mem_take ho), by decide +kernel⟩

/-! ### Buses at stops -/

/-- C108: a bus never carries more passengers than its capacity, and every passenger on it is on a link of its
route.  (A bus of negative capacity is empty.) -/
theorem C108_buses_within_capacity (c : Cfg) (hc : c.Wf) (R : Routes) (orcs : List Orc) (o : Orc)
    (evs : List BusEv) (x : State) (hok : ∀ o ∈ orcs, o.Ok R) (ho : o.Ok R) (he : ∀ e ∈ evs, e ∈ o.buses)
    (h : Within c orcs o evs x) (b : ℕ) :
    ((x.loc (.bus b)).length : ℤ) ≤ max 0 (trunc (c.busCap * c.scalar)) ∧
    ∀ p ∈ x.loc (.bus b), ∃ i, (x.pax p).cur = some i ∧ (c.link i).kind = .bus (c.busRoute b) := by
  obtain ⟨_, m⟩ := within_more (lax hc R) hok ho he h
  exact ⟨m.buses.cap b, m.buses.ride b⟩

/-- A bus at a stop stays or leaves; what this means for the passengers. -/
private theorem visit_context {c : Cfg} (hc : c.Wf) (hk : 1 ≤ trunc c.scalar) (hl : 0 ≤ c.lost) {R : Routes}
    {orcs : List Orc} {o : Orc} {evs rest : List BusEv} {v b : ℕ} {sh : List ℕ → List ℕ} {x x' : State}
    (hok : ∀ o ∈ orcs, o.Ok R) (ho : o.Ok R) (he : o.buses = evs ++ .visit v b sh :: rest)
    (hx : Within c orcs o evs x) (h : busEv c o orcs.length x (.visit v b sh) = .ok x') :
    Inv c R False x ∧ Terms c orcs.length x ∧ b ∈ x.busQ v ∧ Visit c orcs.length v b x x' := by
  obtain ⟨i, t⟩ := within_terms (lax hc R) hk hl hok ho (fun e hm => by rw [he]; simp [hm]) hx
  have := visitBus_cases (lax hc R) (ho.buses v b sh (by rw [he]; simp)) hl i (t.nonneg b) h
  exact ⟨i, t, this.1, this.2⟩

private theorem Tr.Gone.not_mem {c : Cfg} {R : Routes} {st : Prop} {ts v b : ℕ} {s s' : State} (i : Inv c R st s)
    (g : Tr.Gone c ts v b s s') : b ∉ s'.busQ v := by
  rw [g.busQ, upd_same]
  exact fun h => ((i.stops.nodup v).mem_erase_iff.1 h).1 rfl

/-- C108: what happens to passengers when a bus calls at a stop.  If it leaves, nobody gets on or off, and
everyone on board is to ride on along the bus link out of the stop: nobody is carried past the stop where they are
to get off.  If it stays, but not longer than the time to open its doors, nobody gets on or off.  If it stays
longer, then those who are to get off here do so, as many as the rate of alighting allows, and then those who
wait on the boarding link get on, first in line first, as many as there are places and as the rate of boarding
allows.  Otherwise the bus waits for another one and nothing happens. -/
theorem C108_who_gets_on_and_off (c : Cfg) (hc : c.Wf) (hk : 1 ≤ trunc c.scalar) (hl : 0 ≤ c.lost) (R : Routes)
    (orcs : List Orc) (o : Orc) (evs rest : List BusEv) (v b : ℕ) (sh : List ℕ → List ℕ) (x x' : State)
    (hok : ∀ o ∈ orcs, o.Ok R) (ho : o.Ok R) (he : o.buses = evs ++ .visit v b sh :: rest)
    (hx : Within c orcs o evs x) (h : busEv c o orcs.length x (.visit v b sh) = .ok x') :
    b ∈ x.busQ v ∧
    (b ∉ x'.busQ v → x'.loc = x.loc ∧ (∀ p ∈ x.loc (.bus b), (x.pax p).next = (c.vstop v).busOut) ∧
      x'.log = x.log ++ ((x.loc (.bus b)).filter fun p => decide ((x.pax p).cur ≠ (c.vstop v).busOut)).map
        fun p => ⟨orcs.length, p, (c.vstop v).busIn, (c.vstop v).busOut⟩) ∧
    (b ∈ x'.busQ v → x' = x ∨ x'.stopped b = x.stopped b + 1 ∧
      (x.stopped b + 1 ≤ c.lost → x'.loc = x.loc ∧ x'.log = x.log) ∧
      (c.lost < x.stopped b + 1 → ∃ off on : List ℕ,
        off = ((x.loc (.bus b)).filter (wantsOff c v x)).take (c.maxAlight * trunc c.scalar).toNat ∧
        on = (waiting c v x).take (min (trunc (c.busCap * c.scalar) - ((x.loc (.bus b)).length - off.length : ℤ))
          (trunc (c.maxBoard * c.scalar))).toNat ∧
        x'.log = x.log ++ off.map (fun p => ⟨orcs.length, p, (c.vstop v).busIn, (c.vstop v).alighting⟩) ++
          on.map (fun p => ⟨orcs.length, p, (c.vstop v).boarding, (c.vstop v).busOut⟩) ∧
        (x'.loc (.bus b)).Perm ((x.loc (.bus b)).filter (fun p => decide (p ∉ off)) ++ on))) := by
  obtain ⟨i, t, hb, hv⟩ := visit_context hc hk hl hok ho he hx h
  refine ⟨hb, fun hn => ?_, fun hm => ?_⟩
  · cases hv with
    | pass _ _ _ g => exact ⟨g.loc, g.next, g.log⟩
    | queue _ _ e => rw [e] at hn; exact absurd hb hn
    | held _ _ _ e => rw [e] at hn; exact absurd hb hn
    | done _ _ _ _ g => exact ⟨g.loc, g.next, g.log⟩
  · cases hv with
    | pass _ _ _ g => exact absurd hm (g.not_mem i)
    | queue _ _ e => exact .inl e
    | held _ _ hs _ _ _ sv =>
      exact .inr ⟨by rw [hs, upd_same], fun hlo => ⟨(sv.shut hlo).2, (sv.shut hlo).1⟩, sv.opened⟩
    | done _ _ _ _ g => exact absurd hm (g.not_mem i)

/-- C109: of the buses that come to a stop every `k`-th one stops there, where `k` is the integer part of the flow
scalar.  When a bus calls at a stop after `n` buses have left it (which the curves of the stop tell), then it
leaves at once with everybody on board unless `k` divides `n + 1`; if `k` divides `n + 1` it waits while another
bus is served, and is served otherwise. -/
theorem C109_every_kth_bus_stops (c : Cfg) (hc : c.Wf) (hk : 1 ≤ trunc c.scalar) (hl : 0 ≤ c.lost) (R : Routes)
    (orcs : List Orc) (o : Orc) (evs rest : List BusEv) (v b : ℕ) (sh : List ℕ → List ℕ) (x x' : State)
    (hT : orcs.length + 1 < 10000) (hsc : 0 < c.scalar)
    (hok : ∀ o ∈ orcs, o.Ok R) (ho : o.Ok R) (he : o.buses = evs ++ .visit v b sh :: rest)
    (hx : Within c orcs o evs x) (h : busEv c o orcs.length x (.visit v b sh) = .ok x') :
    ∃ n : ℕ, getResult (x.bOut v) (orcs.length + 1 : ℕ) = .ok (n / c.scalar) ∧
      getResult (x.bIn v) (orcs.length + 1 : ℕ) = .ok ((n + (x.busQ v).length : ℕ) / c.scalar) ∧
      (¬ trunc c.scalar ∣ (n : ℤ) + 1 → x'.busQ v = (x.busQ v).erase b ∧ x'.loc = x.loc ∧
        getResult (x'.bOut v) (orcs.length + 1 : ℕ) = .ok ((n + 1 : ℕ) / c.scalar)) ∧
      (trunc c.scalar ∣ (n : ℤ) + 1 → (∃ b' ∈ x.busQ v, b' ≠ b ∧ 0 < x.stopped b') → x' = x) ∧
      (trunc c.scalar ∣ (n : ℤ) + 1 → (∀ b' ∈ x.busQ v, b' ≠ b → ¬ 0 < x.stopped b') →
        (x'.busQ v = x.busQ v ∧ x'.stopped b = x.stopped b + 1) ∨
        (x'.busQ v = (x.busQ v).erase b ∧
          getResult (x'.bOut v) (orcs.length + 1 : ℕ) = .ok ((n + 1 : ℕ) / c.scalar))) := by
  obtain ⟨i, t, hb, hv⟩ := visit_context hc hk hl hok ho he hx h
  obtain ⟨hi, hn, a1, a2, a3, a4, a5, a6, a7⟩ := t.stop v
  have gone : Tr.Gone c orcs.length v b x x' → x'.busQ v = (x.busQ v).erase b ∧
      getResult (x'.bOut v) (orcs.length + 1 : ℕ) = .ok ((hn.length + 1 : ℕ) / c.scalar) := fun g => by
    refine ⟨by rw [g.busQ, upd_same], ?_⟩
    obtain ⟨k, k1, k2⟩ := g.bOut
    rw [k2, upd_same, (a2.add k1).get hsc hT, List.length_append, List.length_singleton]
  have kd : ∀ m : ℤ, (hn.length : ℤ) % trunc c.scalar = m → 0 ≤ m → (trunc c.scalar ∣ (hn.length : ℤ) + 1 → m = trunc c.scalar - 1) ∧
      (m = trunc c.scalar - 1 → trunc c.scalar ∣ (hn.length : ℤ) + 1) := fun m hm h0 => by
    have hlt : m < trunc c.scalar := hm ▸ Int.emod_lt_of_pos _ (by omega)
    have hq := Int.emod_add_mul_ediv (hn.length : ℤ) (trunc c.scalar)
    rw [hm] at hq
    refine ⟨fun hd => ?_, fun hd => ?_⟩
    · have h2 : trunc c.scalar ∣ m + 1 := by
        have := Int.dvd_sub hd (Dvd.intro _ rfl : trunc c.scalar ∣ trunc c.scalar * (↑hn.length / trunc c.scalar))
        rwa [show (hn.length : ℤ) + 1 - trunc c.scalar * (↑hn.length / trunc c.scalar) = m + 1 by omega] at this
      have := Int.le_of_dvd (by omega) h2
      omega
    · rw [show (hn.length : ℤ) + 1 = trunc c.scalar * (↑hn.length / trunc c.scalar) + trunc c.scalar by omega]
      exact Int.dvd_add (Dvd.intro _ rfl) (dvd_refl _)
  refine ⟨hn.length, a2.get hsc hT, by rw [a1.get hsc hT, a3], ?_⟩
  cases hv with
  | pass counter fresh left g =>
    have := (kd _ (a6 (by omega)).symm a4).1
    refine ⟨fun _ => ⟨(gone g).1, g.loc, (gone g).2⟩, fun hd => ?_, fun hd => ?_⟩
    · have := this hd; omega
    · have := this hd; omega
  | queue counter fresh e =>
    obtain ⟨m, b', hb', hs⟩ := a7 counter
    refine ⟨fun hd => absurd ((kd _ m (by omega)).2 rfl) hd, fun _ _ => e, fun _ hno => ?_⟩
    exact absurd hs (hno b' hb' (by rintro rfl; omega))
  | held counter left stopped busQ bIn bOut sv =>
    have hd : trunc c.scalar ∣ (hn.length : ℤ) + 1 := by
      rcases counter with ⟨_, h2⟩ | ⟨_, h2⟩
      · exact (kd _ (a6 (by omega)).symm a4).2 h2
      · exact (kd _ (a7 h2).1 (by omega)).2 rfl
    refine ⟨fun hd' => absurd hd hd', fun _ hno => ?_, fun _ _ => .inl ⟨by rw [busQ], by rw [stopped, upd_same]⟩⟩
    obtain ⟨b', hb', hne, hs⟩ := hno
    exfalso
    have dw := t.dwell v b' hb' hs
    rcases counter with ⟨_, h2⟩ | ⟨h1, h2⟩
    · have := dw.1; omega
    · exact hne (dw.2 b hb h1).symm
  | done counter left work dwell g =>
    have hd : trunc c.scalar ∣ (hn.length : ℤ) + 1 := by
      rcases counter with ⟨_, h2⟩ | ⟨_, h2⟩
      · exact (kd _ (a6 (by omega)).symm a4).2 h2
      · exact (kd _ (a7 h2).1 (by omega)).2 rfl
    refine ⟨fun hd' => absurd hd hd', fun _ hno => ?_, fun _ _ => .inr (gone g)⟩
    obtain ⟨b', hb', hne, hs⟩ := hno
    exfalso
    have dw := t.dwell v b' hb' hs
    rcases counter with ⟨_, h2⟩ | ⟨h1, h2⟩
    · have := dw.1; omega
    · exact hne (dw.2 b hb h1).symm

/-- C110: a bus that stops does not leave too early.  If a bus leaves a stop although it is its turn to be served
(`k` divides `n + 1`, see C109), then nobody on board is to get off there, nobody waits for a bus of its route
while it has a place, and it has been there for the minimal dwell time, unless it was full when it came. -/
theorem C110_served_bus_leaves_only_when_done (c : Cfg) (hc : c.Wf) (hk : 1 ≤ trunc c.scalar) (hl : 0 ≤ c.lost)
    (R : Routes) (orcs : List Orc) (o : Orc) (evs rest : List BusEv) (v b : ℕ) (sh : List ℕ → List ℕ) (x x' : State)
    (hT : orcs.length + 1 < 10000) (hsc : 0 < c.scalar)
    (hok : ∀ o ∈ orcs, o.Ok R) (ho : o.Ok R) (he : o.buses = evs ++ .visit v b sh :: rest)
    (hx : Within c orcs o evs x) (h : busEv c o orcs.length x (.visit v b sh) = .ok x')
    (n : ℕ) (hn : getResult (x.bOut v) (orcs.length + 1 : ℕ) = .ok (n / c.scalar))
    (hd : trunc c.scalar ∣ (n : ℤ) + 1) (hleft : b ∉ x'.busQ v) :
    (∀ p ∈ x.loc (.bus b), wantsOff c v x p = false) ∧
    (((x.loc (.bus b)).length : ℤ) < c.busCap * trunc c.scalar →
      ∀ p ∈ waiting c v x, ∀ l, (x.pax p).next = some l → (c.link l).kind ≠ .bus (c.busRoute b)) ∧
    (c.minDwell ≤ x.stopped b ∨
      (x.stopped b = 0 ∧ ((x.loc (.bus b)).length : ℤ) = c.busCap * trunc c.scalar)) := by
  obtain ⟨i, t, hb, hv⟩ := visit_context hc hk hl hok ho he hx h
  obtain ⟨hi, hl', a1, a2, a3, a4, a5, a6, a7⟩ := t.stop v
  have hlen : hl'.length = n := by
    rw [a2.get hsc hT, Res.ok.injEq, div_left_inj' hsc.ne'] at hn
    exact_mod_cast hn
  cases hv with
  | pass counter fresh left g =>
    exfalso
    have h6 := a6 (by omega)
    rw [hlen] at h6
    have hq := Int.emod_add_mul_ediv (n : ℤ) (trunc c.scalar)
    rw [← h6] at hq
    have h2 : trunc c.scalar ∣ x.counter v + 1 := by
      have := Int.dvd_sub hd (Dvd.intro _ rfl : trunc c.scalar ∣ trunc c.scalar * ((n : ℤ) / trunc c.scalar))
      rwa [show (n : ℤ) + 1 - trunc c.scalar * (↑n / trunc c.scalar) = x.counter v + 1 by omega] at this
    have := Int.le_of_dvd (by omega) h2
    omega
  | queue _ _ e => rw [e] at hleft; exact absurd hb hleft
  | held _ _ _ e => rw [e] at hleft; exact absurd hb hleft
  | done counter left work dwell g =>
    have w1 : ∀ p ∈ x.loc (.bus b), wantsOff c v x p = false := fun p hp => by
      by_contra hw
      exact work (.inl ⟨p, hp, by simpa using hw⟩)
    refine ⟨w1, fun hroom p hp l hnext hkind => work (.inr ⟨?_, p, hp, ?_⟩), dwell⟩
    · refine lt_of_le_of_lt ?_ hroom
      exact_mod_cast List.countP_le_length
    · simp [wantsRoute, hnext, hkind]

set_option synthInstance.maxSize 1024 in
/-- The example: the state in interval 5 before the bus calls at the first stop. -/
example : (Ex.cfg true).Wf ∧ 1 ≤ trunc (Ex.cfg true).scalar ∧ 0 ≤ (Ex.cfg true).lost ∧
    (∀ o ∈ Ex.days, o.Ok Ex.routes) ∧
    (Ex.days[5]?.map fun o => o.buses.length) = some 1 ∧
    (((loadMany (Ex.cfg true) (Ex.days.take 5) 0 0 (State.init (Ex.cfg true))).bind fun r =>
      (beforeBuses (Ex.cfg true) (Ex.orc [.visit 0 0 id] []) 5 r.2.2 r.1).bind fun x =>
      (busEv (Ex.cfg true) (Ex.orc [.visit 0 0 id] []) 5 x (.visit 0 0 id)).bind fun x' =>
        (getResult (x.bOut 0) 6).bind fun a =>
        .ok (x.busQ 0, x.loc (.bus 0), x.stopped 0, a, x'.busQ 0, x'.loc (.bus 0))))
      = .ok ([0], [1, 2, 3], 2, 0, [], [1, 2, 3]) :=
  ⟨Ex.wf true, by decide +kernel, by decide +kernel, Ex.days_ok, by decide +kernel, by decide +kernel⟩

/-! ### Parking lots and counters -/

/-- C111: a parking lot holds the cars that have come to it, whatever its capacity and the flow scalar; asked for
the time it takes to find a place, it answers with the average time for the start, with the value of the formula
for the cars that had come before interval `t` for times up to now, and with the last of these values for later
times. -/
theorem C111_parking_lots (c : Cfg) (hc : c.Wf) (hlots : c.lots.Nodup) (R : Routes) (orcs : List Orc)
    (hok : ∀ o ∈ orcs, o.Ok R) (r : State × ℕ × ℕ) (h : loadMany c orcs 0 0 (State.init c) = .ok r)
    (k : ℕ) (hk : k ∈ c.lots) :
    r.1.occupancy k = carsAt orcs k ∧
    cruiseTime r.1 k 0 = .ok (c.lot k).avg ∧
    (∀ t : ℕ, 1 ≤ t → t ≤ orcs.length →
      cruiseTime r.1 k t = .ok ((c.lot k).search (carsAt (orcs.take t) k))) ∧
    (∀ t : ℕ, 1 ≤ orcs.length → orcs.length < t →
      cruiseTime r.1 k t = .ok ((c.lot k).search (carsAt orcs k))) := by
  have L := load_lots (lax hc R) hlots hok h
  have hcr := L.cruise k hk
  have hkeys : (r.1.cruise k).keys.Nodup := by
    rw [hcr]
    simp only [Store.keys, List.map_cons, List.map_map, List.nodup_cons, List.mem_map, List.mem_range]
    refine ⟨by rintro ⟨i, _, e⟩; simp only [Function.comp] at e; omega, List.nodup_range.map fun a b e => ?_⟩
    simp only [Function.comp] at e; omega
  have hget : ∀ t : ℕ, 1 ≤ t → t ≤ orcs.length →
      (r.1.cruise k).get t = some ((c.lot k).search (carsAt (orcs.take t) k)) := fun t h1 h2 => by
    refine Store.get_of_mem hkeys ?_
    rw [hcr]
    refine List.mem_cons_of_mem _ (List.mem_map.2 ⟨t - 1, List.mem_range.2 (by omega), ?_⟩)
    rw [show t - 1 + 1 = t by omega]
    simp only [Prod.mk.injEq, and_true]
    omega
  have hlen : ((r.1.cruise k).length : ℤ) - 1 = (orcs.length : ℕ) := by
    rw [hcr]; simp
  refine ⟨L.occupancy k hk, ?_, fun t h1 h2 => ?_, fun t h1 h2 => ?_⟩
  · unfold cruiseTime
    rw [Store.get_of_mem hkeys (k := (0 : ℤ)) (x := (c.lot k).avg) (by rw [hcr]; simp)]
  · unfold cruiseTime
    rw [hget t h1 h2]
  · unfold cruiseTime
    have hno : (r.1.cruise k).get t = none := by
      rw [Store.get_eq_none_iff, hcr]
      simp only [Store.keys, List.map_cons, List.map_map, List.mem_cons, List.mem_map, List.mem_range, not_or,
        Function.comp]
      refine ⟨by omega, ?_⟩
      rintro ⟨i, hi, e⟩
      omega
    simp only [hno]
    rw [hlen, if_pos (by omega), hget _ h1 le_rfl, List.take_length]

example : (Ex.cfg true).lots = [0] ∧
    ((loadMany (Ex.cfg true) Ex.days 0 0 (State.init (Ex.cfg true))).bind fun r =>
      (cruiseTime r.1 0 0).bind fun a => (cruiseTime r.1 0 3).bind fun b => (cruiseTime r.1 0 50).bind fun d =>
        .ok (r.1.occupancy 0, a, b, d)) = .ok (1, 1, 10 / 9, 10 / 9) := by
  decide +kernel

/-- C112: the counters of passengers.  The passengers made are those underway and those who have arrived, the total
travel time is that of the passengers who have arrived, the park-and-ride passengers are as many as the
park-and-ride cars that have come to parking lots, and the record of passengers underway has for every interval
the number of those who have set out by the end of it and not arrived by then. -/
theorem C112_counters (c : Cfg) (hc : c.Wf) (hlots : c.lots.Nodup) (R : Routes) (orcs : List Orc)
    (hok : ∀ o ∈ orcs, o.Ok R) (r : State × ℕ × ℕ) (h : loadMany c orcs 0 0 (State.init c) = .ok r) :
    (r.1.num : ℤ) = r.1.enroute + r.1.finished ∧
    r.1.finished = (r.1.loc .gone).length ∧
    r.1.total = ((r.1.loc .gone).map fun p => (((r.1.pax p).finish - (r.1.pax p).start : ℤ) : ℚ)).sum ∧
    r.1.numPnr = pnrCars c orcs ∧
    r.1.numPnr = (((Finset.Icc 1 r.1.num).filter fun p => (r.1.pax p).pnr = true).card : ℤ) ∧
    r.1.numPnr = r.1.enroutePnr + r.1.finishedPnr ∧
    r.1.finishedPnr = ((r.1.loc .gone).countP fun p => (r.1.pax p).pnr : ℕ) ∧
    (∀ p, 1 ≤ p → p ≤ r.1.num → 0 ≤ (r.1.pax p).start ∧ (r.1.pax p).start < orcs.length ∧
      ((r.1.pax p).finish = -1 ∨
        ((r.1.pax p).start ≤ (r.1.pax p).finish ∧ (r.1.pax p).finish < orcs.length))) ∧
    r.1.enrouteNum = (List.range orcs.length).map fun i => (underway r.1 i : ℤ) := by
  have T := load_tally (lax hc R) hok h
  have L := load_lots (lax hc R) hlots hok h
  have F := T.full.more.factory
  refine ⟨by rw [F.enroute, F.finished]; omega, F.finished, F.total, L.numPnr, F.numPnr,
    by rw [F.enroutePnr]; omega, F.finishedPnr, fun p h1 h2 => ?_, T.records.record⟩
  have := T.records.start p h1 h2
  exact ⟨this.1, this.2, T.records.finish p h1 h2⟩

example : ((loadMany (Ex.cfg true) (Ex.days.take 11) 0 0 (State.init (Ex.cfg true))).bind fun r =>
      .ok (r.1.num, r.1.enroute, r.1.finished, r.1.total, r.1.enrouteNum))
      = .ok (3, 1, 2, 19, [3, 3, 3, 3, 3, 3, 3, 3, 3, 2, 1]) := by
  decide +kernel

example : ((loadMany (Ex.cfg false) Ex.quiet 0 0 (State.init (Ex.cfg false))).bind fun r =>
      .ok (r.1.num, r.1.enroute, r.1.finished, r.1.total, r.1.enrouteNum))
      = .ok (2, 0, 2, 12, [2, 2, 2, 2, 2, 2, 0, 0, 0, 0, 0, 0]) := by
  decide +kernel

/-! ### Behaviour that a user would not expect -/

/-- C111: the time to find a place is shorter in a full parking lot than in one with a single place left. -/
theorem C111_full_lot_is_faster : ∃ lot : Lot, 0 < lot.avg ∧ lot.search 100 < lot.search 99 :=
  ⟨⟨0, [], 1, 100⟩, by decide +kernel, by decide +kernel⟩

/-- C112: by the letter of the C++ standard, taking a passenger that has arrived out of the factory is undefined,
because the passenger is read after it has been deleted.  (The model of the loading goes on with the values the
passenger had.) -/
theorem C112_deleted_passenger_is_read (s : State) (p : ℕ) (hp : p ∈ s.map) : s.removePaxStrict p true = .ub := by
  unfold State.removePaxStrict
  rw [if_pos hp, if_pos rfl]

/-- C106: when a passenger arrives depends on a number that the code never sets: two loadings that differ in
nothing but the initial contents of the memory of passengers have different travel times. -/
theorem C106_depends_on_unset_memory :
    ((loadMany (Ex.cfg false) Ex.quiet 0 0 (State.init (Ex.cfg false))).bind fun r => .ok r.1.total) = .ok 12 ∧
    ((loadMany (Ex.cfg false) (Ex.quiet.map fun o => { o with junk := fun _ => 3 }) 0 0
      (State.init (Ex.cfg false))).bind fun r => .ok r.1.total) = .ok 18 := by
  constructor <;> decide +kernel

/-- C110: if the flow scalar is below 1, a bus that comes to a stop never leaves it again: every call for it
leaves everything as it is. -/
theorem C110_small_scalar_blocks_buses (c : Cfg) (hk : trunc c.scalar = 0) (hl : 0 ≤ c.lost) (ts v b : ℕ)
    (sh : List ℕ → List ℕ) (o : Orc) (x : State) (hb : b ∈ x.busQ v) (hs : x.stopped b = 0) (hc : x.counter v = 0) :
    busEv c o ts x (.visit v b sh) = .ok x := by
  have : holdBus c v b x = .ok (x, true) := by
    unfold holdBus
    simp only [hk, hs, hc, hb]
    simp
  simp only [busEv, visitBus, this, Res.bind_ok', hs]
  rw [if_pos trivial, if_neg (by omega)]

example : ((loadMany { Ex.cfg true with scalar := 1 / 2 } (Ex.days.take 4) 0 0
    (State.init (Ex.cfg true))).bind fun r => .ok (r.1.busQ 0, r.1.stopped 0, r.1.counter 0)) = .ok ([0], 0, 0) := by
  decide +kernel

/-- C108: a bus that is not the `k`-th one takes nobody and lets nobody off: if somebody on board is to get off at
the stop, the loading ends with an exception or worse. -/
theorem C108_passed_stop_is_fatal (c : Cfg) (hc : c.Wf) (hk : 1 ≤ trunc c.scalar) (hl : 0 ≤ c.lost)
    (R : Routes) (orcs : List Orc) (o : Orc) (evs rest : List BusEv) (v b : ℕ) (sh : List ℕ → List ℕ) (x : State)
    (hT : orcs.length + 1 < 10000) (hsc : 0 < c.scalar)
    (hok : ∀ o ∈ orcs, o.Ok R) (ho : o.Ok R) (he : o.buses = evs ++ .visit v b sh :: rest)
    (hx : Within c orcs o evs x)
    (n : ℕ) (hn : getResult (x.bOut v) (orcs.length + 1 : ℕ) = .ok (n / c.scalar))
    (hd : ¬ trunc c.scalar ∣ (n : ℤ) + 1) (p : ℕ) (hp : p ∈ x.loc (.bus b)) (hw : wantsOff c v x p = true) :
    ∀ x', busEv c o orcs.length x (.visit v b sh) ≠ .ok x' := by
  intro x' h
  obtain ⟨m, h1, _, h3, _⟩ := C109_every_kth_bus_stops c hc hk hl R orcs o evs rest v b sh x x' hT hsc hok ho he hx h
  obtain rfl : m = n := by
    rw [h1, Res.ok.injEq, div_left_inj' hsc.ne'] at hn
    exact_mod_cast hn
  obtain ⟨hb, h5, _⟩ := C108_who_gets_on_and_off c hc hk hl R orcs o evs rest v b sh x x' hok ho he hx h
  obtain ⟨i, _, _⟩ := visit_context hc hk hl hok ho he hx h
  have hv : v ∈ c.vstopIds := i.stops.known v b hb
  have := (h5 (by rw [(h3 hd).1]; exact fun hm => ((i.stops.nodup v).mem_erase_iff.1 hm).1 rfl)).2.1 p hp
  simp only [wantsOff, decide_eq_true_eq] at hw
  obtain ⟨w1, w2⟩ := hw
  cases ha : (c.vstop v).alighting with
  | none => rw [ha] at w2; exact w1 w2
  | some l =>
    have h7 := (hc.doors v hv l ha).1
    rw [w2, ha] at this
    have h8 := hc.busOut v hv l this.symm
    rw [h7] at h8
    simp at h8

end Verif
