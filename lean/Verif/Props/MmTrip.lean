import Verif.Props.MmFleet
import Verif.Lemmas.MmTrip

/-! # Properties of the trips of vehicles in multimodal loadings (C170, C171) -/

namespace Verif
open MmF

/-! ## C170: fixed routing -/

/-- C170, every vehicle that is released: exactly one of the four fixed routings is for it, the one of its kind. -/
theorem C170_one_router (o : Org) (ts : ℕ) (v : MmF.Veh) (h : MmF.Released o ts v) (r : MmF.Router) :
    r.handles v = true ↔ r = routerOf v.kind :=
  handles_iff h.route h.pnr r

/-- C170, every static vehicle (bus, car, truck or park-and-ride car), every path that the routing of its kind gives it and
that leads to its destination (its parking lot), and every history of routing, nodes and links: nothing fails, the links
it has entered are always the first ones of its path, it is on the last of these, and when it leaves the network it has
travelled its whole path. -/
theorem C170_follows_path (w : Roads) (o : Org) (ts : ℕ) (v : MmF.Veh) (hr : MmF.Released o ts v)
    (hst : v.adaptive = false) (π : List ℤ) (g : ℤ) (hreg : w.reg (routerOf v.kind) = .ok (π, g))
    (hπ : GoodPath w π (if v.kind = .pnr then g else w.dnode)) (ms : List Move) :
    ∃ t, MmF.run w v Trip.start ms = .ok t ∧ t.trace <+: π ∧ (t.place = .out → t.trace = π) ∧
      ∀ l, t.place = .on l ∨ t.place = .atEnd l → t.trace.getLast? = some l := by
  have hg : target w (routerOf v.kind) g = if v.kind = .pnr then g else w.dnode := by
    unfold target
    cases v.kind <;> simp [routerOf]
  obtain ⟨t, e, h⟩ := run_stage ⟨hr.route, hr.pnr, hst, hreg, by rw [hg]; exact hπ⟩ (start_stage _ _ _) ms
  refine ⟨t, e, ?_⟩
  cases h with
  | fresh h1 h2 h3 h4 => exact ⟨by simp [h4], by simp [h1], by simp [h1]⟩
  | ready l τ h1 h2 h3 h4 h5 h6 => exact ⟨by simp [h4], by simp [h1], by simp [h1]⟩
  | driving l τ h1 h2 h3 h4 h5 h6 h7 => exact ⟨⟨τ, h5.symm⟩, by simp [h1], by simp [h1, h4]⟩
  | arrived l τ h1 h2 h3 h4 h5 h6 h7 => exact ⟨⟨τ, h5.symm⟩, by simp [h1], by simp [h1, h4]⟩
  | routed l m τ h1 h2 h3 h4 h5 h6 h7 => exact ⟨⟨m :: τ, h5.symm⟩, by simp [h1], by simp [h1, h4]⟩
  | final l h1 h2 h3 h4 h5 h6 => exact ⟨by simp [h5], by simp [h1], by simp [h1, h4]⟩
  | out h1 h5 => exact ⟨by simp [h5], fun _ => h5.symm, by simp [h1]⟩

/-- C170, after routing, a vehicle in the queue or at the end of a link has as its next link the one that follows on its
path, and none exactly at the end of the path. -/
theorem C170_next_link (w : Roads) (o : Org) (ts : ℕ) (v : MmF.Veh) (hr : MmF.Released o ts v)
    (hst : v.adaptive = false) (π : List ℤ) (g : ℤ) (hreg : w.reg (routerOf v.kind) = .ok (π, g))
    (hπ : GoodPath w π (if v.kind = .pnr then g else w.dnode)) (ms : List Move) (ad : Trip → Res Trip) :
    ∃ t, MmF.run w v Trip.start (ms ++ [.route ad]) = .ok t ∧
      ((t.place = .queue ∨ ∃ l, t.place = .atEnd l) → t.next = π[t.trace.length]?) := by
  have hg : target w (routerOf v.kind) g = if v.kind = .pnr then g else w.dnode := by
    unfold target
    cases v.kind <;> simp [routerOf]
  have hf : Fixed w v π g := ⟨hr.route, hr.pnr, hst, hreg, by rw [hg]; exact hπ⟩
  obtain ⟨t, e, h⟩ := run_stage hf (start_stage _ _ _) ms
  have hh := (handles_iff hf.h1 hf.h2 (routerOf v.kind)).2 rfl
  obtain ⟨t1, e1, h1, htr, hpl, hnx⟩ := one_route hf.st hh hf.reg hf.good h
  refine ⟨t1, ?_, ?_⟩
  · rw [run_append e]
    show (step w v t (.route ad) >>= fun s => Res.ok s) = _
    rw [step, update_eq hf.h1 hf.h2 hf.st, e1]
    rfl
  · rw [htr, hpl]
    exact hnx

/-- C170, a vehicle that is routed, enters its next link and comes to its end as often as its path has links, has then
left the network after one more routing. -/
theorem C170_arrives (w : Roads) (o : Org) (ts : ℕ) (v : MmF.Veh) (hr : MmF.Released o ts v)
    (hst : v.adaptive = false) (π : List ℤ) (g : ℤ) (hreg : w.reg (routerOf v.kind) = .ok (π, g))
    (hπ : GoodPath w π (if v.kind = .pnr then g else w.dnode)) (ad : Trip → Res Trip) :
    ∃ t, MmF.run w v Trip.start ((List.replicate π.length [.route ad, .enter, .arrive]).flatten ++ [.route ad, .enter]) = .ok t ∧
      t.place = .out ∧ t.trace = π := by
  have hg : target w (routerOf v.kind) g = if v.kind = .pnr then g else w.dnode := by
    unfold target
    cases v.kind <;> simp [routerOf]
  have hf : Fixed w v π g := ⟨hr.route, hr.pnr, hst, hreg, by rw [hg]; exact hπ⟩
  have hh := (handles_iff hf.h1 hf.h2 (routerOf v.kind)).2 rfl
  obtain ⟨t, e, h, hl, hp⟩ := legs_end hf ad π.length le_rfl
  obtain ⟨t1, e1, h1, htr, hpl, hnx⟩ := one_route hf.st hh hf.reg hf.good h
  have hnx := hnx hp
  rw [List.getElem?_eq_none (by omega)] at hnx
  obtain ⟨l, hp⟩ : ∃ l, t.place = .atEnd l := by
    rcases hp with hp | hp
    · exfalso
      have hne := List.length_pos_iff.2 hπ.nonempty
      cases h with
      | fresh h1 h2 h3 h4 => rw [h4] at hl; simp at hl; omega
      | ready l τ h1 h2 h3 h4 h5 h6 => rw [h4] at hl; simp at hl; omega
      | driving l τ h1 => rw [hp] at h1; simp at h1
      | arrived l τ h1 => rw [hp] at h1; simp at h1
      | routed l m τ h1 => rw [hp] at h1; simp at h1
      | final l h1 => rw [hp] at h1; simp at h1
      | out h1 => rw [hp] at h1; simp at h1
    · exact hp
  have hend : t.trace = π := by
    have : t.trace <+: π := by
      cases h with
      | fresh h1 h2 h3 h4 => simp [h4]
      | ready l τ h1 h2 h3 h4 h5 h6 => simp [h4]
      | driving l τ h1 h2 h3 h4 h5 h6 h7 => exact ⟨τ, h5.symm⟩
      | arrived l τ h1 h2 h3 h4 h5 h6 h7 => exact ⟨τ, h5.symm⟩
      | routed l m τ h1 h2 h3 h4 h5 h6 h7 => exact ⟨m :: τ, h5.symm⟩
      | final l h1 h2 h3 h4 h5 h6 => simp [h5]
      | out h1 h5 => simp [h5]
    exact this.eq_of_length hl
  refine ⟨{ t1 with place := .out }, ?_, rfl, by simp [htr, hend]⟩
  rw [show (List.replicate π.length [Move.route ad, .enter, .arrive]).flatten =
    (List.replicate π.length (leg ad)).flatten from rfl, run_append e]
  show (step w v t (.route ad) >>= fun s => step w v s .enter >>= fun s => Res.ok s) = _
  have e1' : step w v t (.route ad) = .ok t1 := by rw [step, update_eq hf.h1 hf.h2 hf.st]; exact e1
  rw [e1']
  show (step w v t1 .enter >>= fun s => Res.ok s) = _
  rw [hp] at hpl
  simp only [step, hpl, hnx]
  rfl

/-- C170, adaptive vehicles are left to adaptive routing: the fixed routings give them at most a nominal path. -/
theorem C170_adaptive (w : Roads) (o : Org) (ts : ℕ) (v : MmF.Veh) (hr : MmF.Released o ts v) (had : v.adaptive = true)
    (π : List ℤ) (g : ℤ) (hreg : w.reg (routerOf v.kind) = .ok (π, g)) (ad : Trip → Res Trip) (t : Trip) :
    ∃ t', t'.place = t.place ∧ t'.cur = t.cur ∧ t'.next = t.next ∧ t'.track = t.track ∧ t'.trace = t.trace ∧
      (t.place = .queue → t.path = none → t'.path = some π) ∧ (t.path ≠ none → t'.path = t.path) ∧
      updateRouting w v ad t = ad t' := by
  have hb : v.kind ≠ .bus := fun e => by have := hr.static e; rw [had] at this; simp at this
  have hroute : v.route = -1 := by
    by_contra e
    exact hb (hr.route e)
  have hother : ∀ r s, r ≠ routerOf v.kind → Router.one w v s r = .ok s := by
    intro r s hne
    apply one_other
    rw [Bool.eq_false_iff]
    exact fun e => hne ((handles_iff hr.route hr.pnr r).1 e)
  have hown : ∃ t', Router.one w v t (routerOf v.kind) = .ok t' ∧ t'.place = t.place ∧ t'.cur = t.cur ∧ t'.next = t.next ∧
      t'.track = t.track ∧ t'.trace = t.trace ∧ (t.place = .queue → t.path = none → t'.path = some π) ∧
      (t.path ≠ none → t'.path = t.path) := by
    have hh := (handles_iff hr.route hr.pnr (routerOf v.kind)).2 rfl
    have hn : (routerOf v.kind).nominal = true := by
      cases e : v.kind <;> simp_all [routerOf, Router.nominal]
    unfold Router.one
    cases hp : t.place with
    | queue =>
      simp only [atQueue, hh, if_true, had, hn, Bool.true_and]
      cases e : t.path with
      | none =>
        simp only [Option.isNone_none, if_true, register, hreg, Res.bind]
        exact ⟨_, rfl, hp, rfl, rfl, by simp, rfl, by simp, by simp⟩
      | some p =>
        simp only [Option.isNone_some, Bool.false_eq_true, if_false]
        exact ⟨t, rfl, hp, rfl, rfl, rfl, rfl, by simp, by simp [e]⟩
    | on l => exact ⟨t, rfl, hp, rfl, rfl, rfl, rfl, by simp, by simp⟩
    | atEnd l =>
      simp only [atExit, had, Bool.not_true, Bool.and_false, Bool.false_eq_true, if_false]
      exact ⟨t, rfl, hp, rfl, rfl, rfl, rfl, by simp, by simp⟩
    | out => exact ⟨t, rfl, hp, rfl, rfl, rfl, rfl, by simp, by simp⟩
  obtain ⟨t', e, h1, h2, h3, h4, h5, h6, h7⟩ := hown
  refine ⟨t', h1, h2, h3, h4, h5, h6, h7, ?_⟩
  have hfold : Res.foldlM (Router.one w v) t [.car, .truck, .bus, .pnr] = .ok t' := by
    simp only [Res.foldlM]
    cases e2 : routerOf v.kind <;> rw [e2] at e hother
    · rw [e]
      simp only [Res.bind_ok', bind, Res.bind]
      rw [hother .truck _ (by decide)]; simp only
      rw [hother .bus _ (by decide)]; simp only
      rw [hother .pnr _ (by decide)]
    · rw [hother .car _ (by decide)]
      simp only [bind, Res.bind]
      rw [e]; simp only
      rw [hother .bus _ (by decide)]; simp only
      rw [hother .pnr _ (by decide)]
    · rw [hother .car _ (by decide)]
      simp only [bind, Res.bind]
      rw [hother .truck _ (by decide)]; simp only
      rw [e]; simp only
      rw [hother .pnr _ (by decide)]
    · rw [hother .car _ (by decide)]
      simp only [bind, Res.bind]
      rw [hother .truck _ (by decide)]; simp only
      rw [hother .bus _ (by decide)]; simp only
      rw [e]
  unfold updateRouting
  rw [hfold]
  simp [Res.bind, had, hroute]

/-- Links 1: to node 20, 2: to 30, 3: to 40; the destination is node 30. -/
def mfRoads (bus : List ℤ) : Roads :=
  { toNode := fun l => if l = 1 then some 20 else if l = 2 then some 30 else if l = 3 then some 40 else none,
    dnode := 30, reg := fun r => .ok (if r = .bus then (bus, 0) else ([1, 2, 3], 40)) }

/-- A bus of route 7. -/
def mfBus : MmF.Veh := newBus mfOrg 360 5 7 1

/-- C170, what is needed of a path: a bus whose route passes its destination throws when it is there, although it has to
go on; and one whose route ends elsewhere reads beyond the end of its route. -/
theorem C170_false_through_destination :
    (MmF.run (mfRoads [1, 2, 3]) mfBus Trip.start
      [.route .ok, .enter, .arrive, .route .ok, .enter, .arrive, .route .ok]).isOk = false ∧
    (MmF.run (mfRoads [1]) mfBus Trip.start [.route .ok, .enter, .arrive, .route .ok]).bind (fun t => .ok t.trace) = .ub := by
  constructor <;> decide +kernel

example : MmF.Released mfOrg 360 mfBus := released_newBus _ _ _ _ _ (by decide)

example : GoodPath (mfRoads [1, 2]) [1, 2] 30 := by
  refine ⟨by simp, ?_, ?_, ?_⟩
  · intro l hl
    simp only [List.mem_cons, List.not_mem_nil, or_false] at hl
    rcases hl with rfl | rfl
    · exact ⟨by decide, 20, rfl⟩
    · exact ⟨by decide, 30, rfl⟩
  · intro i l h
    rcases i with _ | _ | i
    · simp at h; subst h; simp [mfRoads]
    · simp at h; subst h; simp [mfRoads]
    · simp at h
  · intro i l m h h'
    rcases i with _ | _ | i
    · simp at h h'; omega
    · simp at h'
    · simp at h'

/-- The bus travels links 1 and 2; routing it twice does no harm. -/
example : (MmF.run (mfRoads [1, 2]) mfBus Trip.start [.enter, .route .ok, .route .ok, .enter, .route .ok, .arrive, .enter, .route .ok,
    .route .ok, .enter, .arrive, .route .ok, .enter]).bind (fun t => .ok (t.place, t.trace)) = .ok (.out, [1, 2]) := by
  decide +kernel

/-- A park-and-ride car travels to the parking lot at node 40, past the node of its destination. -/
example : (MmF.run (mfRoads [1, 2]) (newVeh mfOrg mfDraws 360 false true 0 6 2) Trip.start
    ((List.replicate 3 [.route .ok, .enter, .arrive]).flatten ++ [.route .ok, .enter])).bind
      (fun t => .ok (t.place, t.trace, t.goal)) = .ok (.out, [1, 2, 3], some 40) := by
  decide +kernel

/-! ## C171: adaptive park-and-ride -/

/-- C171: if only one parking lot is suitable for a destination, then an adaptive park-and-ride car follows the tree to
it, whatever the shuffles, and leaves the road there. -/
theorem C171_one_lot_partial (c : Lots) (toNode : ℤ → ℤ) (g : ℤ) (hg : g ∈ c.lots) (hgf : g ≠ c.final)
    (hl : ∀ x ∈ c.lots, x ≠ c.final → x = g) (n : ℤ) (ls : List ℤ) (h : LeadsTo c toNode g n ls)
    (shs : List (List ℤ → List ℤ)) (hsh : ∀ s ∈ shs, ∀ l, (s l).Perm l) (hlen : ls.length < shs.length) :
    drivePnr c toNode shs n = .ok (ls, true) := by
  induction h generalizing shs with
  | here hd =>
    cases shs with
    | nil => simp at hlen
    | cons s rest => simp [drivePnr, nextPnr, findMid, hd, Res.bind]
  | @step n l ls hne hd ht _ ih =>
    cases shs with
    | nil => simp at hlen
    | cons s rest =>
      have hp := hsh s (by simp) c.lots
      have hfind : (s c.lots).find? (fun l => l != c.final) = some g := by
        cases e : (s c.lots).find? (fun l => l != c.final) with
        | none =>
          rw [List.find?_eq_none] at e
          exact absurd (e g (hp.mem_iff.2 hg)) (by simpa using hgf)
        | some x =>
          have h1 := List.mem_of_find?_eq_some e
          have h2 : x ≠ c.final := by simpa using List.find?_some e
          rw [hl x (hp.mem_iff.1 h1) h2]
      have hrest := ih rest (fun s hs => hsh s (by simp [hs])) (by simp at hlen; omega)
      simp [drivePnr, nextPnr, findMid, hd, Res.bind, hfind, ht, Ne.symm hne, hrest]

/-- Parking lots at nodes 3 and 4 for the destination at 9; from node 1 link 11 leads to lot 4, link 10 to node 2; from
node 2 link 20 leads to lot 3, link 21 back to node 1. -/
def mfLots : Lots :=
  { isDest := fun n => if n = 3 ∨ n = 4 then some true else if n = 9 then some false else none, lots := [3, 4], final := 9,
    tree := fun g n => if g = 3 then (if n = 1 then some 10 else some 20) else (if n = 1 then some 11 else some 21) }

def mfTo : ℤ → ℤ := fun l => if l = 10 then 2 else if l = 21 then 1 else if l = 20 then 3 else 4

/-- C171 is false for several parking lots: the parking lot is drawn anew at every node, so that a car can turn around
for any length of time, although a parking lot is one link away from every node. -/
theorem C171_false_turns_around (k : ℕ) :
    ∃ shs : List (List ℤ → List ℤ), shs.length = 2 * k ∧ (∀ s ∈ shs, ∀ l, (s l).Perm l) ∧
      drivePnr mfLots mfTo shs 1 = .ok ((List.replicate k [10, 21]).flatten, false) := by
  induction k with
  | zero => exact ⟨[], rfl, by simp, rfl⟩
  | succ k ih =>
    obtain ⟨shs, hl, hp, he⟩ := ih
    refine ⟨id :: List.reverse :: shs, by simp [hl]; omega, ?_, ?_⟩
    · intro s hs l
      simp only [List.mem_cons] at hs
      rcases hs with rfl | rfl | hs
      · exact List.Perm.refl _
      · exact List.reverse_perm l
      · exact hp s hs l
    · have e1 : nextPnr mfLots id 1 = .ok (some 10) := by decide +kernel
      have e2 : nextPnr mfLots List.reverse (mfTo 10) = .ok (some 21) := by decide +kernel
      have e3 : mfTo 21 = 1 := by decide
      rw [drivePnr, e1]
      simp only [Res.bind]
      rw [drivePnr, e2]
      simp only [Res.bind, e3, he]
      rfl

example : ∀ n, n = 1 ∨ n = 2 → ∃ g l, mfLots.tree g n = some l ∧ mfTo l = g ∧ mfLots.isDest g = some true := by
  rintro n (rfl | rfl)
  · exact ⟨4, 11, by decide +kernel, by decide, by decide⟩
  · exact ⟨3, 20, by decide +kernel, by decide, by decide⟩

example : LeadsTo { mfLots with lots := [9, 3] } mfTo 3 1 [10, 20] :=
  .step (by decide) rfl rfl (.step (by decide) rfl rfl (.here rfl))

end Verif
