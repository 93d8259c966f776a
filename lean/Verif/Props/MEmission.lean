import Verif.Lemmas.MEmissionLoad
import Verif.Props.MNet

/-! # C157, C158: the emission report of a loading with cars and trucks

`false` stands for cars, `true` for trucks. -/

namespace Verif
open MNet MEmis
open Net (Event)
set_option synthInstance.maxSize 1024

namespace MEmisEx

/-- The network of `MNetEx` with one car and one truck at the beginning and one car after the second has arrived. -/
def cfg : MNet.Cfg := { MNetEx.cfg with
  net := { MNetEx.cfg.net with totalAssign := 8 }
  dem := fun _ => ⟨[(200, fun k => if k = 0 ∨ k = 5 then 1 / 4 else 0)], [(200, fun k => if k = 0 then 1 / 4 else 0)],
    fun _ => none, fun _ => none, [], []⟩ }

/-- The second car gets the address of the first. -/
def setup : Setup := ⟨registered [10, 11, 12] [12, 99, 11], 1, 2, 5, fun v => if v = 3 then 1 else v⟩

/-- All addresses differ. -/
def setup' : Setup := { setup with reg := [11], addr := id }

end MEmisEx

/-! ## C157 -/

/-- C157: the registered links are those links of the network whose number is in the file, each once. -/
theorem C157_registered (linkIds file : List ℕ) (h : linkIds.Nodup) :
    (registered linkIds file).Nodup ∧ ∀ l, l ∈ registered linkIds file ↔ l ∈ linkIds ∧ l ∈ file := by
  unfold registered
  exact ⟨h.filter _, fun l => by simp⟩

example : registered [10, 11, 12] [12, 99, 11, 12] = [11, 12] := by decide

/-- C157: writing the report does not change the loading. -/
theorem C157_loading_unchanged (c : Cfg) (hc : c.net.Ok) (hsc : c.net.scalar ≠ 0) (e : Setup) (os : List StepOracle)
    (hos : ∀ o ∈ os, o.Ok c) (ts assign : ℕ) (s : State) (rep : Option Report) (x : (State × Option Report) × ℕ × ℕ)
    (h : MEmis.loadMany c e os ts assign (s, rep) = .ok x) :
    MNet.loadMany c os ts assign s = .ok (x.1.1, x.2) :=
  loadMany_plain hc hsc os ts assign s rep x hos h

/-- C157: after every loading the hours of a class are, in flow units, the time that vehicles of the class have
spent on the registered links, from the interval of their entrance to that of their exit, provided none of these links
is a point queue.  With point queues they are at most that time: the vehicles a point queue has not let in do not
count. -/
theorem C157_hours (c : Cfg) (hc : c.net.Ok) (hsc : c.net.scalar ≠ 0) (e : Setup)
    (hreg : ∀ l ∈ e.reg, l ∈ c.net.linkIds) (hu : 0 ≤ e.unit) (s : State) (hs : Fresh s) (σ : ℚ) (hσ : 0 < σ)
    (hσ' : ∀ l ∈ e.reg, (s.links l).link.scalar = σ) (os : List StepOracle) (hos : ∀ o ∈ os, o.Ok c) (assign : ℕ)
    (x : (State × Option Report) × ℕ × ℕ) (h : MEmis.loadMany c e os 0 assign (s, some .zero) = .ok x) (r : Report)
    (hr : x.1.2 = some r) (b : Bool) :
    r.hours b ≤ (e.reg.map fun l => spent x.1.1.truck x.1.1.log os.length b l).sum * e.unit / 3600 / σ ∧
    ((∀ l ∈ e.reg, isPq (s.links l).link = false) →
      r.hours b = (e.reg.map fun l => spent x.1.1.truck x.1.1.log os.length b l).sum * e.unit / 3600 / σ) := by
  obtain ⟨h1, h2⟩ := loadMany_told hc hsc hreg hσ hu os 0 assign s (some .zero) x hos (fresh_inv hs) (fresh_hist hs)
    (fresh_cur hs) hσ' (by intro r hr; cases hr; exact fresh_told hs) h
  have T := h1 r hr
  rw [Nat.zero_add] at T
  refine ⟨?_, ?_⟩
  · rw [le_div_iff₀ hσ, le_div_iff₀ (by norm_num)]
    have := T.hours b
    linarith
  · intro hpq
    have := T.hoursEq (by
      intro l hl
      rw [← (tag_eq _).2, h2 l, (tag_eq _).2]; exact hpq l hl) b
    rw [eq_div_iff hσ.ne', eq_div_iff (by norm_num)]
    linarith

example : ((MEmis.loadMany MEmisEx.cfg MEmisEx.setup' (List.replicate 13 MNetEx.orc) 0 0
    (State.init MNetEx.links, some .zero)).bind fun x => .ok (x.1.2.map fun r => (r.hours false, r.hours true),
      spent x.1.1.truck x.1.1.log 13 false 11, spent x.1.1.truck x.1.1.log 13 true 11))
    = .ok (some (3 * 5 / 3600 / 4, 3 * 5 / 3600 / 4), 3, 3) := by
  decide +kernel

/-- C157: the trips of a class are the different addresses of the vehicles of the class that have entered a
registered link; so they are at most the vehicles of the class that have done so, and exactly these when no two of
them have the same address. -/
theorem C157_trips_partial (c : Cfg) (hc : c.net.Ok) (hsc : c.net.scalar ≠ 0) (e : Setup)
    (hreg : ∀ l ∈ e.reg, l ∈ c.net.linkIds) (hu : 0 ≤ e.unit) (s : State) (hs : Fresh s) (σ : ℚ) (hσ : 0 < σ)
    (hσ' : ∀ l ∈ e.reg, (s.links l).link.scalar = σ) (os : List StepOracle) (hos : ∀ o ∈ os, o.Ok c) (assign : ℕ)
    (x : (State × Option Report) × ℕ × ℕ) (h : MEmis.loadMany c e os 0 assign (s, some .zero) = .ok x) (r : Report)
    (hr : x.1.2 = some r) (b : Bool) :
    r.trips b = ((entered x.1.1.truck x.1.1.log e.reg b).map e.addr).dedup.length ∧
    r.trips b ≤ (entered x.1.1.truck x.1.1.log e.reg b).dedup.length ∧
    ((∀ v ∈ entered x.1.1.truck x.1.1.log e.reg b, ∀ w ∈ entered x.1.1.truck x.1.1.log e.reg b,
        e.addr v = e.addr w → v = w) →
      r.trips b = (entered x.1.1.truck x.1.1.log e.reg b).dedup.length) := by
  obtain ⟨h1, _⟩ := loadMany_told hc hsc hreg hσ hu os 0 assign s (some .zero) x hos (fresh_inv hs) (fresh_hist hs)
    (fresh_cur hs) hσ' (by intro r hr; cases hr; exact fresh_told hs) h
  have T := h1 r hr
  have e1 : r.trips b = (tripSet r b).length := by cases b <;> rfl
  have T1 := T.nodup b
  have T2 := T.mem b
  generalize entered x.1.1.truck x.1.1.log e.reg b = l at *
  have hmem : ∀ y, y ∈ tripSet r b ↔ y ∈ (l.map e.addr).dedup := by
    intro y; rw [T2 y, List.mem_dedup, List.mem_map]
  have hp : (tripSet r b).Perm (l.map e.addr).dedup := (List.perm_ext_iff_of_nodup T1 (List.nodup_dedup _)).2 hmem
  have h1 : r.trips b = (l.map e.addr).dedup.length := by rw [e1, hp.length_eq]
  have hsub : (l.map e.addr).dedup ⊆ l.dedup.map e.addr := by
    intro y hy
    rw [List.mem_dedup, List.mem_map] at hy
    obtain ⟨v, hv, rfl⟩ := hy
    exact List.mem_map_of_mem (List.mem_dedup.2 hv)
  refine ⟨h1, ?_, ?_⟩
  · rw [h1, ← List.length_map (f := e.addr) (as := l.dedup)]
    exact ((List.nodup_dedup _).subperm hsub).length_le
  · intro hinj
    rw [h1, ← List.length_map (f := e.addr) (as := l.dedup)]
    refine ((List.perm_ext_iff_of_nodup (List.nodup_dedup _) ?_).2 ?_).length_eq
    · refine List.Nodup.map_on ?_ (List.nodup_dedup _)
      intro v hv w hw
      exact hinj v (List.mem_dedup.1 hv) w (List.mem_dedup.1 hw)
    · intro y
      refine ⟨fun hy => hsub hy, ?_⟩
      intro hy
      obtain ⟨v, hv, rfl⟩ := List.mem_map.1 hy
      exact List.mem_dedup.2 (List.mem_map_of_mem (List.mem_dedup.1 hv))

/-- Two cars have made the trip, the second released five intervals after the first had arrived (and its object had
been deleted); when its object is created at the same address the report counts one trip. -/
theorem C157_trips_false_address_reused :
    ((MEmis.loadMany MEmisEx.cfg MEmisEx.setup (List.replicate 25 MNetEx.orc) 0 0
      (State.init MNetEx.links, some .zero)).bind fun x => .ok (x.1.2.map fun r => (r.trips false, r.trips true),
        (entered x.1.1.truck x.1.1.log MEmisEx.setup.reg false).dedup,
        (entered x.1.1.truck x.1.1.log MEmisEx.setup.reg true).dedup,
        (x.1.1.vehs 1).finish, (x.1.1.vehs 3).start))
      = .ok (some (1, 1), [1, 3], [2], 10, 15) := by
  decide +kernel

/-! ## C158 -/

/-- C158: in one interval the totals of a class grow, link by link, by what the vehicles of the class on the link
emit and drive at the speed of the link (length over travel time, for the rates between 5 and 65 miles per hour); only
vehicles that are not electric emit. -/
theorem C158_one_interval (e : Setup) (s : State) (hl : ∀ l ∈ e.reg, MLnk.Inv s.truck (s.links l).link)
    (r r' : Report) (h : MEmis.update e s r = some r') (b : Bool) :
    r'.totals b = e.reg.foldl (fun t l => plus t (gain e.unit b (s.links l).link
      (onRoadEv s.truck (fun x => (s.vehs x).label) (if b then e.evTruck else e.evCar) b false (s.links l).link
        / (s.links l).link.scalar)
      (onRoadEv s.truck (fun x => (s.vehs x).label) (if b then e.evTruck else e.evCar) b true (s.links l).link
        / (s.links l).link.scalar))) (r.totals b) := by
  unfold MEmis.update at h
  rw [Option.map_eq_some_iff] at h
  obtain ⟨r1, h1, h2⟩ := h
  subst h2
  rw [((addTrips_spec e s s.vehMap r1).1 b).2]
  exact addLinks_gain b e.reg r r1 hl h1

/-- C158: when lanes, length and speed of the registered links are positive no division by zero occurs; the miles of a
class grow by those of all its vehicles on these links; no total gets smaller; and the miles of electric vehicles do
not grow by more than those of all. -/
theorem C158_never_less (e : Setup) (hu : 0 ≤ e.unit) (s : State)
    (hl : ∀ l ∈ e.reg, MLnk.Inv s.truck (s.links l).link ∧ Fine (s.links l).link) (r : Report) :
    ∃ r', MEmis.update e s r = some r' ∧ ∀ b,
      (r'.totals b).vmt = (r.totals b).vmt + (e.reg.map fun l => miles e.unit s.truck b (s.links l).link).sum ∧
      MEmis.le (r.totals b) (r'.totals b) ∧
      (r'.totals b).vmtEv - (r.totals b).vmtEv ≤ (r'.totals b).vmt - (r.totals b).vmt := by
  obtain ⟨r1, h1, h2⟩ := addLinks_fine hu e.reg r fun l h => ⟨(hl l h).2, (hl l h).1⟩
  refine ⟨s.vehMap.foldl (addTrip e s) r1, ?_, ?_⟩
  · unfold MEmis.update; rw [h1]; rfl
  · intro b
    rw [((addTrips_spec e s s.vehMap r1).1 b).2]
    exact ⟨(h2 b).2.2, (h2 b).1, (h2 b).2.1⟩

/-- C158: in every interval of every loading the report is updated in a state that meets the hypothesis of
`C158_one_interval`; its links, classes and movements are those at the end of the interval. -/
theorem C158_update_states (c : Cfg) (hc : c.net.Ok) (hsc : c.net.scalar ≠ 0) (e : Setup) (s : State) (hs : Fresh s)
    (os : List StepOracle) (hos : ∀ o ∈ os, o.Ok c) (assign : ℕ) (rep : Option Report)
    (x : (State × Option Report) × ℕ × ℕ) (h : MEmis.loadMany c e os 0 assign (s, rep) = .ok x) (o : StepOracle)
    (ho : o.Ok c) (y : State × Option Report) (hy : MEmis.loadOnce c e o x.2.1 x.2.2 x.1 = .ok y) :
    ∃ s4, y.2 = x.1.2.bind (MEmis.update e s4) ∧ (∀ l ∈ c.net.linkIds, MLnk.Inv s4.truck (s4.links l).link) ∧
      y.1.links = s4.links ∧ y.1.truck = s4.truck ∧ y.1.log = s4.log := by
  have hp := loadMany_plain hc hsc os 0 assign s rep x hos h
  obtain ⟨⟨xs, xr⟩, T, asg⟩ := x
  obtain ⟨I, _⟩ := loadMany_inv hc hsc os 0 assign s _ hos (fresh_inv hs) hp
  have H := loadMany_hist hc hsc os 0 assign s _ hos (fresh_inv hs) (fresh_hist hs) hp
  have C := loadMany_cur hc hsc os 0 assign s rep _ hos (fresh_inv hs) (fresh_hist hs) (fresh_cur hs) h
  obtain ⟨_, s4, es, S, g⟩ := loadOnce_emis hc hsc ho I H C hy
  exact ⟨s4, g, S.core.inv, S.links', S.truck', S.log'⟩

/-- C158: every loading of a network whose links have positive numbers of lanes, lengths and free-flow speeds, from
the beginning and after every change of attributes, ends with a report: no division by zero has occurred, no total of
a class is negative, and the miles of electric vehicles are not more than all miles. -/
theorem C158_totals (c : Cfg) (hc : c.net.Ok) (hsc : c.net.scalar ≠ 0) (e : Setup)
    (hreg : ∀ l ∈ e.reg, l ∈ c.net.linkIds) (hu : 0 ≤ e.unit) (s : State) (hs : Fresh s)
    (hg : ∀ l, ∃ k a, (0 < a.lanes ∧ 0 < a.length ∧ 0 < a.ffsCar) ∧ MLnk.mkLink k a = .ok (s.links l).link)
    (hat : ∀ ts, ∀ p ∈ c.attrs ts, 0 < p.2.lanes ∧ 0 < p.2.length ∧ 0 < p.2.ffsCar)
    (os : List StepOracle) (hos : ∀ o ∈ os, o.Ok c) (assign : ℕ)
    (x : (State × Option Report) × ℕ × ℕ) (h : MEmis.loadMany c e os 0 assign (s, some .zero) = .ok x) :
    ∃ r, x.1.2 = some r ∧ ∀ b, 0 ≤ (r.totals b).fuel ∧ 0 ≤ (r.totals b).co2 ∧ 0 ≤ (r.totals b).hc ∧
      0 ≤ (r.totals b).co ∧ 0 ≤ (r.totals b).nox ∧ 0 ≤ (r.totals b).vmtEv ∧
      (r.totals b).vmtEv ≤ (r.totals b).vmt := by
  obtain ⟨r, h1, h2⟩ := loadMany_totals hc hsc hreg hu hat os 0 assign s .zero x hos (fresh_inv hs) (fresh_hist hs)
    (fresh_cur hs) (by intro l; obtain ⟨k, a, g, m⟩ := hg l; exact mk_fine g m) h
  refine ⟨r, h1, ?_⟩
  intro b
  obtain ⟨⟨a1, a2, a3, a4, a5, a6, a7⟩, a8⟩ := h2 b
  have z : Report.zero.totals b = .zero := by cases b <;> rfl
  rw [z] at a1 a2 a3 a4 a5 a6 a7 a8
  simp only [Emis.Totals.zero, sub_zero] at a1 a2 a3 a4 a5 a6 a7 a8
  exact ⟨a1, a2, a3, a4, a5, a7, a8⟩

example : ((MEmis.loadMany MEmisEx.cfg MEmisEx.setup' (List.replicate 13 MNetEx.orc) 0 0
    (State.init MNetEx.links, some .zero)).bind fun x => .ok (x.1.2.map fun r => (r.car.vmt, r.car.vmtEv)))
      = .ok (some (3 / 128, 0)) := by
  decide +kernel

/-- C158: per mile, at any speed at which rates are taken, trucks burn at least half as much fuel again as cars and
emit at least half as much again of carbon dioxide, and at least 1.87, 2.67 and 5.75 times as much of hydrocarbons,
carbon monoxide and nitrogen oxides. -/
theorem C158_trucks_emit_more (v : ℚ) (h5 : 5 ≤ v) (h65 : v ≤ 65) :
    (∃ a b, Emis.fuelRate v = some a ∧ fuelTruck v = some b ∧ 0 ≤ a ∧ 1.5 * a ≤ b) ∧
    (∃ a b, Emis.co2Rate v = some a ∧ co2Truck v = some b ∧ 0 ≤ a ∧ 1.5 * a ≤ b) ∧
    (0 ≤ Emis.hcRate v ∧ 1.87 * Emis.hcRate v ≤ hcTruck v) ∧
    (0 ≤ Emis.coRate v ∧ 2.67 * Emis.coRate v ≤ coTruck v) ∧
    (0 ≤ Emis.noxRate v ∧ 5.75 * Emis.noxRate v ≤ noxTruck v) := by
  have key : ∀ {a k p q w : ℚ}, 0 ≤ a → k ≤ p → k ≤ q → k ≤ w → k * a ≤ a * factor p q w v := by
    intro a k p q w ha h1 h2 h3
    rw [mul_comm]
    apply mul_le_mul_of_nonneg_left _ ha
    unfold factor
    split
    · exact h1
    split
    · exact h2
    · exact h3
  obtain ⟨fc, e1, p1⟩ := Emis.fuelRate_ok h5 h65
  obtain ⟨cc, e2, p2⟩ := Emis.co2Rate_ok h5 h65
  have hh : 0 ≤ Emis.hcRate v := le_max_right _ _
  have hco : 0 ≤ Emis.coRate v := le_max_right _ _
  have hn : 0 ≤ Emis.noxRate v := le_max_right _ _
  refine ⟨⟨fc, fc * factor 1.53 1.50 1.55 v, e1, by unfold fuelTruck; rw [e1]; rfl, p1, ?_⟩,
    ⟨cc, cc * factor 1.53 1.50 1.55 v, e2, by unfold co2Truck; rw [e2]; rfl, p2, ?_⟩, ⟨hh, ?_⟩, ⟨hco, ?_⟩, ⟨hn, ?_⟩⟩
  · exact key p1 (by norm_num) (by norm_num) (by norm_num)
  · exact key p2 (by norm_num) (by norm_num) (by norm_num)
  · exact key hh (by norm_num) (by norm_num) (by norm_num)
  · exact key hco (by norm_num) (by norm_num) (by norm_num)
  · exact key hn (by norm_num) (by norm_num) (by norm_num)

end Verif
