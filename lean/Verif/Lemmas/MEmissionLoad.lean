import Verif.Lemmas.MEmission
import Mathlib.Algebra.BigOperators.Ring.List

namespace Verif.MNet
open Ults Curve Net
open MEmis (Setup Report spent entered onRoad miles addTrip addTotals)

/-! ### One link -/

theorem travelling_length {truck : ℕ → Bool} {s : State} {l : ℕ} (hi : MLnk.Inv truck (s.links l).link) (b : Bool) :
    ((s.links l).link.travelling truck b).length = cls truck b (road (s.links l).link) := by
  have h := lane_length hi b
  unfold MLnk.Link.lane State.on State.fin State.inc at h
  rw [List.length_append, List.length_append, cls_append, cls_append, ← cls_eq_length, ← cls_eq_length] at h
  omega

theorem flow_sum {truck : ℕ → Bool} {s : State} {l : ℕ} (hi : MLnk.Inv truck (s.links l).link) (label : ℕ → ℤ)
    (ev : ℤ) (b : Bool) :
    ((s.links l).link.flowEmission truck label ev b).1 + ((s.links l).link.flowEmission truck label ev b).2
      = onRoad truck b (s.links l).link / (s.links l).link.scalar := by
  have h1 := travelling_length hi b
  have e : (onRoad truck b (s.links l).link : ℕ) = ((s.links l).link.travelling truck b
      ++ (s.links l).link.finished.filter fun v => truck v == b).length := by
    unfold onRoad
    rw [cls_append, List.length_append, h1, cls_eq_length]
    unfold MLnk.ofCls
    omega
  have e2 : ((s.links l).link.travelling truck b ++ (s.links l).link.finished.filter fun v => truck v == b)
      = (if b then (s.links l).link.travellingTrucks truck else (s.links l).link.travellingCars truck)
        ++ (s.links l).link.finished.filter fun v => truck v == b := rfl
  unfold MLnk.Link.flowEmission
  simp only
  rw [← e2, ← add_div, e]
  congr 1
  rw [← Nat.cast_add]
  congr 1
  rw [List.length_eq_countP_add_countP (fun v => decide (label v = ev))
    (l := ((s.links l).link.travelling truck b ++ (s.links l).link.finished.filter fun v => truck v == b)), add_comm]
  congr 1
  apply List.countP_congr
  intro v _
  simp

theorem flow_nonneg {truck : ℕ → Bool} {label : ℕ → ℤ} {ev : ℤ} {b : Bool} {l : MLnk.Link ℕ} (h : 0 < l.scalar) :
    0 ≤ (l.flowEmission truck label ev b).1 ∧ 0 ≤ (l.flowEmission truck label ev b).2 := by
  unfold MLnk.Link.flowEmission
  simp only
  exact ⟨by positivity, by positivity⟩

/-- The set of trips of a class. -/
def tripSet (r : Report) (b : Bool) : List ℕ := if b then r.trucks else r.cars

theorem addLink_eq {e : Setup} {s : State} {r r' : Report} {l : ℕ} (hi : MLnk.Inv s.truck (s.links l).link)
    (h : MEmis.addLink e s r l = some r') :
    (∀ b, r'.hours b = r.hours b + e.unit / 3600 * (onRoad s.truck b (s.links l).link / (s.links l).link.scalar)) ∧
      (∀ b, tripSet r' b = tripSet r b) := by
  unfold MEmis.addLink at h
  split at h
  · simp at h
  split at h
  · simp at h
  simp only at h
  rw [Option.bind_eq_some_iff] at h
  obtain ⟨fc, _, h⟩ := h
  rw [Option.bind_eq_some_iff] at h
  obtain ⟨cc, _, h⟩ := h
  rw [Option.bind_eq_some_iff] at h
  obtain ⟨ft, _, h⟩ := h
  rw [Option.bind_eq_some_iff] at h
  obtain ⟨ct, _, h⟩ := h
  cases h
  refine ⟨?_, ?_⟩
  · intro b
    cases b
    · have := flow_sum hi (fun x => (s.vehs x).label) e.evCar false
      simp only [Report.hours, Bool.false_eq_true, if_false]
      rw [this]; ring
    · have := flow_sum hi (fun x => (s.vehs x).label) e.evTruck true
      simp only [Report.hours, if_true]
      rw [this]; ring
  · intro b; cases b <;> rfl

theorem addLinks_eq {e : Setup} {s : State} : ∀ (ls : List ℕ) (r r' : Report),
    (∀ l ∈ ls, MLnk.Inv s.truck (s.links l).link) → ls.foldlM (MEmis.addLink e s) r = some r' →
    (∀ b, r'.hours b = r.hours b + e.unit / 3600 *
      (ls.map fun l => (onRoad s.truck b (s.links l).link : ℚ) / (s.links l).link.scalar).sum) ∧
      (∀ b, tripSet r' b = tripSet r b)
  | [], r, r', _, h => by
    simp only [List.foldlM_nil] at h
    cases h
    exact ⟨fun b => by simp, fun _ => rfl⟩
  | l :: ls, r, r', hi, h => by
    rw [List.foldlM_cons] at h
    obtain ⟨r1, h1, h2⟩ := Option.bind_eq_some_iff.1 h
    obtain ⟨a1, a2⟩ := addLink_eq (hi l (by simp)) h1
    obtain ⟨b1, b2⟩ := addLinks_eq ls r1 r' (fun k hk => hi k (by simp [hk])) h2
    refine ⟨?_, fun b => (b2 b).trans (a2 b)⟩
    intro b
    rw [b1, a1, List.map_cons, List.sum_cons]; ring

/-! ### Totals -/

theorem linkTime_fine {l : MLnk.Link ℕ} (h : Fine l) : ∃ t, MEmis.linkTime l = some t ∧ 0 < t := by
  obtain ⟨h1, h2, h3, h4, h5, h6⟩ := h
  cases l with
  | ctm l =>
    simp only [par] at *
    obtain ⟨t, a1, a2, _⟩ := Lnk.linkTt_bounds (lowest := 1 / 1000) (flow := (MLnk.Link.ctm l).flow)
      (hold := l.args.holdCar) (by norm_num) (by norm_num) h3 h4 h5 h6
    exact ⟨t, a1, a2⟩
  | lq l =>
    simp only [par] at *
    obtain ⟨t, a1, a2, _⟩ := Lnk.linkTt_bounds (lowest := Curve.dblEps) (flow := (MLnk.Link.lq l).flow)
      (hold := l.dia.holdCar) (by norm_num [Curve.dblEps]) (by norm_num [Curve.dblEps]) h3 h4 h5 h6
    exact ⟨t, a1, a2⟩
  | pq l =>
    simp only [par] at *
    refine ⟨l.args.length / l.args.ffsCar, ?_, by positivity⟩
    show Lnk.divO _ _ = _
    unfold Lnk.divO
    rw [if_neg h5.ne']

theorem Fine.length {l : MLnk.Link ℕ} (h : Fine l) : 0 < MEmis.length l ∧ 0 < l.scalar := by
  obtain ⟨h1, h2, h3, h4, h5, h6⟩ := h
  cases l <;> exact ⟨h4, h1⟩

theorem factor_pos {a b c v : ℚ} (ha : 0 ≤ a) (hb : 0 ≤ b) (hc : 0 ≤ c) : 0 ≤ MEmis.factor a b c v := by
  unfold MEmis.factor
  split
  · exact ha
  split
  · exact hb
  · exact hc

theorem addTotals_le {f c hc co nox d n ev : ℚ} (s : Emis.Totals) (h1 : 0 ≤ f) (h2 : 0 ≤ c) (h3 : 0 ≤ hc) (h4 : 0 ≤ co)
    (h5 : 0 ≤ nox) (h6 : 0 ≤ d) (h7 : 0 ≤ n) (h8 : 0 ≤ ev) :
    MEmis.le s (addTotals f c hc co nox d n ev s) ∧
      (addTotals f c hc co nox d n ev s).vmtEv - s.vmtEv ≤ (addTotals f c hc co nox d n ev s).vmt - s.vmt ∧
      (addTotals f c hc co nox d n ev s).vmt = s.vmt + d * (n + ev) := by
  unfold MEmis.le addTotals
  simp only
  have a1 : 0 ≤ f * d * n := by positivity
  have a2 : 0 ≤ c * d * n := by positivity
  have a3 : 0 ≤ hc * d * n := by positivity
  have a4 : 0 ≤ co * d * n := by positivity
  have a5 : 0 ≤ nox * d * n := by positivity
  have a6 : 0 ≤ d * ev := by positivity
  have a7 : 0 ≤ d * n := by positivity
  refine ⟨⟨?_, ?_, ?_, ?_, ?_, ?_, ?_⟩, ?_, trivial⟩
  · linarith
  · linarith
  · linarith
  · linarith
  · linarith
  · rw [mul_add]; linarith
  · linarith
  · rw [mul_add]; linarith

theorem addLink_fine {e : Setup} {s : State} {l : ℕ} (hu : 0 ≤ e.unit) (hf : Fine (s.links l).link)
    (hi : MLnk.Inv s.truck (s.links l).link) (r : Report) :
    ∃ r', MEmis.addLink e s r l = some r' ∧ ∀ b, MEmis.le (r.totals b) (r'.totals b) ∧
      (r'.totals b).vmtEv - (r.totals b).vmtEv ≤ (r'.totals b).vmt - (r.totals b).vmt ∧
      (r'.totals b).vmt = (r.totals b).vmt + miles e.unit s.truck b (s.links l).link := by
  obtain ⟨t, ht, ht0⟩ := linkTime_fine hf
  obtain ⟨hlen, hsc⟩ := hf.length
  unfold MEmis.addLink
  rw [ht]
  simp only
  rw [if_neg ht0.ne']
  have h5 : (5 : ℚ) ≤ min (max (MEmis.length (s.links l).link / t * 3600 / 1600) 5) 65 := by
    rw [le_min_iff]; exact ⟨le_max_right _ _, by norm_num⟩
  have h65 : min (max (MEmis.length (s.links l).link / t * 3600 / 1600) 5) 65 ≤ (65 : ℚ) := min_le_right _ _
  generalize min (max (MEmis.length (s.links l).link / t * 3600 / 1600) 5) 65 = vc at *
  obtain ⟨fc, e1, p1⟩ := Emis.fuelRate_ok h5 h65
  obtain ⟨cc, e2, p2⟩ := Emis.co2Rate_ok h5 h65
  have hk := factor_pos (a := 1.53) (b := 1.50) (c := 1.55) (v := vc) (by norm_num) (by norm_num) (by norm_num)
  have e3 : MEmis.fuelTruck vc = some (fc * MEmis.factor 1.53 1.50 1.55 vc) := by unfold MEmis.fuelTruck; rw [e1]; rfl
  have e4 : MEmis.co2Truck vc = some (cc * MEmis.factor 1.53 1.50 1.55 vc) := by unfold MEmis.co2Truck; rw [e2]; rfl
  rw [e1, e2, e3, e4]
  simp only [Option.bind_some]
  refine ⟨_, rfl, ?_⟩
  have hd : 0 ≤ MEmis.length (s.links l).link / t * e.unit / 1600 := by positivity
  have hh : 0 ≤ Emis.hcRate vc := le_max_right _ _
  have hco : 0 ≤ Emis.coRate vc := le_max_right _ _
  have hn : 0 ≤ Emis.noxRate vc := le_max_right _ _
  intro b
  cases b
  · obtain ⟨n1, n2⟩ := flow_nonneg (truck := s.truck) (label := fun x => (s.vehs x).label) (ev := e.evCar) (b := false) hsc
    obtain ⟨a1, a2, a3⟩ := addTotals_le r.car p1 p2 hh hco hn hd n1 n2
    refine ⟨a1, a2, ?_⟩
    simp only [Report.totals, Bool.false_eq_true, if_false]
    rw [a3, flow_sum hi]
    unfold miles MEmis.speed
    unfold MEmis.linkTime at ht
    rw [ht]
  · obtain ⟨n1, n2⟩ := flow_nonneg (truck := s.truck) (label := fun x => (s.vehs x).label) (ev := e.evTruck) (b := true) hsc
    have q1 : 0 ≤ MEmis.hcTruck vc := mul_nonneg hh (factor_pos (by norm_num) (by norm_num) (by norm_num))
    have q2 : 0 ≤ MEmis.coTruck vc := mul_nonneg hco (factor_pos (by norm_num) (by norm_num) (by norm_num))
    have q3 : 0 ≤ MEmis.noxTruck vc := mul_nonneg hn (factor_pos (by norm_num) (by norm_num) (by norm_num))
    obtain ⟨a1, a2, a3⟩ := addTotals_le r.truck (mul_nonneg p1 hk) (mul_nonneg p2 hk) q1 q2 q3 hd n1 n2
    refine ⟨a1, a2, ?_⟩
    simp only [Report.totals, if_true]
    rw [a3, flow_sum hi]
    unfold miles MEmis.speed
    unfold MEmis.linkTime at ht
    rw [ht]

theorem le_refl' (a : Emis.Totals) : MEmis.le a a := by unfold MEmis.le; simp

theorem le_trans' {a b d : Emis.Totals} (h : MEmis.le a b) (k : MEmis.le b d) : MEmis.le a d := by
  obtain ⟨h1, h2, h3, h4, h5, h6, h7⟩ := h
  obtain ⟨k1, k2, k3, k4, k5, k6, k7⟩ := k
  exact ⟨h1.trans k1, h2.trans k2, h3.trans k3, h4.trans k4, h5.trans k5, h6.trans k6, h7.trans k7⟩

theorem addLinks_fine {e : Setup} {s : State} (hu : 0 ≤ e.unit) : ∀ (ls : List ℕ) (r : Report),
    (∀ l ∈ ls, Fine (s.links l).link ∧ MLnk.Inv s.truck (s.links l).link) →
    ∃ r', ls.foldlM (MEmis.addLink e s) r = some r' ∧ ∀ b, MEmis.le (r.totals b) (r'.totals b) ∧
      (r'.totals b).vmtEv - (r.totals b).vmtEv ≤ (r'.totals b).vmt - (r.totals b).vmt ∧
      (r'.totals b).vmt = (r.totals b).vmt + (ls.map fun l => miles e.unit s.truck b (s.links l).link).sum
  | [], r, _ => ⟨r, rfl, fun b => ⟨le_refl' _, by simp, by simp⟩⟩
  | l :: ls, r, h => by
    obtain ⟨r1, a1, a2⟩ := addLink_fine hu (h l (by simp)).1 (h l (by simp)).2 r
    obtain ⟨r2, b1, b2⟩ := addLinks_fine hu ls r1 fun k hk => h k (by simp [hk])
    refine ⟨r2, ?_, ?_⟩
    · rw [List.foldlM_cons, a1]; exact b1
    · intro b
      obtain ⟨x1, x2, x3⟩ := a2 b
      obtain ⟨y1, y2, y3⟩ := b2 b
      refine ⟨le_trans' x1 y1, by linarith, ?_⟩
      rw [y3, x3, List.map_cons, List.sum_cons]; ring

theorem travelling_perm {truck : ℕ → Bool} {l : MLnk.Link ℕ} (hi : MLnk.Inv truck l) (b : Bool) :
    (l.travelling truck b).Perm ((road l).filter fun v => truck v == b) := by
  rw [List.perm_iff_count]
  intro v
  by_cases hv : truck v = b
  · rw [List.count_filter (p := fun w => truck w == b) (by simp [hv]), road_count (truck := truck)]
    have : v ∉ l.travelling truck (!b) := fun h => by
      have := MLnk.travelling_cls hi (!b) v h
      rw [hv] at this; cases b <;> simp at this
    have := List.count_eq_zero.2 this
    cases b
    · simp only [Bool.not_false] at this; omega
    · simp only [Bool.not_true] at this; omega
  · rw [List.count_eq_zero.2 fun h => hv (MLnk.travelling_cls hi b v h),
      List.count_eq_zero.2 (by simp [hv])]

theorem flow_split {truck : ℕ → Bool} {l : MLnk.Link ℕ} (hi : MLnk.Inv truck l) (label : ℕ → ℤ) (ev : ℤ) (b : Bool) :
    l.flowEmission truck label ev b
      = (MEmis.onRoadEv truck label ev b false l / l.scalar, MEmis.onRoadEv truck label ev b true l / l.scalar) := by
  have key : ∀ q : Bool, ((l.travelling truck b ++ l.finished.filter fun v => truck v == b).countP
      fun v => decide (label v = ev ↔ q = true)) = MEmis.onRoadEv truck label ev b q l := by
    intro q
    rw [List.countP_append, (travelling_perm hi b).countP_eq, List.countP_filter, List.countP_filter]
    unfold MEmis.onRoadEv
    rw [List.countP_append, add_comm]
    have e : (fun v => decide (label v = ev ↔ q = true) && (truck v == b))
        = fun v => decide (truck v = b ∧ (label v = ev ↔ q = true)) := by
      funext v
      by_cases h1 : truck v = b <;> by_cases h2 : (label v = ev ↔ q = true) <;> simp [h1, h2]
    rw [e]
  have k0 := key false
  have k1 := key true
  have e0 : (fun v => decide (label v = ev ↔ false = true)) = fun v => decide (label v ≠ ev) := by
    funext v; simp
  have e1 : (fun v => decide (label v = ev ↔ true = true)) = fun v => decide (label v = ev) := by
    funext v; simp
  rw [e0] at k0
  rw [e1] at k1
  unfold MLnk.Link.flowEmission
  simp only
  rw [← k0, ← k1]
  rfl

theorem times_factor (p q w v : ℚ) : MEmis.times true p q w v = MEmis.factor p q w v := by
  unfold MEmis.times MEmis.factor
  by_cases h1 : 55 ≤ v
  · rw [if_pos h1, if_neg (by linarith), if_neg (by linarith)]
  · by_cases h2 : 25 ≤ v
    · rw [if_neg h1, if_pos h2, if_neg (by linarith), if_pos (by linarith)]
    · rw [if_neg h1, if_neg h2, if_pos (by linarith)]

/-- What the vehicles of class `b` on link `l` add. -/
def gainAt (e : Setup) (s : State) (b : Bool) (l : ℕ) : Emis.Totals :=
  MEmis.gain e.unit b (s.links l).link
    (MEmis.onRoadEv s.truck (fun x => (s.vehs x).label) (if b then e.evTruck else e.evCar) b false (s.links l).link
      / (s.links l).link.scalar)
    (MEmis.onRoadEv s.truck (fun x => (s.vehs x).label) (if b then e.evTruck else e.evCar) b true (s.links l).link
      / (s.links l).link.scalar)

theorem addLink_gain {e : Setup} {s : State} {l : ℕ} (hi : MLnk.Inv s.truck (s.links l).link) {r r' : Report}
    (h : MEmis.addLink e s r l = some r') (b : Bool) :
    r'.totals b = MEmis.plus (r.totals b) (gainAt e s b l) := by
  have g : ∀ b' ev, (s.links l).link.flowEmission s.truck (fun x => (s.vehs x).label) ev b' = _ :=
    fun b' ev => flow_split hi _ ev b'
  unfold MEmis.addLink at h
  split at h
  · simp at h
  rename_i tt htt
  split at h
  · simp at h
  simp only [g] at h
  rw [Option.bind_eq_some_iff] at h
  obtain ⟨fc, f1, h⟩ := h
  rw [Option.bind_eq_some_iff] at h
  obtain ⟨cc, f2, h⟩ := h
  rw [Option.bind_eq_some_iff] at h
  obtain ⟨ft, f3, h⟩ := h
  rw [Option.bind_eq_some_iff] at h
  obtain ⟨ct, f4, h⟩ := h
  have hm : min (max (MEmis.length (s.links l).link / tt * 3600 / 1600) 5) 65 = MEmis.mph (s.links l).link := by
    unfold MEmis.mph MEmis.speed
    unfold MEmis.linkTime at htt
    rw [htt]
    simp only
    rw [min_comm, max_comm]
    congr 2
    ring
  have hd : MEmis.length (s.links l).link / tt * e.unit / 1600 = MEmis.distance e.unit (s.links l).link := by
    unfold MEmis.distance MEmis.speed
    unfold MEmis.linkTime at htt
    rw [htt]
  rw [hm] at h f1 f2 f3 f4
  rw [hd] at h
  cases h
  unfold MEmis.fuelTruck at f3
  unfold MEmis.co2Truck at f4
  rw [f1] at f3
  rw [f2] at f4
  cases f3
  cases f4
  cases b
  · simp only [Report.totals, Bool.false_eq_true, if_false, addTotals, MEmis.plus, gainAt, MEmis.gain, MEmis.times, f1, f2,
      Option.getD_some, one_mul, mul_assoc]
  · simp only [Report.totals, if_true, addTotals, MEmis.plus, gainAt, MEmis.gain, times_factor, f1, f2,
      Option.getD_some, MEmis.hcTruck, MEmis.coTruck, MEmis.noxTruck]
    congr 1 <;> ring

theorem addLinks_gain {e : Setup} {s : State} (b : Bool) : ∀ (ls : List ℕ) (r r' : Report),
    (∀ l ∈ ls, MLnk.Inv s.truck (s.links l).link) → ls.foldlM (MEmis.addLink e s) r = some r' →
    r'.totals b = ls.foldl (fun t l => MEmis.plus t (gainAt e s b l)) (r.totals b)
  | [], r, r', _, h => by
    simp only [List.foldlM_nil] at h
    cases h
    rfl
  | l :: ls, r, r', hi, h => by
    rw [List.foldlM_cons] at h
    obtain ⟨r1, h1, h2⟩ := Option.bind_eq_some_iff.1 h
    rw [addLinks_gain b ls r1 r' (fun k hk => hi k (by simp [hk])) h2, List.foldl_cons,
      addLink_gain (hi l (by simp)) h1]

/-! ### Trips -/

theorem mem_insert' {a x : ℕ} {l : List ℕ} : x ∈ MEmis.insert a l ↔ x ∈ l ∨ x = a := by
  unfold MEmis.insert
  split
  · rename_i h
    constructor
    · exact Or.inl
    · rintro (h' | rfl)
      · exact h'
      · exact h
  · simp

theorem nodup_insert' {a : ℕ} {l : List ℕ} (h : l.Nodup) : (MEmis.insert a l).Nodup := by
  unfold MEmis.insert
  split
  · exact h
  · rename_i hn
    rw [List.nodup_append]
    refine ⟨h, by simp, ?_⟩
    intro x hx y hy
    simp only [List.mem_singleton] at hy
    subst hy
    rintro rfl
    exact hn hx

theorem addTrip_spec (e : Setup) (s : State) (r : Report) (v : ℕ) :
    (∀ b, (addTrip e s r v).hours b = r.hours b ∧ (addTrip e s r v).totals b = r.totals b) ∧
    (∀ b, (tripSet r b).Nodup → (tripSet (addTrip e s r v) b).Nodup) ∧
    ∀ b x, x ∈ tripSet (addTrip e s r v) b ↔ x ∈ tripSet r b ∨
      ((∃ l ∈ e.reg, (s.vehs v).cur = some l) ∧ s.truck v = b ∧ e.addr v = x) := by
  unfold addTrip
  cases hc : (s.vehs v).cur with
  | none => exact ⟨fun b => ⟨rfl, rfl⟩, fun b h => h, fun b x => by simp⟩
  | some l =>
    simp only
    by_cases hl : l ∈ e.reg
    · rw [if_pos hl]
      cases ht : s.truck v
      · simp only [Bool.false_eq_true, if_false]
        refine ⟨fun b => by cases b <;> exact ⟨rfl, rfl⟩, ?_, ?_⟩
        · intro b h
          cases b
          · exact nodup_insert' h
          · exact h
        · intro b x
          cases b
          · simp only [tripSet, Bool.false_eq_true, if_false, mem_insert', Option.some.injEq, true_and, exists_eq_right', hl]
            exact or_congr_right eq_comm
          · simp [tripSet]
      · simp only [if_true]
        refine ⟨fun b => by cases b <;> exact ⟨rfl, rfl⟩, ?_, ?_⟩
        · intro b h
          cases b
          · exact h
          · exact nodup_insert' h
        · intro b x
          cases b
          · simp [tripSet]
          · simp only [tripSet, if_true, mem_insert', Option.some.injEq, true_and, exists_eq_right', hl]
            exact or_congr_right eq_comm
    · rw [if_neg hl]
      refine ⟨fun b => ⟨rfl, rfl⟩, fun b h => h, fun b x => ?_⟩
      constructor
      · exact Or.inl
      · rintro (h | ⟨⟨k, hk, hk'⟩, _⟩)
        · exact h
        · cases hk'; exact absurd hk hl

theorem addTrips_spec (e : Setup) (s : State) : ∀ (vs : List ℕ) (r : Report),
    (∀ b, (vs.foldl (addTrip e s) r).hours b = r.hours b ∧ (vs.foldl (addTrip e s) r).totals b = r.totals b) ∧
    (∀ b, (tripSet r b).Nodup → (tripSet (vs.foldl (addTrip e s) r) b).Nodup) ∧
    ∀ b x, x ∈ tripSet (vs.foldl (addTrip e s) r) b ↔ x ∈ tripSet r b ∨
      ∃ v ∈ vs, (∃ l ∈ e.reg, (s.vehs v).cur = some l) ∧ s.truck v = b ∧ e.addr v = x
  | [], r => ⟨fun b => ⟨rfl, rfl⟩, fun b h => h, fun b x => by simp⟩
  | v :: vs, r => by
    obtain ⟨a1, a2, a3⟩ := addTrip_spec e s r v
    obtain ⟨b1, b2, b3⟩ := addTrips_spec e s vs (addTrip e s r v)
    rw [List.foldl_cons]
    refine ⟨fun b => ⟨(b1 b).1.trans (a1 b).1, (b1 b).2.trans (a1 b).2⟩, fun b h => b2 b (a2 b h), ?_⟩
    intro b x
    rw [b3, a3]
    simp only [List.mem_cons, exists_eq_or_imp, or_assoc]

/-! ### One interval -/

/-- What is known of the state `s4` in which the report is updated in interval `ts`, when the interval starts with `s`
and ends with `s'`. -/
structure Snap (c : Cfg) (ts : ℕ) (s s4 s' : State) (es : List Event) : Prop where
  core : MCore c s4
  hist : MHistInv c (ts + 1) s4
  log : s4.log = s.log ++ es
  time : ∀ e ∈ es, e.t = ts
  truck : ∀ e ∈ s.log, s4.truck e.veh = s.truck e.veh
  cur : CurLog s4
  there : ∀ e ∈ es, ∀ l, e.dst = some l → (s4.vehs e.veh).cur = some l ∧ e.veh ∈ s4.vehMap
  log' : s'.log = s4.log
  truck' : s'.truck = s4.truck
  cur' : CurLog s'
  links' : s'.links = s4.links
  tag : ∀ l, tag (s4.links l).link = tag (s.links l).link
  fine : (∀ p ∈ c.attrs ts, GoodArgs p.2) → (∀ l, Fine (s.links l).link) → ∀ l, Fine (s4.links l).link
  inc : ∀ l ∈ c.net.linkIds, isPq (s.links l).link = false → s4.inc l = []

theorem MCore.on_on {c : Cfg} {s : State} (h : MCore c s) {v n m : ℕ} (hn : n ∈ c.net.linkIds)
    (hm : m ∈ c.net.linkIds) (h1 : v ∈ s.on n) (h2 : v ∈ s.on m) : n = m := by
  by_contra hne
  have a := count_flatMap_two (v := v) hn hm hne s.on
  have b := h.count_le v
  unfold State.places at b
  rw [List.count_append] at b
  have := List.count_pos_iff.2 h1
  have := List.count_pos_iff.2 h2
  omega

theorem setAttrs_par {c : Cfg} : ∀ (ps : List (ℕ × MLnk.Args)) (s s' : State),
    Res.foldlM (setAttr c) s ps = .ok s' →
    (∀ l, tag (s'.links l).link = tag (s.links l).link) ∧
      ((∀ p ∈ ps, GoodArgs p.2) → (∀ l, Fine (s.links l).link) → ∀ l, Fine (s'.links l).link)
  | [], s, s', h => by
    rw [Res.foldlM_nil] at h
    cases h
    exact ⟨fun _ => rfl, fun _ h => h⟩
  | p :: ps, s, s', h => by
    rw [Res.foldlM_cons, Res.bind_eq_ok] at h
    obtain ⟨s1, h1, h2⟩ := h
    obtain ⟨a1, a2⟩ := setAttrs_par ps s1 s' h2
    unfold setAttr at h1
    split at h1
    swap
    · simp at h1
    rw [Res.bind_eq_ok'] at h1
    obtain ⟨x, hx, h1⟩ := h1
    have e : s1.links = upd s.links p.1 { s.links p.1 with link := x } := by cases h1; rfl
    refine ⟨?_, ?_⟩
    · intro l
      rw [a1, e]
      by_cases hl : l = p.1
      · subst hl; rw [upd_same]; exact modify_tag hx
      · rw [upd_other _ _ _ _ hl]
    · intro hp hf
      refine a2 (fun q hq => hp q (by simp [hq])) ?_
      intro l
      rw [e]
      by_cases hl : l = p.1
      · subst hl; rw [upd_same]; exact modify_fine (hp p (by simp)) (hf _) hx
      · rw [upd_other _ _ _ _ hl]; exact hf l

theorem loadOnce_emis {c : Cfg} (hc : c.net.Ok) (hsc : c.net.scalar ≠ 0) {o : StepOracle} (ho : o.Ok c) {e : Setup}
    {ts assign : ℕ} {s : State} {rep : Option Report} {x : State × Option Report} (h : MInv c ts s)
    (H : MHistInv c ts s) (hcur : CurLog s) (r : MEmis.loadOnce c e o ts assign (s, rep) = .ok x) :
    loadOnce c o ts assign s = .ok x.1 ∧
      ∃ s4 es, Snap c ts s s4 x.1 es ∧ x.2 = rep.bind (MEmis.update e s4) := by
  unfold MEmis.loadOnce at r
  unfold loadOnce
  rw [Res.bind_eq_ok'] at r
  obtain ⟨s0, r0, r⟩ := r
  rw [Res.bind_eq_ok'] at r
  obtain ⟨s1, r1, r⟩ := r
  rw [Res.bind_eq_ok'] at r
  obtain ⟨s2, r2, r⟩ := r
  rw [Res.bind_eq_ok'] at r
  obtain ⟨s3, r3, r⟩ := r
  rw [Res.bind_eq_ok'] at r
  obtain ⟨s4, r4, r⟩ := r
  simp only at r
  rw [Res.bind_eq_ok'] at r
  obtain ⟨s', r5, r⟩ := r
  cases r
  simp only at r0
  refine ⟨?_, ?_⟩
  · rw [Res.bind_eq_ok']; refine ⟨s0, r0, ?_⟩
    rw [Res.bind_eq_ok']; refine ⟨s1, r1, ?_⟩
    rw [Res.bind_eq_ok']; refine ⟨s2, r2, ?_⟩
    rw [Res.bind_eq_ok']; refine ⟨s3, r3, ?_⟩
    rw [Res.bind_eq_ok']; exact ⟨s4, r4, r5⟩
  have L0 := setAttrs_step h.inv r0
  have h0 := h.attrs L0
  obtain ⟨k, R⟩ := stepRelease_rel ho r1
  have h1 := h0.toMCore.rel hc R
  obtain ⟨T, Te, _⟩ := update_routed r2
  have h2 := h1.routed T Te
  have N := stepNodes_step hc ho r3
  obtain ⟨es, HS⟩ := stepNodes_hist hc ho r3
  have CE := stepNodes_cur r3
  have h3 := h2.node hsc N
  have L := linksStep_all h3.inv r4
  have h4 := h3.links L
  have hL : s4.view = { s3.view with links := s4.view.links } := by rw [L.rest]; rfl
  have I4 := recvInv_of hc h0.net R.view T N.view h4.view hL
  have H0 := H.linksStep L0
  have H1 := H0.rel h0.toMCore R
  have H4 := (((H1.routed Te).nodes hc N h3 HS).linksStep L)
  have c0 : CurLog s0 := hcur.ev (curves_cur L0.rest)
  have c1 : CurLog s1 := c0.rel H0 R
  have c2 : CurLog s2 := by
    refine c1.ev (CurEv.same (by rw [Te]) ?_)
    intro v; exact T.cur v
  have c3 : CurLog s3 := c2.ev CE
  have c4 : CurLog s4 := c3.ev (curves_cur L.rest)
  have log1 : s1.log = s0.log := R.view.log
  have log0 : s0.log = s.log := by rw [L0.rest]
  have log2 : s2.log = s1.log := by rw [Te]
  have log4 : s4.log = s3.log := by rw [L.rest]
  have tr0 : s0.truck = s.truck := L0.truck
  have tr2 : s2.truck = s1.truck := by rw [Te]
  have tr3 : s3.truck = s2.truck := N.rest.truck
  have tr4 : s4.truck = s3.truck := L.truck
  obtain ⟨p1, p2⟩ := setAttrs_par _ _ _ r0
  obtain ⟨q1, _, q3⟩ := linksStep_par (c := c) _ _ _ (fun l hl => hl) h3.inv r4
  have lk1 : s1.links = s0.links := R.links
  have lk2 : s2.links = s1.links := by rw [Te]
  have par3 : ∀ l, par (s3.links l).link = par (s0.links l).link := by
    intro l; rw [N.link l, par_moved, lk2, lk1]
  obtain ⟨k1, k2, k3, k4⟩ : (s'.log = s4.log ∧ s'.truck = s4.truck ∧ CurLog s' ∧ s'.links = s4.links) := by
    have := Res.foldlM_inv_mem (P := fun t => (MCore c t ∧ RecvInv c.net ts t.view) ∧
        (t.log = s4.log ∧ t.truck = s4.truck ∧ CurLog t ∧ t.links = s4.links))
      c.net.destIds (by
        intro b d b' hd hb hbe
        refine ⟨hb.1.1.receive hc hd hb.1.2 hbe, ?_⟩
        have hnode := (hc.dests d hd).1
        obtain ⟨e, R⟩ := receive_view hbe
        obtain ⟨S, _⟩ := receive_spec e (hb.1.1.view.queue_nodup hnode)
        have hlog : b'.log = b.log := S.log
        obtain ⟨y1, y2, y3, y4⟩ := hb.2
        refine ⟨hlog.trans y1, R.truck.trans y2, ?_, R.links.trans y4⟩
        refine y3.ev (CurEv.same hlog ?_)
        intro v
        have := S.veh v
        simp only [Veh.mk.injEq] at this
        exact this.2.2.2.2.2.1) s4 s' ⟨⟨h4, I4⟩, rfl, rfl, c4, rfl⟩ r5
    exact this.2
  refine ⟨s4, es, ⟨h4, H4, ?_, HS.time, ?_, c4, ?_, k1, k2, k3, k4, ?_, ?_, ?_⟩, rfl⟩
  · rw [log4, HS.log, log2, log1, log0]
  · intro e he
    rw [tr4, tr3, tr2, R.truck _ (H0.moved e (by rw [log0]; exact he)).1.2, tr0]
  · intro ev hev l hd
    have hl := HS.dst ev hev l hd
    have hin : ev.veh ∈ s3.on l := by
      unfold State.on
      refine List.mem_append_right _ ?_
      rw [HS.inc]
      refine List.mem_append_right _ (List.mem_map_of_mem ?_)
      rw [List.mem_filter]; exact ⟨hev, by simp [hd]⟩
    refine ⟨?_, ?_⟩
    · rw [c4 ev.veh, log4, HS.log, after_append]
      refine after_same es _ ?_ (Or.inr ⟨ev, hev, rfl⟩)
      intro f hf hfv
      cases hfd : f.dst with
      | none =>
        exfalso
        obtain ⟨n, hn, hd', hq⟩ := HS.dest f hf hfd
        rw [hfv] at hq
        exact h3.queue_on hn hl hq hin
      | some l' =>
        have hl' := HS.dst f hf l' hfd
        have hin' : ev.veh ∈ s3.on l' := by
          unfold State.on
          refine List.mem_append_right _ ?_
          rw [HS.inc]
          refine List.mem_append_right _ ?_
          rw [← hfv]
          refine List.mem_map_of_mem ?_
          rw [List.mem_filter]; exact ⟨hf, by simp [hfd]⟩
        rw [h3.on_on hl' hl hin' hin]
    · have : s4.vehMap = s3.vehMap := by rw [L.rest]
      rw [this]; exact h3.on_map hl hin
  · intro l
    rw [tag_par (q1 l), tag_par (par3 l), p1 l]
  · intro hg hf l
    exact ((p2 hg hf l).par (par3 l)).par (q1 l)
  · intro l hl hpq
    refine q3 l hl ?_
    rw [isPq_par (par3 l), ← (tag_eq _).2, p1 l, (tag_eq _).2]; exact hpq

/-! ### The hours -/

theorem sum_sub_succ (T : ℕ) (l : List Event) :
    (l.map fun e => ((T + 1 : ℕ) : ℚ) - e.t).sum = (l.map fun e => (T : ℚ) - e.t).sum + l.length := by
  induction l with
  | nil => simp
  | cons e l ih =>
    rw [List.map_cons, List.sum_cons, List.map_cons, List.sum_cons, ih, List.length_cons]
    push_cast; ring

theorem sum_sub_same {T : ℕ} {l : List Event} (h : ∀ e ∈ l, e.t = T) : (l.map fun e => (T : ℚ) - e.t).sum = 0 := by
  induction l with
  | nil => simp
  | cons e l ih =>
    rw [List.map_cons, List.sum_cons, ih fun x hx => h x (by simp [hx]), h e (by simp)]
    ring

theorem spent_succ (truck : ℕ → Bool) (log : List Event) (T : ℕ) (b : Bool) (l : ℕ) :
    spent truck log (T + 1) b l
      = spent truck log T b l + ((came truck log b l).length - (went truck log b l).length : ℚ) := by
  unfold spent came went
  rw [sum_sub_succ, sum_sub_succ, List.length_map, List.length_map]
  ring

theorem spent_new (truck : ℕ → Bool) (log es : List Event) (T : ℕ) (h : ∀ e ∈ es, e.t = T) (b : Bool) (l : ℕ) :
    spent truck (log ++ es) T b l = spent truck log T b l := by
  unfold spent
  rw [List.filter_append, List.filter_append, List.map_append, List.map_append, List.sum_append, List.sum_append,
    sum_sub_same fun e he => h e (List.mem_of_mem_filter he), sum_sub_same fun e he => h e (List.mem_of_mem_filter he)]
  ring

theorem spent_congr {truck truck' : ℕ → Bool} {log : List Event} (h : ∀ e ∈ log, truck' e.veh = truck e.veh) (T : ℕ)
    (b : Bool) (l : ℕ) : spent truck' log T b l = spent truck log T b l := by
  unfold spent
  rw [filter_event_congr h, filter_event_congr h]

theorem Snap.spent {c : Cfg} {ts : ℕ} {s s4 s' : State} {es : List Event} (h : Snap c ts s s4 s' es) {l : ℕ}
    (hl : l ∈ c.net.linkIds) (b : Bool) :
    MEmis.spent s'.truck s'.log (ts + 1) b l
      = MEmis.spent s.truck s.log ts b l + onRoad s4.truck b (s4.links l).link + cls s4.truck b (s4.inc l) := by
  rw [h.log', h.truck', spent_succ, h.hist.balance l hl b, h.log, spent_new _ _ _ _ h.time, spent_congr h.truck,
    ← h.log]
  have : cls s4.truck b (s4.on l) = onRoad s4.truck b (s4.links l).link + cls s4.truck b (s4.inc l) := by
    unfold State.on onRoad
    rw [cls_append]
    rfl
  rw [this]
  push_cast; ring

/-- The report after interval `ts - 1`. -/
structure Told (c : Cfg) (e : Setup) (σ : ℚ) (ts : ℕ) (s : State) (r : Report) : Prop where
  hours : ∀ b, r.hours b * 3600 * σ ≤ e.unit * (e.reg.map fun l => spent s.truck s.log ts b l).sum
  hoursEq : (∀ l ∈ e.reg, isPq (s.links l).link = false) →
    ∀ b, r.hours b * 3600 * σ = e.unit * (e.reg.map fun l => spent s.truck s.log ts b l).sum
  nodup : ∀ b, (tripSet r b).Nodup
  mem : ∀ b x, x ∈ tripSet r b ↔ ∃ v ∈ entered s.truck s.log e.reg b, e.addr v = x

theorem mem_entered {truck : ℕ → Bool} {log : List Event} {reg : List ℕ} {b : Bool} {v : ℕ} :
    v ∈ entered truck log reg b ↔ ∃ ev ∈ log, (∃ l ∈ reg, ev.dst = some l) ∧ truck ev.veh = b ∧ ev.veh = v := by
  unfold entered
  simp only [List.mem_map, List.mem_filter, decide_eq_true_eq, and_assoc]

theorem Snap.told {c : Cfg} {e : Setup} {σ : ℚ} {ts : ℕ} {s s4 s' : State} {es : List Event} {r r' : Report}
    (h : Snap c ts s s4 s' es) (hreg : ∀ l ∈ e.reg, l ∈ c.net.linkIds) (hσ : 0 < σ) (hu : 0 ≤ e.unit)
    (hsc : ∀ l ∈ e.reg, (s.links l).link.scalar = σ) (t : Told c e σ ts s r)
    (hr : MEmis.update e s4 r = some r') : Told c e σ (ts + 1) s' r' := by
  unfold MEmis.update at hr
  rw [Option.map_eq_some_iff] at hr
  obtain ⟨r1, h1, h2⟩ := hr
  obtain ⟨a1, a2⟩ := addLinks_eq e.reg r r1 (fun l hl => h.core.inv l (hreg l hl)) h1
  obtain ⟨b1, b2, b3⟩ := addTrips_spec e s4 s4.vehMap r1
  rw [h2] at b1 b2 b3
  have hsum : ∀ b, (e.reg.map fun l => (onRoad s4.truck b (s4.links l).link : ℚ) / (s4.links l).link.scalar).sum * σ
      = (e.reg.map fun l => (onRoad s4.truck b (s4.links l).link : ℚ)).sum := by
    intro b
    rw [← List.sum_map_mul_right]
    congr 1
    apply List.map_congr_left
    intro l hl
    rw [show (s4.links l).link.scalar = σ by rw [← hsc l hl, ← (tag_eq _).1, h.tag l, (tag_eq _).1]]
    field_simp
  have hours : ∀ b, r'.hours b * 3600 * σ = r.hours b * 3600 * σ
      + e.unit * (e.reg.map fun l => (onRoad s4.truck b (s4.links l).link : ℚ)).sum := by
    intro b
    rw [(b1 b).1, a1 b, ← hsum b]
    ring
  have hspent : ∀ b, (e.reg.map fun l => MEmis.spent s'.truck s'.log (ts + 1) b l).sum
      = (e.reg.map fun l => MEmis.spent s.truck s.log ts b l).sum
        + (e.reg.map fun l => (onRoad s4.truck b (s4.links l).link : ℚ)).sum
        + (e.reg.map fun l => (cls s4.truck b (s4.inc l) : ℚ)).sum := by
    intro b
    rw [← List.sum_map_add, ← List.sum_map_add]
    congr 1
    apply List.map_congr_left
    intro l hl
    exact h.spent (hreg l hl) b
  refine ⟨?_, ?_, ?_, ?_⟩
  · intro b
    rw [hours b, hspent b]
    have p : 0 ≤ (e.reg.map fun l => (cls s4.truck b (s4.inc l) : ℚ)).sum := by
      apply List.sum_nonneg
      intro x hx
      obtain ⟨l, _, rfl⟩ := List.mem_map.1 hx
      positivity
    have := t.hours b
    have := mul_nonneg hu p
    linarith
  · intro hpq b
    rw [hours b, hspent b]
    have hpq' : ∀ l ∈ e.reg, isPq (s.links l).link = false := by
      intro l hl
      have := hpq l hl
      rw [h.links'] at this
      rw [← (tag_eq _).2, ← h.tag l, (tag_eq _).2]; exact this
    have p : (e.reg.map fun l => (cls s4.truck b (s4.inc l) : ℚ)).sum = 0 := by
      apply List.sum_eq_zero
      intro x hx
      obtain ⟨l, hl, rfl⟩ := List.mem_map.1 hx
      rw [h.inc l (hreg l hl) (hpq' l hl)]
      simp [cls]
    rw [t.hoursEq hpq' b, p]
    ring
  · intro b
    refine b2 b ?_
    rw [a2 b]; exact t.nodup b
  · intro b x
    rw [b3 b x, a2 b, t.mem b x]
    constructor
    · rintro (⟨v, hv, hx⟩ | ⟨v, hv, ⟨l, hl, hcur⟩, htr, hx⟩)
      · refine ⟨v, ?_, hx⟩
        rw [mem_entered] at hv ⊢
        obtain ⟨ev, he, hd, ht, hev⟩ := hv
        refine ⟨ev, by rw [h.log', h.log]; exact List.mem_append_left _ he, hd, ?_, hev⟩
        rw [h.truck', h.truck ev he]; exact ht
      · refine ⟨v, ?_, hx⟩
        rw [mem_entered]
        rw [h.cur v] at hcur
        obtain h0 | ⟨ev, he, hev, hd⟩ := after_some _ _ hcur
        · simp at h0
        refine ⟨ev, by rw [h.log']; exact he, ⟨l, hl, hd⟩, ?_, hev⟩
        rw [h.truck', hev]; exact htr
    · rintro ⟨v, hv, hx⟩
      rw [mem_entered] at hv
      obtain ⟨ev, he, ⟨l, hl, hd⟩, ht, hev⟩ := hv
      rw [h.log', h.log] at he
      rw [h.truck'] at ht
      rcases List.mem_append.1 he with he | he
      · left
        refine ⟨v, ?_, hx⟩
        rw [mem_entered]
        refine ⟨ev, he, ⟨l, hl, hd⟩, ?_, hev⟩
        rw [← h.truck ev he]; exact ht
      · right
        obtain ⟨c1, c2⟩ := h.there ev he l hd
        rw [hev] at c1 c2 ht
        exact ⟨v, c2, ⟨l, hl, c1⟩, ht, hx⟩

theorem update_fine {c : Cfg} {e : Setup} {s : State} (hreg : ∀ l ∈ e.reg, l ∈ c.net.linkIds) (hu : 0 ≤ e.unit)
    (hf : ∀ l, Fine (s.links l).link) (h : MCore c s)
    (r : Report) :
    ∃ r', MEmis.update e s r = some r' ∧ ∀ b, MEmis.le (r.totals b) (r'.totals b) ∧
      (r'.totals b).vmtEv - (r.totals b).vmtEv ≤ (r'.totals b).vmt - (r.totals b).vmt ∧
      (r'.totals b).vmt = (r.totals b).vmt + (e.reg.map fun l => miles e.unit s.truck b (s.links l).link).sum := by
  obtain ⟨r1, h1, h2⟩ := addLinks_fine hu e.reg r fun l hl => ⟨hf l, h.inv l (hreg l hl)⟩
  refine ⟨s.vehMap.foldl (addTrip e s) r1, ?_, ?_⟩
  · unfold MEmis.update; rw [h1]; rfl
  · intro b
    rw [((addTrips_spec e s s.vehMap r1).1 b).2]
    exact h2 b

/-! ### The whole loading -/

theorem loadMany_plain {c : Cfg} (hc : c.net.Ok) (hsc : c.net.scalar ≠ 0) {e : Setup} : ∀ (os : List StepOracle)
    (ts assign : ℕ) (s : State) (rep : Option Report) (x : (State × Option Report) × ℕ × ℕ), (∀ o ∈ os, o.Ok c) →
    MEmis.loadMany c e os ts assign (s, rep) = .ok x → loadMany c os ts assign s = .ok (x.1.1, x.2)
  | [], ts, assign, s, rep, x, _, h => by
    simp only [MEmis.loadMany, Res.ok.injEq] at h
    subst h
    rfl
  | o :: os, ts, assign, s, rep, x, ho, h => by
    simp only [MEmis.loadMany] at h
    rw [Res.bind_eq_ok'] at h
    obtain ⟨y, h1, h2⟩ := h
    simp only [loadMany]
    rw [Res.bind_eq_ok']
    refine ⟨y.1, ?_, loadMany_plain hc hsc os _ _ y.1 y.2 x (fun z hz => ho z (by simp [hz])) h2⟩
    unfold MEmis.loadOnce at h1
    unfold loadOnce
    rw [Res.bind_eq_ok'] at h1
    obtain ⟨s0, r0, h1⟩ := h1
    rw [Res.bind_eq_ok'] at h1
    obtain ⟨s1, r1, h1⟩ := h1
    rw [Res.bind_eq_ok'] at h1
    obtain ⟨s2, r2, h1⟩ := h1
    rw [Res.bind_eq_ok'] at h1
    obtain ⟨s3, r3, h1⟩ := h1
    rw [Res.bind_eq_ok'] at h1
    obtain ⟨s4, r4, h1⟩ := h1
    simp only at h1
    rw [Res.bind_eq_ok'] at h1
    obtain ⟨s', r5, h1⟩ := h1
    cases h1
    rw [Res.bind_eq_ok']; refine ⟨s0, r0, ?_⟩
    rw [Res.bind_eq_ok']; refine ⟨s1, r1, ?_⟩
    rw [Res.bind_eq_ok']; refine ⟨s2, r2, ?_⟩
    rw [Res.bind_eq_ok']; refine ⟨s3, r3, ?_⟩
    rw [Res.bind_eq_ok']; exact ⟨s4, r4, r5⟩

theorem loadMany_told {c : Cfg} (hc : c.net.Ok) (hsc : c.net.scalar ≠ 0) {e : Setup} {σ : ℚ}
    (hreg : ∀ l ∈ e.reg, l ∈ c.net.linkIds) (hσ : 0 < σ) (hu : 0 ≤ e.unit) : ∀ (os : List StepOracle)
    (ts assign : ℕ) (s : State) (rep : Option Report) (x : (State × Option Report) × ℕ × ℕ), (∀ o ∈ os, o.Ok c) →
    MInv c ts s → MHistInv c ts s → CurLog s → (∀ l ∈ e.reg, (s.links l).link.scalar = σ) →
    (∀ r, rep = some r → Told c e σ ts s r) →
    MEmis.loadMany c e os ts assign (s, rep) = .ok x →
    (∀ r, x.1.2 = some r → Told c e σ (ts + os.length) x.1.1 r) ∧ ∀ l, tag (x.1.1.links l).link = tag (s.links l).link
  | [], ts, assign, s, rep, x, _, _, _, _, _, ht, h => by
    simp only [MEmis.loadMany, Res.ok.injEq] at h
    subst h
    exact ⟨ht, fun _ => rfl⟩
  | o :: os, ts, assign, s, rep, x, ho, hi, hh, hcur, hs, ht, h => by
    simp only [MEmis.loadMany] at h
    rw [Res.bind_eq_ok'] at h
    obtain ⟨y, h1, h2⟩ := h
    obtain ⟨g1, s4, es, S, g2⟩ := loadOnce_emis hc hsc (ho o (by simp)) hi hh hcur h1
    have htag : ∀ l, tag (y.1.links l).link = tag (s.links l).link := by intro l; rw [S.links']; exact S.tag l
    obtain ⟨z1, z2⟩ := loadMany_told hc hsc hreg hσ hu os _ _ y.1 y.2 x (fun z hz => ho z (by simp [hz]))
      (loadOnce_inv hc hsc (ho o (by simp)) hi g1) (loadOnce_hist hc hsc (ho o (by simp)) hi hh g1) S.cur'
      (by intro l hl; rw [← hs l hl, ← (tag_eq _).1, htag l, (tag_eq _).1])
      (by
        intro r' hr'
        rw [g2, Option.bind_eq_some_iff] at hr'
        obtain ⟨r, hr, hr'⟩ := hr'
        exact S.told hreg hσ hu hs (ht r hr) hr') h2
    refine ⟨?_, fun l => (z2 l).trans (htag l)⟩
    rw [List.length_cons, show ts + (os.length + 1) = ts + 1 + os.length by omega]
    exact z1

theorem loadMany_cur {c : Cfg} (hc : c.net.Ok) (hsc : c.net.scalar ≠ 0) {e : Setup} : ∀ (os : List StepOracle)
    (ts assign : ℕ) (s : State) (rep : Option Report) (x : (State × Option Report) × ℕ × ℕ), (∀ o ∈ os, o.Ok c) →
    MInv c ts s → MHistInv c ts s → CurLog s →
    MEmis.loadMany c e os ts assign (s, rep) = .ok x → CurLog x.1.1
  | [], ts, assign, s, rep, x, _, _, _, hcur, h => by
    simp only [MEmis.loadMany, Res.ok.injEq] at h
    subst h
    exact hcur
  | o :: os, ts, assign, s, rep, x, ho, hi, hh, hcur, h => by
    simp only [MEmis.loadMany] at h
    rw [Res.bind_eq_ok'] at h
    obtain ⟨y, h1, h2⟩ := h
    obtain ⟨g1, s4, es, S, g2⟩ := loadOnce_emis hc hsc (ho o (by simp)) hi hh hcur h1
    exact loadMany_cur hc hsc os _ _ y.1 y.2 x (fun z hz => ho z (by simp [hz]))
      (loadOnce_inv hc hsc (ho o (by simp)) hi g1) (loadOnce_hist hc hsc (ho o (by simp)) hi hh g1) S.cur' h2

theorem loadMany_totals {c : Cfg} (hc : c.net.Ok) (hsc : c.net.scalar ≠ 0) {e : Setup}
    (hreg : ∀ l ∈ e.reg, l ∈ c.net.linkIds) (hu : 0 ≤ e.unit)
    (hat : ∀ ts, ∀ p ∈ c.attrs ts, GoodArgs p.2) : ∀ (os : List StepOracle)
    (ts assign : ℕ) (s : State) (r : Report) (x : (State × Option Report) × ℕ × ℕ), (∀ o ∈ os, o.Ok c) →
    MInv c ts s → MHistInv c ts s → CurLog s → (∀ l, Fine (s.links l).link) →
    MEmis.loadMany c e os ts assign (s, some r) = .ok x →
    ∃ r', x.1.2 = some r' ∧ ∀ b, MEmis.le (r.totals b) (r'.totals b) ∧
      (r'.totals b).vmtEv - (r.totals b).vmtEv ≤ (r'.totals b).vmt - (r.totals b).vmt
  | [], ts, assign, s, r, x, _, _, _, _, _, h => by
    simp only [MEmis.loadMany, Res.ok.injEq] at h
    subst h
    exact ⟨r, rfl, fun b => ⟨le_refl' _, by simp⟩⟩
  | o :: os, ts, assign, s, r, x, ho, hi, hh, hcur, hs, h => by
    simp only [MEmis.loadMany] at h
    rw [Res.bind_eq_ok'] at h
    obtain ⟨⟨t, rep⟩, h1, h2⟩ := h
    obtain ⟨g1, s4, es, S, g2⟩ := loadOnce_emis hc hsc (ho o (by simp)) hi hh hcur h1
    have hf4 := S.fine (hat ts) hs
    obtain ⟨r1, e1, e2⟩ := update_fine (e := e) hreg hu hf4 S.core r
    simp only [Option.bind_some] at g2
    rw [e1] at g2
    subst g2
    obtain ⟨r2, f1, f2⟩ := loadMany_totals hc hsc hreg hu hat os _ _ t r1 x (fun z hz => ho z (by simp [hz]))
      (loadOnce_inv hc hsc (ho o (by simp)) hi g1) (loadOnce_hist hc hsc (ho o (by simp)) hi hh g1) S.cur'
      (by intro l; rw [show t.links = s4.links from S.links']; exact hf4 l) h2
    refine ⟨r2, f1, fun b => ?_⟩
    obtain ⟨x1, x2, _⟩ := e2 b
    obtain ⟨y1, y2⟩ := f2 b
    exact ⟨le_trans' x1 y1, by linarith⟩

theorem fresh_cur {s : State} (h : Fresh s) : CurLog s := by
  obtain ⟨links, rfl, _⟩ := h
  intro v
  rfl

theorem fresh_told {c : Cfg} {e : Setup} {σ : ℚ} {s : State} (h : Fresh s) : Told c e σ 0 s Report.zero := by
  obtain ⟨links, rfl, _⟩ := h
  refine ⟨?_, ?_, ?_, ?_⟩
  · intro b; cases b <;> simp [Report.hours, Report.zero, spent, State.init]
  · intro _ b; cases b <;> simp [Report.hours, Report.zero, spent, State.init]
  · intro b; cases b <;> simp [tripSet, Report.zero]
  · intro b x; cases b <;> simp [tripSet, Report.zero, entered, State.init]

end Verif.MNet
