import Verif.Lemmas.MmBest
import Verif.Props.ShortestPath

/-!
# C206: the best new passenger path

The search of the multimodal equilibrium for a new path: over all departure intervals and usable modes it returns the
cheapest path on offer, and frees every other one.  With park and ride it does not: deleting a park-and-ride path
frees its two paths twice.
-/

namespace Verif

open MmDue MmBest

private theorem driving_mode (e : Env) (i : ℕ) (r : Route) (c : Sp.Cost) (h : offerDriving e i = .ok (some (r, c))) :
    r.mode = .driving := by
  rw [offerDriving] at h
  obtain ⟨_, _, h⟩ := Res.bind_eq_ok'.1 h
  obtain ⟨_, _, h⟩ := Res.bind_eq_ok'.1 h
  obtain ⟨_, _, h⟩ := Res.bind_eq_ok'.1 h
  cases h
  rfl

private theorem bus_mode (e : Env) (i : ℕ) (r : Route) (c : Sp.Cost) (h : offerBus e i = .ok (some (r, c))) :
    r.mode = .transit := by
  rw [offerBus] at h
  split_ifs at h
  all_goals first
    | cases h
    | (obtain ⟨_, _, h⟩ := Res.bind_eq_ok'.1 h
       obtain ⟨_, _, h⟩ := Res.bind_eq_ok'.1 h
       obtain ⟨_, _, h⟩ := Res.bind_eq_ok'.1 h
       cases h
       rfl)

private theorem cheapest_first (is : List ℕ) (hp : is.Pairwise (· < ·)) (o : ℕ → Option (Route × Sp.Cost))
    (off : ℕ → Route → Sp.Cost → Prop) (m : Mode) (hoff : ∀ i r c, off i r c ↔ i ∈ is ∧ o i = some (r, c))
    (hm : ∀ i r c, off i r c → r.mode = m) (b : Option Best) (h : First (is.map fun i => (i, o i)) b) :
    Cheapest off b := by
  cases b with
  | none =>
    intro i r c hi
    obtain ⟨h1, h2⟩ := (hoff i r c).1 hi
    exact h i r c (List.mem_map.2 ⟨i, h1, by rw [h2]⟩)
  | some b =>
    have hb := h
    obtain ⟨h0, pre, post, he, h1, h2⟩ := h
    have hmem : (b.time, some (b.route, b.cost)) ∈ is.map fun i => (i, o i) := by rw [he]; simp
    have hbo : off b.time b.route b.cost := by
      obtain ⟨j, hj, hje⟩ := List.mem_map.1 hmem
      rw [Prod.mk.injEq] at hje
      rw [← hje.1]
      exact (hoff _ _ _).2 ⟨hj, hje.2⟩
    refine ⟨hbo, h0, fun i r c hi => ?_⟩
    obtain ⟨g1, g2⟩ := (hoff i r c).1 hi
    have gm : (i, some (r, c)) ∈ is.map fun i => (i, o i) := List.mem_map.2 ⟨i, g1, by rw [g2]⟩
    refine ⟨first_cost _ (some b) hb i r c gm, fun hlt0 => ?_⟩
    have hlt : i < b.time := by
      rcases hlt0 with hlt | hlt
      · rw [hm i r c hi, hm _ _ _ hbo] at hlt
        exact absurd hlt (lt_irrefl _)
      · exact hlt.2
    have hpw : (pre ++ (b.time, some (b.route, b.cost)) :: post).Pairwise fun x y => x.1 < y.1 := by
      rw [← he]
      exact List.pairwise_map.2 hp
    rw [he] at gm
    rw [List.mem_append, List.mem_cons] at gm
    rcases gm with gm | gm | gm
    · exact h1 i r c gm
    · rw [Prod.mk.injEq] at gm
      omega
    · have := (List.pairwise_cons.1 (List.pairwise_append.1 hpw).2.1).1 _ gm
      simp only at this
      omega

private theorem owns_inv (h0 : Heap) (hf : h0.Fresh) (offs : List (ℕ × Option (Route × Sp.Cost))) (b : Option Best)
    (h' : Heap) (hi : SInv h0 offs (b, h')) : Owns h0 h' b := by
  have := hi.owns
  cases b with
  | none => exact this
  | some b =>
    obtain ⟨a, ha, hp, ho⟩ := this
    exact ⟨a, hf a ha, by rw [hp]; exact hf _ (by omega), by omega, by simp only at ho; rw [ho, hp]⟩

private theorem driving_inv (e : Env) (is : List ℕ) (h : Heap) (hf : h.Fresh) (o : ℕ → Option (Route × Sp.Cost))
    (ho : ∀ i ∈ is, offerDriving e i = .ok (o i)) :
    ∃ s, bestDriving e is h = .ok s ∧ SInv h (is.map fun i => (i, o i)) s := by
  have := search_two h hf (newDriving e) o is (fun i hi => two_driving e i (o i) (ho i hi)) [] (none, h) (inv_init h hf)
  rw [List.nil_append] at this
  exact this

private theorem bus_inv (e : Env) (is : List ℕ) (h : Heap) (hf : h.Fresh) (o : ℕ → Option (Route × Sp.Cost))
    (ho : ∀ i ∈ is, offerBus e i = .ok (o i)) :
    ∃ s, bestBus e is h = .ok s ∧ SInv h (is.map fun i => (i, o i)) s := by
  have := search_two h hf (newBus e) o is (fun i hi => two_bus e i (o i) (ho i hi)) [] (none, h) (inv_init h hf)
  rw [List.nil_append] at this
  exact this

/-- **C206, one mode.**  If the tree answers for every departure interval asked (in increasing order), the search of
driving ends with the cheapest of the paths offered, the earliest of several cheapest ones; it returns nothing only
if no offer has a finite cost.  Of all the objects it makes, exactly the passenger path it returns and the path it
owns are left, and no older object is touched.  The same holds of transit. -/
theorem C206_one_mode (e : Env) (is : List ℕ) (hp : is.Pairwise (· < ·)) (h : Heap) (hf : h.Fresh) :
    ((∀ i ∈ is, ∃ o, offerDriving e i = .ok o) → ∃ b h', bestDriving e is h = .ok (b, h') ∧
      Cheapest (fun i r c => i ∈ is ∧ offerDriving e i = .ok (some (r, c))) b ∧ Owns h h' b) ∧
    ((∀ i ∈ is, ∃ o, offerBus e i = .ok o) → ∃ b h', bestBus e is h = .ok (b, h') ∧
      Cheapest (fun i r c => i ∈ is ∧ offerBus e i = .ok (some (r, c))) b ∧ Owns h h' b) := by
  constructor
  · intro ha
    choose! o ho using ha
    obtain ⟨⟨b, h'⟩, h1, h2⟩ := driving_inv e is h hf o ho
    refine ⟨b, h', h1, ?_, owns_inv h hf _ b h' h2⟩
    refine cheapest_first is hp o _ .driving (fun i r c => ?_) (fun i r c hi => driving_mode e i r c hi.2) b h2.first
    constructor
    · rintro ⟨hi, hh⟩
      rw [ho i hi] at hh
      exact ⟨hi, Res.ok.inj hh⟩
    · rintro ⟨hi, hh⟩
      exact ⟨hi, by rw [ho i hi, hh]⟩
  · intro ha
    choose! o ho using ha
    obtain ⟨⟨b, h'⟩, h1, h2⟩ := bus_inv e is h hf o ho
    refine ⟨b, h', h1, ?_, owns_inv h hf _ b h' h2⟩
    refine cheapest_first is hp o _ .transit (fun i r c => ?_) (fun i r c hi => bus_mode e i r c hi.2) b h2.first
    constructor
    · rintro ⟨hi, hh⟩
      rw [ho i hi] at hh
      exact ⟨hi, Res.ok.inj hh⟩
    · rintro ⟨hi, hh⟩
      exact ⟨hi, by rw [ho i hi, hh]⟩

/-- **C206, the cost of an offer.**  A path that departs in loading interval `i` costs the disutility of its mode for
its travel cost at `i` and for the demand of the assignment interval that `i` falls into, or of the last assignment
interval for later departures. -/
theorem C206_cost (e : Env) (r : Route) (i k : ℕ) (hq : 0 < e.frq) (ha : 0 < e.assign) :
    (k * e.frq ≤ i → i < (k + 1) * e.frq → k < e.assign →
      e.price r i = .ok (e.dis r.mode (e.travel r i) (e.demand r.mode k))) ∧
    (e.assign * e.frq ≤ i → e.price r i = .ok (e.dis r.mode (e.travel r i) (e.demand r.mode (e.assign - 1)))) := by
  unfold Env.price
  rw [if_neg (by omega)]
  constructor
  · intro h1 h2 h3
    have : i / e.frq = k := by
      have a := (Nat.le_div_iff_mul_le hq).2 h1
      have b := (Nat.div_lt_iff_lt_mul hq).2 h2
      omega
    simp only [this]
    rw [if_neg (by omega)]
  · intro h1
    have : e.assign ≤ i / e.frq := (Nat.le_div_iff_mul_le hq).2 h1
    simp only [ge_iff_le, this, if_true]

/-- Both cases: two intervals of assignment of ten loading intervals each. -/
example : let e : Env := ⟨0, Graph.empty, Graph.empty, 0, 0, fun _ => ⟨fun _ _ => 0, fun _ _ => 0⟩,
      ⟨fun _ _ => 0, fun _ _ => 0⟩, fun _ => none, fun _ => none, 0, 0, none, [], fun _ _ => 0, fun _ i => (i : ℚ),
      fun _ c d => c + (d : ℚ), fun _ k => (k : ℚ) * 100, 10, 2, 30⟩
    e.price (.transit []) 13 = .ok ((113 : ℚ) : Sp.Cost) ∧ e.price (.transit []) 27 = .ok ((127 : ℚ) : Sp.Cost) := by
  decide +kernel

private theorem cheapest_winner (offD offB : ℕ → Route → Sp.Cost → Prop) (bD bB : Option Best)
    (hD : Cheapest offD bD) (hB : Cheapest offB bB) (mD : ∀ i r c, offD i r c → r.mode = .driving)
    (mB : ∀ i r c, offB i r c → r.mode = .transit) :
    Cheapest (fun i r c => offD i r c ∨ offB i r c) (winner bD bB) := by
  cases bB with
  | none =>
    cases bD with
    | none =>
      show ∀ i r c, (offD i r c ∨ offB i r c) → c = ⊤
      rintro i r c (hi | hi)
      · exact hD i r c hi
      · exact hB i r c hi
    | some y =>
      show _ ∧ _
      refine ⟨Or.inl hD.1, hD.2.1, ?_⟩
      rintro i r c (hi | hi)
      · exact hD.2.2 i r c hi
      · rw [hB i r c hi]
        exact ⟨le_top, fun _ => hD.2.1⟩
  | some x =>
    cases bD with
    | none =>
      show _ ∧ _
      refine ⟨Or.inr hB.1, hB.2.1, ?_⟩
      rintro i r c (hi | hi)
      · rw [hD i r c hi]
        exact ⟨le_top, fun _ => hB.2.1⟩
      · exact hB.2.2 i r c hi
    | some y =>
      have my := mD _ _ _ hD.1
      have mx := mB _ _ _ hB.1
      by_cases hc : x.cost < y.cost
      · have : winner (some y) (some x) = some x := if_pos hc
        rw [this]
        refine ⟨Or.inr hB.1, hB.2.1, ?_⟩
        rintro i r c (hi | hi)
        · have := (hD.2.2 i r c hi).1
          exact ⟨(hc.trans_le this).le, fun _ => hc.trans_le this⟩
        · exact hB.2.2 i r c hi
      · have : winner (some y) (some x) = some y := if_neg hc
        rw [this]
        refine ⟨Or.inl hD.1, hD.2.1, ?_⟩
        rintro i r c (hi | hi)
        · exact hD.2.2 i r c hi
        · refine ⟨(not_lt.1 hc).trans (hB.2.2 i r c hi).1, fun hh => ?_⟩
          rw [mB i r c hi, my] at hh
          rcases hh with hh | hh
          · simp [rank] at hh
          · simp at hh

/-- **C206 (without park and ride).**  The search over the usable modes returns the cheapest path that a usable mode
offers for any departure interval: no offer is cheaper, of equal ones driving comes before transit and an earlier
departure before a later one, and there is no result only if no offer has a finite cost.  All other objects it made
are deleted, and nothing else.  Missing: park and ride, where this is false. -/
theorem C206_best_partial (e : Env) (usable : Mode → Bool) (is js : List ℕ) (hi : is.Pairwise (· < ·))
    (hj : js.Pairwise (· < ·)) (h : Heap) (hf : h.Fresh) (hpnr : usable .pnr = false)
    (hD : usable .driving = true → ∀ i ∈ is, ∃ o, offerDriving e i = .ok o)
    (hB : usable .transit = true → ∀ i ∈ js, ∃ o, offerBus e i = .ok o) :
    ∃ b h', bestOf e usable is js h = .ok (b, h') ∧
      Cheapest (fun i r c => (usable .driving = true ∧ i ∈ is ∧ offerDriving e i = .ok (some (r, c))) ∨
        (usable .transit = true ∧ i ∈ js ∧ offerBus e i = .ok (some (r, c)))) b ∧ Owns h h' b := by
  have stepD : ∃ bD hD' oD, (if usable .driving then bestDriving e is h else .ok (none, h)) = .ok (bD, hD') ∧
      SInv h oD (bD, hD') ∧
      Cheapest (fun i r c => usable .driving = true ∧ i ∈ is ∧ offerDriving e i = .ok (some (r, c))) bD := by
    by_cases hu : usable .driving = true
    · have ha := hD hu
      choose! o ho using ha
      obtain ⟨⟨b, h'⟩, h1, h2⟩ := driving_inv e is h hf o ho
      refine ⟨b, h', _, by rw [if_pos hu, h1], h2, ?_⟩
      refine cheapest_first is hi o _ .driving (fun i r c => ?_) (fun i r c hh => driving_mode e i r c hh.2.2) b h2.first
      constructor
      · rintro ⟨_, hm, hh⟩
        rw [ho i hm] at hh
        exact ⟨hm, Res.ok.inj hh⟩
      · rintro ⟨hm, hh⟩
        exact ⟨hu, hm, by rw [ho i hm, hh]⟩
    · exact ⟨none, h, [], by rw [if_neg hu], inv_init h hf, fun i r c hh => absurd hh.1 hu⟩
  obtain ⟨bD, hD', oD, e1, i1, c1⟩ := stepD
  have mD : ∀ i r c, (usable .driving = true ∧ i ∈ is ∧ offerDriving e i = .ok (some (r, c))) → r.mode = .driving :=
    fun i r c hh => driving_mode e i r c hh.2.2
  have mB : ∀ i r c, (usable .transit = true ∧ i ∈ js ∧ offerBus e i = .ok (some (r, c))) → r.mode = .transit :=
    fun i r c hh => bus_mode e i r c hh.2.2
  unfold bestOf
  rw [e1, Res.bind_ok']
  by_cases hu : usable .transit = true
  · have ha := hB hu
    choose! o ho using ha
    obtain ⟨⟨bB, hB'⟩, h1, h2⟩ := bus_inv e js hD' i1.fresh o ho
    have c2 : Cheapest (fun i r c => usable .transit = true ∧ i ∈ js ∧ offerBus e i = .ok (some (r, c))) bB := by
      refine cheapest_first js hj o _ .transit (fun i r c => ?_) (fun i r c hh => bus_mode e i r c hh.2.2) bB h2.first
      constructor
      · rintro ⟨_, hm, hh⟩
        rw [ho i hm] at hh
        exact ⟨hm, Res.ok.inj hh⟩
      · rintro ⟨hm, hh⟩
        exact ⟨hu, hm, by rw [ho i hm, hh]⟩
    obtain ⟨h', g1, g2, _⟩ := duel_two h hD' hB' bD bB _ _ hf i1 h2
    refine ⟨winner bD bB, h', ?_, cheapest_winner _ _ bD bB c1 c2 mD mB, g2⟩
    simp only [hu, if_true, hpnr]
    rw [h1, Res.bind_ok']
    simp only
    rw [g1]
    rfl
  · refine ⟨bD, hD', ?_, ?_, owns_inv h hf _ bD hD' i1⟩
    · rw [if_neg hu, Res.bind_ok', hpnr]
      rfl
    · have c2 : Cheapest (fun i r c => usable .transit = true ∧ i ∈ js ∧ offerBus e i = .ok (some (r, c))) none :=
        fun i r c hh => absurd hh.1 hu
      have := cheapest_winner _ _ bD none c1 c2 mD mB
      have hw : winner bD none = bD := by cases bD <;> rfl
      rwa [hw] at this

private theorem forall₂_items (e : Env) (o : ℕ → Lot → Option (Route × Sp.Cost)) (ps : List (ℕ × Lot))
    (ho : ∀ p ∈ ps, offerPnr e p.2 p.1 = .ok (o p.1 p.2)) :
    List.Forall₂ (fun (it : ℕ × (Heap → Res (Option New × Heap))) o => Six it.2 o)
      (ps.map fun p => (p.1, newPnr e p.2 p.1)) (ps.map fun p => o p.1 p.2) := by
  induction ps with
  | nil => exact .nil
  | cons p ps ih =>
    exact .cons (six_pnr e p.2 p.1 _ (ho p (by simp))) (ih fun q hq => ho q (by simp [hq]))

/-- **C206 is false with park and ride.**  Whenever the trees offer a park-and-ride path for two pairs of a departure
interval and a parking lot, or for one at infinite cost, the search has undefined behaviour: a path is deleted, and
deleting it frees its driving and its transit path twice. -/
theorem C206_false_park_and_ride (e : Env) (is : List ℕ) (h : Heap) (hf : h.Fresh)
    (o : ℕ → Lot → Option (Route × Sp.Cost))
    (ho : ∀ i ∈ is, ∀ l ∈ e.lots, offerPnr e l i = .ok (o i l))
    (h2 : 2 ≤ (is.flatMap fun i => e.lots.map fun l => o i l).countP Option.isSome ∨
      ∃ i ∈ is, ∃ l ∈ e.lots, ∃ r, o i l = some (r, ⊤)) : bestPnr e is h = .ub := by
  have key := search_six _ _ (forall₂_items e o (is.flatMap fun i => e.lots.map fun l => (i, l)) (by
    rintro ⟨i, l⟩ hp
    obtain ⟨i', hi', hm⟩ := List.mem_flatMap.1 hp
    obtain ⟨l', hl', he⟩ := List.mem_map.1 hm
    cases he
    exact ho i hi' l hl')) h hf
  simp only [List.map_flatMap, List.map_map, Function.comp_def] at key
  rcases h2 with h2 | ⟨i, hi, l, hl, r, hr⟩
  · exact key.2.1 h2
  · refine key.2.2 ⟨r, List.mem_flatMap.2 ⟨i, hi, List.mem_map.2 ⟨l, hl, hr⟩⟩⟩

/-- **C206, park and ride without an offer.**  If no lot has a path to offer, the search ends without a result and
leaves no object behind. -/
theorem C206_no_park_and_ride (e : Env) (is : List ℕ) (h : Heap) (hf : h.Fresh)
    (ho : ∀ i ∈ is, ∀ l ∈ e.lots, offerPnr e l i = .ok none) :
    ∃ h', bestPnr e is h = .ok (none, h') ∧ h'.objs = h.objs := by
  have key := search_six _ _ (forall₂_items e (fun _ _ => none) (is.flatMap fun i => e.lots.map fun l => (i, l)) (by
    rintro ⟨i, l⟩ hp
    obtain ⟨i', hi', hm⟩ := List.mem_flatMap.1 hp
    obtain ⟨l', hl', he⟩ := List.mem_map.1 hm
    cases he
    exact ho i hi' l hl')) h hf
  simp only [List.map_flatMap, List.map_map, Function.comp_def] at key
  obtain ⟨h', h1, h2, _⟩ := key.1 (by
    rw [List.countP_eq_zero]
    intro x hx
    obtain ⟨i, _, hm⟩ := List.mem_flatMap.1 hx
    obtain ⟨l, _, he⟩ := List.mem_map.1 hm
    rw [← he]
    simp)
  exact ⟨h', h1, h2⟩

/-- **C206, a single offer of park and ride.**  If exactly one pair of a departure interval and a lot has an offer, and
its cost is finite, the search of park and ride returns it. -/
theorem C206_single_park_and_ride_partial (e : Env) (is : List ℕ) (h : Heap) (hf : h.Fresh)
    (o : ℕ → Lot → Option (Route × Sp.Cost)) (ho : ∀ i ∈ is, ∀ l ∈ e.lots, offerPnr e l i = .ok (o i l))
    (h1 : (is.flatMap fun i => e.lots.map fun l => o i l).countP Option.isSome = 1) (i : ℕ) (hi : i ∈ is) (l : Lot)
    (hl : l ∈ e.lots) (r : Route) (c : Sp.Cost) (hr : o i l = some (r, c)) (hc : c < ⊤) :
    ∃ b h', bestPnr e is h = .ok (some b, h') ∧ b.route = r ∧ b.cost = c ∧
      (∀ y : Best, y.cost ≤ c → duel (some y) (some b) h' = .ub) ∧ duel none (some b) h' = .ok (some b, h') := by
  have key := search_single _ _ (forall₂_items e o (is.flatMap fun i => e.lots.map fun l => (i, l)) (by
    rintro ⟨i, l⟩ hp
    obtain ⟨i', hi', hm⟩ := List.mem_flatMap.1 hp
    obtain ⟨l', hl', he⟩ := List.mem_map.1 hm
    cases he
    exact ho i hi' l hl')) h hf
  simp only [List.map_flatMap, List.map_map, Function.comp_def] at key
  obtain ⟨b, h', n, g1, g2, g3, g4, g5⟩ := key h1 r c
    (List.mem_flatMap.2 ⟨i, hi, List.mem_map.2 ⟨l, hl, hr⟩⟩) hc
  refine ⟨b, h', g1, g4, g5, fun y hy => ?_, rfl⟩
  show (if b.cost < y.cost then _ else (del depth h' b.ptr).bind fun h => Res.ok (some y, h)) = Res.ub
  rw [g5, if_neg (not_lt.2 hy), g2, del_alive h' n g3]
  rfl

/-- **C206 is false of a losing park-and-ride path.**  With driving and park and ride usable, a single finite offer
of park and ride that is not cheaper than the best of driving makes the search undefined. -/
theorem C206_false_losing_park_and_ride (e : Env) (usable : Mode → Bool) (is js : List ℕ) (h : Heap) (hf : h.Fresh)
    (hu : usable .driving = true ∧ usable .transit = false ∧ usable .pnr = true)
    (y : Best) (hD : Heap) (hb : bestDriving e is h = .ok (some y, hD)) (hfD : hD.Fresh)
    (o : ℕ → Lot → Option (Route × Sp.Cost)) (ho : ∀ i ∈ js, ∀ l ∈ e.lots, offerPnr e l i = .ok (o i l))
    (h1 : (js.flatMap fun i => e.lots.map fun l => o i l).countP Option.isSome = 1) (i : ℕ) (hi : i ∈ js) (l : Lot)
    (hl : l ∈ e.lots) (r : Route) (c : Sp.Cost) (hr : o i l = some (r, c)) (hc : c < ⊤) (hy : y.cost ≤ c) :
    bestOf e usable is js h = .ub := by
  obtain ⟨b, h', g1, _, _, g4, _⟩ := C206_single_park_and_ride_partial e js hD hfD o ho h1 i hi l hl r c hr hc
  unfold bestOf
  simp only [hu.1, hu.2.1, hu.2.2, if_true]
  rw [hb, Res.bind_ok']
  show (Res.ok (some y, hD)).bind _ = _
  rw [Res.bind_ok', g1, Res.bind_ok']
  exact g4 y hy

/-! ## Example: 1 → 2 → 3 with trees for two intervals, one parking lot at node 2 -/

private def bestTree (dest : ℤ) : Sp.Tree where
  dist v _ := if v = 4 then ⊤ else 1
  tree v _ := if v = dest then -1 else if v = 1 then 10 else if v = 2 then 11 else -1

private def bestEnv : Env where
  fuel := 9
  g := Graph.run Graph.empty spOps
  gBus := Graph.run Graph.empty spOps
  M := 3
  mBus := 3
  tree := bestTree
  treeBus := bestTree 3
  tt _ := some fun _ => 1
  ttBus _ := some fun _ => 1
  o := 1
  d := 3
  lot := some 7
  lots := [⟨5, 2⟩]
  cruise _ _ := 0
  travel r i := match r with
    | .driving _ _ _ => if i = 1 then 4 else 6
    | .transit _ => if i = 2 then 3 else 5
    | .pnr _ _ => 9
  dis _ c _ := c
  demand _ _ := 1
  frq := 1
  assign := 3
  loading := 3

set_option synthInstance.maxSize 1024 in
/-- Every departure is answered, driving is cheapest at 1 and transit at 2, and the search returns the latter; with
park and ride it is undefined. -/
example : ([0, 1, 2].all fun i => (offerDriving bestEnv i).isOk && (offerBus bestEnv i).isOk &&
      (offerPnr bestEnv ⟨5, 2⟩ i).isOk) = true ∧
    ((bestDriving bestEnv [0, 1, 2] {}).bind fun r => .ok (r.1, (List.range 9).map r.2.objs)) =
      .ok (some ⟨3, .driving 1 (some 7) [10, 11], 1, 4⟩,
        [none, none, some .plain, some (.one 2), none, none, none, none, none]) ∧
    ((bestPath bestEnv (fun m => decide (m ≠ .pnr)) {}).bind fun r => .ok (r.1, (List.range 13).map r.2.objs)) =
      .ok (some ⟨11, .transit [10, 11], 2, 3⟩,
        [none, none, none, none, none, none, none, none, none, none, some .plain, some (.one 10), none]) ∧
    ((bestPath bestEnv (fun _ => true) {}).bind fun r => .ok r.1) = .ub ∧
    ((bestAt bestEnv (fun m => decide (m = .pnr)) 1 {}).bind fun r => .ok r.1) =
      .ok (some ⟨5, .pnr [10] [11], 1, 9⟩) ∧
    ((bestAt bestEnv (fun m => decide (m ≠ .transit)) 1 {}).bind fun r => .ok r.1) = .ub := by
  decide +kernel

end Verif
