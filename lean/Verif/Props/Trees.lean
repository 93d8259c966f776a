import Verif.Lemmas.Trees
import Verif.Props.History
import Verif.Props.Tables
import Mathlib.Algebra.BigOperators.Group.Finset.Piecewise
import Mathlib.Algebra.BigOperators.Field

/-! # C98: assignment ratios after a loading -/

namespace Verif
open Net Ults Curve Lnk Tt Tab

/-- C98: installing trees of curves does not disturb a loading, and never makes it fail; afterwards the in-tree of
a link has recorded, for every path and assignment interval, exactly the vehicles of this path released in this
interval that have come from another link, and the out-tree those that have left for another link. -/
theorem C98_trees (c : Cfg) (hc : c.Ok) (hsc : 0 < c.scalar) (s : State) (hs : Fresh s) (os : List StepOracle)
    (hos : ∀ o ∈ os, o.Ok c) (hT : os.length < 10000) (assign : ℕ) (ls : List ℕ) (r : State × ℕ × ℕ) :
    (loadMany c os 0 assign s = .ok r ↔ ∃ f, loadManyT c os 0 assign (s, plant ls) = .ok ((r.1, f), r.2)) ∧
    ∀ f, loadManyT c os 0 assign (s, plant ls) = .ok ((r.1, f), r.2) → ∀ l ∈ ls,
      (∃ tr, f.inT l = some tr ∧ record (arrived c.scalar r.1 l) = .ok tr) ∧
      (∃ tr, f.outT l = some tr ∧ record (departed c.scalar r.1 l) = .ok tr) := by
  have key : loadMany c os 0 assign s = .ok r → ∃ f, loadManyT c os 0 assign (s, plant ls) = .ok ((r.1, f), r.2) ∧
      Grown c.scalar ls r.1.vehs r.1.log f := by
    refine loadManyT_grown hc hsc os 0 assign s (plant ls) r hos (by omega) (fresh_inv hs) (fresh_hist hs) ?_
    obtain ⟨links, rfl, _⟩ := hs
    refine ⟨?_, ?_, ?_⟩
    · intro l hl; simp [plant, hl]
    · intro l hl; exact ⟨[], by simp [plant, hl], rfl⟩
    · intro l hl; exact ⟨[], by simp [plant, hl], rfl⟩
  refine ⟨⟨fun h => ?_, ?_⟩, ?_⟩
  · obtain ⟨f, h1, _⟩ := key h; exact ⟨f, h1⟩
  · rintro ⟨f, h⟩
    exact loadManyT_load os 0 assign (s, plant ls) ((r.1, f), r.2) h
  · intro f h l hl
    obtain ⟨f', h1, g⟩ := key (loadManyT_load os 0 assign (s, plant ls) ((r.1, f), r.2) h)
    rw [h] at h1
    simp only [Res.ok.injEq, Prod.mk.injEq, true_and, and_true] at h1
    subst h1
    exact ⟨g.inT l hl, g.outT l hl⟩

set_option synthInstance.maxSize 1024 in
example : ((loadManyT NetEx.cfg (List.replicate 4 NetEx.orc) 0 0 (State.init NetEx.links, plant [10, 11])).bind fun r =>
    .ok (r.1.2.inT 11, r.1.2.outT 10, r.1.2.outT 11)) = .ok (some [((5, 0), [(0, 0), (2, 1), (3, 2)]), ((5, 1), [(0, 0), (4, 1)])],
      some [((5, 0), [(0, 0), (2, 1), (3, 2)]), ((5, 1), [(0, 0), (4, 1)])], some []) := by
  decide +kernel

/-- C98: the assignment interval under which a vehicle is recorded is the one in which it was released. -/
theorem C98_departures (c : Cfg) (hc : c.Ok) (hsc : c.scalar ≠ 0)
    (hf : ∀ oid ∈ c.originIds, (c.origin oid).freq = c.assignFreq) (s : State) (hs : Fresh s)
    (os : List StepOracle) (hos : ∀ o ∈ os, o.Ok c) (r : State × ℕ × ℕ)
    (h : loadMany c os 0 0 s = .ok r) (v : ℕ) (h1 : 1 ≤ v) (h2 : v ≤ r.1.numVeh) :
    ∃ k : ℕ, (r.1.vehs v).start = k ∧ (r.1.vehs v).assign = (k / c.assignFreq : ℕ) ∧
      k / c.assignFreq < c.totalAssign := by
  refine loadMany_dep hc hsc hf os 0 0 s r hos (by simp) (fresh_inv hs) ?_ h v h1 h2
  obtain ⟨links, rfl, _⟩ := hs
  intro v h1 h2
  simp only [State.init] at h2
  omega

example : ((loadMany NetEx.cfg (List.replicate 4 NetEx.orc) 0 0 (State.init NetEx.links)).bind fun r =>
    .ok ((List.range' 1 r.1.numVeh).map fun v => ((r.1.vehs v).start, (r.1.vehs v).assign)))
      = .ok [(0, 0), (0, 0), (0, 0), (2, 1)] := by
  decide +kernel

/-- Every event belongs to one registered path and one departure interval. -/
theorem sum_classes {α : Type} (q : α → Bool) (path dep : α → ℤ) (ids : List ℤ) (hids : ids.Nodup) (D : ℕ)
    (L : List α) (h : ∀ e ∈ L, q e = true → path e ∈ ids ∧ 0 ≤ dep e ∧ dep e < D) :
    ∑ j ∈ Finset.range ids.length, ∑ d ∈ Finset.range D,
      (L.countP fun e => decide (q e = true ∧ some (path e) = ids[j]? ∧ dep e = d)) = L.countP q := by
  induction L with
  | nil => simp
  | cons e L ih =>
    simp only [List.countP_cons, Finset.sum_add_distrib]
    rw [ih fun x hx => h x (by simp [hx])]
    congr 1
    cases hq : q e with
    | false => simp
    | true =>
      obtain ⟨h1, h2, h3⟩ := h e (by simp) hq
      obtain ⟨j0, hj0⟩ := List.mem_iff_getElem?.1 h1
      have hj0' := (List.getElem?_eq_some_iff.1 hj0).1
      rw [Finset.sum_eq_single j0]
      · rw [Finset.sum_eq_single (dep e).toNat]
        · simp [hj0]; omega
        · intro d _ hd
          have : dep e ≠ d := by omega
          simp [this]
        · intro hd; simp at hd; omega
      · intro j hj hne
        apply Finset.sum_eq_zero
        intro d _
        have : ids[j]? ≠ some (path e) := by
          intro hj'
          have := (List.getElem?_inj (Finset.mem_range.1 hj) hids).1 (hj'.trans hj0.symm)
          exact hne this
        simp [Ne.symm this]
      · intro hd; simp at hd; omega

theorem entering_arrived (σ : ℚ) (s : State) (l : ℕ) (path dep : ℤ) (a b : ℕ) :
    entering (arrived σ s l) path dep a b = ((s.log.countP fun e => decide
      ((e.src ≠ none ∧ e.dst = some l ∧ a ≤ e.t ∧ e.t < b) ∧ pathKey (s.vehs e.veh).path = path ∧
        (s.vehs e.veh).assign = dep) : ℕ) : ℚ) / σ := by
  unfold entering arrived
  generalize s.log = log
  induction log with
  | nil => simp
  | cons e log ih =>
    rw [List.countP_cons, Nat.cast_add, add_div, ← ih, List.filter_cons]
    have h1 : ((a : ℚ) < (e.t : ℚ) + 1) ↔ a ≤ e.t := by
      rw [← Nat.lt_succ_iff]; exact_mod_cast Iff.rfl
    have h2 : ((e.t : ℚ) + 1 ≤ (b : ℚ)) ↔ e.t < b := by
      rw [← Nat.succ_le_iff]; exact_mod_cast Iff.rfl
    by_cases hp : e.src ≠ none ∧ e.dst = some l
    · rw [if_pos (by simpa using hp), List.map_cons, List.filter_cons]
      by_cases hq : pathKey (s.vehs e.veh).path = path ∧ (s.vehs e.veh).assign = dep ∧ a ≤ e.t ∧ e.t < b
      · rw [if_pos (by simp only [itemOf, h1, h2]; simpa using hq), if_pos (by simp; tauto), List.map_cons,
          List.sum_cons]
        simp [itemOf]; ring
      · rw [if_neg (by simp only [itemOf, h1, h2]; simpa using hq), if_neg (by simp; tauto)]
        simp
    · rw [if_neg (by simpa using hp), if_neg (by simp; tauto)]
      simp

/-- The matrix made from the trees of some movements: it exists, its entries are inside and at different places, each
is the share of the path flow that entered, and the shares add up. -/
theorem ratios_sum (σ : ℚ) (hσ : 0 < σ ∧ σ < 4503599627370496) (r : State) (T D : ℕ) (hT : T < 10000)
    (htime : ∀ e ∈ r.log, e.t < T) (hsort : r.log.Pairwise fun a b => a.t ≤ b.t)
    (hdep : ∀ e ∈ r.log, 0 ≤ (r.vehs e.veh).assign ∧ (r.vehs e.veh).assign < D) (ls : List ℕ)
    (tree : ℕ → Tab.Tree) (htree : ∀ l ∈ ls, record (arrived σ r l) = .ok (tree l))
    (ids : List ℤ) (hids : ids.Nodup) (periods : List (ℕ × ℕ)) (hp : ∀ p ∈ periods, p.1 < p.2 ∧ p.2 ≤ T)
    (flow : List ℚ) (hflow : ids.length * D ≤ flow.length) :
    ∃ reg cells, registerPaths (fun _ => true) ids = .ok (ids, reg) ∧
      darMatrix T (ls.map tree) (periods.map fun p => ((p.1 : ℤ), (p.2 : ℤ))) reg flow = .ok cells ∧
      (∀ c ∈ cells, 0 ≤ c.row ∧ c.row < ls.length * periods.length ∧ 0 ≤ c.col ∧ c.col < ids.length * D) ∧
      (cells.map fun c => (c.row, c.col)).Nodup ∧
      (∀ (i t l a b j d : ℕ) (path : ℤ) (y : ℚ), ls[i]? = some l → periods[t]? = some (a, b) → ids[j]? = some path →
        d < D → flow[j + ids.length * d]? = some y → y ≠ 0 →
        coeff cells (i + ls.length * t) (j + ids.length * d) = ((r.log.countP fun e => decide
          ((e.src ≠ none ∧ e.dst = some l ∧ a ≤ e.t ∧ e.t < b) ∧ pathKey (r.vehs e.veh).path = path ∧
          (r.vehs e.veh).assign = d) : ℕ) : ℚ) / σ / y) ∧
      ∀ (i t l a b : ℕ), ls[i]? = some l → periods[t]? = some (a, b) →
        (∀ e ∈ r.log, e.dst = some l → e.src ≠ none) →
        (∀ e ∈ r.log, e.dst = some l → a ≤ e.t → e.t < b → pathKey (r.vehs e.veh).path ∈ ids ∧
          ∀ j d : ℕ, ids[j]? = some (pathKey (r.vehs e.veh).path) → (r.vehs e.veh).assign = d →
            flow[j + ids.length * d]? ≠ some 0) →
        ∑ j ∈ Finset.range ids.length, ∑ d ∈ Finset.range D,
          coeff cells (i + ls.length * t) (j + ids.length * d) * flow.getD (j + ids.length * d) 0
          = ((r.log.countP fun e => decide (e.dst = some l ∧ a ≤ e.t ∧ e.t < b) : ℕ) : ℚ) / σ := by
  have hlegal : ∀ l, LegalItems (arrived σ r l) := fun l =>
    itemsOf_legal hσ.1 r.vehs _ (fun e he => by have := htime e he; omega) hsort
  let q : DarQuery := ⟨ids, T, ls.map (arrived σ r), periods, D, flow⟩
  have hq : q.Ok := by
    refine ⟨hids, hT, ?_, hp, hflow⟩
    intro x hx
    obtain ⟨l, _, rfl⟩ := List.mem_map.1 hx
    refine ⟨hlegal l, ?_⟩
    intro y hy
    obtain ⟨e, he, rfl⟩ := List.mem_map.1 hy
    exact hdep e (List.mem_of_mem_filter he)
  obtain ⟨reg, hreg, _, _⟩ := registerPaths_spec (fun _ => true) ids (fun _ _ => rfl) hids
  have hrun : q.run = darMatrix T (ls.map tree)
      (periods.map fun p => ((p.1 : ℤ), (p.2 : ℤ))) reg flow := by
    have : ∀ (ks : List ℕ) (acc : List Tab.Tree), (∀ l ∈ ks, l ∈ ls) →
        Res.foldlM (fun acc h => (record h).bind fun t => .ok (acc ++ [t])) acc (ks.map (arrived σ r))
        = .ok (acc ++ ks.map tree) := by
      intro ks
      induction ks with
      | nil => intro acc _; simp
      | cons l ks ih =>
        intro acc hk
        rw [List.map_cons, Res.foldlM_cons, htree l (hk l (by simp))]
        simp only [Res.bind_ok', Res.ok_bind]
        rw [ih _ fun x hx => hk x (by simp [hx])]
        simp
    unfold DarQuery.run
    simp only [q, hreg, Res.bind_ok', this ls [] fun _ h => h, List.nil_append]
  obtain ⟨cells, hcells, hin, hnd, _⟩ := C48_matrix q hq
  have hent : ∀ (i t l a b j d : ℕ) (path : ℤ) (y : ℚ), ls[i]? = some l → periods[t]? = some (a, b) →
      ids[j]? = some path → d < D → flow[j + ids.length * d]? = some y → y ≠ 0 →
      coeff cells (i + ls.length * t) (j + ids.length * d) = ((r.log.countP fun e => decide
          ((e.src ≠ none ∧ e.dst = some l ∧ a ≤ e.t ∧ e.t < b) ∧ pathKey (r.vehs e.veh).path = path ∧
          (r.vehs e.veh).assign = d) : ℕ) : ℚ) / σ / y := by
    intro i t l a b j d path y hi ht hj hd hget hy
    have hil := (List.getElem?_eq_some_iff.1 hi).1
    have htl := (List.getElem?_eq_some_iff.1 ht).1
    have hjl := (List.getElem?_eq_some_iff.1 hj).1
    have henter : q.enter i t j d = ((r.log.countP fun e => decide
          ((e.src ≠ none ∧ e.dst = some l ∧ a ≤ e.t ∧ e.t < b) ∧ pathKey (r.vehs e.veh).path = path ∧
          (r.vehs e.veh).assign = d) : ℕ) : ℚ) / σ := by
      unfold DarQuery.enter
      simp only [q, List.getElem?_map, hi, ht, hj, Option.map_some]
      rw [entering_arrived]
    obtain ⟨cells', hc', he⟩ := C48_entries q hq i t j d (by simpa [q] using hil) htl hjl hd y hget hy
    rw [hcells] at hc'
    cases hc'
    have e2 : ((q.hist.length : ℕ) : ℤ) = (ls.length : ℤ) := by simp [q]
    rw [e2] at he
    have he' : coeff cells (i + ls.length * t) (j + ids.length * d) =
      if q.enter i t j d > dblEps then q.enter i t j d / y else 0 := he
    rw [he']
    split
    · rw [henter]
    · rename_i hle
      rw [henter] at hle
      generalize (r.log.countP _ : ℕ) = n at hle ⊢
      cases n with
      | zero => simp
      | succ n =>
        exfalso
        apply hle
        rw [gt_iff_lt, lt_div_iff₀ hσ.1]
        unfold dblEps
        push_cast
        have : (0:ℚ) ≤ n := by positivity
        have := hσ.2
        linarith
  refine ⟨reg, cells, hreg, by rw [← hrun]; exact hcells, by simpa [q] using hin, hnd, hent, ?_⟩
  intro i t l a b hi ht hsrc hpaths
  have hil := (List.getElem?_eq_some_iff.1 hi).1
  have htl := (List.getElem?_eq_some_iff.1 ht).1
  have hterm : ∀ j ∈ Finset.range ids.length, ∀ d ∈ Finset.range D,
      coeff cells (i + ls.length * t) (j + ids.length * d) * flow.getD (j + ids.length * d) 0
        = ((r.log.countP fun e => decide
      (decide (e.dst = some l ∧ a ≤ e.t ∧ e.t < b) = true ∧ some (pathKey (r.vehs e.veh).path) = ids[j]? ∧
        (r.vehs e.veh).assign = d) : ℕ) : ℚ) / σ := by
    intro j hj d hd
    rw [Finset.mem_range] at hj hd
    have hlt : j + ids.length * d < flow.length := by
      have : ids.length * (d + 1) ≤ ids.length * D := Nat.mul_le_mul_left _ hd
      rw [Nat.mul_add, Nat.mul_one] at this
      omega
    have hget : flow[j + ids.length * d]? = some flow[j + ids.length * d] := List.getElem?_eq_getElem hlt
    have hgetD : flow.getD (j + ids.length * d) 0 = flow[j + ids.length * d] := by
      rw [List.getD_eq_getElem?_getD, hget]; rfl
    generalize flow[j + ids.length * d] = y at hget hgetD
    rw [hgetD]
    by_cases hy : y = 0
    · subst hy
      rw [mul_zero, List.countP_eq_zero.2, Nat.cast_zero, zero_div]
      intro e he hde
      simp only [decide_eq_true_eq] at hde
      obtain ⟨⟨k1, k2, k3⟩, k4, k5⟩ := hde
      exact (hpaths e he k1 k2 k3).2 j d k4.symm k5 hget
    · rw [hent i t l a b j d ids[j] y hi ht (List.getElem?_eq_getElem hj) hd hget hy, div_mul_cancel₀ _ hy]
      congr 2
      apply List.countP_congr
      intro e he
      have := hsrc e he
      simp only [decide_eq_true_eq, List.getElem?_eq_getElem hj, Option.some.injEq]
      tauto
  rw [Finset.sum_congr rfl fun j hj => Finset.sum_congr rfl (hterm j hj)]
  simp only [← Finset.sum_div]
  congr 1
  have := sum_classes (fun e => decide (e.dst = some l ∧ a ≤ e.t ∧ e.t < b)) (fun e => pathKey (r.vehs e.veh).path)
    (fun e => (r.vehs e.veh).assign) ids hids D r.log (by
      intro e he hqe
      simp only [decide_eq_true_eq] at hqe
      exact ⟨(hpaths e he hqe.1 hqe.2.1 hqe.2.2).1, hdep e he⟩)
  rw [← this]
  push_cast
  rfl

/-- C98, for links that no origin node feeds.  After every loading with fewer than 10000 intervals: for every list
of distinct registered paths that contains those of the vehicles that entered, list of periods within the loading,
and path flows that are not zero where there are such vehicles, the ratios times the path flows, added up over all
registered paths and departure intervals, are the flow that entered the link in the period.
(Missing: links fed by an origin node, for which this is false, see `C98_false_for_first_links`.) -/
theorem C98_ratios_partial (c : Cfg) (hc : c.Ok) (hsc : 0 < c.scalar ∧ c.scalar < 4503599627370496)
    (hfr : ∀ oid ∈ c.originIds, (c.origin oid).freq = c.assignFreq) (s : State) (hs : Fresh s)
    (os : List StepOracle) (hos : ∀ o ∈ os, o.Ok c) (hT : os.length < 10000)
    (ls : List ℕ) (r : State) (f : Forest) (now : ℕ × ℕ)
    (h : loadManyT c os 0 0 (s, plant ls) = .ok ((r, f), now))
    (ids : List ℤ) (hids : ids.Nodup) (periods : List (ℕ × ℕ)) (hp : ∀ p ∈ periods, p.1 < p.2 ∧ p.2 ≤ os.length)
    (flow : List ℚ) (hflow : ids.length * c.totalAssign ≤ flow.length) :
    ∃ reg cells, registerPaths (fun _ => true) ids = .ok (ids, reg) ∧
      darMatrix os.length (ls.map fun l => (f.inT l).getD []) (periods.map fun p => ((p.1 : ℤ), (p.2 : ℤ))) reg flow
        = .ok cells ∧
      ∀ (i t l a b : ℕ), ls[i]? = some l → periods[t]? = some (a, b) →
        (∀ n ∈ c.nodeIds, ∀ outs, c.node n = .origin outs → l ∉ outs) →
        (∀ e ∈ r.log, e.dst = some l → a ≤ e.t → e.t < b → pathKey (r.vehs e.veh).path ∈ ids ∧
          ∀ j d : ℕ, ids[j]? = some (pathKey (r.vehs e.veh).path) → (r.vehs e.veh).assign = d →
            flow[j + ids.length * d]? ≠ some 0) →
        ∑ j ∈ Finset.range ids.length, ∑ d ∈ Finset.range c.totalAssign,
          coeff cells (i + ls.length * t) (j + ids.length * d) * flow.getD (j + ids.length * d) 0
          = ((r.log.countP fun e => decide (e.dst = some l ∧ a ≤ e.t ∧ e.t < b) : ℕ) : ℚ) / c.scalar := by
  obtain ⟨hiff, htree⟩ := C98_trees c hc hsc.1 s hs os hos hT 0 ls (r, now)
  have hload := hiff.2 ⟨f, h⟩
  have htree := htree f h
  have I := loadMany_hist hc hsc.1.ne' os 0 0 s _ hos (fresh_inv hs) (fresh_hist hs) hload
  have hlen := (loadMany_inv hc hsc.1.ne' os 0 0 s _ hos (fresh_inv hs) hload).2
  have N := (loadMany_inv hc hsc.1.ne' os 0 0 s _ hos (fresh_inv hs) hload).1
  rw [hlen, Nat.zero_add] at I
  simp only at I htree
  have hdep : ∀ e ∈ r.log, 0 ≤ (r.vehs e.veh).assign ∧ (r.vehs e.veh).assign < c.totalAssign := by
    intro e he
    obtain ⟨k, _, h2, h3⟩ := C98_departures c hc hsc.1.ne' hfr s hs os hos _ hload e.veh (I.moved e he).1.1 (I.moved e he).1.2
    simp only at h2
    rw [h2]
    exact ⟨by positivity, by exact_mod_cast h3⟩
  obtain ⟨reg, cells, h1, h2, _, _, _, h3⟩ := ratios_sum c.scalar hsc r os.length c.totalAssign hT I.time I.sorted hdep ls
    (fun l => (f.inT l).getD []) (fun l hl => by
      obtain ⟨tr, e1, e2⟩ := (htree l hl).1
      rw [e1, e2]; rfl) ids hids periods hp flow hflow
  refine ⟨reg, cells, h1, h2, ?_⟩
  intro i t l a b hi ht hno
  refine h3 i t l a b hi ht ?_
  intro e he hd hn
  obtain ⟨n, hn1, hn2, hn3⟩ := I.node e he l hd
  obtain ⟨outs, hk⟩ := hn3.1 hn
  rw [hk] at hn2
  exact hno n hn1 outs hk hn2

example : ((loadManyT NetEx.cfg (List.replicate 4 NetEx.orc) 0 0 (State.init NetEx.links, plant [10, 11])).bind fun r =>
    (darMatrix 4 ([10, 11].map fun l => (r.1.2.inT l).getD []) [(0, 2), (2, 4)] [(5, 0)] [3, 1]).bind fun cells =>
      .ok (coeff cells 1 0 * 3 + coeff cells 1 1 * 1, coeff cells 3 0 * 3 + coeff cells 3 1 * 1,
        r.1.1.log.countP fun e => decide (e.dst = some 11 ∧ 0 ≤ e.t ∧ e.t < 2),
        r.1.1.log.countP fun e => decide (e.dst = some 11 ∧ 2 ≤ e.t ∧ e.t < 4))) = .ok (1, 2, 1, 2) := by
  decide +kernel

/-- C98: a link that only origin nodes feed has an empty in-tree after every loading, so all its ratios are zero. -/
theorem C98_first_links_empty (c : Cfg) (hc : c.Ok) (hsc : 0 < c.scalar) (s : State) (hs : Fresh s)
    (os : List StepOracle) (hos : ∀ o ∈ os, o.Ok c) (hT : os.length < 10000) (assign : ℕ) (ls : List ℕ)
    (r : State) (f : Forest) (now : ℕ × ℕ) (h : loadManyT c os 0 assign (s, plant ls) = .ok ((r, f), now))
    (l : ℕ) (hl : l ∈ ls) (hno : ∀ n ∈ c.nodeIds, l ∈ (c.node n).outs → ∃ outs, c.node n = .origin outs) :
    f.inT l = some [] := by
  obtain ⟨hiff, htree⟩ := C98_trees c hc hsc s hs os hos hT assign ls (r, now)
  have I := loadMany_hist hc hsc.ne' os 0 assign s _ hos (fresh_inv hs) (fresh_hist hs) (hiff.2 ⟨f, h⟩)
  obtain ⟨tr, h1, h2⟩ := (htree f h l hl).1
  have : arrived c.scalar r l = [] := by
    unfold arrived
    rw [List.filter_eq_nil_iff.2, List.map_nil]
    intro e he hd
    simp only [decide_eq_true_eq] at hd
    obtain ⟨n, hn1, hn2, hn3⟩ := I.node e he l hd.2
    exact hd.1 (hn3.2 (hno n hn1 hn2))
  simp only at h2
  rw [this] at h2
  cases h2
  exact h1

/-- C98 is false for the first links: four vehicles enter link 10 from the origin node, all on the registered
path, but the matrix has no entry for the link. -/
theorem C98_false_for_first_links :
    ((loadManyT NetEx.cfg (List.replicate 4 NetEx.orc) 0 0 (State.init NetEx.links, plant [10])).bind fun r =>
    (darMatrix 4 ([10].map fun l => (r.1.2.inT l).getD []) [(0, 4)] [(5, 0)] [3, 1]).bind fun cells =>
      .ok (cells, r.1.1.log.countP fun e => decide (e.dst = some 10 ∧ 0 ≤ e.t ∧ e.t < 4))) = .ok ([], 4) := by
  decide +kernel

end Verif
