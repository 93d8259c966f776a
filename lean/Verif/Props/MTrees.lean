import Verif.Lemmas.MTrees
import Verif.Lemmas.MDar
import Verif.Props.Trees
import Verif.Props.MNet

/-! # C104: assignment ratios of cars and trucks after a loading -/

namespace Verif
open MNet Ults Curve Tab
open Net (Event pathKey itemOf)

/-- C104: installing trees of curves does not disturb a loading of cars and trucks, and never makes it fail;
afterwards the tree of a class at a link has recorded, for every path and assignment interval, exactly the vehicles of
this class and path released in this interval that have come from another link. -/
theorem C104_trees (c : Cfg) (hc : c.net.Ok) (hsc : 0 < c.net.scalar) (s : State) (hs : Fresh s)
    (os : List StepOracle) (hos : ∀ o ∈ os, o.Ok c) (hT : os.length < 10000) (assign : ℕ) (ls : List ℕ)
    (r : State × ℕ × ℕ) :
    (loadMany c os 0 assign s = .ok r ↔ ∃ f, loadManyT c os 0 assign (s, plant ls) = .ok ((r.1, f), r.2)) ∧
    ∀ f, loadManyT c os 0 assign (s, plant ls) = .ok ((r.1, f), r.2) → ∀ b, ∀ l ∈ ls,
      ∃ tr, f b l = some tr ∧ record (arrived c.net.scalar r.1 b l) = .ok tr := by
  have key : loadMany c os 0 assign s = .ok r → ∃ f, loadManyT c os 0 assign (s, plant ls) = .ok ((r.1, f), r.2) ∧
      Grown c.net.scalar ls r.1.vehs r.1.truck r.1.log f := by
    refine loadManyT_grown hc hsc os 0 assign s (plant ls) r hos (by omega) (fresh_inv hs) (fresh_hist hs) ?_
    obtain ⟨links, rfl, _⟩ := hs
    refine ⟨?_, ?_⟩
    · intro b l hl; simp [plant, hl]
    · intro b l hl; exact ⟨[], by simp [plant, hl], rfl⟩
  refine ⟨⟨fun h => ?_, ?_⟩, ?_⟩
  · obtain ⟨f, h1, _⟩ := key h; exact ⟨f, h1⟩
  · rintro ⟨f, h⟩
    exact loadManyT_load os 0 assign (s, plant ls) ((r.1, f), r.2) h
  · intro f h b l hl
    obtain ⟨f', h1, g⟩ := key (loadManyT_load os 0 assign (s, plant ls) ((r.1, f), r.2) h)
    rw [h] at h1
    simp only [Res.ok.injEq, Prod.mk.injEq, true_and, and_true] at h1
    subst h1
    exact g.tree b l hl

/-- C104: the assignment interval under which a vehicle is recorded is the one in which it was released. -/
theorem C104_departures (c : Cfg) (hc : c.net.Ok) (hsc : c.net.scalar ≠ 0)
    (hf : ∀ oid ∈ c.net.originIds, (c.net.origin oid).freq = c.net.assignFreq) (s : State) (hs : Fresh s)
    (os : List StepOracle) (hos : ∀ o ∈ os, o.Ok c) (r : State × ℕ × ℕ)
    (h : loadMany c os 0 0 s = .ok r) (v : ℕ) (h1 : 1 ≤ v) (h2 : v ≤ r.1.numVeh) :
    ∃ k : ℕ, (r.1.vehs v).start = k ∧ (r.1.vehs v).assign = (k / c.net.assignFreq : ℕ) ∧
      k / c.net.assignFreq < c.net.totalAssign := by
  refine loadMany_dep hc hsc hf os 0 0 s r hos (by simp) (fresh_inv hs) ?_ h v h1 h2
  obtain ⟨links, rfl, _⟩ := hs
  intro v h1 h2
  simp only [State.init] at h2
  omega

/-- The single-class state that consists of the movements of the vehicles of class `b`. -/
def part (s : State) (b : Bool) : Net.State :=
  { s.view with log := s.log.filter fun e => decide (s.truck e.veh = b) }

theorem part_arrived (σ : ℚ) (s : State) (b : Bool) (l : ℕ) : Net.arrived σ (part s b) l = arrived σ s b l := by
  unfold Net.arrived arrived part
  simp only [State.view, List.filter_filter]
  congr 1
  apply List.filter_congr
  intro e _
  simp only [← Bool.decide_and, and_assoc]

theorem part_count (s : State) (b : Bool) (p q : Event → Bool)
    (h : ∀ e, (p e = true ∧ s.truck e.veh = b) ↔ q e = true) :
    (part s b).log.countP p = s.log.countP q := by
  unfold part
  simp only [List.countP_filter]
  apply List.countP_congr
  intro e _
  simp [← h e]

theorem entering_entered (σ : ℚ) (s : State) (b : Bool) (l : ℕ) (path dep : ℤ) (a z : ℕ) :
    entering (arrived σ s b l) path dep a z = (entered s b l path dep a z : ℚ) / σ := by
  rw [← part_arrived, entering_arrived]
  congr 2
  unfold entered
  apply part_count
  intro e
  simp only [decide_eq_true_eq]
  simp only [part, State.view]
  tauto

theorem share_pos {σ : ℚ} (hσ : 0 < σ ∧ σ < 4503599627370496) (k : ℕ) : (k : ℚ) / σ > dblEps ↔ 0 < k := by
  cases k with
  | zero => simp [dblEps]
  | succ k =>
    simp only [Nat.zero_lt_succ, iff_true, gt_iff_lt, lt_div_iff₀ hσ.1]
    unfold dblEps
    push_cast
    have : (0:ℚ) ≤ k := by positivity
    have := hσ.2
    linarith

/-- What holds of the movements after a loading. -/
theorem after_loading (c : Cfg) (hc : c.net.Ok) (hsc : 0 < c.net.scalar)
    (s : State) (hs : Fresh s) (os : List StepOracle) (hos : ∀ o ∈ os, o.Ok c) (hT : os.length < 10000)
    (assign : ℕ) (ls : List ℕ) (r : State) (f : Woods) (now : ℕ × ℕ)
    (h : loadManyT c os 0 assign (s, plant ls) = .ok ((r, f), now)) :
    MHistInv c os.length r ∧ loadMany c os 0 assign s = .ok (r, now) ∧
      (∀ b l, LegalItems (arrived c.net.scalar r b l)) ∧
      ∀ b, ∀ l ∈ ls, ∃ tr, f b l = some tr ∧ record (arrived c.net.scalar r b l) = .ok tr := by
  obtain ⟨hiff, htree⟩ := C104_trees c hc hsc s hs os hos hT assign ls (r, now)
  have hload := hiff.2 ⟨f, h⟩
  have I := MNet.loadMany_hist hc hsc.ne' os 0 assign s _ hos (fresh_inv hs) (MNet.fresh_hist hs) hload
  have hlen := (loadMany_inv hc hsc.ne' os 0 assign s _ hos (fresh_inv hs) hload).2
  rw [hlen, Nat.zero_add] at I
  refine ⟨I, hload, ?_, htree f h⟩
  intro b l
  exact Net.itemsOf_legal hsc r.vehs _ (fun e he => by have := I.time e he; omega) I.sorted

/-- C104: the records of a class: `get_car_dar_matrix` and `get_truck_dar_matrix` list, link by link and period by
period, every registered path and departure interval of which vehicles of the class have come from another link in the
period, each once, with the flow of these vehicles. -/
theorem C104_records (c : Cfg) (hc : c.net.Ok) (hsc : 0 < c.net.scalar ∧ c.net.scalar < 4503599627370496)
    (s : State) (hs : Fresh s) (os : List StepOracle) (hos : ∀ o ∈ os, o.Ok c) (hT : os.length < 10000)
    (assign : ℕ) (ls : List ℕ) (r : State) (f : Woods) (now : ℕ × ℕ)
    (h : loadManyT c os 0 assign (s, plant ls) = .ok ((r, f), now)) (b : Bool) (reg : List ℤ)
    (periods : List (ℕ × ℕ)) (hp : ∀ p ∈ periods, p.1 < p.2 ∧ p.2 ≤ os.length) :
    ∃ block : ℕ → ℕ × ℕ → List DarRec,
      darRecords os.length (ls.map fun l => (l, f b l)) (periods.map fun p => ((p.1 : ℤ), (p.2 : ℤ))) reg
        = .ok (ls.flatMap fun l => periods.flatMap (block l)) ∧
      ∀ l ∈ ls, ∀ p ∈ periods, ((block l p).map fun x => (x.path, x.assign)).Nodup ∧
        ∀ x : DarRec, x ∈ block l p ↔ x.link = l ∧ x.start = p.1 ∧ x.path ∈ reg ∧
          0 < entered r b l x.path x.assign p.1 p.2 ∧
          x.flow = (entered r b l x.path x.assign p.1 p.2 : ℚ) / c.net.scalar := by
  obtain ⟨I, hload, hlegal, htree⟩ := after_loading c hc hsc.1 s hs os hos hT assign ls r f now h
  have hblock : ∀ l ∈ ls, ∃ tr, f b l = some tr ∧ record (arrived c.net.scalar r b l) = .ok tr := fun l hl => htree b l hl
  let tree : ℕ → Tab.Tree := fun l => (f b l).getD []
  have ht : ∀ l ∈ ls, f b l = some (tree l) ∧ record (arrived c.net.scalar r b l) = .ok (tree l) := by
    intro l hl
    obtain ⟨tr, h1, h2⟩ := hblock l hl
    simp [tree, h1, h2]
  let block : ℕ → ℕ × ℕ → List DarRec := fun l p => (tree l).flatMap fun e =>
      if e.1.1 ∈ reg ∧ entering (arrived c.net.scalar r b l) e.1.1 e.1.2 p.1 p.2 > dblEps then
        [⟨e.1.1, e.1.2, l, p.1, entering (arrived c.net.scalar r b l) e.1.1 e.1.2 p.1 p.2⟩] else []
  have hone : ∀ l ∈ ls, ∀ p ∈ periods,
      addDarRecords reg l (f b l) ((p.1 : ℤ), (p.2 : ℤ)) = .ok (block l p) := by
    intro l hl p hpp
    have := hp p hpp
    rw [(ht l hl).1]
    exact addDarRecords_eq (hlegal b l) (ht l hl).2 (by omega) (by omega) reg l
  refine ⟨block, ?_, ?_⟩
  · have hper : ∀ l ∈ ls, ∀ (ps : List (ℕ × ℕ)), (∀ p ∈ ps, p ∈ periods) → ∀ acc,
        Res.foldlM (fun acc p => (checkPeriod os.length p).bind fun _ =>
          (addDarRecords reg l (f b l) p).bind fun rs => .ok (acc ++ rs)) acc (ps.map fun p => ((p.1 : ℤ), (p.2 : ℤ)))
        = .ok (acc ++ ps.flatMap (block l)) := by
      intro l hl ps
      induction ps with
      | nil => intro _ acc; simp
      | cons p ps ih =>
        intro hps acc
        have h1 := hp p (hps p (by simp))
        have hck : checkPeriod os.length ((p.1 : ℤ), (p.2 : ℤ)) = .ok () := by
          unfold checkPeriod
          simp only
          rw [if_neg (by omega), if_neg (by omega), if_neg (by omega)]
        rw [List.map_cons, Res.foldlM_cons, hck, Res.bind_ok', hone l hl p (hps p (by simp)), Res.bind_ok',
          Res.ok_bind, ih fun q hq => hps q (by simp [hq])]
        simp
    have hall : ∀ ks : List ℕ, (∀ l ∈ ks, l ∈ ls) → ∀ acc,
        Res.foldlM (fun acc (t : ℕ × Option Tab.Tree) => Res.foldlM (fun acc p => (checkPeriod os.length p).bind fun _ =>
          (addDarRecords reg t.1 t.2 p).bind fun rs => .ok (acc ++ rs)) acc (periods.map fun p => ((p.1 : ℤ), (p.2 : ℤ))))
          acc (ks.map fun l => (l, f b l)) = .ok (acc ++ ks.flatMap fun l => periods.flatMap (block l)) := by
      intro ks
      induction ks with
      | nil => intro _ acc; simp
      | cons l ks ih =>
        intro hks acc
        rw [List.map_cons, Res.foldlM_cons, hper l (hks l (by simp)) periods (fun _ h => h), Res.ok_bind,
          ih fun q hq => hks q (by simp [hq])]
        simp
    have := hall ls (fun _ h => h) []
    rw [List.nil_append] at this
    exact this
  · intro l hl p hpp
    obtain ⟨hnd, hkey⟩ := tree_key (hlegal b l) (ht l hl).2
    constructor
    · have : ((block l p).map fun x => (x.path, x.assign)).Sublist (tree l).keys := by
        simp only [block, Store.keys]
        generalize tree l = tr
        induction tr with
        | nil => simp
        | cons e tr ih =>
          rw [List.flatMap_cons, List.map_append, List.map_cons]
          split
          · exact List.Sublist.cons_cons _ ih
          · exact List.Sublist.cons _ ih
      exact hnd.sublist this
    · intro x
      simp only [block, List.mem_flatMap]
      constructor
      · rintro ⟨e, he, hx⟩
        split at hx
        · rename_i hc'
          rw [List.mem_singleton] at hx
          subst hx
          simp only
          rw [entering_entered, share_pos hsc] at hc'
          exact ⟨trivial, trivial, hc'.1, hc'.2, entering_entered _ _ _ _ _ _ _ _⟩
        · cases hx
      · rintro ⟨rfl, h2, h3, h4, h5⟩
        have : (x.path, x.assign) ∈ (tree x.link).keys := by
          rw [hkey]
          unfold entered at h4
          rw [List.countP_pos_iff] at h4
          obtain ⟨e, he, hd⟩ := h4
          simp only [decide_eq_true_eq] at hd
          refine ⟨itemOf c.net.scalar r.vehs e, ?_, ?_⟩
          · unfold arrived
            refine List.mem_map_of_mem (List.mem_filter.2 ⟨he, ?_⟩)
            simp only [decide_eq_true_eq]
            tauto
          · simp only [itemOf, Prod.mk.injEq]; tauto
        obtain ⟨e, he, hek⟩ := List.mem_map.1 this
        refine ⟨e, he, ?_⟩
        have e1 : e.1.1 = x.path := by rw [hek]
        have e2 : e.1.2 = x.assign := by rw [hek]
        rw [e1, e2, entering_entered, if_pos ⟨h3, (share_pos hsc _).2 h4⟩, List.mem_singleton, ← h5, ← h2]

/-- The matrices of a class are the single-class matrix of the movements of the class. -/
theorem class_matrix (c : Cfg) (hc : c.net.Ok) (hsc : 0 < c.net.scalar ∧ c.net.scalar < 4503599627370496)
    (hfr : ∀ oid ∈ c.net.originIds, (c.net.origin oid).freq = c.net.assignFreq) (s : State) (hs : Fresh s)
    (os : List StepOracle) (hos : ∀ o ∈ os, o.Ok c) (hT : os.length < 10000)
    (ls : List ℕ) (r : State) (f : Woods) (now : ℕ × ℕ)
    (h : loadManyT c os 0 0 (s, plant ls) = .ok ((r, f), now)) (b : Bool) (np : ℕ)
    (periods : List (ℕ × ℕ)) (hp : ∀ p ∈ periods, p.1 < p.2 ∧ p.2 ≤ os.length)
    (flow : List ℚ) (hflow : np * c.net.totalAssign ≤ flow.length) :
    ∃ cells,
      saveDar os.length (ls.map fun l => (l, f b l)) (periods.map fun p => ((p.1 : ℤ), (p.2 : ℤ))) (firstPaths np) np flow
        = .ok cells ∧
      (∀ n, periods.length ≤ n → c.net.totalAssign ≤ n →
        (∀ l ∈ ls, ∀ p ∈ periods, ∀ e ∈ r.log, e.src ≠ none → e.dst = some l → r.truck e.veh = b → p.1 ≤ e.t → e.t < p.2 →
          ∃ k < np, (r.vehs e.veh).path = some k) →
        completeDar os.length (ls.map fun l => f b l) (periods.map fun p => ((p.1 : ℤ), (p.2 : ℤ))) n np flow
          = .ok cells) ∧
      (cells.map fun x => (x.row, x.col)).Nodup ∧
      (∀ (i t l a z j d : ℕ) (y : ℚ), ls[i]? = some l → periods[t]? = some (a, z) → j < np → d < c.net.totalAssign →
        flow[j + np * d]? = some y → y ≠ 0 →
        coeff cells (i + ls.length * t) (j + np * d) = (entered r b l j d a z : ℚ) / c.net.scalar / y) ∧
      ∀ (i t l a z : ℕ), ls[i]? = some l → periods[t]? = some (a, z) →
        (∀ n ∈ c.net.nodeIds, ∀ outs, c.net.node n = .origin outs → l ∉ outs) →
        (∀ e ∈ r.log, e.dst = some l → r.truck e.veh = b → a ≤ e.t → e.t < z → ∃ k < np, (r.vehs e.veh).path = some k ∧
          ∀ d : ℕ, (r.vehs e.veh).assign = d → flow[k + np * d]? ≠ some 0) →
        ∑ j ∈ Finset.range np, ∑ d ∈ Finset.range c.net.totalAssign,
          coeff cells (i + ls.length * t) (j + np * d) * flow.getD (j + np * d) 0
          = ((r.log.countP fun e => decide (e.dst = some l ∧ r.truck e.veh = b ∧ a ≤ e.t ∧ e.t < z) : ℕ) : ℚ)
            / c.net.scalar := by
  obtain ⟨I, hload, hlegal, htree⟩ := after_loading c hc hsc.1 s hs os hos hT 0 ls r f now h
  let tree : ℕ → Tab.Tree := fun l => (f b l).getD []
  have ht : ∀ l ∈ ls, f b l = some (tree l) ∧ record (arrived c.net.scalar r b l) = .ok (tree l) := by
    intro l hl
    obtain ⟨tr, h1, h2⟩ := htree b l hl
    simp [tree, h1, h2]
  have hdep : ∀ e ∈ r.log, 0 ≤ (r.vehs e.veh).assign ∧ (r.vehs e.veh).assign < c.net.totalAssign := by
    intro e he
    obtain ⟨k, _, h2, h3⟩ := C104_departures c hc hsc.1.ne' hfr s hs os hos _ hload e.veh (I.moved e he).1.1
      (I.moved e he).1.2
    simp only at h2
    rw [h2]
    exact ⟨by positivity, by exact_mod_cast h3⟩
  have hsub : ∀ e ∈ (part r b).log, e ∈ r.log ∧ r.truck e.veh = b := by
    intro e he
    have := List.mem_filter.1 he
    simpa using this
  obtain ⟨reg, cells, h1, h2, h3, h4, h5, h6⟩ := ratios_sum c.net.scalar hsc (part r b) os.length c.net.totalAssign hT
    (fun e he => I.time e (hsub e he).1) (I.sorted.filter _) (fun e he => hdep e (hsub e he).1) ls tree
    (fun l hl => by rw [part_arrived]; exact (ht l hl).2) (firstPaths np) (firstPaths_nodup np) periods hp flow
    (by rw [firstPaths_length]; exact hflow)
  obtain ⟨reg', g1, g2, g3⟩ := registerPaths_spec (fun _ => true) (firstPaths np) (fun _ _ => rfl) (firstPaths_nodup np)
  rw [h1] at g1
  simp only [Res.ok.injEq, Prod.mk.injEq, true_and] at g1
  subst g1
  rw [firstPaths_length] at g2 h3 h5 h6
  have M := fun n => matrices_eq (n := n) (fun l hl => (ht l hl).2) (hlegal b) (D := c.net.totalAssign)
    (fun p i => (g3 p i).trans (firstPaths_get np i p)) g2 hflow (by
      intro l x hx
      obtain ⟨e, he, rfl⟩ := List.mem_map.1 hx
      exact hdep e (List.mem_of_mem_filter he)) hT hp h2
  have m1 : (ls.map fun l => (l, f b l)) = ls.map fun l => (l, some (tree l)) :=
    List.map_congr_left fun l hl => by rw [(ht l hl).1]
  have m2 : (ls.map fun l => f b l) = ls.map fun l => some (tree l) :=
    List.map_congr_left fun l hl => (ht l hl).1
  refine ⟨cells, ?_, ?_, h4, ?_, ?_⟩
  · rw [m1]; exact (M 0).1
  · intro n hn1 hn2 hpath
    rw [m2]
    refine (M n).2 ⟨?_, h4⟩ ?_
    · intro x hx
      obtain ⟨k1, k2, k3, k4⟩ := h3 x hx
      refine ⟨k1, ?_, k3, ?_⟩
      · refine lt_of_lt_of_le k2 ?_
        rw [mul_comm]; exact_mod_cast Nat.mul_le_mul_right _ hn1
      · refine lt_of_lt_of_le k4 ?_
        rw [mul_comm]; exact_mod_cast Nat.mul_le_mul_right _ hn2
    · intro l hl p hpp path dep hgt
      rw [entering_entered, share_pos hsc] at hgt
      unfold entered at hgt
      rw [List.countP_pos_iff] at hgt
      obtain ⟨e, he, hd⟩ := hgt
      simp only [decide_eq_true_eq] at hd
      obtain ⟨q1, q2, q3, q4, q5, q6, _⟩ := hd
      obtain ⟨k, hk, hk2⟩ := hpath l hl p hpp e he q1 q2 q3 q4 q5
      rw [hk2] at q6
      simp only [pathKey] at q6
      omega
  · intro i t l a z j d y hi hpt hj hd hget hy
    rw [h5 i t l a z j d j y hi hpt ((firstPaths_get np j j).2 ⟨hj, rfl⟩) hd hget hy]
    congr 3
    unfold entered
    apply part_count
    intro e
    simp only [decide_eq_true_eq]
    simp only [part, State.view]
    tauto
  · intro i t l a z hi hpt hno hpaths
    rw [h6 i t l a z hi hpt]
    · congr 2
      apply part_count
      intro e
      simp only [decide_eq_true_eq]
      tauto
    · intro e he hd hn
      obtain ⟨n, hn1, hn2, hn3⟩ := I.node e (hsub e he).1 l hd
      obtain ⟨outs, hk⟩ := hn3.1 hn
      rw [hk] at hn2
      exact hno n hn1 outs hk hn2
    · intro e he hd ha hz
      obtain ⟨k, hk, hk2, hk3⟩ := hpaths e (hsub e he).1 hd (hsub e he).2 ha hz
      have e1 : ((part r b).vehs e.veh).path = some k := hk2
      rw [e1]
      refine ⟨mem_firstPaths.2 ⟨by simp [pathKey], by simpa [pathKey] using hk⟩, ?_⟩
      intro j d hj hd'
      have := ((firstPaths_get np j _).1 hj).2
      simp only [pathKey] at this
      have : k = j := by exact_mod_cast this
      subst this
      exact hk3 d hd'

/-- C104: when the paths 0, …, np − 1 are registered, the rows that `save_car_dar_matrix` and `save_truck_dar_matrix`
write are at different places, and each is the flow of the path and departure interval that has come to the link from
another link in the period, of vehicles of the class only, divided by the flow of the path. -/
theorem C104_saved (c : Cfg) (hc : c.net.Ok) (hsc : 0 < c.net.scalar ∧ c.net.scalar < 4503599627370496)
    (hfr : ∀ oid ∈ c.net.originIds, (c.net.origin oid).freq = c.net.assignFreq) (s : State) (hs : Fresh s)
    (os : List StepOracle) (hos : ∀ o ∈ os, o.Ok c) (hT : os.length < 10000)
    (ls : List ℕ) (r : State) (f : Woods) (now : ℕ × ℕ)
    (h : loadManyT c os 0 0 (s, plant ls) = .ok ((r, f), now)) (b : Bool) (np : ℕ)
    (periods : List (ℕ × ℕ)) (hp : ∀ p ∈ periods, p.1 < p.2 ∧ p.2 ≤ os.length)
    (flow : List ℚ) (hflow : np * c.net.totalAssign ≤ flow.length) :
    ∃ cells,
      saveDar os.length (ls.map fun l => (l, f b l)) (periods.map fun p => ((p.1 : ℤ), (p.2 : ℤ)))
        ((List.range np).map fun k : ℕ => (k : ℤ)) np flow = .ok cells ∧
      (cells.map fun x => (x.row, x.col)).Nodup ∧
      ∀ (i t l a z j d : ℕ) (y : ℚ), ls[i]? = some l → periods[t]? = some (a, z) → j < np → d < c.net.totalAssign →
        flow[j + np * d]? = some y → y ≠ 0 →
        coeff cells (i + ls.length * t) (j + np * d) = (entered r b l j d a z : ℚ) / c.net.scalar / y := by
  obtain ⟨cells, h1, _, h2, h3, _⟩ := class_matrix c hc hsc hfr s hs os hos hT ls r f now h b np periods hp flow hflow
  exact ⟨cells, h1, h2, h3⟩

/-- C104, for links that no origin node feeds and for registered paths with the numbers 0, …, np − 1.  After every
loading of cars and trucks with fewer than 10000 intervals, if the vehicles of the class that came to the links
travel on registered paths, `get_complete_car_dar_matrix` and `get_complete_truck_dar_matrix` return the matrix that is
saved, and its ratios times the path flows, added up over all registered paths and departure intervals, are the flow of
the class that entered the link in the period.
(Missing: links fed by an origin node, other numbers of paths and vehicles without path, for which this is false, see
`C104_false_for_first_links`, `C104_false_for_other_numbers` and `C104_false_without_path`.) -/
theorem C104_ratios_partial (c : Cfg) (hc : c.net.Ok) (hsc : 0 < c.net.scalar ∧ c.net.scalar < 4503599627370496)
    (hfr : ∀ oid ∈ c.net.originIds, (c.net.origin oid).freq = c.net.assignFreq) (s : State) (hs : Fresh s)
    (os : List StepOracle) (hos : ∀ o ∈ os, o.Ok c) (hT : os.length < 10000)
    (ls : List ℕ) (r : State) (f : Woods) (now : ℕ × ℕ)
    (h : loadManyT c os 0 0 (s, plant ls) = .ok ((r, f), now)) (b : Bool) (np n : ℕ)
    (periods : List (ℕ × ℕ)) (hp : ∀ p ∈ periods, p.1 < p.2 ∧ p.2 ≤ os.length)
    (hn : periods.length ≤ n ∧ c.net.totalAssign ≤ n)
    (flow : List ℚ) (hflow : np * c.net.totalAssign ≤ flow.length)
    (hpath : ∀ l ∈ ls, ∀ p ∈ periods, ∀ e ∈ r.log, e.src ≠ none → e.dst = some l → r.truck e.veh = b →
      p.1 ≤ e.t → e.t < p.2 → ∃ k < np, (r.vehs e.veh).path = some k) :
    ∃ cells,
      completeDar os.length (ls.map fun l => f b l) (periods.map fun p => ((p.1 : ℤ), (p.2 : ℤ))) n np flow
        = .ok cells ∧
      saveDar os.length (ls.map fun l => (l, f b l)) (periods.map fun p => ((p.1 : ℤ), (p.2 : ℤ)))
        ((List.range np).map fun k : ℕ => (k : ℤ)) np flow = .ok cells ∧
      ∀ (i t l a z : ℕ), ls[i]? = some l → periods[t]? = some (a, z) →
        (∀ n ∈ c.net.nodeIds, ∀ outs, c.net.node n = .origin outs → l ∉ outs) →
        (∀ e ∈ r.log, e.dst = some l → r.truck e.veh = b → a ≤ e.t → e.t < z → ∀ k d : ℕ,
          (r.vehs e.veh).path = some k → (r.vehs e.veh).assign = d → flow[k + np * d]? ≠ some 0) →
        ∑ j ∈ Finset.range np, ∑ d ∈ Finset.range c.net.totalAssign,
          coeff cells (i + ls.length * t) (j + np * d) * flow.getD (j + np * d) 0
          = ((r.log.countP fun e => decide (e.dst = some l ∧ r.truck e.veh = b ∧ a ≤ e.t ∧ e.t < z) : ℕ) : ℚ)
            / c.net.scalar := by
  obtain ⟨cells, h1, h2, _, _, h3⟩ := class_matrix c hc hsc hfr s hs os hos hT ls r f now h b np periods hp flow hflow
  refine ⟨cells, h2 n hn.1 hn.2 hpath, h1, ?_⟩
  intro i t l a z hi ht hno hfl
  refine h3 i t l a z hi ht hno ?_
  intro e he hd hb ha hz
  obtain ⟨I, _⟩ := after_loading c hc hsc.1 s hs os hos hT 0 ls r f now h
  have hsrc : e.src ≠ none := by
    intro hn
    obtain ⟨m, hn1, hn2, hn3⟩ := I.node e he l hd
    obtain ⟨outs, hk⟩ := hn3.1 hn
    rw [hk] at hn2
    exact hno m hn1 outs hk hn2
  obtain ⟨k, hk, hk2⟩ := hpath l (List.mem_of_getElem? hi) (a, z) (List.mem_of_getElem? ht) e he hsrc hd hb ha hz
  exact ⟨k, hk, hk2, fun d => hfl e he hd hb ha hz k d hk2⟩

/-- C104: a link that only origin nodes feed has empty trees after every loading, so all its ratios are zero. -/
theorem C104_first_links_empty (c : Cfg) (hc : c.net.Ok) (hsc : 0 < c.net.scalar) (s : State) (hs : Fresh s)
    (os : List StepOracle) (hos : ∀ o ∈ os, o.Ok c) (hT : os.length < 10000) (assign : ℕ) (ls : List ℕ)
    (r : State) (f : Woods) (now : ℕ × ℕ) (h : loadManyT c os 0 assign (s, plant ls) = .ok ((r, f), now))
    (l : ℕ) (hl : l ∈ ls) (hno : ∀ n ∈ c.net.nodeIds, l ∈ (c.net.node n).outs → ∃ outs, c.net.node n = .origin outs)
    (b : Bool) : f b l = some [] := by
  obtain ⟨I, _, _, htree⟩ := after_loading c hc hsc s hs os hos hT assign ls r f now h
  obtain ⟨tr, h1, h2⟩ := htree b l hl
  have : arrived c.net.scalar r b l = [] := by
    unfold arrived
    rw [List.filter_eq_nil_iff.2, List.map_nil]
    intro e he hd
    simp only [decide_eq_true_eq] at hd
    obtain ⟨n, hn1, hn2, hn3⟩ := I.node e he l hd.2.1
    exact hd.1 (hn3.2 (hno n hn1 hn2))
  rw [this] at h2
  cases h2
  exact h1

/-- C104: a link whose trees have not been installed is refused by all three functions, once there is a period to look
at that lies within the loading. -/
theorem C104_not_installed (cur : ℤ) (trees : List (ℕ × Option Tab.Tree)) (l : ℕ) (p : ℤ × ℤ)
    (hp : p.1 < p.2 ∧ p.2 ≤ cur) (periods : List (ℤ × ℤ)) (reg : List ℤ) (n np : ℕ) (flow : List ℚ) :
    darRecords cur ((l, none) :: trees) (p :: periods) reg = .throw "link cumulative curve tree is not installed" ∧
    saveDar cur ((l, none) :: trees) (p :: periods) reg np flow
      = .throw "link cumulative curve tree is not installed" ∧
    completeDar cur (none :: trees.map Prod.snd) (p :: periods) n np flow
      = .throw "link cumulative curve tree is not installed" := by
  have hck : checkPeriod cur p = .ok () := by
    unfold checkPeriod
    rw [if_neg (by omega), if_neg (by omega), if_neg (by omega)]
  refine ⟨?_, ?_, ?_⟩
  · unfold darRecords
    rw [Res.foldlM_cons, Res.foldlM_cons, hck]; rfl
  · unfold saveDar
    rw [List.zipIdx_cons, List.zipIdx_cons, Res.foldlM_cons, Res.foldlM_cons, hck]; rfl
  · unfold completeDar
    rw [List.zipIdx_cons, List.zipIdx_cons, Res.foldlM_cons, Res.foldlM_cons, hck]; rfl

namespace MTreesEx

/-- `MNetEx.orc` with path `p` instead of path 5. -/
def orcP (p : ℕ) : StepOracle := { MNetEx.orc with
  routing := .biclass none ⟨fun _ _ => some [(p, 1)], fun _ => [10, 11, 12]⟩
    ⟨fun _ _ => some [(p, 1)], fun _ => [10, 11, 12]⟩ }

/-- `MNetEx.orc` with adaptive routing: all vehicles go 10, 11, 12. -/
def orcA : StepOracle := { MNetEx.orc with
  mode := .one 1
  routing := .net (.adaptive fun _ n => some (if n = 1 then 10 else if n = 2 then 11 else if n = 3 then 12 else -1)) }

/-- A loading of thirteen intervals with trees on links 10, 11 and 12. -/
def run (o : StepOracle) : Res ((State × Woods) × ℕ × ℕ) :=
  loadManyT MNetEx.cfg (List.replicate 13 o) 0 0 (State.init MNetEx.links, plant [10, 11, 12])

end MTreesEx
open MTreesEx

example : MNetEx.cfg.net.Ok ∧ Fresh (State.init MNetEx.links) ∧ (∀ o ∈ List.replicate 13 (orcP 0), o.Ok MNetEx.cfg) ∧
    (∀ oid ∈ MNetEx.cfg.net.originIds, (MNetEx.cfg.net.origin oid).freq = MNetEx.cfg.net.assignFreq) := by
  refine ⟨MNetEx.cfg_ok, MNetEx.fresh, ?_, ?_⟩
  · intro o ho
    rw [List.eq_of_mem_replicate ho]
    exact ⟨MNetEx.orc_ok.release, MNetEx.orc_ok.order⟩
  · decide

example : ((run (orcP 0)).bind fun r => .ok (r.1.1.log.length, r.1.1.log.all fun e => (r.1.1.vehs e.veh).path == some 0))
    = .ok (33, true) := by
  decide +kernel

set_option synthInstance.maxSize 1024 in
example : ((run (orcP 0)).bind fun r => .ok (r.1.2 false 11, r.1.2 true 11))
    = .ok (some [((0, 0), [(0, 0), (6, 1/2), (7, 3/4)]), ((0, 1), [(0, 0), (9, 1/2)])],
      some [((0, 0), [(0, 0), (4, 1/4), (5, 1/2)]), ((0, 1), [(0, 0), (7, 1/4), (8, 1/2)])]) := by
  decide +kernel

set_option synthInstance.maxSize 1024 in
example : ((run (orcP 5)).bind fun r => darRecords 13 ([11, 12].map fun l => (l, r.1.2 false l)) [(0, 6), (6, 13)] [5])
    = .ok [⟨5, 0, 11, 0, 1/2⟩, ⟨5, 0, 11, 6, 1/4⟩, ⟨5, 1, 11, 6, 1/2⟩, ⟨5, 0, 12, 6, 3/4⟩, ⟨5, 1, 12, 6, 1/2⟩] := by
  decide +kernel

set_option synthInstance.maxSize 1024 in
example : ((run (orcP 0)).bind fun r =>
    (completeDar 13 ([10, 11, 12].map (r.1.2 false)) [(0, 6), (6, 13)] 2 1 [3/4, 1/2]).bind fun cells =>
      .ok (coeff cells 1 0 * (3/4) + coeff cells 1 1 * (1/2), coeff cells 4 0 * (3/4) + coeff cells 4 1 * (1/2),
        r.1.1.log.countP fun e => decide (e.dst = some 11 ∧ r.1.1.truck e.veh = false ∧ 0 ≤ e.t ∧ e.t < 6),
        r.1.1.log.countP fun e => decide (e.dst = some 11 ∧ r.1.1.truck e.veh = false ∧ 6 ≤ e.t ∧ e.t < 13)))
    = .ok (2/4, 3/4, 2, 3) := by
  decide +kernel

set_option synthInstance.maxSize 1024 in
example : ((run (orcP 0)).bind fun r =>
    saveDar 13 ([11, 12].map fun l => (l, r.1.2 true l)) [(0, 6), (6, 13)] [0] 1 [1/2, 1/2])
    = .ok [⟨0, 0, some 1⟩, ⟨2, 1, some 1⟩, ⟨3, 0, some 1⟩, ⟨3, 1, some 1⟩] := by
  decide +kernel

set_option synthInstance.maxSize 1024 in
/-- C104 is false for the first links: five cars enter link 10 from the origin node, all on the registered path, but
the matrix has no entry for the link. -/
theorem C104_false_for_first_links : ((run (orcP 0)).bind fun r =>
    (completeDar 13 ([10].map (r.1.2 false)) [(0, 13)] 2 1 [3/4, 1/2]).bind fun cells =>
      .ok (cells, r.1.1.log.countP fun e => decide (e.dst = some 10 ∧ r.1.1.truck e.veh = false ∧ 0 ≤ e.t ∧ e.t < 13)))
    = .ok ([], 5) := by
  decide +kernel

set_option synthInstance.maxSize 1024 in
/-- C104 is false when the registered paths have other numbers than 0, 1, …: with path 5 as the only registered path,
the flow of five intervals is divided by the path flows of departure intervals that have nothing to do with it, so that
what the ratios and the true path flows (3/4 and 1/2, for departure intervals 0 and 1) give for link 12 is 0, although
five cars entered; and without room for these columns the behaviour is undefined. -/
theorem C104_false_for_other_numbers :
    ((run (orcP 5)).bind fun r =>
      (completeDar 13 ([12].map (r.1.2 false)) [(0, 13)] 7 1 [3/4, 1/2, 0, 0, 0, 1, 1]).bind fun cells =>
        .ok (cells, coeff cells 0 0 * (3/4) + coeff cells 0 1 * (1/2),
          r.1.1.log.countP fun e => decide (e.dst = some 12 ∧ r.1.1.truck e.veh = false ∧ 0 ≤ e.t ∧ e.t < 13)))
      = .ok ([⟨0, 5, some (3/4)⟩, ⟨0, 6, some (1/2)⟩], 0, 5) ∧
    ((run (orcP 5)).bind fun r =>
      completeDar 13 ([12].map (r.1.2 false)) [(0, 13)] 2 1 [3/4, 1/2]) = .ub := by
  decide +kernel

set_option synthInstance.maxSize 1024 in
/-- C104 is false when vehicles choose their way while they travel: they have no path, whose number the complete matrix
asks for all the same. -/
theorem C104_false_without_path :
    ((run orcA).bind fun r => .ok ((r.1.2 false 12).map fun t => t.map Prod.fst)) = .ok (some [(-1, 0), (-1, 1)]) ∧
    ((run orcA).bind fun r => completeDar 13 ([12].map (r.1.2 false)) [(0, 13)] 2 1 [3/4, 1/2]) = .ub := by
  decide +kernel

end Verif
