import Verif.Spec.MmFleet
import Mathlib.Algebra.BigOperators.Group.List.Basic
import Mathlib.Tactic.Linarith
import Mathlib.Tactic.Ring
import Mathlib.Tactic.Push
import Mathlib.Tactic.FieldSimp
import Mathlib.Data.List.Induction

/-! # Lemmas about the counters of the fleet -/

namespace Verif.MmF

theorem madeFrom_make (n : ℕ) (ops : List Op) (v : Veh) :
    madeFrom n (ops ++ [.make v]) = madeFrom n ops ++ [{ v with id := n + (madeFrom n ops).length + 1 }] := by
  induction ops generalizing n with
  | nil => simp [madeFrom]
  | cons o ops ih =>
    cases o with
    | make w => simp only [List.cons_append, madeFrom, ih, List.length_cons]; congr 3; simp; omega
    | finish i t => simp only [List.cons_append, madeFrom, ih]

theorem madeFrom_finish (n : ℕ) (ops : List Op) (i : ℕ) (t : ℤ) :
    madeFrom n (ops ++ [.finish i t]) = madeFrom n ops := by
  induction ops generalizing n with
  | nil => simp [madeFrom]
  | cons o ops ih => cases o <;> simp only [List.cons_append, madeFrom, ih]

theorem madeFrom_ids (n : ℕ) (ops : List Op) :
    (madeFrom n ops).map (·.id) = List.range' (n + 1) (madeFrom n ops).length := by
  induction ops generalizing n with
  | nil => simp [madeFrom]
  | cons o ops ih =>
    cases o with
    | make w => simp only [madeFrom, List.map_cons, ih, List.length_cons, List.range'_succ]
    | finish i t => simp only [madeFrom, ih]

theorem finishOf_make (ops : List Op) (v : Veh) (id : ℕ) : finishOf (ops ++ [.make v]) id = finishOf ops id := by
  simp [finishOf, List.findSome?_append]

theorem finishOf_finish (ops : List Op) (i : ℕ) (t : ℤ) (id : ℕ) :
    finishOf (ops ++ [.finish i t]) id = (finishOf ops id).or (if i = id then some t else none) := by
  simp only [finishOf, List.findSome?_append, List.findSome?_cons, List.findSome?_nil]
  split_ifs <;> simp

/-- A sum over the vehicles changes by one term. -/
theorem sum_change {L : List Veh} (hn : (L.map (·.id)).Nodup) {v0 : Veh} (h0 : v0 ∈ L) {g g' : Veh → ℤ}
    (h : ∀ v ∈ L, v.id ≠ v0.id → g' v = g v) : (L.map g').sum = (L.map g).sum + (g' v0 - g v0) := by
  induction L with
  | nil => simp at h0
  | cons w L ih =>
    rw [List.map_cons, List.nodup_cons] at hn
    simp only [List.map_cons, List.sum_cons]
    rw [List.mem_cons] at h0
    rcases h0 with rfl | h0
    · have : L.map g' = L.map g := by
        apply List.map_congr_left
        intro v hv
        refine h v (by simp [hv]) fun e => ?_
        exact hn.1 (List.mem_map.2 ⟨v, hv, e⟩)
      rw [this]; ring
    · have hne : w.id ≠ v0.id := fun e => hn.1 (List.mem_map.2 ⟨v0, h0, e.symm⟩)
      rw [ih hn.2 h0 (fun v hv => h v (by simp [hv])), h w (by simp) hne]
      ring

theorem countP_sum (L : List Veh) (p : Veh → Bool) : ((L.countP p : ℕ) : ℤ) = (L.map fun v => if p v then 1 else 0).sum := by
  induction L with
  | nil => rfl
  | cons v L ih =>
    rw [List.countP_cons, List.map_cons, List.sum_cons, ← ih]
    split_ifs <;> push_cast <;> ring

theorem filter_sum (L : List Veh) (p : Veh → Bool) (g : Veh → ℤ) :
    ((L.filter p).map g).sum = (L.map fun v => if p v then g v else 0).sum := by
  induction L with
  | nil => rfl
  | cons v L ih =>
    rw [List.filter_cons, List.map_cons, List.sum_cons, ← ih]
    split_ifs <;> simp

/-- Time of the vehicles that have finished. -/
def doneTime (ops : List Op) (p : Veh → Bool) : ℤ :=
  ((made ops).map fun v => if p v && (finishOf ops v.id).isSome then spent ops 0 v else 0).sum

/-- The state of the factory follows from the history. -/
structure Inv (ops : List Op) (f : Fleet) : Prop where
  vehs : f.vehs = (made ops).filter fun v => (finishOf ops v.id).isNone
  num : f.num = (made ops).length
  known : ∀ id t, finishOf ops id = some t → id ≤ f.num
  enroute : f.enroute = ((made ops).countP fun v => (finishOf ops v.id).isNone : ℕ)
  finished : f.finished = ((made ops).countP fun v => (finishOf ops v.id).isSome : ℕ)
  time : f.time = doneTime ops fun _ => true
  numOf : ∀ k, f.numOf k = numKind ops k
  enrouteOf : ∀ k, f.enrouteOf k = ((made ops).countP fun v => v.kind == k && (finishOf ops v.id).isNone : ℕ)
  finishedOf : ∀ k, f.finishedOf k = doneKind ops k
  timeCar : f.timeCar = doneTime ops fun v => !v.truck
  timeTruck : f.timeTruck = doneTime ops fun v => v.kind == .truck
  timeBus : f.timeBus = doneTime ops fun v => v.kind == .bus

theorem inv_nil : Inv [] Fleet.empty := by
  constructor <;> intros <;> simp_all [Fleet.empty, made, madeFrom, finishOf, doneTime, numKind, doneKind]

theorem made_nodup (ops : List Op) : ((made ops).map (·.id)).Nodup := by
  rw [made, madeFrom_ids]
  exact List.nodup_range' ..

theorem made_le {ops : List Op} {v : Veh} (h : v ∈ made ops) : v.id ≤ (made ops).length := by
  have : v.id ∈ (made ops).map (·.id) := List.mem_map.2 ⟨v, h, rfl⟩
  rw [made, madeFrom_ids, List.mem_range'] at this
  obtain ⟨i, hi, e⟩ := this
  rw [made]
  omega

theorem doneTime_make {ops : List Op} {v : Veh} (hf : finishOf ops ((made ops).length + 1) = none) (p : Veh → Bool) :
    doneTime (ops ++ [.make v]) p = doneTime ops p := by
  simp only [doneTime, made, madeFrom_make, List.map_append, List.sum_append, List.map_cons, List.map_nil,
    List.sum_cons, List.sum_nil, finishOf_make, Nat.zero_add, spent]
  rw [made] at hf
  rw [hf]
  simp

theorem inv_make {ops : List Op} {f : Fleet} (h : Inv ops f) (v : Veh) :
    Inv (ops ++ [.make v]) (f.make { v with id := f.num + 1 }) := by
  have hf : finishOf ops ((made ops).length + 1) = none := by
    cases e : finishOf ops ((made ops).length + 1) with
    | none => rfl
    | some t => have := h.known _ _ e; rw [h.num] at this; omega
  have hm : made (ops ++ [.make v]) = made ops ++ [{ v with id := f.num + 1 }] := by
    rw [made, madeFrom_make, h.num, Nat.zero_add]; rfl
  have hf' : finishOf ops (f.num + 1) = none := by rw [h.num]; exact hf
  have hk : ∀ k : Kind, (({ v with id := f.num + 1 } : Veh).kind == k) = (v.kind == k) := fun _ => rfl
  refine ⟨?_, ?_, ?_, ?_, ?_, ?_, ?_, ?_, ?_, ?_, ?_, ?_⟩
  · simp only [hm, finishOf_make, List.filter_append]
    rw [← h.vehs]
    simp [Fleet.make, hf']
  · rw [hm]; simp [Fleet.make, h.num]
  · intro id t e
    rw [finishOf_make] at e
    have := h.known id t e
    simp only [Fleet.make]; omega
  · simp only [hm, finishOf_make, List.countP_append]
    simp [Fleet.make, hf', h.enroute]
  · simp only [hm, finishOf_make, List.countP_append]
    simp [Fleet.make, hf', h.finished]
  · rw [doneTime_make hf]; exact h.time
  · intro k
    simp only [numKind, hm, List.countP_append, Fleet.make]
    by_cases e : v.kind = k
    · subst e
      show upd f.numOf v.kind _ v.kind = _
      rw [upd_same, h.numOf, numKind]
      simp only [List.countP_singleton, hk]; simp; rfl
    · show upd f.numOf v.kind _ k = _
      rw [upd_other _ _ _ _ (fun x => e x.symm), h.numOf, numKind]
      simp only [List.countP_singleton, hk]; simp [e]
  · intro k
    simp only [hm, List.countP_append, Fleet.make, finishOf_make]
    by_cases e : v.kind = k
    · subst e
      show upd f.enrouteOf v.kind _ v.kind = _
      rw [upd_same]
      simp only [List.countP_singleton, hk, hf']; simp; exact h.enrouteOf v.kind
    · show upd f.enrouteOf v.kind _ k = _
      rw [upd_other _ _ _ _ (fun x => e x.symm), h.enrouteOf]
      simp only [List.countP_singleton, hk]; simp [e]
  · intro k
    simp only [doneKind, hm, List.countP_append, Fleet.make, finishOf_make]
    rw [h.finishedOf k, doneKind]
    simp [hf']
  · rw [doneTime_make hf]; exact h.timeCar
  · rw [doneTime_make hf]; exact h.timeTruck
  · rw [doneTime_make hf]; exact h.timeBus

theorem doneTime_finish {ops : List Op} {v : Veh} {t : ℤ} (hv : v ∈ made ops) (hf : finishOf ops v.id = none)
    (p : Veh → Bool) :
    doneTime (ops ++ [.finish v.id t]) p = doneTime ops p + if p v then t - v.start else 0 := by
  have hm : made (ops ++ [.finish v.id t]) = made ops := madeFrom_finish ..
  simp only [doneTime, hm]
  rw [sum_change (made_nodup ops) hv (g := fun v => if p v && (finishOf ops v.id).isSome then spent ops 0 v else 0)]
  · simp [spent, finishOf_finish, hf]
  · intro w _ hne
    simp [spent, finishOf_finish, Ne.symm hne]

theorem count_finish {ops : List Op} {v : Veh} {t : ℤ} (hv : v ∈ made ops) (hf : finishOf ops v.id = none)
    (p : Veh → Bool) :
    (((made (ops ++ [.finish v.id t])).countP fun w => p w && (finishOf (ops ++ [.finish v.id t]) w.id).isSome : ℕ) : ℤ)
      = ((made ops).countP fun w => p w && (finishOf ops w.id).isSome : ℕ) + if p v then 1 else 0 := by
  have hm : made (ops ++ [.finish v.id t]) = made ops := madeFrom_finish ..
  rw [countP_sum, countP_sum, hm,
    sum_change (made_nodup ops) hv (g := fun w => if (p w && (finishOf ops w.id).isSome) = true then 1 else 0)]
  · simp [finishOf_finish, hf]
  · intro w _ hne
    simp [finishOf_finish, Ne.symm hne]

theorem count_open {ops : List Op} {v : Veh} {t : ℤ} (hv : v ∈ made ops) (hf : finishOf ops v.id = none)
    (p : Veh → Bool) :
    (((made (ops ++ [.finish v.id t])).countP fun w => p w && (finishOf (ops ++ [.finish v.id t]) w.id).isNone : ℕ) : ℤ)
      = ((made ops).countP fun w => p w && (finishOf ops w.id).isNone : ℕ) - if p v then 1 else 0 := by
  have hm : made (ops ++ [.finish v.id t]) = made ops := madeFrom_finish ..
  rw [countP_sum, countP_sum, hm,
    sum_change (made_nodup ops) hv (g := fun w => if (p w && (finishOf ops w.id).isNone) = true then 1 else 0)]
  · simp [finishOf_finish, hf]
    split_ifs <;> simp [sub_eq_add_neg]
  · intro w _ hne
    simp [finishOf_finish, Ne.symm hne]

theorem inv_finish {ops : List Op} {f f' : Fleet} (h : Inv ops f) {i : ℕ} {t : ℤ} (hr : f.remove i t = .ok f') :
    Inv (ops ++ [.finish i t]) f' := by
  unfold Fleet.remove at hr
  split at hr
  · simp at hr
  rename_i v hfind
  have hid : v.id = i := by simpa using List.find?_some hfind
  have hmem := List.mem_of_find?_eq_some hfind
  rw [h.vehs, List.mem_filter] at hmem
  obtain ⟨hv, hf⟩ := hmem
  rw [Option.isNone_iff_eq_none] at hf
  subst hid
  simp only [Res.ok.injEq] at hr
  have hm : made (ops ++ [.finish v.id t]) = made ops := madeFrom_finish ..
  have ht := fun p => doneTime_finish (t := t) hv hf p
  have hs := fun p => count_finish (t := t) hv hf p
  have ho := fun p => count_open (t := t) hv hf p
  subst hr
  refine ⟨?_, ?_, ?_, ?_, ?_, ?_, ?_, ?_, ?_, ?_, ?_, ?_⟩
  · simp only [hm, finishOf_finish]
    rw [h.vehs, List.filter_filter]
    apply List.filter_congr
    intro w _
    by_cases e : v.id = w.id
    · simp [e]
    · simp [e, Ne.symm e]
  · simp [hm, h.num]
  · intro id t' e
    rw [finishOf_finish] at e
    simp only
    cases e2 : finishOf ops id with
    | some x => exact h.known _ _ e2
    | none =>
      rw [e2] at e
      by_cases e3 : v.id = id
      · have := made_le hv
        rw [h.num]; omega
      · simp [e3] at e
  · have := ho fun _ => true
    simp only [Bool.true_and, if_true] at this
    rw [this, ← h.enroute]
  · have := hs fun _ => true
    simp only [Bool.true_and, if_true] at this
    rw [this, ← h.finished]
  · rw [ht, ← h.time]; simp
  · intro k
    simp only [numKind, hm]
    exact h.numOf k
  · intro k
    rw [ho fun w => w.kind == k, ← h.enrouteOf k]
    by_cases e : v.kind = k
    · subst e; simp [upd_same]
    · simp [upd_other _ _ _ _ (fun x => e x.symm : k ≠ v.kind), e]
  · intro k
    rw [doneKind, hs fun w => w.kind == k]
    have := h.finishedOf k
    rw [doneKind] at this
    rw [← this]
    by_cases e : v.kind = k
    · subst e; simp [upd_same]
    · simp [upd_other _ _ _ _ (fun x => e x.symm : k ≠ v.kind), e]
  · rw [ht, ← h.timeCar]
    cases v.truck <;> simp
  · rw [ht, ← h.timeTruck]
    by_cases e : v.truck = true <;> by_cases e2 : v.route = -1 <;> by_cases e3 : v.pnr = true <;>
      simp [Veh.kind, e, e2, e3]
  · rw [ht, ← h.timeBus]
    by_cases e : v.truck = true <;> by_cases e2 : v.route = -1 <;> by_cases e3 : v.pnr = true <;>
      simp [Veh.kind, e, e2, e3]

theorem foldlM_append_ok {α σ : Type} {f : σ → α → Res σ} (l l' : List α) (s s' : σ)
    (h : Res.foldlM f s (l ++ l') = .ok s') : ∃ s1, Res.foldlM f s l = .ok s1 ∧ Res.foldlM f s1 l' = .ok s' := by
  induction l generalizing s with
  | nil => exact ⟨s, rfl, h⟩
  | cons a l ih =>
    rw [List.cons_append, Res.foldlM_cons, Res.bind_eq_ok] at h
    obtain ⟨s1, h1, h⟩ := h
    obtain ⟨s2, h2, h3⟩ := ih s1 h
    exact ⟨s2, by rw [Res.foldlM_cons, Res.bind_eq_ok]; exact ⟨s1, h1, h2⟩, h3⟩

theorem run_inv (ops : List Op) {f : Fleet} (h : Fleet.run ops = .ok f) : Inv ops f := by
  induction ops using List.reverseRecOn generalizing f with
  | nil =>
    simp only [Fleet.run, Res.foldlM, Res.ok.injEq] at h
    subst h
    exact inv_nil
  | append_singleton ops o ih =>
    obtain ⟨f1, h1, h2⟩ := foldlM_append_ok _ _ _ _ h
    have hi := ih h1
    rw [Res.foldlM_cons, Res.bind_eq_ok] at h2
    obtain ⟨f2, h2, h3⟩ := h2
    simp only [Res.foldlM, Res.ok.injEq] at h3
    subst h3
    cases o with
    | make v =>
      simp only [Fleet.op, Res.ok.injEq] at h2
      subst h2
      exact inv_make hi v
    | finish i t => exact inv_finish hi h2

/-! ## The report -/

theorem stats_fold (unit : ℚ) (cur : ℤ) (L : List Veh) (s : Stats) :
    L.foldl (Stats.add unit cur) s =
      ⟨s.cars + (L.countP fun v => v.kind == .car : ℕ), s.pnrs + (L.countP fun v => v.kind == .pnr : ℕ),
       s.trucks + (L.countP fun v => v.kind == .truck : ℕ), s.buses + (L.countP fun v => v.kind == .bus : ℕ),
       s.hoursCar + (((L.filter fun v => !v.truck).map fun v => cur - v.start).sum : ℤ) * unit / 3600,
       s.hoursTruck,
       s.hoursBus + (((L.filter fun v => v.truck).map fun v => cur - v.start).sum : ℤ) * unit / 3600⟩ := by
  induction L generalizing s with
  | nil => cases s; simp
  | cons v L ih =>
    rw [List.foldl_cons, ih]
    by_cases e : v.truck = true <;> by_cases e2 : v.route = -1 <;> by_cases e3 : v.pnr = true <;>
      simp [Stats.add, Veh.kind, e, e2, e3] <;> (try constructor) <;> (try ring)

/-- What is spent by all: by those that have finished and by those under way. -/
theorem spent_split (ops : List Op) (cur : ℤ) (p : Veh → Bool) :
    (((made ops).filter p).map (spent ops cur)).sum =
      doneTime ops p +
        ((((made ops).filter fun v => (finishOf ops v.id).isNone).filter p).map fun v => cur - v.start).sum := by
  rw [List.filter_filter, filter_sum, filter_sum, doneTime, ← List.sum_map_add]
  congr 1
  apply List.map_congr_left
  intro v _
  cases e : finishOf ops v.id <;> by_cases e2 : p v = true <;> simp [spent, e, e2]

end Verif.MmF
