import Verif.Spec.Route
import Verif.Lemmas.NetInv
import Mathlib.Data.List.Chain

/-! # Lemmas about the routes of vehicles under fixed routing -/

namespace Verif.Net
open Ults Curve Lnk

/-! ### Moves -/

/-- The moves of a vehicle that has entered the links `E` and is on the last one. -/
def legsPre (E : List ℕ) : List (Option ℕ × Option ℕ) := (none :: E.map some).zip (E.map some)

theorem zip_shift (x : Option ℕ) (E : List ℕ) (y : Option ℕ) :
    (x :: E.map some).zip (E.map some ++ [y])
      = (x :: E.map some).zip (E.map some) ++ [((E.map some).getLastD x, y)] := by
  induction E generalizing x with
  | nil => rfl
  | cons a E ih =>
    simp only [List.map_cons, List.cons_append, List.zip_cons_cons, ih (some a)]
    rw [List.getLastD_cons]

theorem getLastD_map (E : List ℕ) : (E.map some).getLastD none = E.getLast? := by
  rcases List.eq_nil_or_concat E with rfl | ⟨d, b, rfl⟩
  · rfl
  · simp only [List.concat_eq_append, List.map_append, List.map_cons, List.map_nil,
      List.getLastD_concat, List.getLast?_append, List.getLast?_singleton, Option.some_or]

theorem legs_eq (E : List ℕ) : legs E = legsPre E ++ [(E.getLast?, none)] := by
  unfold legs legsPre
  rw [zip_shift, getLastD_map]

theorem zip_extra (x : Option ℕ) (E : List ℕ) (l : ℕ) (y : Option ℕ) :
    (x :: (E ++ [l]).map some).zip (E.map some ++ [y])
      = (x :: E.map some).zip (E.map some ++ [y]) := by
  induction E generalizing x with
  | nil => rfl
  | cons a E ih =>
    simp only [List.map_cons, List.cons_append, List.zip_cons_cons, ih (some a)]

theorem legsPre_concat (E : List ℕ) (l : ℕ) :
    legsPre (E ++ [l]) = legsPre E ++ [(E.getLast?, some l)] := by
  have h : (E ++ [l]).map some = E.map some ++ [some l] := by simp
  unfold legsPre
  rw [show (none :: (E ++ [l]).map some).zip ((E ++ [l]).map some)
    = (none :: (E ++ [l]).map some).zip (E.map some ++ [some l]) by rw [h], zip_extra, zip_shift,
    getLastD_map]

theorem legsPre_prefix (E F : List ℕ) : legsPre E <+: legsPre (E ++ F) := by
  induction F generalizing E with
  | nil => simp
  | cons f F ih =>
    have := ih (E ++ [f])
    rw [List.append_assoc, List.singleton_append] at this
    refine List.IsPrefix.trans ?_ this
    rw [legsPre_concat]; exact List.prefix_append _ _

theorem legsPre_legs (E F : List ℕ) : legsPre E <+: legs (E ++ F) := by
  rw [legs_eq]
  exact (legsPre_prefix E F).trans (List.prefix_append _ _)

theorem movesOf_append (a b : List Event) (v : ℕ) : movesOf (a ++ b) v = movesOf a v ++ movesOf b v := by
  simp [movesOf]

theorem movesOf_entry {vs : List ℕ} {v : ℕ} (f : ℕ → Event) (hf : ∀ w, (f w).veh = w)
    (h : vs.count v ≤ 1) :
    movesOf (vs.map f) v = if v ∈ vs then [((f v).src, (f v).dst)] else [] := by
  induction vs with
  | nil => rfl
  | cons a vs ih =>
    rw [List.count_cons] at h
    have e : movesOf ((a :: vs).map f) v
        = (if a = v then [((f a).src, (f a).dst)] else []) ++ movesOf (vs.map f) v := by
      by_cases hav : a = v <;> simp [movesOf, hf, hav]
    rw [e]
    by_cases hav : a = v
    · subst hav
      simp only [beq_self_eq_true, if_true] at h
      have h0 : vs.count a = 0 := by omega
      rw [ih (by omega), if_neg (List.count_eq_zero.1 h0)]
      simp
    · rw [ih (by omega)]
      have : v ≠ a := fun e => hav e.symm
      simp [hav, this]

/-! ### Where a vehicle stands on its route -/

/-- In an origin queue. -/
def Queued (L : ℕ → List ℕ) (x : Veh) (tr : Option (List ℕ)) (S : List (Option ℕ × Option ℕ)) : Prop :=
  S = [] ∧ x.cur = none ∧ ((tr = none ∧ x.path = none ∧ x.next = none) ∨
    ∃ p l rest, x.path = some p ∧ tr = some rest ∧ x.next = some l ∧ L p = l :: rest)

/-- At the exit of link `l`, with its next link chosen. -/
def AtEnd (c : Cfg) (L : ℕ → List ℕ) (l : ℕ) (x : Veh) (tr : Option (List ℕ))
    (S : List (Option ℕ × Option ℕ)) : Prop :=
  ∃ p E, x.path = some p ∧ S = legsPre E ∧ E.getLast? = some l ∧ x.cur = some l ∧
    ((x.next = none ∧ tr = some [] ∧ E = L p ∧ c.destNode x.dest = c.toNode l) ∨
     ∃ l' rest, x.next = some l' ∧ tr = some rest ∧ E ++ l' :: rest = L p ∧
       c.destNode x.dest ≠ c.toNode l)

/-- On link `l`, with its next link not chosen yet. -/
def OnLink (L : ℕ → List ℕ) (l : ℕ) (x : Veh) (tr : Option (List ℕ))
    (S : List (Option ℕ × Option ℕ)) : Prop :=
  ∃ p E rest, x.path = some p ∧ S = legsPre E ∧ E.getLast? = some l ∧ x.cur = some l ∧
    x.next = some l ∧ tr = some rest ∧ E ++ rest = L p

/-- Past its last link. -/
def Done (L : ℕ → List ℕ) (x : Veh) (S : List (Option ℕ × Option ℕ)) : Prop :=
  ∃ p, x.path = some p ∧ S = legs (L p)

/-- Is it a destination node? -/
def Node.isDest : Node → Prop
  | .dest _ => True
  | _ => False

/-- The invariant. -/
structure Tr (c : Cfg) (L : ℕ → ℕ → List ℕ) (s : State) : Prop where
  queue : ∀ v, (s.vehs v).adaptive = false → ∀ n ∈ c.nodeIds, v ∈ s.queue n →
    ((c.node n).isDest → Done (L v) (s.vehs v) (movesOf s.log v)) ∧
    (¬ (c.node n).isDest → Queued (L v) (s.vehs v) (s.tracker v) (movesOf s.log v))
  on : ∀ v, (s.vehs v).adaptive = false → ∀ l ∈ c.linkIds, v ∈ s.on l →
    AtEnd c (L v) l (s.vehs v) (s.tracker v) (movesOf s.log v) ∨
    OnLink (L v) l (s.vehs v) (s.tracker v) (movesOf s.log v)
  done : ∀ v, 1 ≤ v → v ≤ s.numVeh → (s.vehs v).adaptive = false → v ∉ s.vehMap →
    Done (L v) (s.vehs v) (movesOf s.log v)
  fresh : ∀ v, s.numVeh < v → s.tracker v = none ∧ movesOf s.log v = []

/-! ### One place per vehicle -/

/-- Every vehicle is in at most one place. -/
def Once (c : Cfg) (s : State) : Prop := ∀ v, (s.places c).count v ≤ 1

theorem Core.once {c : Cfg} {s : State} (h : Core c s) : Once c s := by
  intro v
  rw [h.place v]; exact List.nodup_iff_count_le_one.1 h.nodup v

theorem Core.mem_map {c : Cfg} {s : State} (h : Core c s) {v : ℕ} (hv : v ∈ s.places c) :
    v ∈ s.vehMap := by
  rw [← List.count_pos_iff, ← h.place v, List.count_pos_iff]; exact hv

theorem mem_places_queue {c : Cfg} {s : State} {v n : ℕ} (hn : n ∈ c.nodeIds) (hv : v ∈ s.queue n) :
    v ∈ s.places c := by
  unfold State.places
  exact List.mem_append_left _ (List.mem_flatMap.2 ⟨n, hn, hv⟩)

theorem mem_places_on {c : Cfg} {s : State} {v l : ℕ} (hl : l ∈ c.linkIds) (hv : v ∈ s.on l) :
    v ∈ s.places c := by
  unfold State.places
  exact List.mem_append_right _ (List.mem_flatMap.2 ⟨l, hl, hv⟩)

theorem fin_on {s : State} {v l : ℕ} (h : v ∈ s.fin l) : v ∈ s.on l := by
  unfold State.on Link.holds
  exact List.mem_append_left _ (List.mem_append_left _ h)

theorem inc_on {s : State} {v l : ℕ} (h : v ∈ s.inc l) : v ∈ s.on l := by
  unfold State.on Link.holds
  exact List.mem_append_right _ h

theorem count_flatMap_two {A : List ℕ} {n m v : ℕ} (hn : n ∈ A) (hm : m ∈ A) (hne : n ≠ m)
    (f : ℕ → List ℕ) : (f n).count v + (f m).count v ≤ (A.flatMap f).count v := by
  induction A with
  | nil => simp at hn
  | cons a A ih =>
    simp only [List.flatMap_cons, List.count_append]
    rcases List.mem_cons.1 hn with hn1 | hn1
    · rcases List.mem_cons.1 hm with hm1 | hm1
      · exact absurd (hn1.trans hm1.symm) hne
      · have := count_flatMap_le (v := v) hm1 f; rw [hn1]; omega
    · rcases List.mem_cons.1 hm with hm1 | hm1
      · have := count_flatMap_le (v := v) hn1 f; rw [hm1]; omega
      · have := ih hn1 hm1; omega

theorem Once.queue_queue {c : Cfg} {s : State} (h : Once c s) {v n m : ℕ} (hn : n ∈ c.nodeIds)
    (hm : m ∈ c.nodeIds) (h1 : v ∈ s.queue n) (h2 : v ∈ s.queue m) : n = m := by
  by_contra hne
  have a := count_flatMap_two (v := v) hn hm hne s.queue
  have b := h v
  unfold State.places at b
  rw [List.count_append] at b
  have := List.count_pos_iff.2 h1
  have := List.count_pos_iff.2 h2
  omega

theorem Once.on_on {c : Cfg} {s : State} (h : Once c s) {v n m : ℕ} (hn : n ∈ c.linkIds)
    (hm : m ∈ c.linkIds) (h1 : v ∈ s.on n) (h2 : v ∈ s.on m) : n = m := by
  by_contra hne
  have a := count_flatMap_two (v := v) hn hm hne s.on
  have b := h v
  unfold State.places at b
  rw [List.count_append] at b
  have := List.count_pos_iff.2 h1
  have := List.count_pos_iff.2 h2
  omega

theorem Once.queue_on {c : Cfg} {s : State} (h : Once c s) {v n l : ℕ} (hn : n ∈ c.nodeIds)
    (hl : l ∈ c.linkIds) (h1 : v ∈ s.queue n) (h2 : v ∈ s.on l) : False := by
  have a := count_flatMap_le (v := v) hn s.queue
  have a' := count_flatMap_le (v := v) hl s.on
  have b := h v
  unfold State.places at b
  rw [List.count_append] at b
  have := List.count_pos_iff.2 h1
  have := List.count_pos_iff.2 h2
  omega

theorem Once.on_count {c : Cfg} {s : State} (h : Once c s) {l : ℕ} (hl : l ∈ c.linkIds) (v : ℕ) :
    (s.on l).count v ≤ 1 := by
  have a' := count_flatMap_le (v := v) hl s.on
  have b := h v
  unfold State.places at b
  rw [List.count_append] at b
  omega

theorem on_count_eq (s : State) (l v : ℕ) :
    (s.on l).count v = (s.fin l).count v + (s.trav l).count v + (s.inc l).count v := by
  unfold State.on Link.holds State.fin State.trav State.inc
  rw [List.count_append, List.count_append]

theorem Once.queue_count {c : Cfg} {s : State} (h : Once c s) {n : ℕ} (hn : n ∈ c.nodeIds) (v : ℕ) :
    (s.queue n).count v ≤ 1 := by
  have a' := count_flatMap_le (v := v) hn s.queue
  have b := h v
  unfold State.places at b
  rw [List.count_append] at b
  omega

theorem Once.fin_inc {c : Cfg} {s : State} (h : Once c s) {v l : ℕ} (hl : l ∈ c.linkIds)
    (h1 : v ∈ s.fin l) (h2 : v ∈ s.inc l) : False := by
  have a := h.on_count hl v
  rw [on_count_eq] at a
  have := List.count_pos_iff.2 h1
  have := List.count_pos_iff.2 h2
  omega

/-! ### Release -/

theorem Tr.rel {c : Cfg} (hc : c.Ok) {L : ℕ → ℕ → List ℕ} {ts k : ℕ} {s s' : State} (hco : Core c s)
    (h : Tr c L s) (r : Rel c ts k s s') : Tr c L s' := by
  have hold : ∀ v ∈ s.vehMap, s'.vehs v = s.vehs v := fun v hv =>
    r.old v (Or.inl (hco.range v hv).2)
  refine ⟨?_, ?_, ?_, ?_⟩
  · intro v ha n hn hv
    rw [r.log, r.tracker]
    have hv' := (r.queue n).mem_iff.1 hv
    rw [List.mem_append, List.mem_filter, List.mem_range'_1] at hv'
    rcases hv' with hv' | ⟨hv', hnode⟩
    · have e := hold v (hco.mem_map (mem_places_queue hn hv'))
      rw [e] at ha ⊢
      exact h.queue v ha n hn hv'
    · have hnode := of_decide_eq_true hnode
      obtain ⟨_, _, a1, a2, a3, a4⟩ := r.new v (by omega) (by omega)
      obtain ⟨_, outs, ho⟩ := hc.origins _ a4
      rw [hnode] at ho
      obtain ⟨f1, f2⟩ := h.fresh v (by omega)
      refine ⟨?_, fun _ => ⟨f2, a1, Or.inl ⟨f1, a3, a2⟩⟩⟩
      rw [ho]; exact fun hd => hd.elim
  · intro v ha l hl hv
    rw [r.log, r.tracker]
    have hv' : v ∈ s.on l := by unfold State.on at hv ⊢; rwa [r.links] at hv
    have e := hold v (hco.mem_map (mem_places_on hl hv'))
    rw [e] at ha ⊢
    exact h.on v ha l hl hv'
  · intro v h1 h2 ha hv
    rw [r.map, List.mem_append, not_or, List.mem_range'_1] at hv
    rw [r.num] at h2
    have hle : v ≤ s.numVeh := by omega
    have e := r.old v (Or.inl hle)
    rw [r.log]
    rw [e] at ha ⊢
    exact h.done v h1 hle ha hv.1
  · intro v hv
    rw [r.num] at hv
    rw [r.tracker, r.log]
    exact h.fresh v (by omega)

/-! ### Routing -/

theorem Routed.adaptive {s s' : State} (r : Routed s s') (v : ℕ) :
    (s'.vehs v).adaptive = (s.vehs v).adaptive := by
  have := r.veh v; simp only [Veh.mk.injEq] at this; tauto

theorem Routed.cur {s s' : State} (r : Routed s s') (v : ℕ) :
    (s'.vehs v).cur = (s.vehs v).cur := by
  have := r.veh v; simp only [Veh.mk.injEq] at this; tauto

theorem Routed.dest {s s' : State} (r : Routed s s') (v : ℕ) :
    (s'.vehs v).dest = (s.vehs v).dest := by
  have := r.veh v; simp only [Veh.mk.injEq] at this; tauto

theorem Routed.on_eq {s s' : State} (r : Routed s s') : s'.on = s.on := by
  unfold State.on; rw [r.links]

theorem Routed.fin_eq {s s' : State} (r : Routed s s') : s'.fin = s.fin := by
  unfold State.fin; rw [r.links]

/-- Only vehicle `v` was routed. -/
structure RoutedOne (v : ℕ) (s s' : State) : Prop where
  routed : Routed s s'
  veh : ∀ w, w ≠ v → s'.vehs w = s.vehs w
  tracker : ∀ w, w ≠ v → s'.tracker w = s.tracker w

theorem RoutedOne.refl (v : ℕ) (s : State) : RoutedOne v s s :=
  ⟨Routed.refl s, fun _ _ => rfl, fun _ _ => rfl⟩

theorem RoutedOne.trans {v : ℕ} {a b d : State} (h : RoutedOne v a b) (k : RoutedOne v b d) :
    RoutedOne v a d :=
  ⟨h.routed.trans k.routed, fun w hw => (k.veh w hw).trans (h.veh w hw),
    fun w hw => (k.tracker w hw).trans (h.tracker w hw)⟩

theorem routedOne_next (s : State) (v : ℕ) (x : Option ℕ) (y : Option (List ℕ)) :
    RoutedOne v s { s with vehs := upd s.vehs v { s.vehs v with next := x },
                           tracker := upd s.tracker v y } :=
  ⟨routed_next _ _ _ _, fun _ hw => upd_other _ _ _ _ hw, fun _ hw => upd_other _ _ _ _ hw⟩

theorem routedOne_next' (s : State) (v : ℕ) (x : Option ℕ) :
    RoutedOne v s { s with vehs := upd s.vehs v { s.vehs v with next := x } } :=
  ⟨routed_next s v x s.tracker, fun w hw => upd_other _ _ _ _ hw, fun _ _ => rfl⟩

theorem registerVeh_one {c : Cfg} {pt : PathTable} {r : ℚ} {v : ℕ} {b : Bool} {s s' : State}
    (h : registerVeh c pt r v b s = .ok s') : RoutedOne v s s' := by
  refine ⟨registerVeh_routed h, ?_, ?_⟩
  · unfold registerVeh at h
    split at h
    · simp at h
    split at h
    · simp at h
    cases h
    exact fun w hw => upd_other _ _ _ _ hw
  · unfold registerVeh at h
    split at h
    · simp at h
    split at h
    · simp at h
    cases h
    intro w hw
    cases b with
    | false => rfl
    | true =>
      cases htr : s.tracker v with
      | none => simp [htr, upd_other _ _ _ _ hw]
      | some _ => simp [htr]

theorem nextFromTracker_one {c : Cfg} {v : ℕ} {s s' : State} (h : nextFromTracker c v s = .ok s') :
    RoutedOne v s s' ∧ ∃ l rest, s.tracker v = some (l :: rest) ∧ s'.tracker v = some rest ∧
      s'.vehs v = { s.vehs v with next := some l } := by
  unfold nextFromTracker at h
  split at h
  · simp at h
  · simp at h
  rename_i l rest htr
  rw [Res.bind_eq_ok'] at h
  obtain ⟨l', hl, h⟩ := h
  cases h
  unfold getLink at hl
  split at hl
  · cases hl
    exact ⟨routedOne_next _ _ _ _, l, rest, htr, by simp, by simp⟩
  · simp at hl

theorem Tr.one {c : Cfg} {L : ℕ → ℕ → List ℕ} {s s' : State} {v : ℕ} (h : Tr c L s)
    (r : RoutedOne v s s') (hv : v ∈ s.vehMap) (hr : v ≤ s.numVeh)
    (hq : (s.vehs v).adaptive = false → ∀ n ∈ c.nodeIds, v ∈ s.queue n →
      ((c.node n).isDest → Done (L v) (s'.vehs v) (movesOf s.log v)) ∧
      (¬ (c.node n).isDest → Queued (L v) (s'.vehs v) (s'.tracker v) (movesOf s.log v)))
    (ho : (s.vehs v).adaptive = false → ∀ l ∈ c.linkIds, v ∈ s.on l →
      AtEnd c (L v) l (s'.vehs v) (s'.tracker v) (movesOf s.log v) ∨
      OnLink (L v) l (s'.vehs v) (s'.tracker v) (movesOf s.log v)) : Tr c L s' := by
  have R := r.routed
  refine ⟨?_, ?_, ?_, ?_⟩
  · intro w ha n hn hw
    rw [R.queue] at hw
    rw [R.adaptive] at ha
    rw [R.log]
    by_cases e : w = v
    · subst e; exact hq ha n hn hw
    · rw [r.veh w e, r.tracker w e]; exact h.queue w ha n hn hw
  · intro w ha l hl hw
    rw [R.on_eq] at hw
    rw [R.adaptive] at ha
    rw [R.log]
    by_cases e : w = v
    · subst e; exact ho ha l hl hw
    · rw [r.veh w e, r.tracker w e]; exact h.on w ha l hl hw
  · intro w h1 h2 ha hm
    rw [R.num] at h2
    rw [R.adaptive] at ha
    rw [R.map] at hm
    rw [R.log]
    have e : w ≠ v := fun e => hm (e ▸ hv)
    rw [r.veh w e]; exact h.done w h1 h2 ha hm
  · intro w hw
    rw [R.num] at hw
    rw [R.log, r.tracker w (by omega)]
    exact h.fresh w hw

theorem fixedOrigin_one {c : Cfg} {pt : PathTable} {o : RouteOracle} {s s' : State} {v : ℕ}
    (he : fixedOrigin c pt o s v = .ok s') : RoutedOne v s s' := by
  unfold fixedOrigin at he
  split at he
  · split at he
    · exact registerVeh_one he
    · cases he; exact RoutedOne.refl _ _
  · split at he
    · cases he; exact RoutedOne.refl _ _
    · rw [Res.bind_eq_ok'] at he
      obtain ⟨s1, h1, h2⟩ := he
      exact (registerVeh_one h1).trans (nextFromTracker_one h2).1

theorem fixedOrigin_tr {c : Cfg} (hc : c.Ok) {L : ℕ → ℕ → List ℕ} {pt : PathTable}
    {o : RouteOracle} {s s' : State} {v oid : ℕ} (hL : pt.links = L v) (ho : oid ∈ c.originIds) (hco : Core c s)
    (hv : v ∈ s.queue (c.origin oid).node) (h : Tr c L s)
    (he : fixedOrigin c pt o s v = .ok s') : Tr c L s' := by
  obtain ⟨hn, outs, hk⟩ := hc.origins oid ho
  have hm := hco.mem_map (mem_places_queue hn hv)
  have hr := (hco.range v hm).2
  have hnd : ¬ (c.node (c.origin oid).node).isDest := by rw [hk]; exact fun h => h
  unfold fixedOrigin at he
  split at he
  · rename_i had
    split at he
    · exact h.one (registerVeh_one he) hm hr (fun e => by rw [had] at e; simp at e)
        (fun e => by rw [had] at e; simp at e)
    · cases he; exact h
  · rename_i had
    have had : (s.vehs v).adaptive = false := Bool.eq_false_iff.2 had
    split at he
    · cases he; exact h
    · rename_i htr
      rw [Res.bind_eq_ok'] at he
      obtain ⟨s1, h1, h2⟩ := he
      have r1 := registerVeh_one h1
      obtain ⟨r2, l, rest, t1, t2, t3⟩ := nextFromTracker_one h2
      obtain ⟨q1, q2, q3⟩ := (h.queue v had _ hn hv).2 hnd
      refine h.one (r1.trans r2) hm hr ?_ ?_
      · intro _ n hn' hv'
        have en : n = (c.origin oid).node := hco.once.queue_queue hn' hn hv' hv
        subst en
        refine ⟨fun hd => absurd hd hnd, fun _ => ?_⟩
        unfold registerVeh at h1
        split at h1
        · simp at h1
        split at h1
        · simp at h1
        rename_i p _
        cases h1
        simp only [if_true, htr, upd_same, Option.some.injEq] at t1
        refine ⟨q1, ?_, Or.inr ⟨p, l, rest, ?_, t2, ?_, ?_⟩⟩
        · rw [t3]; simpa using q2
        · rw [t3]; simp
        · rw [t3]
        · rw [← hL]; exact t1
      · intro _ l' hl' hv'
        exact (hco.once.queue_on hn hl' hv hv').elim

theorem getLast?_ne {E rest : List ℕ} {l l' : ℕ} (h : (E ++ l' :: rest).IsChain (· ≠ ·))
    (hl : E.getLast? = some l) : l ≠ l' := by
  rcases List.eq_nil_or_concat E with rfl | ⟨d, b, rfl⟩
  · simp at hl
  · simp only [List.concat_eq_append, List.getLast?_append, List.getLast?_singleton,
      Option.some_or, Option.some.injEq] at hl
    subst hl
    rw [List.concat_eq_append, List.append_assoc, List.singleton_append] at h
    have := (List.isChain_append.1 h).2.1
    rw [List.isChain_cons_cons] at this
    exact this.1

theorem fixedLink_status {c : Cfg} {L : ℕ → List ℕ} (hch : ∀ p, (L p).IsChain (· ≠ ·))
    {s s' : State} {v l : ℕ} (had : (s.vehs v).adaptive = false)
    (hst : AtEnd c L l (s.vehs v) (s.tracker v) (movesOf s.log v) ∨
      OnLink L l (s.vehs v) (s.tracker v) (movesOf s.log v))
    (he : fixedLink c l s v = .ok s') :
    RoutedOne v s s' ∧ AtEnd c L l (s'.vehs v) (s'.tracker v) (movesOf s'.log v) := by
  unfold fixedLink at he
  rw [if_neg (by rw [had]; simp)] at he
  split at he
  · rename_i hd
    split at he
    · simp at he
    · rename_i htr
      cases he
      refine ⟨routedOne_next' _ _ _, ?_⟩
      rcases hst with ⟨p, E, h1, h2, h3, h4, h5⟩ | ⟨p, E, rest, h1, h2, h3, h4, h5, h6, h7⟩
      · refine ⟨p, E, by simpa using h1, h2, h3, by simpa using h4, Or.inl ⟨by simp, htr, ?_, by simpa using hd⟩⟩
        rcases h5 with ⟨_, _, h5, _⟩ | ⟨_, _, _, _, _, h5⟩
        · exact h5
        · exact absurd hd h5
      · refine ⟨p, E, by simpa using h1, h2, h3, by simpa using h4, Or.inl ⟨by simp, htr, ?_, by simpa using hd⟩⟩
        rw [htr] at h6
        cases h6
        rwa [List.append_nil] at h7
    · simp at he
  · rename_i hd
    split at he
    · simp at he
    · rename_i tr htr
      split at he
      · rename_i hcur
        obtain ⟨r, l', rest', t1, t2, t3⟩ := nextFromTracker_one he
        refine ⟨r, ?_⟩
        rw [r.routed.log]
        rcases hst with ⟨p, E, h1, h2, h3, h4, h5⟩ | ⟨p, E, rest, h1, h2, h3, h4, h5, h6, h7⟩
        · exfalso
          rcases h5 with ⟨h5, h6, _⟩ | ⟨a, b, h5, h6, h7, _⟩
          · rw [t1] at h6; simp at h6
          · rw [h4, h5, Option.some.injEq] at hcur
            have hc2 := hch p
            rw [← h7] at hc2
            exact getLast?_ne hc2 h3 hcur
        · rw [t1] at h6
          cases h6
          refine ⟨p, E, by rw [t3]; exact h1, h2, h3, by rw [t3]; exact h4,
            Or.inr ⟨l', rest', by rw [t3], t2, h7, ?_⟩⟩
          rw [t3]; exact hd
      · rename_i hcur
        cases he
        refine ⟨RoutedOne.refl _ _, ?_⟩
        rcases hst with h | ⟨p, E, rest, h1, h2, h3, h4, h5, h6, h7⟩
        · exact h
        · exact absurd (h4.trans h5.symm) hcur

theorem fixedLink_adaptive {c : Cfg} {s s' : State} {v l : ℕ} (had : (s.vehs v).adaptive = true)
    (he : fixedLink c l s v = .ok s') : s' = s := by
  unfold fixedLink at he
  rw [if_pos had] at he
  cases he; rfl

/-- Every static vehicle at the exit of `l` has its next link chosen. -/
def Chosen (c : Cfg) (L : ℕ → ℕ → List ℕ) (l v : ℕ) (s : State) : Prop :=
  (s.vehs v).adaptive = false → AtEnd c (L v) l (s.vehs v) (s.tracker v) (movesOf s.log v)

theorem fixedLink_tr {c : Cfg} {L : ℕ → ℕ → List ℕ} {s s' : State} {v l : ℕ}
    (hch : ∀ p, (L v p).IsChain (· ≠ ·)) (hl : l ∈ c.linkIds) (hco : Core c s)
    (hv : v ∈ s.fin l) (h : Tr c L s) (he : fixedLink c l s v = .ok s') :
    Tr c L s' ∧ Chosen c L l v s' ∧ ∀ k w, k ∈ c.linkIds → w ∈ s.fin k → Chosen c L k w s →
      Chosen c L k w s' := by
  have hm := hco.mem_map (mem_places_on hl (fin_on hv))
  have hr := (hco.range v hm).2
  by_cases had : (s.vehs v).adaptive = true
  · have e := fixedLink_adaptive had he
    subst e
    exact ⟨h, fun e => by rw [had] at e; simp at e, fun _ _ _ _ h => h⟩
  · have had := Bool.eq_false_iff.2 had
    obtain ⟨r, st⟩ := fixedLink_status hch had (h.on v had l hl (fin_on hv)) he
    refine ⟨?_, fun _ => st, ?_⟩
    · rw [r.routed.log] at st
      refine h.one r hm hr ?_ ?_
      · intro _ n hn hv'
        exact (hco.once.queue_on hn hl hv' (fin_on hv)).elim
      · intro _ k hk hv'
        have := hco.once.on_on hk hl hv' (fin_on hv)
        subst this
        exact Or.inl st
    · intro k w hk hw hch' ha
      by_cases e : w = v
      · subst e
        have := hco.once.on_on hk hl (fin_on hw) (fin_on hv)
        subst this
        exact st
      · rw [r.routed.adaptive] at ha
        rw [r.veh w e, r.tracker w e, r.routed.log]
        exact hch' ha

theorem foldlM_each {α β : Type} {f : β → α → Res β} {P : β → Prop} {Q : α → β → Prop} (as : List α)
    (step : ∀ b a b', a ∈ as → P b → f b a = .ok b' → P b' ∧ Q a b')
    (keep : ∀ b a b' a', a ∈ as → a' ∈ as → P b → f b a = .ok b' → Q a' b → Q a' b') :
    ∀ (b b' : β), P b → Res.foldlM f b as = .ok b' → P b' ∧ ∀ a ∈ as, Q a b' := by
  induction as with
  | nil => intro b b' hb h; simp at h; exact h ▸ ⟨hb, by simp⟩
  | cons a as ih =>
    intro b b' hb h
    rw [Res.foldlM_cons, Res.bind_eq_ok] at h
    obtain ⟨d, hd, h⟩ := h
    obtain ⟨p1, q1⟩ := step b a d (by simp) hb hd
    obtain ⟨p2, q2⟩ := ih (fun b a b' ha => step b a b' (List.mem_cons_of_mem _ ha))
      (fun b x b' y hx hy => keep b x b' y (List.mem_cons_of_mem _ hx) (List.mem_cons_of_mem _ hy))
      d b' p1 h
    refine ⟨p2, ?_⟩
    intro x hx
    rcases List.mem_cons.1 hx with rfl | hx
    · have := Res.foldlM_inv_mem (P := fun t => P t ∧ Q x t) as (by
        intro b a b' ha hb he
        exact ⟨(step b a b' (List.mem_cons_of_mem _ ha) hb.1 he).1,
          keep b a b' x (List.mem_cons_of_mem _ ha) (by simp) hb.1 he hb.2⟩) d b' ⟨p1, q1⟩ h
      exact this.2
    · exact q2 x hx

/-- The fixed routing of the vehicles in `K`. -/
def fixedSome (c : Cfg) (K : ℕ → Prop) [DecidablePred K] (pt : PathTable) (o : RouteOracle) :
    State → Res State :=
  routeAll c (fun _ s v => if K v then fixedOrigin c pt o s v else .ok s)
    (fun l s v => if K v then fixedLink c l s v else .ok s)

theorem fixedSome_tr {c : Cfg} (hc : c.Ok) {L : ℕ → ℕ → List ℕ} {K : ℕ → Prop} [DecidablePred K]
    (hch : ∀ v p, (L v p).IsChain (· ≠ ·)) {pt : PathTable} (hL : ∀ v, K v → pt.links = L v)
    {o : RouteOracle} {s s' : State} (hco : Core c s) (h : Tr c L s)
    (he : fixedSome c K pt o s = .ok s') :
    Routed s s' ∧ Tr c L s' ∧ (∀ l ∈ c.linkIds, ∀ v ∈ s'.fin l, K v → Chosen c L l v s') ∧
      ∀ l ∈ c.linkIds, ∀ v ∈ s'.fin l, Chosen c L l v s → Chosen c L l v s' := by
  unfold fixedSome routeAll at he
  rw [Res.bind_eq_ok'] at he
  obtain ⟨s1, h1, h2⟩ := he
  have A : Routed s s1 ∧ Tr c L s1 ∧ ∀ l ∈ c.linkIds, ∀ v ∈ s.fin l, Chosen c L l v s →
      Chosen c L l v s1 := by
    refine Res.foldlM_inv_mem (P := fun t => Routed s t ∧ Tr c L t ∧ ∀ l ∈ c.linkIds,
      ∀ v ∈ s.fin l, Chosen c L l v s → Chosen c L l v t) c.originIds ?_ s s1
      ⟨Routed.refl s, h, fun _ _ _ _ h => h⟩ h1
    intro b oid b' ho hb hbe
    have := Res.foldlM_inv_mem (P := fun t => Routed b t ∧ Tr c L t ∧ ∀ l ∈ c.linkIds,
      ∀ v ∈ s.fin l, Chosen c L l v s → Chosen c L l v t) (b.queue (c.origin oid).node)
      (by
        intro x v x' hv hx hxe
        simp only at hxe
        split at hxe
        swap
        · cases hxe; exact hx
        rename_i hK
        have hq : v ∈ x.queue (c.origin oid).node := by rw [hx.1.queue]; exact hv
        have hcx := (hco.routed hb.1).routed hx.1
        have hn := (hc.origins oid ho).1
        refine ⟨hx.1.trans (fixedOrigin_routed hxe), fixedOrigin_tr hc (hL v hK) ho hcx hq hx.2.1 hxe, ?_⟩
        intro l hl w hw hch' ha
        have r := fixedOrigin_one hxe
        have e : w ≠ v := by
          rintro rfl
          refine hcx.once.queue_on hn hl hq (fin_on ?_)
          rw [hx.1.fin_eq, hb.1.fin_eq]; exact hw
        rw [r.routed.adaptive] at ha
        rw [r.veh w e, r.tracker w e, r.routed.log]
        exact hx.2.2 l hl w hw hch' ha)
      b b' ⟨Routed.refl b, hb.2⟩ hbe
    exact ⟨hb.1.trans this.1, this.2⟩
  have hco1 := hco.routed A.1
  have one : ∀ {x x' : State} {l v : ℕ}, Routed s1 x → l ∈ c.linkIds → v ∈ s1.fin l → Tr c L x →
      (if K v then fixedLink c l x v else .ok x) = .ok x' →
      Routed x x' ∧ Tr c L x' ∧ (K v → Chosen c L l v x') ∧
        ∀ k w, k ∈ c.linkIds → w ∈ s1.fin k → Chosen c L k w x → Chosen c L k w x' := by
    intro x x' l v hr hl hv ht hxe
    split at hxe
    · rename_i hK
      have F := fixedLink_tr (hch v) hl (hco1.routed hr) (by rw [hr.fin_eq]; exact hv) ht hxe
      refine ⟨fixedLink_routed hxe, F.1, fun _ => F.2.1, ?_⟩
      intro k w hk hw
      exact F.2.2 k w hk (by rw [hr.fin_eq]; exact hw)
    · rename_i hK
      cases hxe
      exact ⟨Routed.refl _, ht, fun h => absurd h hK, fun _ _ _ _ h => h⟩
  have B := foldlM_each (P := fun t => Routed s1 t ∧ Tr c L t ∧ ∀ k ∈ c.linkIds, ∀ w ∈ s1.fin k,
      Chosen c L k w s1 → Chosen c L k w t)
    (Q := fun l t => ∀ v ∈ s1.fin l, K v → Chosen c L l v t) c.linkIds (by
      intro b l b' hl hb hbe
      have hfin : (b.links l).link.finished = s1.fin l := by
        rw [← hb.1.fin_eq]; rfl
      rw [hfin] at hbe
      exact foldlM_each (P := fun t => Routed s1 t ∧ Tr c L t ∧ ∀ k ∈ c.linkIds, ∀ w ∈ s1.fin k,
          Chosen c L k w s1 → Chosen c L k w t)
        (Q := fun v t => K v → Chosen c L l v t) (s1.fin l) (by
          intro x v x' hv hx hxe
          obtain ⟨f1, f2, f3, f4⟩ := one hx.1 hl hv hx.2.1 hxe
          exact ⟨⟨hx.1.trans f1, f2, fun k hk w hw hc' => f4 k w hk hw (hx.2.2 k hk w hw hc')⟩, f3⟩)
        (by
          intro x v x' w hv hw hx hxe hq hK
          exact (one hx.1 hl hv hx.2.1 hxe).2.2.2 l w hl hw (hq hK))
        b b' hb hbe) (by
      intro b l b' k hl hk hb hbe hq
      have hfin : (b.links l).link.finished = s1.fin l := by
        rw [← hb.1.fin_eq]; rfl
      rw [hfin] at hbe
      have := Res.foldlM_inv_mem (P := fun t => Routed s1 t ∧ Tr c L t ∧
          ∀ v ∈ s1.fin k, K v → Chosen c L k v t) (s1.fin l) (by
          intro x v x' hv hx hxe
          obtain ⟨f1, f2, _, f4⟩ := one hx.1 hl hv hx.2.1 hxe
          exact ⟨hx.1.trans f1, f2, fun w hw hK => f4 k w hk hw (hx.2.2 w hw hK)⟩)
        b b' ⟨hb.1, hb.2.1, hq⟩ hbe
      exact this.2.2) s1 s' ⟨Routed.refl s1, A.2.1, fun _ _ _ _ h => h⟩ h2
  refine ⟨A.1.trans B.1.1, B.1.2.1, ?_, ?_⟩
  · intro l hl v hv hK
    rw [B.1.1.fin_eq] at hv
    exact B.2 l hl v hv hK
  · intro l hl v hv hK
    rw [B.1.1.fin_eq] at hv
    refine B.1.2.2 l hl v hv (A.2.2 l hl v ?_ hK)
    rw [← A.1.fin_eq]; exact hv

theorem fixedRouting_tr {c : Cfg} (hc : c.Ok) {L : ℕ → List ℕ} (hch : ∀ p, (L p).IsChain (· ≠ ·))
    {pt : PathTable} (hL : pt.links = L) {o : RouteOracle} {s s' : State} (hco : Core c s)
    (h : Tr c (fun _ => L) s) (he : fixedRouting c pt o s = .ok s') :
    Tr c (fun _ => L) s' ∧ ∀ l ∈ c.linkIds, ∀ v ∈ s'.fin l, Chosen c (fun _ => L) l v s' := by
  obtain ⟨_, h1, h2, _⟩ := fixedSome_tr (K := fun _ => True) (L := fun _ => L) hc (fun _ => hch)
    (fun _ _ => hL) hco h (by simpa [fixedSome, fixedRouting] using he)
  exact ⟨h1, fun l hl v hv => h2 l hl v hv trivial⟩

/-- Nothing changes for static vehicles. -/
structure StaticKept (s s' : State) : Prop where
  routed : Routed s s'
  tracker : s'.tracker = s.tracker
  veh : ∀ v, (s.vehs v).adaptive = false → s'.vehs v = s.vehs v

theorem StaticKept.refl (s : State) : StaticKept s s := ⟨Routed.refl s, rfl, fun _ _ => rfl⟩

theorem StaticKept.trans {a b d : State} (h : StaticKept a b) (k : StaticKept b d) :
    StaticKept a d :=
  ⟨h.routed.trans k.routed, k.tracker.trans h.tracker, fun v hv => by
    rw [k.veh v (by rw [h.routed.adaptive]; exact hv), h.veh v hv]⟩

theorem staticKept_next (s : State) {v : ℕ} (hv : (s.vehs v).adaptive = true) (x : Option ℕ) :
    StaticKept s { s with vehs := upd s.vehs v { s.vehs v with next := x } } := by
  refine ⟨routed_next s v x s.tracker, rfl, ?_⟩
  intro w hw
  have : w ≠ v := by rintro rfl; rw [hv] at hw; simp at hw
  exact upd_other _ _ _ _ this

theorem adaptiveOrigin_kept {c : Cfg} {tr : Trees} {n : ℕ} {s s' : State} {v : ℕ}
    (h : adaptiveOrigin c tr n s v = .ok s') : StaticKept s s' := by
  unfold adaptiveOrigin at h
  split at h
  · rename_i hv
    split at h
    · simp at h
    · split at h
      · simp at h
      · rw [Res.bind_eq_ok'] at h
        obtain ⟨l, _, h⟩ := h
        cases h; exact staticKept_next _ hv _
  · cases h; exact StaticKept.refl _

theorem adaptiveLink_kept {c : Cfg} {tr : Trees} {o : RouteOracle} {l : ℕ} {s s' : State} {v : ℕ}
    (h : adaptiveLink c tr o l s v = .ok s') : StaticKept s s' := by
  unfold adaptiveLink at h
  split at h
  · rename_i hv
    split at h
    · simp at h
    · split at h
      · cases h; exact staticKept_next _ hv _
      · split at h
        · simp at h
        · simp only at h
          rw [Res.bind_eq_ok'] at h
          obtain ⟨k, _, h⟩ := h
          split at h
          · simp at h
          · split at h
            · simp at h
            · cases h; exact staticKept_next _ hv _
  · cases h; exact StaticKept.refl _

theorem adaptiveRouting_kept {c : Cfg} {tr : Trees} {o : RouteOracle} {s s' : State}
    (h : adaptiveRouting c tr o s = .ok s') : StaticKept s s' := by
  unfold adaptiveRouting routeAll at h
  rw [Res.bind_eq_ok'] at h
  obtain ⟨s1, h1, h2⟩ := h
  have A : StaticKept s s1 := by
    refine Res.foldlM_inv (P := fun t => StaticKept s t) ?_ _ _ _ (StaticKept.refl s) h1
    intro b oid b' hb he
    refine Res.foldlM_inv (P := fun t => StaticKept s t) ?_ _ _ _ hb he
    intro x v x' hx hv
    exact hx.trans (adaptiveOrigin_kept hv)
  refine Res.foldlM_inv (P := fun t => StaticKept s t) ?_ _ _ _ A h2
  intro b l b' hb he
  refine Res.foldlM_inv (P := fun t => StaticKept s t) ?_ _ _ _ hb he
  intro x v x' hx hv
  exact hx.trans (adaptiveLink_kept hv)

theorem Tr.kept {c : Cfg} {L : ℕ → ℕ → List ℕ} {s s' : State} (h : Tr c L s) (r : StaticKept s s') :
    Tr c L s' := by
  have R := r.routed
  refine ⟨?_, ?_, ?_, ?_⟩
  · intro w ha n hn hw
    rw [R.queue] at hw
    rw [R.adaptive] at ha
    rw [R.log, r.veh w ha, r.tracker]
    exact h.queue w ha n hn hw
  · intro w ha l hl hw
    rw [R.on_eq] at hw
    rw [R.adaptive] at ha
    rw [R.log, r.veh w ha, r.tracker]
    exact h.on w ha l hl hw
  · intro w h1 h2 ha hm
    rw [R.num] at h2
    rw [R.adaptive] at ha
    rw [R.map] at hm
    rw [R.log, r.veh w ha]
    exact h.done w h1 h2 ha hm
  · intro w hw
    rw [R.num] at hw
    rw [R.log, r.tracker]
    exact h.fresh w hw

theorem routing_tr {c : Cfg} (hc : c.Ok) {L : ℕ → List ℕ} (hch : ∀ p, (L p).IsChain (· ≠ ·))
    {r : Routing} {pt : PathTable} (hr : r.table = some pt) (hL : pt.links = L) {o : RouteOracle}
    {s s' : State} (hco : Core c s) (h : Tr c (fun _ => L) s) (he : r.update c o s = .ok s') :
    Tr c (fun _ => L) s' ∧ ∀ l ∈ c.linkIds, ∀ v ∈ s'.fin l, Chosen c (fun _ => L) l v s' := by
  cases r with
  | random => simp [Routing.table] at hr
  | adaptive tr => simp [Routing.table] at hr
  | fixed p =>
    simp only [Routing.table, Option.some.injEq] at hr
    subst hr
    exact fixedRouting_tr hc hch hL hco h he
  | hybrid tr p =>
    simp only [Routing.table, Option.some.injEq] at hr
    subst hr
    simp only [Routing.update] at he
    rw [Res.bind_eq_ok'] at he
    obtain ⟨s1, h1, h2⟩ := he
    have k := adaptiveRouting_kept h1
    exact fixedRouting_tr hc hch hL (hco.routed k.routed) (h.kept k) h2

end Verif.Net
