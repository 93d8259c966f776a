import Verif.Spec.MNet
import Verif.Lemmas.MLink
import Verif.Lemmas.NetInv

/-! # Lemmas about networks with cars and trucks -/

namespace Verif.MNet
open Ults Curve Net

/-! ### The view -/

@[simp] theorem shell_finished (l : MLnk.Link ℕ) : (shell l).finished = l.finished := by
  cases l <;> rfl

@[simp] theorem shell_incoming (l : MLnk.Link ℕ) : (shell l).incoming = l.incoming := by
  cases l <;> rfl

@[simp] theorem shell_setFinished (l : MLnk.Link ℕ) (a : List ℕ) :
    shell (l.setFinished a) = (shell l).setFinished a := by cases l <;> rfl

@[simp] theorem shell_setIncoming (l : MLnk.Link ℕ) (a : List ℕ) :
    shell (l.setIncoming a) = (shell l).setIncoming a := by cases l <;> rfl

theorem shell_inv (l : MLnk.Link ℕ) : Lnk.Inv (shell l) := by
  unfold shell
  constructor
  · rw [List.pairwise_map]
    exact List.pairwise_of_forall fun _ _ => le_refl _
  · intro a ha
    obtain ⟨v, _, rfl⟩ := List.mem_map.1 ha
    simp

@[simp] theorem view_fin (s : State) (l : ℕ) : s.view.fin l = s.fin l := shell_finished _

@[simp] theorem view_inc (s : State) (l : ℕ) : s.view.inc l = s.inc l := shell_incoming _

@[simp] theorem view_heads (s : State) (l : ℕ) : s.view.heads l = s.heads l := rfl

theorem count_flatten_append {A : Type} [DecidableEq A] (v : A) {B : Type} (f g : B → List A) :
    ∀ l : List B, (l.map fun c => f c ++ g c).flatten.count v
      = (l.map f).flatten.count v + (l.map g).flatten.count v
  | [] => rfl
  | b :: l => by
    simp only [List.map_cons, List.flatten_cons, List.count_append, count_flatten_append v f g l]
    omega

theorem count_flatten_reverse {A : Type} [DecidableEq A] (v : A) {B : Type} (f : B → List A)
    (l : List B) : (l.reverse.map f).flatten.count v = (l.map f).flatten.count v := by
  apply List.Perm.count_eq
  apply List.Perm.flatten
  exact (List.reverse_perm l).map f

theorem shell_travelling (l : MLnk.Link ℕ) (v : ℕ) :
    (shell l).travelling.count v = (road l).count v := by
  unfold shell
  simp only [Lnk.Link.travelling, List.map_map, Function.comp_def, List.map_id']
  cases l with
  | ctm x =>
    simp only [road]
    rw [List.count_append, count_flatten_reverse, count_flatten_reverse, count_flatten_append]
  | lq x =>
    simp only [road, List.count_append]
    omega
  | pq x => rfl

theorem view_on (s : State) (l v : ℕ) : (s.view.on l).count v = (s.on l).count v := by
  unfold Net.State.on Lnk.Link.holds State.on State.fin State.inc
  simp only [State.view, List.count_append, shell_finished, shell_incoming, shell_travelling]

theorem view_places (c : Cfg) (s : State) (v : ℕ) :
    (s.view.places c.net).count v = (s.places c).count v := by
  unfold Net.State.places State.places
  rw [List.count_append, List.count_append]
  have : ∀ A : List ℕ, (A.flatMap s.view.on).count v = (A.flatMap s.on).count v := by
    intro A
    induction A with
    | nil => rfl
    | cons a A ih => simp only [List.flatMap_cons, List.count_append, ih, view_on]
  rw [this]
  rfl

/-! ### Classes on a link -/

theorem cls_eq_length (truck : ℕ → Bool) (b : Bool) (l : List ℕ) :
    cls truck b l = (MLnk.ofCls truck b l).length := by
  unfold cls MLnk.ofCls
  rw [List.countP_eq_length_filter]

theorem cls_false (truck : ℕ → Bool) (l : List ℕ) : cls truck false l = MLnk.cars truck l := by
  unfold cls MLnk.cars
  congr 1; funext v; cases truck v <;> rfl

theorem cls_true (truck : ℕ → Bool) (l : List ℕ) : cls truck true l = MLnk.trucks truck l := by
  unfold cls MLnk.trucks
  congr 1; funext v; cases truck v <;> rfl

@[simp] theorem cls_nil (truck : ℕ → Bool) (b : Bool) : cls truck b [] = 0 := rfl

@[simp] theorem cls_append (truck : ℕ → Bool) (b : Bool) (l m : List ℕ) :
    cls truck b (l ++ m) = cls truck b l + cls truck b m := by simp [cls]

theorem cls_perm {truck : ℕ → Bool} {b : Bool} {l m : List ℕ} (h : l.Perm m) :
    cls truck b l = cls truck b m := h.countP_eq _

theorem cls_congr {truck truck' : ℕ → Bool} {b : Bool} {l : List ℕ}
    (h : ∀ v ∈ l, truck' v = truck v) : cls truck' b l = cls truck b l := by
  unfold cls
  exact List.countP_congr fun v hv => by rw [h v hv]

theorem cls_add (truck : ℕ → Bool) (l : List ℕ) :
    cls truck false l + cls truck true l = l.length := by
  rw [cls_false, cls_true, MLnk.cars_add_trucks]

theorem ofCls_both (truck : ℕ → Bool) (l : List ℕ) (v : ℕ) :
    l.count v = (MLnk.ofCls truck true l).count v + (MLnk.ofCls truck false l).count v := by
  unfold MLnk.ofCls
  by_cases h : truck v
  · rw [List.count_filter (by simp [h])]
    have : v ∉ l.filter fun w => truck w == false := by simp [h]
    rw [List.count_eq_zero.2 this]; omega
  · rw [List.count_filter (p := fun w => truck w == false) (by simp [h])]
    have : v ∉ l.filter fun w => truck w == true := by simp [h]
    rw [List.count_eq_zero.2 this]; omega

theorem road_count {truck : ℕ → Bool} (l : MLnk.Link ℕ) (v : ℕ) :
    (road l).count v = (l.travelling truck true).count v + (l.travelling truck false).count v := by
  cases l with
  | ctm x =>
    rw [MLnk.travelling_ctm, MLnk.travelling_ctm]
    unfold MLnk.cellVehs
    simp only [road]
    rw [count_flatten_append, count_flatten_reverse, count_flatten_reverse]
    have e1 : (MLnk.Cell.q true : MLnk.Cell ℕ → List ℕ) = fun c => c.queueTruck := rfl
    have e2 : (MLnk.Cell.q false : MLnk.Cell ℕ → List ℕ) = fun c => c.queueCar := rfl
    rw [e1, e2]
    exact Nat.add_comm _ _
  | lq x =>
    simp only [road, MLnk.Link.travelling, MLnk.Link.travellingTrucks, MLnk.Link.travellingCars,
      List.count_append, if_true, Bool.false_eq_true, if_false]
    omega
  | pq x =>
    rw [MLnk.travelling_pq, MLnk.travelling_pq]
    exact ofCls_both _ _ _

/-- All vehicles of a link, class by class. -/
theorem on_count (truck : ℕ → Bool) (s : State) (l v : ℕ) : (s.on l).count v
    = ((s.links l).link.lane truck true).count v + ((s.links l).link.lane truck false).count v := by
  unfold State.on State.fin State.inc MLnk.Link.lane
  simp only [List.count_append]
  rw [road_count (truck := truck), ofCls_both truck (s.links l).link.finished,
    ofCls_both truck (s.links l).link.incoming]
  omega

/-- The number of vehicles of a class on a link. -/
theorem lane_length {truck : ℕ → Bool} {s : State} {l : ℕ} (hi : MLnk.Inv truck (s.links l).link)
    (b : Bool) : ((s.links l).link.lane truck b).length = cls truck b (s.on l) := by
  have hp : (s.on l).Perm ((s.links l).link.lane truck true ++ (s.links l).link.lane truck false) := by
    rw [List.perm_iff_count]
    intro v
    rw [on_count truck, List.count_append]
  rw [cls_perm hp, cls_append, cls_eq_length, cls_eq_length]
  have hin : ∀ b', ∀ v ∈ (s.links l).link.lane truck b', truck v = b' := by
    intro b' v hv
    unfold MLnk.Link.lane at hv
    simp only [List.mem_append, MLnk.mem_ofCls] at hv
    rcases hv with (hv | hv) | hv
    · exact hv.2
    · exact MLnk.travelling_cls hi b' v hv
    · exact hv.2
  cases b
  · rw [MLnk.ofCls_self (hin false), MLnk.ofCls_other (b := false) (by simpa using hin true)]; simp
  · rw [MLnk.ofCls_self (hin true), MLnk.ofCls_other (b := true) (by simpa using hin false)]; simp

theorem inv_congr {truck truck' : ℕ → Bool} {l : MLnk.Link ℕ} (hi : MLnk.Inv truck l)
    (h : ∀ v ∈ road l, truck' v = truck v) : MLnk.Inv truck' l := by
  cases l with
  | ctm x =>
    intro c hc b v hv
    rw [h v, hi c hc b v hv]
    simp only [road, List.mem_flatten, List.mem_map]
    refine ⟨_, ⟨c, hc, rfl⟩, ?_⟩
    cases b
    · exact List.mem_append_left _ hv
    · exact List.mem_append_right _ hv
  | lq x =>
    simp only [road, List.mem_append] at h
    refine ⟨?_, ?_⟩
    · intro v hv
      rw [h v (by simp at hv; tauto)]; exact hi.1 v hv
    · intro v hv
      rw [h v (by simp at hv; tauto)]; exact hi.2 v hv
  | pq x => exact hi

/-! ### Moves of vehicles -/

/-- Only links, vehicles, node queues and the log differ. -/
def Rest (s s' : State) : Prop :=
  s' = { s with links := s'.links, vehs := s'.vehs, queue := s'.queue, log := s'.log }

theorem Rest.refl (s : State) : Rest s s := rfl

theorem Rest.trans {a b d : State} (h : Rest a b) (k : Rest b d) : Rest a d := by
  unfold Rest at h k ⊢
  rw [k]
  conv_lhs => rw [h]

theorem Rest.truck {s s' : State} (h : Rest s s') : s'.truck = s.truck := by rw [h]

/-- What a node does to a network with two classes, curves aside. -/
structure Mv (c : Cfg) (s s' : State) : Prop where
  rest : Rest s s'
  view : NodeStep c.net s.view s'.view
  link : ∀ l, (s'.links l).link = ((s.links l).link.setFinished (s'.fin l)).setIncoming (s'.inc l)

theorem setBoth (l : MLnk.Link ℕ) (a b d e : List ℕ) :
    (((l.setFinished a).setIncoming b).setFinished d).setIncoming e
      = (l.setFinished d).setIncoming e := by cases l <;> rfl

theorem setSelf (l : MLnk.Link ℕ) : (l.setFinished l.finished).setIncoming l.incoming = l := by
  cases l <;> rfl

theorem Mv.refl (c : Cfg) (s : State) : Mv c s s :=
  ⟨Rest.refl s, NodeStep.refl _ _, fun l => (setSelf _).symm⟩

theorem Mv.trans {c : Cfg} {a b d : State} (h : Mv c a b) (k : Mv c b d) : Mv c a d := by
  refine ⟨h.rest.trans k.rest, h.view.trans k.view, ?_⟩
  intro l
  rw [k.link l, h.link l, setBoth]

/-- A step that changes nothing but curves. -/
theorem Mv.of_curves {c : Cfg} {s s' : State} (h : s' = { s with links := s'.links })
    (hl : ∀ l, (s'.links l).link = (s.links l).link) : Mv c s s' := by
  have hv : s'.view = s.view := by
    rw [h]; unfold State.view
    simp only [Net.State.mk.injEq, and_true, true_and]
    funext l
    rw [hl l]
  refine ⟨?_, by rw [hv]; exact NodeStep.refl _ _, ?_⟩
  · unfold Rest; rw [h]
  · intro l; unfold State.fin State.inc; rw [hl l, setSelf]

theorem counted_view (s s' : State) (scalar : ℚ) (n m : ℤ) (l : ℕ) :
    Counted scalar n (s.view.links l).nIn (s'.view.links l).nIn ∧
    Counted scalar m (s.view.links l).nOut (s'.view.links l).nOut := by
  refine ⟨⟨rfl, ?_⟩, ⟨rfl, ?_⟩⟩ <;>
  · intro k k' h
    simp [State.view] at h

theorem view_frame {s s' : State} (hr : Rest s s')
    (hv : ∀ v, { s'.vehs v with cur := none } = { s.vehs v with cur := none })
    (hl : ∀ l, (s'.links l).link = ((s.links l).link.setFinished (s'.fin l)).setIncoming (s'.inc l)) :
    Frame s.view s'.view := by
  refine ⟨?_, hv, ?_, ?_, ?_⟩
  · intro v
    have := hv v; simp only [Veh.mk.injEq] at this; tauto
  · intro l
    rw [view_fin, view_inc]
    show shell (s'.links l).link = _
    conv_lhs => rw [hl l]
    rw [shell_setIncoming, shell_setFinished]
    rfl
  · unfold Rest at hr
    rw [hr]; exact ⟨rfl, rfl, rfl, rfl, rfl⟩
  · unfold Rest at hr; rw [hr]; rfl

theorem cur_only (vs : List ℕ) (x : Option ℕ) (f : ℕ → Veh) (v : ℕ) :
    { (if v ∈ vs then { f v with cur := x } else f v) with cur := none } = { f v with cur := none } := by
  split <;> rfl

/-- Vehicles leave the queue of an origin node and enter a link. -/
theorem enter_origin {c : Cfg} (hc : c.net.Ok) {n l ts : ℕ} (hn : n ∈ c.net.nodeIds)
    (hl : l ∈ c.net.linkIds) {s : State} {vs left : List ℕ} (hp : (vs ++ left).Perm (s.queue n))
    (hs : left.Sublist (s.queue n)) {s' : State}
    (hs' : State.enter ts none l { s with queue := upd s.queue n left } vs = s') :
    Mv c s s' ∧ (∀ k, s'.fin k = s.fin k) ∧
      (∀ k, s'.inc k = if k = l then s.inc k ++ vs else s.inc k) ∧
      ∀ k b, (s'.links k).nIn b = (s.links k).nIn b ∧ (s'.links k).nOut b = (s.links k).nOut b := by
  have hr : Rest s s' := by subst hs'; rfl
  have hinc : ∀ k, k ≠ l → s'.inc k = s.inc k := by
    intro k hk; subst hs'; unfold State.inc State.enter; simp only [upd_other _ _ _ _ hk]
  have hincl : s'.inc l = s.inc l ++ vs := by
    subst hs'; unfold State.inc State.enter; simp
  have hfin : ∀ k, s'.fin k = s.fin k := by
    intro k; subst hs'; unfold State.fin State.enter
    by_cases hk : k = l
    · subst hk; simp
    · simp only [upd_other _ _ _ _ hk]
  have hlk : ∀ k, (s'.links k).link
      = ((s.links k).link.setFinished (s'.fin k)).setIncoming (s'.inc k) := by
    intro k
    rw [hfin k]
    by_cases hk : k = l
    · subst hk
      rw [hincl]; subst hs'
      simp only [State.enter, upd_same]
      conv_lhs => rw [← setSelf (s.links k).link]
      unfold State.fin State.inc
      cases (s.links k).link <;> rfl
    · rw [hinc k hk]
      subst hs'
      simp only [State.enter, upd_other _ _ _ _ hk]
      exact (setSelf _).symm
  have hq : s'.queue = upd s.queue n left := by subst hs'; rfl
  have hcv : ∀ k b, (s'.links k).nIn b = (s.links k).nIn b ∧
      (s'.links k).nOut b = (s.links k).nOut b := by
    intro k b
    subst hs'
    unfold State.enter
    by_cases hk : k = l
    · subst hk; simp [LinkSt.nIn, LinkSt.nOut]
    · simp [upd_other _ _ _ _ hk]
  refine ⟨⟨hr, ⟨view_frame hr ?_ hlk, ?_, ?_, fun _ _ => rfl,
    fun _ l => (counted_view s s' _ _ 0 l).1,
    fun _ l => (counted_view s s' _ 0 _ l).2, ?_⟩, hlk⟩, hfin, ?_, hcv⟩
  rotate_right
  · intro k
    split
    · rename_i e; subst e; exact hincl
    · rename_i e; exact hinc k e
  · intro v; subst hs'; exact cur_only _ _ _ _
  · intro v
    show (c.net.nodeIds.flatMap s'.queue).count v + _ = (c.net.nodeIds.flatMap s.queue).count v + _
    have h1 := count_flatMap_upd hc.nodes hn (f := s.queue) (f' := s'.queue) (by
      intro k hk; rw [hq, upd_other _ _ _ _ hk]) v
    have h2 := count_flatMap_upd hc.links hl (f := s.view.inc) (f' := s'.view.inc) (by
      intro k hk; rw [view_inc, view_inc, hinc k hk]) v
    have h3 := hp.count_eq v
    have h4 : s'.view.fin = s.view.fin := by funext k; rw [view_fin, view_fin, hfin]
    rw [hq] at h1
    simp only [upd_same] at h1
    rw [view_inc, view_inc, hincl] at h2
    simp only [List.count_append] at h2 h3
    unfold waitCount
    rw [h4, hq]
    omega
  · intro k; rw [view_fin, view_fin, hfin]
  · intro k
    left
    show (s'.queue k).Sublist (s.queue k)
    rw [hq]
    by_cases hk : k = n
    · subst hk; simpa using hs
    · rw [upd_other _ _ _ _ hk]

/-- Vehicles leave the exit of one link and enter another. -/
theorem enter_link {c : Cfg} (hc : c.net.Ok) {i o ts : ℕ} (hi : i ∈ c.net.linkIds)
    (ho : o ∈ c.net.linkIds) {s : State} {vs left : List ℕ} (hp : (vs ++ left).Perm (s.fin i))
    (hs : left.Sublist (s.fin i)) {s' : State}
    (hs' : State.enter ts (some i) o
      { s with
        links := upd s.links i
          { s.links i with link := (s.links i).link.setFinished left } } vs = s') :
    Mv c s s' ∧ s'.queue = s.queue ∧
      (∀ k, s'.fin k = if k = i then left else s.fin k) ∧
      (∀ k, s'.inc k = if k = o then s.inc k ++ vs else s.inc k) ∧
      ∀ k b, (s'.links k).nIn b = (s.links k).nIn b ∧ (s'.links k).nOut b = (s.links k).nOut b := by
  have hr : Rest s s' := by subst hs'; rfl
  have hq : s'.queue = s.queue := by subst hs'; rfl
  have hinc : ∀ k, s'.inc k = if k = o then s.inc k ++ vs else s.inc k := by
    intro k; subst hs'; unfold State.inc State.enter
    by_cases hk : k = o
    · subst hk
      by_cases hki : k = i
      · subst hki; simp
      · simp [upd_other _ _ _ _ hki]
    · by_cases hki : k = i
      · subst hki; simp [hk, upd_other _ _ _ _ hk]
      · simp [hk, upd_other _ _ _ _ hk, upd_other _ _ _ _ hki]
  have hfin : ∀ k, s'.fin k = if k = i then left else s.fin k := by
    intro k; subst hs'; unfold State.fin State.enter
    by_cases hk : k = o
    · subst hk
      by_cases hki : k = i
      · subst hki; simp
      · simp [hki, upd_other _ _ _ _ hki]
    · by_cases hki : k = i
      · subst hki; simp [upd_other _ _ _ _ hk]
      · simp [hki, upd_other _ _ _ _ hk, upd_other _ _ _ _ hki]
  have hlk : ∀ k, (s'.links k).link
      = ((s.links k).link.setFinished (s'.fin k)).setIncoming (s'.inc k) := by
    intro k
    rw [hfin k, hinc k]
    subst hs'
    unfold State.enter State.fin State.inc
    by_cases hk : k = o
    · subst hk
      by_cases hki : k = i
      · subst hki
        simp
      · simp only [hki, upd_same, upd_other _ _ _ _ hki, if_true, if_false]
        cases (s.links k).link <;> rfl
    · by_cases hki : k = i
      · subst hki
        simp only [hk, upd_same, upd_other _ _ _ _ hk, if_true, if_false]
        cases (s.links k).link <;> rfl
      · simp only [hk, hki, upd_other _ _ _ _ hk, upd_other _ _ _ _ hki, if_false]
        exact (setSelf _).symm
  refine ⟨⟨hr, ⟨view_frame hr ?_ hlk, ?_, ?_, fun _ _ => rfl,
    fun _ l => (counted_view s s' _ _ 0 l).1,
    fun _ l => (counted_view s s' _ 0 _ l).2, ?_⟩, hlk⟩, hq, hfin, hinc, ?_⟩
  · intro v; subst hs'; exact cur_only _ _ _ _
  · intro v
    show (c.net.nodeIds.flatMap s'.queue).count v + _ = (c.net.nodeIds.flatMap s.queue).count v + _
    have h1 := count_flatMap_upd hc.links hi (f := s.view.fin) (f' := s'.view.fin) (by
      intro k hk; rw [view_fin, view_fin, hfin k, if_neg hk]) v
    have h2 := count_flatMap_upd hc.links ho (f := s.view.inc) (f' := s'.view.inc) (by
      intro k hk; rw [view_inc, view_inc, hinc k, if_neg hk]) v
    have h3 := hp.count_eq v
    rw [view_fin, view_fin, hfin, if_pos rfl] at h1
    rw [view_inc, view_inc, hinc, if_pos rfl] at h2
    simp only [List.count_append] at h2 h3
    unfold waitCount
    rw [hq]
    omega
  · intro k; rw [view_fin, view_fin, hfin]
    split
    · rename_i e; subst e; exact hs
    · exact List.Sublist.refl _
  · intro k
    left
    show (s'.queue k).Sublist (s.queue k)
    rw [hq]
  · intro k b
    subst hs'
    unfold State.enter
    by_cases hk : k = o
    · subst hk
      by_cases hki : k = i
      · subst hki; simp [LinkSt.nIn, LinkSt.nOut]
      · simp [upd_other _ _ _ _ hki, LinkSt.nIn, LinkSt.nOut]
    · by_cases hki : k = i
      · subst hki; simp [upd_other _ _ _ _ hk, LinkSt.nIn, LinkSt.nOut]
      · simp [upd_other _ _ _ _ hk, upd_other _ _ _ _ hki]

/-- Vehicles leave the exit of a link for the queue of a destination node. -/
theorem leave_dest {c : Cfg} (hc : c.net.Ok) {n l : ℕ} (hn : n ∈ c.net.nodeIds)
    (hl : l ∈ c.net.linkIds) {ins : List ℕ} (hk : c.net.node n = .dest ins) {s s' : State} {log : List Event}
    (hs' : { s with
        links := upd s.links l { s.links l with link := (s.links l).link.setFinished [] }
        vehs := fun v => if v ∈ s.fin l then { s.vehs v with cur := none } else s.vehs v
        queue := upd s.queue n (s.queue n ++ s.fin l)
        log := log } = s') :
    Mv c s s' ∧ (∀ k, s'.fin k = if k = l then [] else s.fin k) ∧ (∀ k, s'.inc k = s.inc k) ∧
      ∀ k b, (s'.links k).nIn b = (s.links k).nIn b ∧ (s'.links k).nOut b = (s.links k).nOut b := by
  have hr : Rest s s' := by subst hs'; rfl
  have hinc : ∀ k, s'.inc k = s.inc k := by
    intro k; subst hs'; unfold State.inc
    by_cases hk : k = l
    · subst hk; simp
    · simp only [upd_other _ _ _ _ hk]
  have hfin : ∀ k, s'.fin k = if k = l then [] else s.fin k := by
    intro k; subst hs'; unfold State.fin
    by_cases hk : k = l
    · subst hk; simp
    · simp only [upd_other _ _ _ _ hk, hk, if_false]
  have hlk : ∀ k, (s'.links k).link
      = ((s.links k).link.setFinished (s'.fin k)).setIncoming (s'.inc k) := by
    intro k
    rw [hfin k, hinc k]
    subst hs'
    by_cases hk : k = l
    · subst hk
      simp only [upd_same, if_true]
      unfold State.inc
      cases (s.links k).link <;> rfl
    · simp only [upd_other _ _ _ _ hk, hk, if_false]
      exact (setSelf _).symm
  have hq : s'.queue = upd s.queue n (s.queue n ++ s.fin l) := by subst hs'; rfl
  have hcv : ∀ k b, (s'.links k).nIn b = (s.links k).nIn b ∧
      (s'.links k).nOut b = (s.links k).nOut b := by
    intro k b
    subst hs'
    by_cases hk : k = l
    · subst hk; simp [LinkSt.nIn, LinkSt.nOut]
    · simp [upd_other _ _ _ _ hk]
  refine ⟨⟨hr, ⟨view_frame hr ?_ hlk, ?_, ?_, fun _ _ => rfl,
    fun _ l => (counted_view s s' _ _ 0 l).1,
    fun _ l => (counted_view s s' _ 0 _ l).2, ?_⟩, hlk⟩, hfin, hinc, hcv⟩
  · intro v; subst hs'; exact cur_only _ _ _ _
  · intro v
    show (c.net.nodeIds.flatMap s'.queue).count v + _ = (c.net.nodeIds.flatMap s.queue).count v + _
    have h1 := count_flatMap_upd hc.nodes hn (f := s.queue) (f' := s'.queue) (by
      intro k hk; rw [hq, upd_other _ _ _ _ hk]) v
    have h2 := count_flatMap_upd hc.links hl (f := s.view.fin) (f' := s'.view.fin) (by
      intro k hk; rw [view_fin, view_fin, hfin k, if_neg hk]) v
    have h4 : s'.view.inc = s.view.inc := by funext k; rw [view_inc, view_inc, hinc]
    rw [hq] at h1
    simp only [upd_same, List.count_append] at h1
    rw [view_fin, view_fin, hfin, if_pos rfl] at h2
    simp only [List.count_nil] at h2
    unfold waitCount
    rw [h4, hq]
    omega
  · intro k; rw [view_fin, view_fin, hfin]
    split
    · exact List.nil_sublist _
    · exact List.Sublist.refl _
  · intro k
    by_cases hkn : k = n
    · subst hkn
      refine Or.inr ⟨ins, hk, ?_⟩
      intro v hv
      change v ∈ s'.queue k at hv
      rw [hq] at hv
      simp only [upd_same, List.mem_append] at hv
      rcases hv with hv | hv
      · exact Or.inl hv
      · exact Or.inr ⟨l, hl, by rw [view_fin]; exact hv⟩
    · left
      show (s'.queue k).Sublist (s.queue k)
      rw [hq, upd_other _ _ _ _ hkn]

/-! ### Curves -/

theorem note_counted {scalar : ℚ} {ts n : ℕ} {k k' : Option Curve} (h : note scalar ts n k = .ok k') :
    Recorded scalar ts n k k' := by
  unfold note at h
  unfold Recorded
  split at h
  · rename_i hn
    rw [if_pos (by exact_mod_cast hn)]
    cases k with
    | none => simp only [recordOpt, Res.ok.injEq] at h; exact h.symm
    | some c =>
      simp only [recordOpt] at h
      rw [Res.bind_eq_ok'] at h
      obtain ⟨c', h1, h2⟩ := h
      cases h2
      exact ⟨c', h1, rfl⟩
  · rename_i hn
    cases h
    rw [if_neg (by exact_mod_cast hn)]

theorem noteIn_spec {scalar : ℚ} {ts l nc nt : ℕ} {s s' : State}
    (h : s.noteIn scalar ts l nc nt = .ok s') :
    s' = { s with links := s'.links } ∧ (∀ k, (s'.links k).link = (s.links k).link) ∧
    (∀ k b, (s'.links k).nOut b = (s.links k).nOut b) ∧
    (∀ k b, k ≠ l → (s'.links k).nIn b = (s.links k).nIn b) ∧
    ∀ b, Recorded scalar ts (if b then nt else nc : ℕ) ((s.links l).nIn b) ((s'.links l).nIn b) := by
  unfold State.noteIn at h
  rw [Res.bind_eq_ok'] at h
  obtain ⟨x, hx, h⟩ := h
  rw [Res.bind_eq_ok'] at h
  obtain ⟨y, hy, h⟩ := h
  cases h
  refine ⟨rfl, ?_, ?_, ?_, ?_⟩
  · intro k
    by_cases hk : k = l
    · subst hk; simp
    · simp only [upd_other _ _ _ _ hk]
  · intro k b
    by_cases hk : k = l
    · subst hk; simp [LinkSt.nOut]
    · simp only [upd_other _ _ _ _ hk]
  · intro k b hk
    simp only [upd_other _ _ _ _ hk]
  · intro b
    cases b
    · simpa [LinkSt.nIn] using note_counted hx
    · simpa [LinkSt.nIn] using note_counted hy

theorem noteOut_spec {scalar : ℚ} {ts l nc nt : ℕ} {s s' : State}
    (h : s.noteOut scalar ts l nc nt = .ok s') :
    s' = { s with links := s'.links } ∧ (∀ k, (s'.links k).link = (s.links k).link) ∧
    (∀ k b, (s'.links k).nIn b = (s.links k).nIn b) ∧
    (∀ k b, k ≠ l → (s'.links k).nOut b = (s.links k).nOut b) ∧
    ∀ b, Recorded scalar ts (if b then nt else nc : ℕ) ((s.links l).nOut b) ((s'.links l).nOut b) := by
  unfold State.noteOut at h
  rw [Res.bind_eq_ok'] at h
  obtain ⟨x, hx, h⟩ := h
  rw [Res.bind_eq_ok'] at h
  obtain ⟨y, hy, h⟩ := h
  cases h
  refine ⟨rfl, ?_, ?_, ?_, ?_⟩
  · intro k
    by_cases hk : k = l
    · subst hk; simp
    · simp only [upd_other _ _ _ _ hk]
  · intro k b
    by_cases hk : k = l
    · subst hk; simp [LinkSt.nIn]
    · simp only [upd_other _ _ _ _ hk]
  · intro k b hk
    simp only [upd_other _ _ _ _ hk]
  · intro b
    cases b
    · simpa [LinkSt.nOut] using note_counted hx
    · simpa [LinkSt.nOut] using note_counted hy

/-! ### Nodes -/

/-- What a node does to a network with two classes. -/
structure NStep (c : Cfg) (s s' : State) : Prop extends Mv c s s' where
  nIn : ∀ l b, Counted c.net.scalar (cls s.truck b (s'.inc l) - cls s.truck b (s.inc l) : ℤ)
    ((s.links l).nIn b) ((s'.links l).nIn b)
  nOut : ∀ l b, Counted c.net.scalar (cls s.truck b (s.fin l) - cls s.truck b (s'.fin l) : ℤ)
    ((s.links l).nOut b) ((s'.links l).nOut b)

theorem NStep.refl (c : Cfg) (s : State) : NStep c s s :=
  ⟨Mv.refl c s, fun _ _ => by simpa using Counted.refl _ _, fun _ _ => by simpa using Counted.refl _ _⟩

theorem NStep.trans {c : Cfg} {a b d : State} (h : NStep c a b) (k : NStep c b d) : NStep c a d := by
  have ht := h.rest.truck
  refine ⟨h.toMv.trans k.toMv, ?_, ?_⟩
  · intro l x
    have := (h.nIn l x).trans (k.nIn l x)
    rw [ht] at this
    have e : (cls a.truck x (b.inc l) - cls a.truck x (a.inc l) : ℤ)
        + (cls a.truck x (d.inc l) - cls a.truck x (b.inc l) : ℤ)
        = (cls a.truck x (d.inc l) - cls a.truck x (a.inc l) : ℤ) := by ring
    rwa [e] at this
  · intro l x
    have := (h.nOut l x).trans (k.nOut l x)
    rw [ht] at this
    have e : (cls a.truck x (a.fin l) - cls a.truck x (b.fin l) : ℤ)
        + (cls a.truck x (b.fin l) - cls a.truck x (d.fin l) : ℤ)
        = (cls a.truck x (a.fin l) - cls a.truck x (d.fin l) : ℤ) := by ring
    rwa [e] at this

theorem cls_if (truck : ℕ → Bool) (b : Bool) (l : List ℕ) :
    (if b then MLnk.trucks truck l else MLnk.cars truck l) = cls truck b l := by
  cases b
  · simp [cls_false]
  · simp [cls_true]

theorem takeFirst_split (p : ℕ → Bool) (n : ℕ) (q : List ℕ) :
    ((takeFirst p n q).1 ++ (takeFirst p n q).2).Perm q ∧ (takeFirst p n q).2.Sublist q := by
  exact ⟨takeFirst_perm _ _ _, takeFirst_sublist _ _ _⟩

theorem originMove_step {c : Cfg} (hc : c.net.Ok) {n ts : ℕ} (hn : n ∈ c.net.nodeIds) {lv : ℕ × ℤ}
    (hl : lv.1 ∈ c.net.linkIds) {s s' : State}
    (h : originMove c.net.scalar ts n s lv = .ok s') : NStep c s s' := by
  unfold originMove at h
  split at h
  swap
  · simp at h
  simp only at h
  have hsp := takeFirst_split (s.heads lv.1) lv.2.toNat (s.queue n)
  obtain ⟨M, hfin, hinc, hcv⟩ := enter_origin (ts := ts) hc hn hl hsp.1 hsp.2 rfl
  generalize hr : takeFirst (s.heads lv.1) lv.2.toNat (s.queue n) = r at *
  generalize hs1 : State.enter ts none lv.1 { s with queue := upd s.queue n r.2 } r.1 = s1 at *
  obtain ⟨a1, a2, a3, a4, a5⟩ := noteIn_spec h
  have M2 : Mv c s1 s' := Mv.of_curves a1 a2
  have f2 : ∀ l, s'.fin l = s1.fin l := fun l => by unfold State.fin; rw [a2]
  have i2 : ∀ l, s'.inc l = s1.inc l := fun l => by unfold State.inc; rw [a2]
  refine ⟨M.trans M2, ?_, ?_⟩
  · intro l b
    rw [i2, hinc l]
    by_cases e : l = lv.1
    · subst e
      rw [if_pos rfl, cls_append, ← (hcv _ b).1]
      have := Recorded.counted (by positivity) (a5 b)
      have e2 : ((cls s.truck b (s.inc lv.1) + cls s.truck b r.1 : ℕ) : ℤ) - cls s.truck b (s.inc lv.1)
          = ((if b then MLnk.trucks s.truck r.1 else MLnk.cars s.truck r.1 : ℕ) : ℤ) := by
        rw [cls_if]; push_cast; ring
      rw [e2]; exact this
    · rw [if_neg e, sub_self, a4 l b e, (hcv l b).1]
      exact Counted.refl _ _
  · intro l b
    rw [f2, hfin l, sub_self, a3 l b, (hcv l b).2]
    exact Counted.refl _ _

theorem originVolumes_links {scalar : ℚ} {s : State} {q : List ℕ} {u : ℕ → ℚ} :
    ∀ {ls : List ℕ} {i : ℕ} {lvs : List (ℕ × ℤ)},
    originVolumes scalar s q u i ls = .ok lvs → lvs.map Prod.fst = ls
  | [], i, lvs, h => by simp only [originVolumes, Res.ok.injEq] at h; subst h; rfl
  | l :: ls, i, lvs, h => by
    simp only [originVolumes] at h
    rw [Res.bind_eq_ok'] at h
    obtain ⟨n, _, h⟩ := h
    rw [Res.bind_eq_ok'] at h
    obtain ⟨r, hr, h⟩ := h
    cases h
    simp [originVolumes_links hr]

theorem origin_step {c : Cfg} (hc : c.net.Ok) {n : ℕ} (hn : n ∈ c.net.nodeIds) {outs : List ℕ}
    (hk : c.net.node n = .origin outs) {ts : ℕ} {u : ℕ → ℚ} {s s' : State}
    (h : originEvolve c.net.scalar ts n outs u s = .ok s') : NStep c s s' := by
  have houts := hc.outs n hn
  rw [hk] at houts
  simp only [Node.outs] at houts
  unfold originEvolve at h
  rw [Res.bind_eq_ok'] at h
  obtain ⟨lvs, h1, h2⟩ := h
  have e1 := originVolumes_links h1
  refine Res.foldlM_inv_mem (P := fun t => NStep c s t) lvs ?_ s s' (NStep.refl c s) h2
  intro t lv t' hlv ht he
  refine ht.trans (originMove_step hc hn (houts.2 _ ?_) he)
  rw [← e1]; exact List.mem_map_of_mem hlv

theorem destTake_step {c : Cfg} (hc : c.net.Ok) {n ts l : ℕ} (hn : n ∈ c.net.nodeIds)
    (hl : l ∈ c.net.linkIds) {ins : List ℕ} (hk : c.net.node n = .dest ins) {s s' : State}
    (h : destTake c.net.scalar ts n s l = .ok s') : NStep c s s' := by
  unfold destTake at h
  simp only at h
  split at h
  swap
  · simp at h
  split at h
  swap
  · simp at h
  obtain ⟨M, hfin, hinc, hcv⟩ := leave_dest hc hn hl hk (s := s)
    (log := s.log ++ (s.fin l).map fun v => ⟨ts, v, some l, none⟩) rfl
  obtain ⟨a1, a2, a3, a4, a5⟩ := noteOut_spec h
  have M2 : Mv c _ s' := Mv.of_curves a1 a2
  refine ⟨M.trans M2, ?_, ?_⟩
  · intro k b
    have i2 : s'.inc k = s.inc k := by
      rw [← hinc k]; unfold State.inc; rw [a2 k]
    rw [i2, sub_self, a3 k b]
    rw [show _ = _ from (hcv k b).1]
    exact Counted.refl _ _
  · intro k b
    have f2 : s'.fin k = if k = l then [] else s.fin k := by
      rw [← hfin k]; unfold State.fin; rw [a2 k]
    rw [f2]
    by_cases e : k = l
    · subst e
      have := Recorded.counted (by positivity) (a5 b)
      rw [cls_if] at this
      rw [if_pos rfl, cls_nil]
      rw [show _ = _ from (hcv k b).2] at this
      simpa [State.fin] using this
    · rw [if_neg e, sub_self, a4 k b e, show _ = _ from (hcv k b).2]
      exact Counted.refl _ _

theorem dest_step {c : Cfg} (hc : c.net.Ok) {n : ℕ} (hn : n ∈ c.net.nodeIds) {ins : List ℕ}
    (hk : c.net.node n = .dest ins) {ts : ℕ} {s s' : State}
    (h : destEvolve c.net.scalar ts n ins s = .ok s') : NStep c s s' := by
  have hins := hc.ins n hn
  rw [hk] at hins
  simp only [Node.ins] at hins
  unfold destEvolve at h
  refine Res.foldlM_inv_mem (P := fun t => NStep c s t) ins ?_ s s' (NStep.refl c s) h
  intro t l t' hl ht he
  exact ht.trans (destTake_step hc hn (hins.2 l hl) hk he)

/-! ### In-out nodes -/

theorem takeEquiv_split (eq : ℕ → ℚ) (p : ℕ → Bool) : ∀ (x : ℚ) (q : List ℕ),
    ((takeEquiv eq p x q).1 ++ (takeEquiv eq p x q).2.1).Perm q ∧
    (takeEquiv eq p x q).2.1.Sublist q
  | x, [] => by simp [takeEquiv]
  | x, v :: q => by
    simp only [takeEquiv]
    split
    · split
      · obtain ⟨h1, h2⟩ := takeEquiv_split eq p (x - eq v) q
        exact ⟨h1.cons v, h2.cons v⟩
      · obtain ⟨h1, h2⟩ := takeEquiv_split eq p x q
        refine ⟨?_, h2.cons_cons v⟩
        exact List.perm_middle.trans (h1.cons v)
    · exact ⟨List.Perm.refl _, List.Sublist.refl _⟩

/-- Cars or trucks of a pair of counts. -/
def pick (x : Bool) (p : ℕ × ℕ) : ℕ := if x then p.2 else p.1

theorem total_upd {n a : ℕ} (ha : a < n) {f g : ℕ → ℕ} (hf : f a = 0) (h : ∀ k, k ≠ a → g k = f k) :
    total n g = total n f + g a := by
  unfold total
  induction n with
  | zero => omega
  | succ n ih =>
    rw [List.range_succ, List.map_append, List.map_append, List.sum_append, List.sum_append]
    simp only [List.map_cons, List.map_nil, List.sum_cons, List.sum_nil, add_zero]
    by_cases e : a = n
    · subst e
      have : (List.range a).map g = (List.range a).map f := by
        apply List.map_congr_left
        intro k hk
        apply h
        rw [List.mem_range] at hk
        omega
      rw [this, hf]; omega
    · rw [ih (by omega), h n (fun e' => e e'.symm)]
      omega

theorem total_congr {n : ℕ} {f g : ℕ → ℕ} (h : ∀ k, k < n → g k = f k) : total n g = total n f := by
  unfold total
  congr 1
  apply List.map_congr_left
  intro k hk
  exact h k (List.mem_range.1 hk)

/-- What moving vehicles has done so far at an in-out node. -/
structure MI (c : Cfg) (ins outs : List ℕ) (s0 : State) (t : State × Moved) : Prop where
  mv : Mv c s0 t.1
  queue : t.1.queue = s0.queue
  inc : ∀ (b o : ℕ) (x : Bool), outs[b]? = some o → cls s0.truck x (t.1.inc o)
    = cls s0.truck x (s0.inc o) + total ins.length fun a => pick x (t.2 a b)
  incOther : ∀ l, l ∉ outs → t.1.inc l = s0.inc l
  fin : ∀ (a i : ℕ) (x : Bool), ins[a]? = some i → cls s0.truck x (s0.fin i)
    = cls s0.truck x (t.1.fin i) + total outs.length fun b => pick x (t.2 a b)
  finOther : ∀ l, l ∉ ins → t.1.fin l = s0.fin l
  curves : ∀ k b, (t.1.links k).nIn b = (s0.links k).nIn b ∧
    (t.1.links k).nOut b = (s0.links k).nOut b

theorem total_zero (n : ℕ) : total n (fun _ => 0) = 0 := by
  unfold total; simp

theorem MI.refl (c : Cfg) (ins outs : List ℕ) (s : State) : MI c ins outs s (s, fun _ _ => (0, 0)) := by
  refine ⟨Mv.refl c s, rfl, ?_, fun _ _ => rfl, ?_, fun _ _ => rfl, fun _ _ => ⟨rfl, rfl⟩⟩
  · intro b o x _
    have : (fun a : ℕ => pick x (0, 0)) = fun _ => 0 := by funext a; cases x <;> rfl
    simp only [this, total_zero]; rfl
  · intro b o x _
    have : (fun a : ℕ => pick x (0, 0)) = fun _ => 0 := by funext a; cases x <;> rfl
    simp only [this, total_zero]; rfl

theorem nodup_idx {l : List ℕ} (h : l.Nodup) {i j x : ℕ} (hi : l[i]? = some x) (hj : l[j]? = some x) :
    i = j := by
  obtain ⟨h1, e1⟩ := List.getElem?_eq_some_iff.1 hi
  obtain ⟨h2, e2⟩ := List.getElem?_eq_some_iff.1 hj
  exact (List.Nodup.getElem_inj_iff h).1 (e1.trans e2.symm)

theorem moveOne_MI {c : Cfg} (hc : c.net.Ok) {ins outs : List ℕ} (hin : ins.Nodup)
    (hon : outs.Nodup) (hi : ∀ l ∈ ins, l ∈ c.net.linkIds) (ho : ∀ l ∈ outs, l ∈ c.net.linkIds)
    {factor x : ℚ} {ts o i a b : ℕ} (ha : ins[a]? = some i) (hb : outs[b]? = some o) {s0 : State}
    {t t' : State × Moved} (h : MI c ins outs s0 t) (h0 : t.2 a b = (0, 0))
    (e : moveOne factor ts o i a b x t = .ok t') :
    MI c ins outs s0 t' ∧ ∀ a' b', ¬ (a' = a ∧ b' = b) → t'.2 a' b' = t.2 a' b' := by
  unfold moveOne at e
  simp only at e
  split at e
  · simp at e
  cases e
  have hsp := takeEquiv_split (equiv factor t.1.truck) (t.1.heads o) x (t.1.fin i)
  obtain ⟨M, hq, hfin, hinc, hcv⟩ := enter_link (ts := ts) hc (hi i (List.mem_of_getElem? ha))
    (ho o (List.mem_of_getElem? hb)) hsp.1 hsp.2 rfl
  have htr := h.mv.rest.truck
  have halt : a < ins.length := (List.getElem?_eq_some_iff.1 ha).1
  have hblt : b < outs.length := (List.getElem?_eq_some_iff.1 hb).1
  generalize hr : takeEquiv (equiv factor t.1.truck) (t.1.heads o) x (t.1.fin i) = r at *
  have hr' : takeEquiv (equiv factor t.1.truck) (t.1.heads o) x (t.1.links i).link.finished = r := hr
  rw [hr']
  generalize hs1 : State.enter ts (some i) o
      { t.1 with
        links := upd t.1.links i
          { t.1.links i with link := (t.1.links i).link.setFinished r.2.1 } } r.1 = s1 at *
  have hpk : ∀ y : Bool, pick y (MLnk.cars t.1.truck r.1, MLnk.trucks t.1.truck r.1)
      = cls s0.truck y r.1 := by
    intro y; rw [htr, ← cls_if]; rfl
  have h00 : ∀ y : Bool, pick y (t.2 a b) = 0 := by intro y; rw [h0]; cases y <;> rfl
  refine ⟨⟨h.mv.trans M, hq.trans h.queue, ?_, ?_, ?_, ?_, ?_⟩, ?_⟩
  · intro b' o' y hb'
    simp only
    rw [hinc o']
    by_cases eb : b' = b
    · subst eb
      rw [hb] at hb'; cases hb'
      rw [if_pos rfl, cls_append, h.inc b' o y hb]
      have := total_upd (n := ins.length) halt (f := fun a' => pick y (t.2 a' b'))
        (g := fun a' => pick y (if a' = a ∧ b' = b' then
          (MLnk.cars t.1.truck r.1, MLnk.trucks t.1.truck r.1) else t.2 a' b')) (h00 y)
        (by intro k hk; simp [hk])
      rw [this]
      simp only [and_self, if_true, hpk]
      omega
    · have hne : o' ≠ o := by
        rintro rfl
        exact eb (nodup_idx hon hb' hb)
      rw [if_neg hne, h.inc b' o' y hb']
      simp [eb]
  · intro l hl
    simp only
    rw [hinc l, if_neg, h.incOther l hl]
    rintro rfl
    exact hl (List.mem_of_getElem? hb)
  · intro a' i' y ha'
    simp only
    rw [hfin i']
    by_cases ea : a' = a
    · subst ea
      rw [ha] at ha'; cases ha'
      rw [if_pos rfl, h.fin a' i y ha]
      have := total_upd (n := outs.length) hblt (f := fun b' => pick y (t.2 a' b'))
        (g := fun b' => pick y (if a' = a' ∧ b' = b then
          (MLnk.cars t.1.truck r.1, MLnk.trucks t.1.truck r.1) else t.2 a' b')) (h00 y)
        (by intro k hk; simp [hk])
      rw [this]
      have e2 := cls_perm (truck := s0.truck) (b := y) hsp.1
      rw [cls_append] at e2
      simp only [and_self, if_true, hpk]
      omega
    · have hne : i' ≠ i := by
        rintro rfl
        exact ea (nodup_idx hin ha' ha)
      rw [if_neg hne, h.fin a' i' y ha']
      simp [ea]
  · intro l hl
    simp only
    rw [hfin l, if_neg, h.finOther l hl]
    rintro rfl
    exact hl (List.mem_of_getElem? ha)
  · intro k y
    exact ⟨(hcv k y).1.trans (h.curves k y).1, (hcv k y).2.trans (h.curves k y).2⟩
  · intro a' b' hab
    simp only [hab, if_false]

theorem moveCol_MI {c : Cfg} (hc : c.net.Ok) {ins outs : List ℕ} (hin : ins.Nodup)
    (hon : outs.Nodup) (hi : ∀ l ∈ ins, l ∈ c.net.linkIds) (ho : ∀ l ∈ outs, l ∈ c.net.linkIds)
    {factor scalar : ℚ} {ts o b : ℕ} {flow : List ℚ} (hb : outs[b]? = some o) {s0 : State} :
    ∀ (order : List ℕ) (t t' : State × Moved), order.Nodup → MI c ins outs s0 t →
      (∀ a ∈ order, t.2 a b = (0, 0)) →
      moveCol scalar factor ts ins order b o flow t = .ok t' →
      MI c ins outs s0 t' ∧ ∀ a' b', b' ≠ b → t'.2 a' b' = t.2 a' b'
  | [], t, t', _, h, _, e => by
    simp only [moveCol, Res.foldlM_nil, Res.ok.injEq] at e
    subst e
    exact ⟨h, fun _ _ _ => rfl⟩
  | a :: order, t, t', hnd, h, h0, e => by
    rw [List.nodup_cons] at hnd
    unfold moveCol at e
    rw [Res.foldlM_cons, Res.bind_eq_ok] at e
    obtain ⟨t1, e1, e2⟩ := e
    cases ha : ins[a]? with
    | none => rw [ha] at e1; simp at e1
    | some i =>
      rw [ha] at e1
      obtain ⟨h1, k1⟩ := moveOne_MI hc hin hon hi ho ha hb h (h0 a (by simp)) e1
      obtain ⟨h2, k2⟩ := moveCol_MI hc hin hon hi ho hb order t1 t' hnd.2 h1 (by
        intro a' ha'
        rw [k1 a' b (by rintro ⟨rfl, _⟩; exact hnd.1 ha')]
        exact h0 a' (by simp [ha'])) e2
      refine ⟨h2, ?_⟩
      intro a' b' hne
      rw [k2 a' b' hne, k1 a' b' (fun hh => hne hh.2)]

theorem moveAll_MI {c : Cfg} (hc : c.net.Ok) {ins outs : List ℕ} (hin : ins.Nodup)
    (hon : outs.Nodup) (hi : ∀ l ∈ ins, l ∈ c.net.linkIds) (ho : ∀ l ∈ outs, l ∈ c.net.linkIds)
    {factor scalar : ℚ} {ts : ℕ} {order : ℕ → List ℕ} (hord : ∀ k, (order k).Nodup) {s0 : State} :
    ∀ (cols : List (ℕ × List ℚ)) (b : ℕ) (t t' : State × Moved),
      (∀ k, (cols.map Prod.fst)[k]? = some (outs[b + k]?.getD 0) ∨ cols.length ≤ k) →
      b + cols.length ≤ outs.length → MI c ins outs s0 t →
      (∀ a b', b ≤ b' → t.2 a b' = (0, 0)) →
      moveAll scalar factor ts ins order b t cols = .ok t' → MI c ins outs s0 t'
  | [], b, t, t', _, _, h, _, e => by
    simp only [moveAll, Res.ok.injEq] at e
    subst e; exact h
  | (o, f) :: cols, b, t, t', hcol, hlen, h, h0, e => by
    simp only [moveAll] at e
    rw [Res.bind_eq_ok'] at e
    obtain ⟨t1, e1, e2⟩ := e
    have hlen' : b < outs.length := by simp at hlen; omega
    have hb : outs[b]? = some o := by
      rcases hcol 0 with h | h
      · simp at h
        rw [h, List.getElem?_eq_getElem hlen']; simp
      · simp at h
    obtain ⟨h1, k1⟩ := moveCol_MI hc hin hon hi ho hb (order b) t t1 (hord b) h
      (fun a _ => h0 a b le_rfl) e1
    refine moveAll_MI hc hin hon hi ho hord cols (b + 1) t1 t' ?_ (by simp at hlen; omega) h1 ?_ e2
    · intro k
      rcases hcol (k + 1) with h | h
      · left
        simp at h
        rw [show b + 1 + k = b + (k + 1) from by omega]
        simp [h]
      · right; simp at h; omega
    · intro a b' hb'
      rw [k1 a b' (by omega)]
      exact h0 a b' (by omega)

/-- Only curves differ. -/
structure OnlyCurves (s s' : State) : Prop where
  rest : s' = { s with links := s'.links }
  link : ∀ k, (s'.links k).link = (s.links k).link

theorem OnlyCurves.refl (s : State) : OnlyCurves s s := ⟨rfl, fun _ => rfl⟩

theorem OnlyCurves.trans {a b d : State} (h : OnlyCurves a b) (k : OnlyCurves b d) : OnlyCurves a d := by
  refine ⟨?_, fun l => (k.link l).trans (h.link l)⟩
  rw [k.rest]
  conv_lhs => rw [h.rest]

theorem recordOuts_spec {scalar : ℚ} {ts nIn : ℕ} {mv : Moved} : ∀ (os : List ℕ) (b : ℕ)
    (s s' : State), os.Nodup → recordOuts scalar ts nIn mv b s os = .ok s' →
    OnlyCurves s s' ∧ (∀ k x, (s'.links k).nOut x = (s.links k).nOut x) ∧
    (∀ k x, k ∉ os → (s'.links k).nIn x = (s.links k).nIn x) ∧
    ∀ (j o : ℕ) (x : Bool), os[j]? = some o → Recorded scalar ts
      ((total nIn fun a => pick x (mv a (b + j)) : ℕ) : ℤ) ((s.links o).nIn x) ((s'.links o).nIn x)
  | [], b, s, s', _, h => by
    simp only [recordOuts, Res.ok.injEq] at h
    subst h
    exact ⟨OnlyCurves.refl s, fun _ _ => rfl, fun _ _ _ => rfl, by simp⟩
  | o :: os, b, s, s', hnd, h => by
    rw [List.nodup_cons] at hnd
    simp only [recordOuts] at h
    rw [Res.bind_eq_ok'] at h
    obtain ⟨s1, h1, h2⟩ := h
    obtain ⟨a1, a2, a3, a4, a5⟩ := noteIn_spec h1
    obtain ⟨b1, b2, b3, b4⟩ := recordOuts_spec os (b + 1) s1 s' hnd.2 h2
    refine ⟨OnlyCurves.trans ⟨a1, a2⟩ b1, fun k x => (b2 k x).trans (a3 k x), ?_, ?_⟩
    · intro k x hk
      simp only [List.mem_cons, not_or] at hk
      rw [b3 k x hk.2, a4 k x hk.1]
    · intro j o' x hj
      cases j with
      | zero =>
        simp only [List.getElem?_cons_zero, Option.some.injEq] at hj
        subst hj
        rw [b3 o x hnd.1, Nat.add_zero]
        have := a5 x
        have e : (if x = true then total nIn fun a => (mv a b).2 else total nIn fun a => (mv a b).1)
            = total nIn fun a => pick x (mv a b) := by cases x <;> rfl
        rwa [e] at this
      | succ j =>
        simp only [List.getElem?_cons_succ] at hj
        have hne : o' ≠ o := fun e => hnd.1 (e ▸ List.mem_of_getElem? hj)
        have := b4 j o' x hj
        rw [a4 o' x hne] at this
        rw [show b + (j + 1) = b + 1 + j from by omega]
        exact this

theorem recordIns_spec {scalar : ℚ} {ts nOut : ℕ} {mv : Moved} : ∀ (is : List ℕ) (a : ℕ)
    (s s' : State), is.Nodup → recordIns scalar ts nOut mv a s is = .ok s' →
    OnlyCurves s s' ∧ (∀ k x, (s'.links k).nIn x = (s.links k).nIn x) ∧
    (∀ k x, k ∉ is → (s'.links k).nOut x = (s.links k).nOut x) ∧
    ∀ (j i : ℕ) (x : Bool), is[j]? = some i → Recorded scalar ts
      ((total nOut fun b => pick x (mv (a + j) b) : ℕ) : ℤ) ((s.links i).nOut x) ((s'.links i).nOut x)
  | [], b, s, s', _, h => by
    simp only [recordIns, Res.ok.injEq] at h
    subst h
    exact ⟨OnlyCurves.refl s, fun _ _ => rfl, fun _ _ _ => rfl, by simp⟩
  | o :: os, b, s, s', hnd, h => by
    rw [List.nodup_cons] at hnd
    simp only [recordIns] at h
    rw [Res.bind_eq_ok'] at h
    obtain ⟨s1, h1, h2⟩ := h
    obtain ⟨a1, a2, a3, a4, a5⟩ := noteOut_spec h1
    obtain ⟨b1, b2, b3, b4⟩ := recordIns_spec os (b + 1) s1 s' hnd.2 h2
    refine ⟨OnlyCurves.trans ⟨a1, a2⟩ b1, fun k x => (b2 k x).trans (a3 k x), ?_, ?_⟩
    · intro k x hk
      simp only [List.mem_cons, not_or] at hk
      rw [b3 k x hk.2, a4 k x hk.1]
    · intro j o' x hj
      cases j with
      | zero =>
        simp only [List.getElem?_cons_zero, Option.some.injEq] at hj
        subst hj
        rw [b3 o x hnd.1, Nat.add_zero]
        have := a5 x
        have e : (if x = true then total nOut fun a => (mv b a).2 else total nOut fun a => (mv b a).1)
            = total nOut fun a => pick x (mv b a) := by cases x <;> rfl
        rwa [e] at this
      | succ j =>
        simp only [List.getElem?_cons_succ] at hj
        have hne : o' ≠ o := fun e => hnd.1 (e ▸ List.mem_of_getElem? hj)
        have := b4 j o' x hj
        rw [a4 o' x hne] at this
        rw [show b + (j + 1) = b + 1 + j from by omega]
        exact this

theorem supplies_length {s : State} : ∀ {os : List ℕ} {r : List ℚ}, supplies s os = .ok r →
    r.length = os.length
  | [], r, h => by simp only [supplies, Res.ok.injEq] at h; subst h; rfl
  | o :: os, r, h => by
    simp only [supplies] at h
    rw [Res.bind_eq_ok'] at h
    obtain ⟨x, _, h⟩ := h
    rw [Res.bind_eq_ok'] at h
    obtain ⟨r', hr, h⟩ := h
    cases h
    simp [supplies_length hr]

theorem inout_step {c : Cfg} (hc : c.net.Ok) {n : ℕ} (hn : n ∈ c.net.nodeIds)
    {ins outs : List ℕ} (hi : (c.net.node n).ins = ins) (ho : (c.net.node n).outs = outs) {ts : ℕ}
    {factor : ℚ} {order : ℕ → List ℕ} (hord : ∀ k, (order k).Perm (List.range ins.length)) {s s' : State}
    (h : inoutEvolve c.net.scalar factor ts ins outs order s = .ok s') : NStep c s s' := by
  have hins := hc.ins n hn
  have houts := hc.outs n hn
  rw [hi] at hins
  rw [ho] at houts
  unfold inoutEvolve at h
  split at h
  swap
  · simp at h
  rw [Res.bind_eq_ok'] at h
  obtain ⟨sups, hsup, h⟩ := h
  simp only at h
  rw [Res.bind_eq_ok'] at h
  obtain ⟨t, ht, h⟩ := h
  rw [Res.bind_eq_ok'] at h
  obtain ⟨s1, h1, h2⟩ := h
  have hsl := supplies_length hsup
  have I : MI c ins outs s t := by
    refine moveAll_MI hc hins.1 houts.1 hins.2 houts.2 (fun k => (hord k).nodup_iff.2 List.nodup_range)
      _ 0 _ t ?_ ?_ (MI.refl c ins outs s) (fun _ _ _ => rfl) ht
    · intro k
      by_cases hk : k < outs.length
      · left
        rw [List.map_fst_zip (by simp [hsl])]
        rw [Nat.zero_add, List.getElem?_eq_getElem hk]; rfl
      · right; simp [hsl]; omega
    · simp [hsl]
  obtain ⟨a1, a2, a3, a4⟩ := recordOuts_spec outs 0 _ _ houts.1 h1
  obtain ⟨b1, b2, b3, b4⟩ := recordIns_spec ins 0 _ _ hins.1 h2
  have O := a1.trans b1
  have M : Mv c t.1 s' := Mv.of_curves O.rest O.link
  have f2 : ∀ l, s'.fin l = t.1.fin l := fun l => by unfold State.fin; rw [O.link]
  have i2 : ∀ l, s'.inc l = t.1.inc l := fun l => by unfold State.inc; rw [O.link]
  refine ⟨I.mv.trans M, ?_, ?_⟩
  · intro l x
    rw [i2]
    by_cases hl : l ∈ outs
    · have := Recorded.counted (by positivity) (a4 _ l x (idxOf_get? hl))
      rw [Nat.zero_add] at this
      rw [b2, I.inc _ l x (idxOf_get? hl), ← (I.curves l x).1]
      push_cast
      rw [add_sub_cancel_left]
      exact this
    · rw [I.incOther l hl, sub_self, b2, a3 l x hl, (I.curves l x).1]
      exact Counted.refl _ _
  · intro l x
    rw [f2]
    by_cases hl : l ∈ ins
    · have := Recorded.counted (by positivity) (b4 _ l x (idxOf_get? hl))
      rw [Nat.zero_add] at this
      rw [I.fin _ l x (idxOf_get? hl), ← (I.curves l x).2, ← a2]
      push_cast
      rw [add_sub_cancel_left]
      exact this
    · rw [I.finOther l hl, sub_self, b3 l x hl, a2, (I.curves l x).2]
      exact Counted.refl _ _

theorem node_step {c : Cfg} (hc : c.net.Ok) {o : StepOracle} (ho : o.Ok c) {n : ℕ}
    (hn : n ∈ c.net.nodeIds) {ts : ℕ} {s s' : State}
    (h : nodeEvolve c.net.scalar c.factor ts n (o.u n) (o.order n) s (c.net.node n) = .ok s') :
    NStep c s s' := by
  have hord := ho.order n
  cases hk : c.net.node n with
  | origin outs => rw [hk] at h; exact origin_step hc hn hk h
  | dest ins => rw [hk] at h; exact dest_step hc hn hk h
  | fwj ins outs =>
    rw [hk] at h hord
    exact inout_step hc hn (by rw [hk, Node.ins]) (by rw [hk, Node.outs]) hord h
  | grj ins outs => rw [hk] at h; simp [nodeEvolve] at h

theorem stepNodes_step {c : Cfg} (hc : c.net.Ok) {o : StepOracle} (ho : o.Ok c) {ts : ℕ}
    {s s' : State} (h : stepNodes c o ts s = .ok s') : NStep c s s' := by
  refine Res.foldlM_inv_mem (P := fun t => NStep c s t) c.net.nodeIds ?_ s s' (NStep.refl c s) h
  intro b n b' hn hb he
  exact hb.trans (node_step hc ho hn he)

end Verif.MNet
