import Verif.Lemmas.MStuck
import Verif.Lemmas.Adaptive

/-! # Networks with cars and trucks (C77-C86)

A boolean stands for the class: `false` for cars, `true` for trucks. -/

namespace Verif
open Ults Curve MNet
set_option synthInstance.maxSize 1024

open Net (Recorded CurveReady Node Trees generateLabel mem_finishedIds finishedIds_nodup)

namespace MNetEx

/-- Attributes of all links. -/
def mAt : MLnk.Args := ⟨1, 30, 1 / 10, 1 / 10, 1 / 2, 1 / 4, 10, 10, 1, 2, 4⟩

/-- Origin node 1, a point queue, junction 2, a cell transmission link, junction 3, another point
queue, destination node 4.  At the beginning of interval 5 the middle link gets a lower free flow
speed. -/
def cfg : MNet.Cfg where
  net :=
    { scalar := 4
      assignFreq := 3
      totalAssign := 2
      linkIds := [10, 11, 12]
      nodeIds := [1, 2, 3, 4]
      node := fun n => if n = 1 then .origin [10] else if n = 2 then .fwj [10] [11] else
        if n = 3 then .fwj [11] [12] else .dest [12]
      toNode := fun l => if l = 10 then 2 else if l = 11 then 3 else 4
      outLinks := fun n => if n = 1 then [10] else if n = 2 then [11] else if n = 3 then [12] else []
      originIds := [100]
      origin := fun _ => ⟨1, 3, [], fun _ => none, []⟩
      destIds := [200]
      destNode := fun _ => 4 }
  factor := 2
  dem _ := ⟨[(200, fun k => if k = 0 then 3 / 4 else 1 / 2)], [(200, fun _ => 2 / 4)], fun _ => none,
    fun _ => none, [], []⟩
  attrs ts := if ts = 5 then [(11, { mAt with ffsTruck := 8 })] else []

/-- A new link. -/
def mk (k : MLnk.Kind) : MLnk.Link ℕ :=
  match (MLnk.mkLink k mAt : Res (MLnk.Link ℕ)) with
  | .ok x => x
  | _ => .pq ⟨mAt, 1, [], 0, 0, .empty⟩

/-- Links with all curves. -/
def links (l : ℕ) : MNet.LinkSt :=
  ⟨mk (if l = 11 then .ctm else .pq), some install, some install, some install, some install⟩

/-- Nobody is adaptive, and the only path uses all links. -/
def orc : MNet.StepOracle where
  release _ := ⟨fun _ => 0, fun _ => 0, fun _ => 0, fun _ => 0, List.reverse⟩
  mode := .two 0 0
  routing := .biclass none ⟨fun _ _ => some [(5, 1)], fun _ => [10, 11, 12]⟩
    ⟨fun _ _ => some [(5, 1)], fun _ => [10, 11, 12]⟩
  route := ⟨fun _ => 1 / 2, fun _ => 0⟩
  u _ _ := 0
  order n _ := if n = 1 then [] else [0]
  link _ := ⟨fun _ => 0, fun _ => 0⟩

theorem cfg_ok : cfg.net.Ok := by
  refine ⟨by decide, by decide, ?_, ?_, ?_, ?_⟩
  · intro n hn
    have h : n = 1 ∨ n = 2 ∨ n = 3 ∨ n = 4 := by simpa [cfg] using hn
    rcases h with rfl | rfl | rfl | rfl <;> simp [cfg, Node.ins]
  · intro n hn
    have h : n = 1 ∨ n = 2 ∨ n = 3 ∨ n = 4 := by simpa [cfg] using hn
    rcases h with rfl | rfl | rfl | rfl <;> simp [cfg, Node.outs]
  · intro o _; simp [cfg]
  · intro d _; simp [cfg]

theorem orc_ok : orc.Ok cfg := by
  refine ⟨?_, ?_⟩
  · intro _ l; exact List.reverse_perm l
  · intro n k
    by_cases h : n = 1
    · subst h; simp [orc, cfg, Node.ins]
    · by_cases h2 : n = 2
      · subst h2; simp [orc, cfg, Node.ins, List.range_succ]
      · by_cases h3 : n = 3
        · subst h3; simp [orc, cfg, Node.ins, List.range_succ]
        · simp [orc, cfg, Node.ins, h, h2, h3, List.range_succ]

theorem fresh : Fresh (State.init links) := by
  refine ⟨links, rfl, fun l => ⟨?_, fun b => Or.inr (by cases b <;> exact ⟨rfl, rfl⟩)⟩⟩
  have h : ∀ k : MLnk.Kind, k ∈ [MLnk.Kind.ctm, MLnk.Kind.pq] →
      ((MLnk.mkLink k mAt : Res (MLnk.Link ℕ)).bind fun _ => .ok ()) = .ok () := by
    decide +kernel
  have h := h (if l = 11 then .ctm else .pq) (by split <;> simp)
  rw [Res.bind_eq_ok'] at h
  obtain ⟨x, hx, _⟩ := h
  exact ⟨if l = 11 then .ctm else .pq, mAt, by simp only [links, mk, hx]⟩

end MNetEx

/-! ## C77 -/

/-- C77, every network with cars and trucks, every demand, every routing, any mix of link models, any
changes of link attributes, any number of intervals and all random outcomes: every vehicle released
so far is either in exactly one place and not finished, or nowhere and finished; no other vehicle is
anywhere. -/
theorem C77_network_conservation (c : Cfg) (hc : c.net.Ok) (hsc : c.net.scalar ≠ 0) (s : State)
    (hs : Fresh s) (os : List StepOracle) (hos : ∀ o ∈ os, o.Ok c) (assign : ℕ) (r : State × ℕ × ℕ)
    (h : loadMany c os 0 assign s = .ok r) :
    (∀ v, 1 ≤ v → v ≤ r.1.numVeh →
      ((r.1.places c).count v = 1 ∧ (r.1.vehs v).finish = -1) ∨
      ((r.1.places c).count v = 0 ∧ 0 ≤ (r.1.vehs v).finish ∧ (r.1.vehs v).finish < os.length)) ∧
    (∀ v, v = 0 ∨ r.1.numVeh < v → (r.1.places c).count v = 0) := by
  obtain ⟨I, hts⟩ := loadMany_inv hc hsc os 0 assign s r hos (fresh_inv hs) h
  refine ⟨?_, ?_⟩
  · intro v h1 h2
    rw [I.place v]
    by_cases hv : v ∈ r.1.vehMap
    · exact Or.inl ⟨List.count_eq_one_of_mem I.view.nodup hv, I.view.finIn v hv⟩
    · have hm : v ∈ r.1.view.finishedIds := mem_finishedIds.2 ⟨h1, h2, hv⟩
      have a1 := I.view.finOut v hm
      have a2 := I.net.finish v hm
      rw [hts] at a2
      refine Or.inr ⟨List.count_eq_zero.2 hv, ?_, by rw [Nat.zero_add] at a2; exact a2⟩
      have : (r.1.view.vehs v) = r.1.vehs v := rfl
      rw [this] at a1
      omega
  · intro v hv
    rw [I.place v, List.count_eq_zero]
    intro hm
    have := I.view.range v hm
    have e : r.1.view.numVeh = r.1.numVeh := rfl
    omega

theorem cls_perm {truck : ℕ → Bool} {b : Bool} {l m : List ℕ} (h : l.Perm m) :
    cls truck b l = cls truck b m := h.countP_eq _

theorem all_perm {c : Cfg} {ts : ℕ} {s : State} (I : MInv c ts s) :
    (List.range' 1 s.numVeh).Perm (s.gone ++ s.vehMap) := by
  rw [List.perm_ext_iff_of_nodup List.nodup_range']
  · intro v
    rw [List.mem_append, gone_view, mem_finishedIds, List.mem_range'_1]
    show _ ↔ (1 ≤ v ∧ v ≤ s.numVeh ∧ v ∉ s.vehMap) ∨ _
    constructor
    · intro hv
      by_cases hm : v ∈ s.vehMap
      · exact Or.inr hm
      · exact Or.inl ⟨hv.1, by omega, hm⟩
    · rintro (hv | hv)
      · omega
      · have : 1 ≤ v ∧ v ≤ s.numVeh := I.view.range v hv
        omega
  · rw [List.nodup_append]
    refine ⟨finishedIds_nodup s.view, I.view.nodup, ?_⟩
    intro a ha b hb e
    subst e
    rw [gone_view] at ha
    exact (mem_finishedIds.1 ha).2.2 hb

/-- C77: the counters of a class are the number of its vehicles released, in the network, and
finished, and its total travel time adds up finish minus start times; the class of a vehicle is the
one it was released with (`C82_release`). -/
theorem C77_class_counters (c : Cfg) (hc : c.net.Ok) (hsc : c.net.scalar ≠ 0) (s : State)
    (hs : Fresh s) (os : List StepOracle) (hos : ∀ o ∈ os, o.Ok c) (assign : ℕ) (r : State × ℕ × ℕ)
    (h : loadMany c os 0 assign s = .ok r) (b : Bool) :
    r.1.num b = cls r.1.truck b (List.range' 1 r.1.numVeh) ∧
    r.1.under b = cls r.1.truck b (r.1.places c) ∧
    r.1.done b = cls r.1.truck b ((List.range' 1 r.1.numVeh).filter
      fun v => decide ((r.1.vehs v).finish ≠ -1)) ∧
    (r.1.num b : ℤ) = r.1.under b + r.1.done b ∧
    r.1.time b = (((List.range' 1 r.1.numVeh).filter
      fun v => decide ((r.1.vehs v).finish ≠ -1) && (r.1.truck v == b)).map
        fun v => (((r.1.vehs v).finish - (r.1.vehs v).start : ℤ) : ℚ)).sum ∧
    r.1.numVeh = r.1.num false + r.1.num true ∧ r.1.finished = r.1.done false + r.1.done true ∧
    r.1.enroute = r.1.under false + r.1.under true ∧
    r.1.totalTime = r.1.time false + r.1.time true := by
  obtain ⟨I, hts⟩ := loadMany_inv hc hsc os 0 assign s r hos (fresh_inv hs) h
  have hp : (r.1.places c).Perm r.1.vehMap := by
    rw [List.perm_iff_count]; exact I.place
  have hall := all_perm I
  have hgone : r.1.gone = (List.range' 1 r.1.numVeh).filter
      fun v => decide ((r.1.vehs v).finish ≠ -1) := by
    apply List.filter_congr
    intro v hv
    rw [List.mem_range'_1] at hv
    simp only [decide_eq_decide]
    constructor
    · intro hm hf
      have := I.view.finOut v (mem_finishedIds.2 ⟨hv.1, by show v ≤ r.1.numVeh; omega, hm⟩)
      have e : r.1.view.vehs v = r.1.vehs v := rfl
      rw [e] at this
      omega
    · intro hf hm; exact hf (I.view.finIn v hm)
  have hcount : ∀ l : List ℕ, cls r.1.truck false l + cls r.1.truck true l = l.length := by
    intro l
    unfold cls
    induction l with
    | nil => rfl
    | cons a l ih =>
      rw [List.countP_cons, List.countP_cons, List.length_cons]
      cases r.1.truck a <;> simp only [beq_self_eq_true, if_true] <;> rw [if_neg (by decide)] <;> omega
  have hlen : (r.1.gone.length : ℕ) = r.1.finished := by
    have a : r.1.vehMap.length + r.1.finished = r.1.numVeh := I.view.len
    have b := hall.length_eq
    rw [List.length_range', List.length_append] at b
    omega
  have htime : ∀ l : List ℕ, clsTime r.1 false l + clsTime r.1 true l = (l.map r.1.tt).sum := by
    intro l
    unfold clsTime
    induction l with
    | nil => simp
    | cons a l ih =>
      cases e : r.1.truck a
      · rw [List.filter_cons_of_pos (by simp [e]), List.filter_cons_of_neg (by simp [e])]
        simp only [List.map_cons, List.sum_cons]
        linarith
      · rw [List.filter_cons_of_neg (by simp [e]), List.filter_cons_of_pos (by simp [e])]
        simp only [List.map_cons, List.sum_cons]
        linarith
  refine ⟨I.num b, ?_, ?_, ?_, ?_, ?_, ?_, ?_, ?_⟩
  · rw [I.under, cls_perm hp]
  · rw [I.done, hgone]
  · rw [I.num, I.under, I.done, cls_perm hall]
    unfold cls
    rw [List.countP_append]
    push_cast
    ring
  · rw [I.time, hgone, clsTime, List.filter_filter]
    congr 2
    apply List.filter_congr
    intro v _
    rw [Bool.and_comm]
  · rw [I.num, I.num, hcount, List.length_range']
  · rw [I.done, I.done, hcount, hlen]
  · rw [I.under, I.under, ← Nat.cast_add, hcount]
    exact I.view.enroute
  · rw [I.time, I.time, htime]
    exact I.view.time

example : ((loadMany MNetEx.cfg (List.replicate 13 MNetEx.orc) 0 0 (State.init MNetEx.links)).bind
    fun r => .ok (r.1.numVeh, r.1.places MNetEx.cfg, [false, true].map fun b =>
      (r.1.num b, r.1.under b, r.1.done b, r.1.time b)))
    = .ok (9, [7, 8, 6], [(5, 2, 3, 34), (4, 1, 3, 28)]) := by
  decide +kernel

/-! ## C78 -/

/-- C78: on every link with curves, for either class, the total of the entry curve minus the total of
the exit curve, times the flow scalar, is the number of vehicles of that class on the link. -/
theorem C78_curves_count_vehicles (c : Cfg) (hc : c.net.Ok) (hsc : c.net.scalar ≠ 0) (s : State)
    (hs : Fresh s) (os : List StepOracle) (hos : ∀ o ∈ os, o.Ok c) (assign : ℕ) (r : State × ℕ × ℕ)
    (h : loadMany c os 0 assign s = .ok r) (l : ℕ) (hl : l ∈ c.net.linkIds) (b : Bool)
    (nIn nOut : Curve) (hin : (r.1.links l).nIn b = some nIn)
    (hout : (r.1.links l).nOut b = some nOut) :
    (Net.total nIn - Net.total nOut) * c.net.scalar = cls r.1.truck b (r.1.on l) ∧
    (0 < c.net.scalar → Net.total nOut ≤ Net.total nIn) := by
  obtain ⟨I, _⟩ := loadMany_inv hc hsc os 0 assign s r hos (fresh_inv hs) h
  have e := I.cc l hl b nIn nOut hin hout
  constructor
  · rw [e]; field_simp
  · intro hp
    have : (0 : ℚ) ≤ (cls r.1.truck b (r.1.on l) : ℚ) / c.net.scalar := by positivity
    linarith

example : ((loadMany MNetEx.cfg (List.replicate 9 MNetEx.orc) 0 0 (State.init MNetEx.links)).bind
    fun r => .ok (r.1.on 11, [false, true].map fun b =>
      (cls r.1.truck b (r.1.on 11), (r.1.links 11).nIn b, (r.1.links 11).nOut b)))
    = .ok ([1, 9, 7, 6, 8],
      [(3, some [(0, 0), (6, 1 / 2), (7, 3 / 4), (9, 5 / 4)], some [(0, 0), (9, 1 / 2)]),
       (2, some [(0, 0), (4, 1 / 4), (5, 1 / 2), (7, 3 / 4), (8, 1)],
        some [(0, 0), (7, 1 / 4), (8, 1 / 2)])]) := by
  decide +kernel

/-! ## C79 -/

/-- C79, every junction, every state before its interval and every order in which the entrances are
served: every vehicle waiting at an entrance is bound for an exit; from every entrance the first `k`
vehicles waiting for an exit enter it, in their order, entrance after entrance, where `k` is the
smallest number whose car equivalents reach the entrance's share of what the exit can take; the
others stay in their order; and nothing else changes. -/
theorem C79_junction (scalar factor : ℚ) (hs : 0 < scalar) (hf : 0 ≤ factor) (ts : ℕ)
    (ins outs : List ℕ) (hin : ins.Nodup) (hout : outs.Nodup) (order : ℕ → List ℕ)
    (hord : ∀ k, (order k).Perm (List.range ins.length)) (s s' : State)
    (h : inoutEvolve scalar factor ts ins outs order s = .ok s') :
    (∀ i ∈ ins, ∀ v ∈ s.fin i, ∃ o ∈ outs, (s.vehs v).next = some o) ∧
    (∃ k : ℕ → ℕ → ℕ,
      (∀ (j o : ℕ), outs[j]? = some o → ∃ sup, (s.links o).link.supply = .ok sup ∧
        (∀ i ∈ ins,
          let x := share (load factor s.truck (s.waiting i o))
            ((ins.map fun i => load factor s.truck (s.waiting i o)).sum) (sup * scalar)
          k i o ≤ (s.waiting i o).length ∧ x ≤ load factor s.truck ((s.waiting i o).take (k i o)) ∧
          ∀ n, n < k i o → load factor s.truck ((s.waiting i o).take n) < x) ∧
        s'.inc o = s.inc o ++ (order j).flatMap fun a =>
          (s.waiting (ins.getD a 0) o).take (k (ins.getD a 0) o)) ∧
      ∀ i o, s'.waiting i o = (s.waiting i o).drop (k i o)) ∧
    (∀ i, (s'.fin i).Sublist (s.fin i)) ∧ (∀ i, i ∉ ins → s'.fin i = s.fin i) ∧
    (∀ o, o ∉ outs → s'.inc o = s.inc o) ∧ OnlyMoves s s' := by
  obtain ⟨k, J⟩ := junction_spec hs hf hin hout hord h
  refine ⟨?_, ⟨k, ?_, J.wait⟩, J.sub, J.finOther, J.incOther, J.only⟩
  · intro i hi v hv
    have := J.right
    unfold onRightNode at this
    rw [List.all_eq_true] at this
    have := this i hi
    rw [List.all_eq_true] at this
    have := this v hv
    rw [List.any_eq_true] at this
    obtain ⟨o, ho, e⟩ := this
    exact ⟨o, ho, by simpa [State.heads] using e⟩
  · intro j o hj
    obtain ⟨sup, e1, e2, e3⟩ := J.exits j o hj
    refine ⟨sup, e1, ?_, e3⟩
    intro i hi
    simp only
    have e := e2 i hi
    obtain ⟨n1, n2, _⟩ := need_spec (equiv factor s.truck)
      (share (load factor s.truck (s.waiting i o)) (waitingLoad factor s ins o) (sup * scalar))
      (s.waiting i o)
    have n3 := need_enough (eq := equiv factor s.truck) (q := s.waiting i o)
      (x := share (load factor s.truck (s.waiting i o)) (waitingLoad factor s ins o) (sup * scalar))
      (share_le (load_nonneg hf _ _) (load_le_waiting hf o hi))
    rw [← e] at n1 n2 n3
    exact ⟨n1, n3, n2⟩

/-- C79: the entry curves of the exits and the exit curves of the entrances record the vehicles of
each class that passed, at the end of the interval; the other curves do not change. -/
theorem C79_junction_curves (scalar factor : ℚ) (hs : 0 < scalar) (hf : 0 ≤ factor) (ts : ℕ)
    (ins outs : List ℕ) (hin : ins.Nodup) (hout : outs.Nodup) (order : ℕ → List ℕ)
    (hord : ∀ k, (order k).Perm (List.range ins.length)) (s s' : State)
    (h : inoutEvolve scalar factor ts ins outs order s = .ok s') (b : Bool) :
    (∀ o ∈ outs, Recorded scalar ts (cls s.truck b (s'.inc o) - cls s.truck b (s.inc o) : ℕ)
      ((s.links o).nIn b) ((s'.links o).nIn b)) ∧
    (∀ i ∈ ins, Recorded scalar ts (cls s.truck b (s.fin i) - cls s.truck b (s'.fin i) : ℕ)
      ((s.links i).nOut b) ((s'.links i).nOut b)) ∧
    (∀ l, l ∉ outs → (s'.links l).nIn b = (s.links l).nIn b) ∧
    (∀ l, l ∉ ins → (s'.links l).nOut b = (s.links l).nOut b) := by
  obtain ⟨k, J⟩ := junction_spec hs hf hin hout hord h
  exact ⟨fun o ho => J.nIn o ho b, fun i hi => J.nOut i hi b, fun l hl => J.nInOther l hl b,
    fun l hl => J.nOutOther l hl b⟩

/-- C79: the interval of a junction goes through whenever all vehicles waiting at its entrances are
bound for one of its exits, the exits can compute their supply and the curves are not in the
future. -/
theorem C79_junction_never_fails (scalar factor : ℚ) (hs : 0 < scalar) (hf : 0 ≤ factor) (ts : ℕ)
    (ins outs : List ℕ) (hin : ins.Nodup) (hout : outs.Nodup) (order : ℕ → List ℕ)
    (hord : ∀ k, (order k).Perm (List.range ins.length)) (s : State)
    (hr : ∀ i ∈ ins, ∀ v ∈ s.fin i, ∃ o ∈ outs, (s.vehs v).next = some o)
    (hsup : ∀ o ∈ outs, ∃ x, (s.links o).link.supply = .ok x)
    (hci : ∀ o ∈ outs, ∀ b, CurveReady ((ts : ℚ) + 1) ((s.links o).nIn b))
    (hco : ∀ i ∈ ins, ∀ b, CurveReady ((ts : ℚ) + 1) ((s.links i).nOut b)) :
    ∃ s', inoutEvolve scalar factor ts ins outs order s = .ok s' := by
  refine junction_ok hs hf hin hout hord ?_ hsup hci hco
  unfold onRightNode
  rw [List.all_eq_true]
  intro i hi
  rw [List.all_eq_true]
  intro v hv
  rw [List.any_eq_true]
  obtain ⟨o, ho, e⟩ := hr i hi v hv
  exact ⟨o, ho, by simp [State.heads, e]⟩

namespace MNetEx

/-- A point queue with the given capacity (per interval) and queues. -/
def pq (cap : ℚ) (inc fin : List ℕ) : MNet.LinkSt :=
  ⟨((MLnk.Link.pq ⟨{ mAt with capCar := cap }, 1, [], 0, 0, .empty⟩).setIncoming inc).setFinished fin,
    some install, some install, some install, some install⟩

/-- Links 0 and 1 lead into a node, links 2 and 3 leave it.  Vehicles 1, 2, 3 wait on link 0 and 4,
5 on link 1; vehicles 3 and 4 are trucks; vehicle 2 is bound for link 3, the others for link 2. -/
def st : MNet.State :=
  { State.init (fun l => if l = 0 then pq 5 [] [1, 2, 3] else if l = 1 then pq 5 [] [4, 5]
      else if l = 2 then pq 3 [9] [] else pq 5 [] []) with
    vehs := fun v => ⟨0, -1, false, 0, 0, none, if v = 2 then some 3 else some 2, none, 0, 0⟩
    truck := fun v => v == 3 || v == 4 }

end MNetEx

example : (∀ i ∈ [0, 1], ∀ v ∈ MNetEx.st.fin i, ∃ o ∈ [2, 3], (MNetEx.st.vehs v).next = some o) ∧
    ((inoutEvolve 1 2 0 [0, 1] [2, 3] (fun _ => [1, 0]) MNetEx.st).bind fun s' =>
      .ok ([0, 1, 2, 3].map fun l => (s'.fin l, s'.inc l, (s'.links l).nInCar, (s'.links l).nInTruck)))
    = .ok [([], [], some [(0, 0)], some [(0, 0)]), ([5], [], some [(0, 0)], some [(0, 0)]),
      ([], [9, 4, 1, 3], some [(0, 0), (1, 1)], some [(0, 0), (1, 2)]),
      ([], [2], some [(0, 0), (1, 1)], some [(0, 0)])] := by
  decide +kernel

/-! ## C80 -/

/-- C80 is false: more can enter an exit than it can take.  The middle link of the example can take
two car equivalents in this interval, and a car and a truck (three car equivalents) enter it. -/
theorem C80_supply_exceeded :
    ((loadMany MNetEx.cfg (List.replicate 6 MNetEx.orc) 0 0 (State.init MNetEx.links)).bind fun r =>
      (stepRelease MNetEx.cfg MNetEx.orc r.2.1 r.2.2 r.1).bind fun s1 =>
        (MNetEx.orc.routing.update MNetEx.cfg.net MNetEx.orc.route s1).bind fun s2 =>
          (s2.links 11).link.supply.bind fun sup =>
            (nodeEvolve 4 MNetEx.cfg.factor r.2.1 2 (fun _ => 0) (fun _ => [0]) s2
              (MNetEx.cfg.net.node 2)).bind fun s3 =>
              .ok (sup * 4, s2.inc 11, s3.inc 11, load 2 s3.truck (s3.inc 11)))
    = .ok (2, [], [1, 9], 3) := by
  decide +kernel

/-- C80, what holds: the car equivalents that enter an exit are at least the smaller of what waits
for it and what it can take, and exceed it by at most one vehicle per entrance at which somebody
waits for it; and if there is room for everybody, everybody enters. -/
theorem C80_intake_partial (scalar factor : ℚ) (hs : 0 < scalar) (hf : 0 ≤ factor) (ts : ℕ)
    (ins outs : List ℕ) (hin : ins.Nodup) (hout : outs.Nodup) (order : ℕ → List ℕ)
    (hord : ∀ k, (order k).Perm (List.range ins.length)) (s s' : State)
    (h : inoutEvolve scalar factor ts ins outs order s = .ok s') (o : ℕ) (ho : o ∈ outs) :
    ∃ sup entered, (s.links o).link.supply = .ok sup ∧ s'.inc o = s.inc o ++ entered ∧
      let T := (ins.map fun i => load factor s.truck (s.waiting i o)).sum
      let cap := max 0 (sup * scalar)
      min T cap ≤ load factor s.truck entered ∧
      load factor s.truck entered
        ≤ min T cap + (ins.filter fun i => decide (¬ s.waiting i o = [])).length * max 1 factor ∧
      (0 < factor → T ≤ sup * scalar →
        entered.Perm (ins.flatMap fun i => s.waiting i o) ∧ ∀ i ∈ ins, s'.waiting i o = []) := by
  obtain ⟨k, J⟩ := junction_spec hs hf hin hout hord h
  obtain ⟨j, hj⟩ := List.getElem?_of_mem ho
  obtain ⟨sup, e1, e2, e3⟩ := J.exits j o hj
  refine ⟨sup, _, e1, e3, ?_⟩
  simp only
  rw [load_flatMap, order_sum (hord j)
    (fun i => load factor s.truck ((s.waiting i o).take (k i o)))]
  have hT : (ins.map fun i => load factor s.truck (s.waiting i o)).sum = waitingLoad factor s ins o := rfl
  rw [hT]
  have hT0 : 0 ≤ waitingLoad factor s ins o := by
    rw [← hT]
    apply List.sum_nonneg
    intro x hx
    rw [List.mem_map] at hx
    obtain ⟨i, _, rfl⟩ := hx
    exact load_nonneg hf _ _
  have hsh := share_sum (waitingLoad factor s ins o) (sup * scalar)
    (fun i => load factor s.truck (s.waiting i o)) ins
  rw [hT] at hsh
  have hsh' : (ins.map fun i => share (load factor s.truck (s.waiting i o)) (waitingLoad factor s ins o)
      (sup * scalar)).sum = if waitingLoad factor s ins o = 0 then 0
        else min (waitingLoad factor s ins o) (sup * scalar) := by
    rw [hsh]
    split
    · rfl
    · field_simp
  refine ⟨?_, ?_, ?_⟩
  · have hle := sum_le_sum_of (l := ins)
      (f := fun i => share (load factor s.truck (s.waiting i o)) (waitingLoad factor s ins o)
        (sup * scalar))
      (g := fun i => load factor s.truck ((s.waiting i o).take (k i o))) (by
        intro i hi
        rw [e2 i hi]
        exact need_enough (share_le (load_nonneg hf _ _) (load_le_waiting hf o hi)))
    rw [hsh'] at hle
    have hge : 0 ≤ (ins.map fun i => load factor s.truck ((s.waiting i o).take (k i o))).sum := by
      apply List.sum_nonneg
      intro x hx
      rw [List.mem_map] at hx
      obtain ⟨i, _, rfl⟩ := hx
      exact load_nonneg hf _ _
    split at hle
    · rename_i h0; rw [h0]; exact le_trans (min_le_left _ _) hge
    · rw [min_max_distrib_left]
      exact max_le (le_trans (min_le_right _ _) hge) hle
  · rcases le_or_gt 0 (sup * scalar) with hc | hc
    · rw [max_eq_right hc, ← sum_if_count, ]
      have hle := sum_le_sum_of (l := ins)
        (g := fun i => share (load factor s.truck (s.waiting i o)) (waitingLoad factor s ins o)
          (sup * scalar) + if s.waiting i o = [] then 0 else max 1 factor)
        (f := fun i => load factor s.truck ((s.waiting i o).take (k i o))) (by
          intro i hi
          rw [e2 i hi]
          apply load_take_lt
          unfold share
          split
          · exact le_refl _
          · have := load_nonneg hf s.truck (s.waiting i o)
            have := le_min hT0 hc
            positivity)
      rw [sum_add_map, hsh'] at hle
      split at hle
      · rename_i h0
        rw [h0, min_eq_left hc]; exact hle
      · exact hle
    · have hk : ∀ i ∈ ins, k i o = 0 := by
        intro i hi
        rw [e2 i hi]
        apply need_neg
        rw [not_lt]
        unfold share
        split
        · exact le_refl _
        · have a := load_nonneg hf s.truck (s.waiting i o)
          have b : min (waitingLoad factor s ins o) (sup * scalar) ≤ 0 :=
            le_trans (min_le_right _ _) hc.le
          exact div_nonpos_of_nonpos_of_nonneg (mul_nonpos_of_nonneg_of_nonpos a b) hT0
      have hz : (ins.map fun i => load factor s.truck ((s.waiting i o).take (k i o))).sum = 0 := by
        apply List.sum_eq_zero
        intro x hx
        rw [List.mem_map] at hx
        obtain ⟨i, hi, rfl⟩ := hx
        rw [hk i hi]; rfl
      rw [hz, max_eq_left hc.le, min_eq_right hT0, zero_add]
      have : (0 : ℚ) ≤ max 1 factor := le_trans zero_le_one (le_max_left _ _)
      positivity
  · intro hf' hle
    have hall : ∀ i ∈ ins, k i o = (s.waiting i o).length := by
      intro i hi
      have : share (load factor s.truck (s.waiting i o)) (waitingLoad factor s ins o) (sup * scalar)
          = load factor s.truck (s.waiting i o) := by
        unfold share
        split
        · rename_i h0
          have a := load_le_waiting hf (s := s) o hi
          have b := load_nonneg hf s.truck (s.waiting i o)
          rw [h0] at a
          linarith
        · rw [min_eq_left hle]; field_simp
      rw [e2 i hi, this]
      exact need_all hf' _
    constructor
    · have hp := (hord j).flatMap_right fun a =>
        (s.waiting (ins.getD a 0) o).take (k (ins.getD a 0) o)
      refine hp.trans ?_
      have : (List.range ins.length).flatMap (fun a =>
          (s.waiting (ins.getD a 0) o).take (k (ins.getD a 0) o))
          = ((List.range ins.length).map fun a => ins.getD a 0).flatMap fun i =>
            (s.waiting i o).take (k i o) := by
        rw [List.flatMap_map]
      rw [this, map_getD_range]
      apply List.Perm.of_eq
      apply List.flatMap_congr
      intro i hi
      rw [hall i hi, List.take_length]
    · intro i hi
      rw [J.wait, hall i hi, List.drop_length]

/-! ## C81 -/

/-- C81: the reported statistics after any number of intervals are, for cars and for trucks, the
number released and the hours spent by all of them until they finished or until now, in flow
units. -/
theorem C81_travel_stats (c : Cfg) (hc : c.net.Ok) (hsc : c.net.scalar ≠ 0) (s : State)
    (hs : Fresh s) (os : List StepOracle) (hos : ∀ o ∈ os, o.Ok c) (assign : ℕ) (r : State × ℕ × ℕ)
    (unit : ℚ) (h : loadMany c os 0 assign s = .ok r) :
    let ofClass := fun b => (List.range' 1 r.1.numVeh).filter fun v => r.1.truck v == b
    let spent := fun v => if (r.1.vehs v).finish = -1 then (os.length : ℤ) - (r.1.vehs v).start
      else (r.1.vehs v).finish - (r.1.vehs v).start
    let hours := fun b => ((ofClass b).map fun v => ((spent v : ℤ) : ℚ)).sum * unit / 3600
    travelStats c unit r.2.1 r.1 = ((ofClass false).length / c.net.scalar,
      (ofClass true).length / c.net.scalar, hours false / c.net.scalar,
      hours true / c.net.scalar) := by
  obtain ⟨I, hts⟩ := loadMany_inv hc hsc os 0 assign s r hos (fresh_inv hs) h
  intro ofClass spent hours
  have hall := all_perm I
  have hof : ∀ b, (ofClass b).Perm ((r.1.gone.filter fun v => r.1.truck v == b) ++
      r.1.vehMap.filter fun v => r.1.truck v == b) := by
    intro b
    rw [← List.filter_append]
    exact hall.filter _
  have hlen : ∀ b, (ofClass b).length = r.1.done b + cls r.1.truck b r.1.vehMap := by
    intro b
    rw [(hof b).length_eq, List.length_append, I.done]
    unfold cls
    rw [List.countP_eq_length_filter, List.countP_eq_length_filter]
  have hgone : ∀ v ∈ r.1.gone, spent v = (r.1.vehs v).finish - (r.1.vehs v).start := by
    intro v hv
    have := I.view.finOut v hv
    have e : r.1.view.vehs v = r.1.vehs v := rfl
    rw [e] at this
    have hne : (r.1.vehs v).finish ≠ -1 := by omega
    simp [spent, hne]
  have hmap : ∀ v ∈ r.1.vehMap, spent v = (os.length : ℤ) - (r.1.vehs v).start := by
    intro v hv
    have e : (r.1.vehs v).finish = -1 := I.view.finIn v hv
    simp [spent, e]
  have hsum : ∀ (l : List ℕ) (g : ℕ → ℚ), (l.map fun v => g v * unit / 3600).sum
      = (l.map g).sum * unit / 3600 := by
    intro l g
    induction l with
    | nil => simp
    | cons a l ih => simp only [List.map_cons, List.sum_cons, ih]; ring
  have hh : ∀ b, hours b = r.1.time b * unit / 3600 + ((r.1.vehMap.filter fun v => r.1.truck v == b).map
      fun v => (((r.2.1 : ℤ) - (r.1.vehs v).start : ℤ) : ℚ) * unit / 3600).sum := by
    intro b
    rw [hsum _ fun v => (((r.2.1 : ℤ) - (r.1.vehs v).start : ℤ) : ℚ), I.time]
    simp only [hours]
    rw [((hof b).map _).sum_eq, List.map_append, List.sum_append]
    have a1 : (r.1.gone.filter fun v => r.1.truck v == b).map (fun v => ((spent v : ℤ) : ℚ))
        = (r.1.gone.filter fun v => r.1.truck v == b).map r.1.tt := by
      apply List.map_congr_left
      intro v hv
      rw [hgone v (List.mem_of_mem_filter hv)]
      rfl
    have a2 : (r.1.vehMap.filter fun v => r.1.truck v == b).map (fun v => ((spent v : ℤ) : ℚ))
        = (r.1.vehMap.filter fun v => r.1.truck v == b).map
          (fun v => (((r.2.1 : ℤ) - (r.1.vehs v).start : ℤ) : ℚ)) := by
      apply List.map_congr_left
      intro v hv
      rw [hmap v (List.mem_of_mem_filter hv), hts, Nat.zero_add]
    rw [a1, a2, clsTime]
    ring
  have hc0 := hlen false
  have hc1 := hlen true
  unfold travelStats
  simp only
  rw [hh, hh, hc0, hc1]
  have t0 : MLnk.cars r.1.truck r.1.vehMap = cls r.1.truck false r.1.vehMap := by
    unfold MLnk.cars cls
    congr 1
    funext v
    cases r.1.truck v <;> rfl
  have t1 : MLnk.trucks r.1.truck r.1.vehMap = cls r.1.truck true r.1.vehMap := by
    unfold MLnk.trucks cls
    congr 1
    funext v
    cases r.1.truck v <;> rfl
  rw [t0, t1]
  rfl

example : ((loadMany MNetEx.cfg (List.replicate 13 MNetEx.orc) 0 0 (State.init MNetEx.links)).bind
    fun r => .ok (travelStats MNetEx.cfg 5 r.2.1 r.1)) = .ok (5 / 4, 1, 3 / 160, 19 / 1440) := by
  decide +kernel

/-! ## C82 -/

theorem releaseOne_split {c : Cfg} {oid ts assign : ℕ} {orc : ReleaseOracle} {m : Release}
    (hm : m ≠ .nothing) {s s' : State} (h : releaseOne c oid orc ts assign m s = .ok s') :
    ∃ rc rt p q,
      releaseDests c.net.scalar (c.net.origin oid).node oid (c.net.origin oid).freq orc ts assign false
        orc.uCar (c.dem oid).ratioCar (c.dem oid).labelCar 0 rc (c.dem oid).car s = .ok p ∧
      releaseDests c.net.scalar (c.net.origin oid).node oid (c.net.origin oid).freq orc ts assign true
        orc.uTruck (c.dem oid).ratioTruck (c.dem oid).labelTruck 0 rt (c.dem oid).truck p.1 = .ok q ∧
      s' = { q.1 with
        queue := upd q.1.queue (c.net.origin oid).node
          (orc.shuffle (q.1.queue (c.net.origin oid).node)) } ∧
      (∀ x, m = .one x → rc = x ∧ rt = p.2) ∧ (∀ x y, m = .two x y → rc = x ∧ rt = y) := by
  unfold releaseOne at h
  simp only at h
  split at h
  · simp at h
  cases m with
  | one r =>
    simp only at h
    rw [Res.bind_eq_ok'] at h
    obtain ⟨p, h1, h⟩ := h
    rw [Res.bind_eq_ok'] at h
    obtain ⟨q, h2, h⟩ := h
    cases h
    exact ⟨_, _, p, q, h1, h2, rfl, fun x e => by cases e; exact ⟨rfl, rfl⟩, fun _ _ e => by cases e⟩
  | two rc rt =>
    simp only at h
    rw [Res.bind_eq_ok'] at h
    obtain ⟨p, h1, h⟩ := h
    rw [Res.bind_eq_ok'] at h
    obtain ⟨q, h2, h⟩ := h
    cases h
    exact ⟨_, _, p, q, h1, h2, rfl, (fun _ e => by cases e), fun x y e => by cases e; exact ⟨rfl, rfl⟩⟩
  | nothing => exact absurd rfl hm

/-- Scaled demand rounded down or, when the draw is below its fractional part, up. -/
def Rounded (x u : ℚ) (n : ℕ) : Prop :=
  ((n : ℤ) = ⌊x⌋ ∧ Int.fract x ≤ u) ∨ ((n : ℤ) = ⌊x⌋ + 1 ∧ u < Int.fract x)

theorem rounded_of {x u : ℚ} (h0 : 0 ≤ x) : Rounded x u (roundVal x u).toNat := by
  have hnn := roundVal_natCast_nonneg (u := u) h0
  have hz : (((roundVal x u).toNat : ℕ) : ℤ) = roundVal x u := by omega
  unfold Rounded
  rw [hz, roundVal_nonneg h0]
  split
  · rename_i hf; exact Or.inr ⟨rfl, hf⟩
  · rename_i hf; exact Or.inl ⟨rfl, not_lt.1 hf⟩

/-- C82, every origin, every demand of cars and of trucks that is not negative, every release: for
every destination of each class the scaled demand, rounded, is released; first come the cars, then the
trucks, each destination by destination; every new vehicle has the right class, origin, start time,
interval and label; they join the queue of the origin's node, in some order; and nothing else
changes. -/
theorem C82_release (c : Cfg) (oid : ℕ) (hoid : oid ∈ c.net.originIds) (orc : ReleaseOracle)
    (hsh : ∀ l, (orc.shuffle l).Perm l) (ts assign : ℕ) (m : Release) (hm : m ≠ .nothing)
    (s s' : State) (hcar : ∀ p ∈ (c.dem oid).car, 0 ≤ p.2 assign * c.net.scalar)
    (htruck : ∀ p ∈ (c.dem oid).truck, 0 ≤ p.2 assign * c.net.scalar)
    (h : releaseOne c oid orc ts assign m s = .ok s') :
    ∃ nc nt : List ℕ, nc.length = (c.dem oid).car.length ∧ nt.length = (c.dem oid).truck.length ∧
      (∀ (k n d : ℕ) f, (c.dem oid).car[k]? = some (d, f) → nc[k]? = some n →
        Rounded (f assign * c.net.scalar) (orc.uCar k) n) ∧
      (∀ (k n d : ℕ) f, (c.dem oid).truck[k]? = some (d, f) → nt[k]? = some n →
        Rounded (f assign * c.net.scalar) (orc.uTruck k) n) ∧
      s'.numVeh = s.numVeh + nc.sum + nt.sum ∧
      (List.range' (s.numVeh + 1) (nc.sum + nt.sum)).map (fun v => (s'.truck v, (s'.vehs v).dest))
        = ((c.dem oid).car.zip nc).flatMap (fun p => List.replicate p.2 (false, p.1.1)) ++
          ((c.dem oid).truck.zip nt).flatMap (fun p => List.replicate p.2 (true, p.1.1)) ∧
      (∀ v, s.numVeh < v → v ≤ s'.numVeh → s'.vehs v = ⟨ts, -1, (s'.vehs v).adaptive, oid,
        (s'.vehs v).dest, none, none, none, ((ts / (c.net.origin oid).freq : ℕ) : ℤ),
        generateLabel (if s'.truck v then (c.dem oid).labelTruck else (c.dem oid).labelCar)
          (orc.l v)⟩) ∧
      (∀ v, v ≤ s.numVeh → s'.vehs v = s.vehs v ∧ s'.truck v = s.truck v) ∧
      (s'.queue (c.net.origin oid).node).Perm
        (s.queue (c.net.origin oid).node ++ List.range' (s.numVeh + 1) (nc.sum + nt.sum)) ∧
      (∀ n, n ≠ (c.net.origin oid).node → s'.queue n = s.queue n) ∧ s'.links = s.links := by
  have hmr := releaseOne_rel hoid hsh h
  obtain ⟨rc, rt, p, q, h1, h2, rfl, _, _⟩ := releaseOne_split hm h
  obtain ⟨nc, C, _⟩ := releaseDests_detail hoid orc _ _ _ _ _ _ _ _ _ h1
  obtain ⟨nt, T, _⟩ := releaseDests_detail hoid orc _ _ _ _ _ _ _ _ _ h2
  obtain ⟨_, R⟩ := hmr
  have hC := C.num
  have hT := T.num
  refine ⟨nc, nt, C.len, T.len, ?_, ?_, by rw [← hC]; exact hT, ?_, ?_, ?_, ?_, ?_, R.links⟩
  · intro k n d f hk hn
    have := C.amount k d f hk
    rw [hn, Nat.zero_add] at this
    simp only [Option.some.injEq] at this
    rw [this]
    exact rounded_of (hcar (d, f) (List.mem_of_getElem? hk))
  · intro k n d f hk hn
    have := T.amount k d f hk
    rw [hn, Nat.zero_add] at this
    simp only [Option.some.injEq] at this
    rw [this]
    exact rounded_of (htruck (d, f) (List.mem_of_getElem? hk))
  · have hpair : ∀ (b : Bool) (n : ℕ) (l : List ℕ) (t : State), (∀ v ∈ l, t.truck v = b) →
        l.map (fun v => (t.truck v, (t.vehs v).dest)) = (l.map fun v => (t.vehs v).dest).map (Prod.mk b) := by
      intro b n l t hl
      rw [List.map_map]
      apply List.map_congr_left
      intro v hv
      simp [hl v hv]
    have hrep : ∀ (b : Bool) (l : List ((ℕ × (ℕ → ℚ)) × ℕ)),
        (l.flatMap fun p => List.replicate p.2 p.1.1).map (Prod.mk b)
          = l.flatMap fun p => List.replicate p.2 (b, p.1.1) := by
      intro b l
      rw [List.map_flatMap]
      simp
    rw [← List.range'_append_1, List.map_append]
    congr 1
    · have e : (List.range' (s.numVeh + 1) nc.sum).map (fun v => (q.1.truck v, (q.1.vehs v).dest))
          = (List.range' (s.numVeh + 1) nc.sum).map (fun v => (p.1.truck v, (p.1.vehs v).dest)) := by
        apply List.map_congr_left
        intro v hv
        rw [List.mem_range'_1] at hv
        obtain ⟨a, b⟩ := T.old v (by omega)
        rw [a, b]
      refine e.trans ?_
      rw [hpair false 0 _ p.1 (fun v hv => by
        rw [List.mem_range'_1] at hv
        exact (C.veh v (by omega) (by omega)).2), C.dests, hrep]
    · have e : s.numVeh + 1 + nc.sum = p.1.numVeh + 1 := by omega
      rw [e]
      refine (hpair true 0 _ q.1 (fun v hv => by
        rw [List.mem_range'_1] at hv
        exact (T.veh v (by omega) (by omega)).2)).trans ?_
      rw [T.dests, hrep]
  · intro v h1 h2
    simp only at h2 ⊢
    by_cases hv : v ≤ p.1.numVeh
    · obtain ⟨a, b⟩ := C.veh v h1 hv
      obtain ⟨a', b'⟩ := T.old v hv
      rw [a', b', b]
      exact a
    · obtain ⟨a, b⟩ := T.veh v (by omega) h2
      rw [b]
      exact a
  · intro v hv
    obtain ⟨a, b⟩ := C.old v hv
    obtain ⟨a', b'⟩ := T.old v (by omega)
    exact ⟨a'.trans a, b'.trans b⟩
  · simp only [upd_same]
    refine (hsh _).trans ?_
    rw [T.queue, C.queue, ← List.range'_append_1, List.append_assoc]
    have e : s.numVeh + 1 + nc.sum = p.1.numVeh + 1 := by omega
    rw [e]
  · intro n hn
    simp only
    rw [upd_other _ _ _ _ hn, T.other n hn, C.other n hn]

example : (∀ p ∈ (MNetEx.cfg.dem 100).car, 0 ≤ p.2 0 * MNetEx.cfg.net.scalar) ∧
    ((releaseOne MNetEx.cfg 100 (MNetEx.orc.release 100) 0 0 (.two 0 0) (State.init MNetEx.links)).bind
      fun s => .ok (s.numVeh, s.queue 1, [1, 2, 3, 4, 5].map fun v => (s.truck v, (s.vehs v).dest)))
    = .ok (5, [5, 4, 3, 2, 1],
      [(false, 200), (false, 200), (false, 200), (true, 200), (true, 200)]) := by
  decide +kernel

/-! ## C83 -/

/-- C83, without ratios of single destinations: a released vehicle is adaptive exactly when the ratio
of its class says so: never for 0, always for 1, and otherwise when the draw is at most the ratio.
With a single ratio for both classes it applies to both. -/
theorem C83_adaptive_share_partial (c : Cfg) (oid : ℕ) (hoid : oid ∈ c.net.originIds)
    (orc : ReleaseOracle) (ts assign : ℕ) (car truck : ℚ) (m : Release)
    (hm : m = .two car truck ∨ (m = .one car ∧ truck = car)) (s s' : State)
    (hcar : ∀ p ∈ (c.dem oid).car, (c.dem oid).ratioCar p.1 = none)
    (htruck : ∀ p ∈ (c.dem oid).truck, (c.dem oid).ratioTruck p.1 = none)
    (h : releaseOne c oid orc ts assign m s = .ok s') (v : ℕ)
    (h1 : s.numVeh < v) (h2 : v ≤ s'.numVeh) :
    let ratio := if s'.truck v then truck else car
    (s'.vehs v).adaptive = true ↔ ratio ≠ 0 ∧ (ratio = 1 ∨ orc.r v ≤ ratio) := by
  obtain ⟨rc, rt, p, q, e1, e2, rfl, k1, k2⟩ := releaseOne_split
    (by rcases hm with rfl | ⟨rfl, _⟩ <;> simp) h
  obtain ⟨nc, C, aC⟩ := releaseDests_detail hoid orc _ _ _ _ _ _ _ _ _ e1
  obtain ⟨nt, T, aT⟩ := releaseDests_detail hoid orc _ _ _ _ _ _ _ _ _ e2
  obtain ⟨c1, c2⟩ := aC (by
    intro d hd
    rw [List.mem_map] at hd
    obtain ⟨x, hx, rfl⟩ := hd
    exact hcar x hx)
  obtain ⟨_, t2⟩ := aT (by
    intro d hd
    rw [List.mem_map] at hd
    obtain ⟨x, hx, rfl⟩ := hd
    exact htruck x hx)
  have hrc : rc = car := by
    rcases hm with rfl | ⟨rfl, _⟩
    · exact (k2 _ _ rfl).1
    · exact (k1 _ rfl).1
  have hrt : rt = truck := by
    rcases hm with rfl | ⟨rfl, e⟩
    · exact (k2 _ _ rfl).2
    · rw [(k1 _ rfl).2, c1, hrc, e]
  rw [hrc] at c2
  rw [hrt] at t2
  simp only at h2 ⊢
  by_cases hv : v ≤ p.1.numVeh
  · obtain ⟨_, b⟩ := C.veh v h1 hv
    obtain ⟨a', b'⟩ := T.old v hv
    rw [a', b', b]
    exact c2 v h1 hv
  · obtain ⟨_, b⟩ := T.veh v (by omega) h2
    rw [b]
    exact t2 v (by omega) h2

/-- C83 is false when destinations have their own ratios: the ratio of one destination stays in force
for the following ones, and with a single ratio for both classes even for trucks.  The ratio is 0; cars
to destination 1 have their own ratio 1; the car to destination 2 and the truck have none and come out
adaptive. -/
theorem C83_ratio_leaks :
    let c : Cfg := { MNetEx.cfg with
      dem := fun _ => ⟨[(1, fun _ => 1 / 4), (2, fun _ => 1 / 4)], [(2, fun _ => 1 / 4)],
        fun d => if d = 1 then some (fun _ => 1) else none, fun _ => none, [], []⟩ }
    ((releaseOne c 100 (MNetEx.orc.release 100) 0 0 (.one 0) (State.init MNetEx.links)).bind
      fun s => .ok ([1, 2, 3].map fun v => (s.truck v, (s.vehs v).dest, (s.vehs v).adaptive)))
    = .ok [(false, 1, true), (false, 2, true), (true, 2, true)] := by
  decide +kernel

/-! ## C84 -/

/-- C84, every origin node, every state before its interval: for every outgoing link either all
vehicles bound for it enter it, when it can take as many vehicles (a truck counts as one), or the first
`n`, with `n` what it can take, rounded; both classes keep their order; the entry curves record
the vehicles of each class that entered, and nothing else changes.  It only goes through when all
outgoing links are point queues. -/
theorem C84_origin_node (scalar : ℚ) (ts node : ℕ) (outs : List ℕ) (houts : outs.Nodup) (u : ℕ → ℚ)
    (s s' : State) (h : originEvolve scalar ts node outs u s = .ok s') :
    (∀ (k l : ℕ), outs[k]? = some l → ∃ n sup, isPq (s.links l).link = true ∧
      (s.links l).link.supply = .ok sup ∧
      (((s.queued node l).length : ℚ) ≤ sup * scalar → n = (s.queued node l).length) ∧
      (sup * scalar < ((s.queued node l).length : ℚ) → 0 ≤ sup * scalar →
        Rounded (sup * scalar) (u k) n) ∧
      s'.inc l = s.inc l ++ (s.queued node l).take n ∧
      s'.queued node l = (s.queued node l).drop n ∧
      ∀ b, Recorded scalar ts (cls s.truck b ((s.queued node l).take n) : ℕ)
        ((s.links l).nIn b) ((s'.links l).nIn b)) ∧
    (s'.queue node).Sublist (s.queue node) ∧
    (∀ k, k ≠ node → s'.queue k = s.queue k) ∧ (∀ l, s'.fin l = s.fin l) ∧
    (∀ l, l ∉ outs → s'.inc l = s.inc l ∧ ∀ b, (s'.links l).nIn b = (s.links l).nIn b) ∧
    (∀ l b, (s'.links l).nOut b = (s.links l).nOut b) ∧ OnlyQueues s s' := by
  obtain ⟨lvs, e1, O, e2⟩ := origin_spec h houts
  refine ⟨?_, O.sub, O.queueOther, O.fin, ?_, O.nOut, O.only⟩
  · intro k l hk
    obtain ⟨n, sup, hn, hsup, hcase⟩ := e2 k l hk
    obtain ⟨o1, o2, o3⟩ := O.out l n hn
    refine ⟨n.toNat, sup, O.pq _ hn, hsup, ?_, ?_, o1, o2, o3⟩
    · intro hle
      rcases hcase with ⟨_, e⟩ | ⟨e, _⟩
      · rw [e]; simp
      · exact absurd hle (not_le.2 e)
    · intro hlt h0
      rcases hcase with ⟨e, _⟩ | ⟨_, e⟩
      · exact absurd hlt (not_lt.2 e)
      · rw [e]; exact rounded_of h0
  · intro l hl
    rw [← e1] at hl
    exact ⟨O.incOther l hl, O.nInOther l hl⟩

/-- Four vehicles, two of them trucks, are bound for a link that can take two vehicles and a half: two
enter. -/
example :
    let s : State := { MNetEx.st with
      links := fun _ => MNetEx.pq (5 / 2) [] []
      queue := fun n => if n = 7 then [5, 4, 3, 1] else [] }
    ((originEvolve 1 0 7 [2] (fun _ => 1 / 2) s).bind fun s' =>
      .ok (s'.inc 2, s'.queue 7, (s'.links 2).nInCar, (s'.links 2).nInTruck))
    = .ok ([5, 4], [3, 1], some [(0, 0), (1, 1)], some [(0, 0), (1, 1)]) := by
  decide +kernel

/-- C84: next to any other kind of link the origin node dereferences a null pointer. -/
theorem C84_origin_needs_point_queue :
    originEvolve 4 0 1 [11] (fun _ => 0) (State.init MNetEx.links) = .ub := by
  have h : (match originEvolve 4 0 1 [11] (fun _ => 0) (State.init MNetEx.links) with
    | .ub => true
    | _ => false) = true := by decide +kernel
  revert h
  cases originEvolve 4 0 1 [11] (fun _ => 0) (State.init MNetEx.links) <;> simp

/-! ## C85 -/

/-- C85, every destination node, every state before its interval: all vehicles waiting at the ends of
the incoming links move to the node's queue, in order; they have no next link; the exit curves record
those of each class, and nothing else changes. -/
theorem C85_destination_node (scalar : ℚ) (ts node : ℕ) (ins : List ℕ) (hins : ins.Nodup)
    (s s' : State) (h : destEvolve scalar ts node ins s = .ok s') :
    s'.queue node = s.queue node ++ ins.flatMap s.fin ∧
    (∀ l ∈ ins, (∀ v ∈ s.fin l, (s.vehs v).next = none) ∧ s'.fin l = [] ∧ ∀ b,
      Recorded scalar ts (cls s.truck b (s.fin l) : ℕ) ((s.links l).nOut b) ((s'.links l).nOut b)) ∧
    (∀ k, k ≠ node → s'.queue k = s.queue k) ∧ (∀ l, s'.inc l = s.inc l) ∧
    (∀ l, l ∉ ins → s'.fin l = s.fin l ∧ ∀ b, (s'.links l).nOut b = (s.links l).nOut b) ∧
    (∀ l b, (s'.links l).nIn b = (s.links l).nIn b) ∧ OnlyQueues s s' := by
  have D := dest_spec ins s s' h hins
  exact ⟨D.queue, fun l hl => ⟨D.none l hl, (D.fin l hl).1, (D.fin l hl).2⟩, D.queueOther, D.inc,
    fun l hl => ⟨D.finOther l hl, D.nOutOther l hl⟩, D.nIn, D.only⟩

example :
    let s : State := { MNetEx.st with
      vehs := fun _ => ⟨0, -1, false, 0, 0, none, none, none, 0, 0⟩
      queue := fun n => if n = 7 then [8] else [] }
    ((destEvolve 1 0 7 [0, 1] s).bind fun s' =>
      .ok (s'.queue 7, s'.fin 0, s'.fin 1, (s'.links 0).nOutCar, (s'.links 0).nOutTruck))
    = .ok ([8, 1, 2, 3, 4, 5], [], [], some [(0, 0), (1, 2)], some [(0, 0), (1, 1)]) := by
  decide +kernel

/-! ## C86 -/

/-- C86, what holds: whenever the adaptive part of the two-class routing is switched on, an adaptive
car or truck in the queue of an origin node is given the link that the tree of its own destination
says for that node, and keeps it when the vehicles that are not adaptive are routed afterwards. -/
theorem C86_adaptive_routed_partial (c : Cfg) (hc : c.net.Ok) (hsc : c.net.scalar ≠ 0) (s : State)
    (hs : Fresh s) (os : List StepOracle) (hos : ∀ o ∈ os, o.Ok c) (assign : ℕ) (r : State × ℕ × ℕ)
    (h : loadMany c os 0 assign s = .ok r) (o : StepOracle) (ho : o.Ok c) (tr : Trees)
    (pc pt : Net.PathTable) (htr : o.routing = .biclass (some tr) pc pt) (s1 s2 : State)
    (e1 : stepRelease c o r.2.1 r.2.2 r.1 = .ok s1) (e2 : o.routing.update c.net o.route s1 = .ok s2)
    (oid : ℕ) (hoid : oid ∈ c.net.originIds) (v : ℕ) (hv : v ∈ s2.queue (c.net.origin oid).node)
    (ha : (s2.vehs v).adaptive = true) :
    ∃ l ∈ c.net.linkIds, (s2.vehs v).next = some l ∧
      tr (s2.vehs v).dest (c.net.origin oid).node = some (l : ℤ) := by
  obtain ⟨I, _⟩ := loadMany_inv hc hsc os 0 assign s r hos (fresh_inv hs) h
  obtain ⟨k, R⟩ := stepRelease_rel ho e1
  have hco := (I.toMCore.rel hc R).view
  rw [htr] at e2
  obtain ⟨T, _, e3⟩ := update_routed e2
  simp only [Routing.updateView] at e3
  rw [Res.bind_eq_ok'] at e3
  obtain ⟨t1, a1, e3⟩ := e3
  rw [Res.bind_eq_ok'] at e3
  obtain ⟨t2, a2, a3⟩ := e3
  have R1 : Net.Routed s1.view t1 := Net.routeAll_routed (fun _ _ _ _ h => Net.adaptiveOrigin_routed h)
    (fun _ _ _ _ h => Net.adaptiveLink_routed h) a1
  have R2 := fixedCls_routed a2
  have ha' : (s1.view.vehs v).adaptive = true := by rw [← T.adaptive]; exact ha
  have hv' : v ∈ s1.view.queue (c.net.origin oid).node := by rw [← T.queue]; exact hv
  obtain ⟨l, l1, l2, l3⟩ := Net.adaptiveRouting_origin hc hco a1 oid hoid v hv' ha'
  have k1 := fixedCls_keeps a2 v (by rw [R1.adaptive]; exact ha')
  have k2 := fixedCls_keeps a3 v (by rw [R2.adaptive, R1.adaptive]; exact ha')
  have hd : (s2.vehs v).dest = (s1.vehs v).dest := T.dest v
  exact ⟨l, l1, (k2.trans k1).trans l3, by rw [hd]; exact l2⟩

/-- C86 is false when the configured ratios are both 0 but destinations have their own: the code then
switches the adaptive part off, and, whatever the network, the demand and the random outcomes, every
adaptive vehicle ever released still waits in the queue of its origin after any number of
intervals. -/
theorem C86_adaptive_vehicles_stranded (c : Cfg) (hc : c.net.Ok) (hsc : 0 < c.net.scalar)
    (hf : 0 ≤ c.factor) (s : State) (hs : Fresh s) (os : List StepOracle)
    (hos : ∀ o ∈ os, o.Ok c ∧ ∃ pc pt, o.routing = .biclass none pc pt) (assign : ℕ)
    (r : State × ℕ × ℕ) (h : loadMany c os 0 assign s = .ok r) (v : ℕ) (h1 : 1 ≤ v)
    (h2 : v ≤ r.1.numVeh) (ha : (r.1.vehs v).adaptive = true) :
    v ∈ r.1.queue (c.net.origin (r.1.vehs v).origin).node ∧ (r.1.vehs v).finish = -1 := by
  have hi := fresh_inv (c := c) hs
  have h0 : Stuck c s := by
    obtain ⟨links, rfl, _⟩ := hs
    intro v h1 h2
    simp only [State.init] at h2
    omega
  have S := loadMany_stuck hc hsc hf os 0 assign s r hos hi h0 h
  obtain ⟨a, b, _⟩ := S v h1 h2 ha
  refine ⟨b, ?_⟩
  have hin := hc.origins _ a
  obtain ⟨C1, _⟩ := C77_network_conservation c hc hsc.ne' s hs os (fun o ho => (hos o ho).1) assign r h
  rcases C1 v h1 h2 with ⟨_, e⟩ | ⟨e, _⟩
  · exact e
  · exfalso
    rw [List.count_eq_zero] at e
    apply e
    unfold State.places
    rw [List.mem_append]
    left
    rw [List.mem_flatMap]
    exact ⟨_, hin.1, b⟩

/-- The network of the example with a ratio of 1 for cars to the destination: after 30 intervals all
trucks have arrived and all cars are still in the origin's queue. -/
theorem C86_stranded_example :
    let c : Cfg := { MNetEx.cfg with
      dem := fun o => { MNetEx.cfg.dem o with ratioCar := fun _ => some fun _ => 1 } }
    ((loadMany c (List.replicate 30 MNetEx.orc) 0 0 (State.init MNetEx.links)).bind fun r =>
      .ok (r.1.numCar, r.1.numTruck, r.1.finishedCar, r.1.finishedTruck, r.1.places c))
    = .ok (5, 4, 0, 4, [7, 6, 1, 2, 3]) := by
  decide +kernel

end Verif
