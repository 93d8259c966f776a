import Verif.Lemmas.MRoute
import Verif.Props.MNet

/-! # C88: cars and trucks with a fixed route

`Net.movesOf log v` is what vehicle `v` has done so far, `Net.legs ls` the moves of a trip along the
links `ls` (see C34).  `Lc p` are the links of path `p` in the path table of the cars, `Lt p` those of
path `p` in the path table of the trucks. -/

namespace Verif
open Ults Curve MNet
open Net (movesOf legs Tr)
set_option synthInstance.maxSize 1024

/-- C88, every network with cars and trucks, every demand, mix of link models, every two-class fixed
or hybrid routing (or a routing that treats both classes alike), every random choice and every number
of intervals: a vehicle without adaptive routing waits in an origin queue and has not moved until it
is given a path; what it has done at any time is the beginning of the trip along that path of the
table of its own class; when it leaves the network it has made the whole trip; and if it is on a
link, that is the link it entered last. -/
theorem C88_follows_path (c : Cfg) (hc : c.net.Ok) (hsc : c.net.scalar ≠ 0) (s : State)
    (hs : Fresh s) (Lc Lt : ℕ → List ℕ) (hLc : ∀ p, (Lc p).IsChain (· ≠ ·))
    (hLt : ∀ p, (Lt p).IsChain (· ≠ ·)) (os : List StepOracle) (hos : ∀ o ∈ os, o.Ok c)
    (hr : ∀ o ∈ os, ∃ pc pt, o.routing.tables = some (pc, pt) ∧ pc.links = Lc ∧ pt.links = Lt)
    (r : State × ℕ × ℕ) (h : loadMany c os 0 0 s = .ok r) (v : ℕ) (h1 : 1 ≤ v) (h2 : v ≤ r.1.numVeh)
    (hv : (r.1.vehs v).adaptive = false) :
    ((r.1.vehs v).path = none → movesOf r.1.log v = [] ∧ ∃ n ∈ c.net.nodeIds, v ∈ r.1.queue n) ∧
    (∀ p, (r.1.vehs v).path = some p →
      movesOf r.1.log v <+: legs (if r.1.truck v then Lt p else Lc p)) ∧
    (v ∉ r.1.vehMap → ∃ p, (r.1.vehs v).path = some p ∧
      movesOf r.1.log v = legs (if r.1.truck v then Lt p else Lc p)) ∧
    (∀ l ∈ c.net.linkIds, v ∈ r.1.on l →
      ∃ m, (movesOf r.1.log v).getLast? = some m ∧ m.2 = some l) := by
  obtain ⟨I, T⟩ := loadMany_tr hc hsc hLc hLt os 0 0 s r hos hr (fresh_inv hs) (fresh_mtr hs) h
  obtain ⟨a1, a2, a3, a4⟩ := Tr.story T I.view v h1 h2 hv
  have e : ∀ p, paths r.1.truck Lc Lt v p = if r.1.truck v then Lt p else Lc p := by
    intro p; unfold paths; split <;> rfl
  simp only [e] at a2 a3
  refine ⟨a1, a2, a3, ?_⟩
  intro l hl hvl
  refine a4 l hl ?_
  rw [← List.count_pos_iff, view_on, List.count_pos_iff]; exact hvl

/-- C88: whenever routes have been updated in an interval, a vehicle without adaptive routing that
waits at the end of a link has no next link exactly when the link leads to its destination, and then
it has entered all the links of its path; otherwise its next link is the one that follows in its
path. -/
theorem C88_next_link (c : Cfg) (hc : c.net.Ok) (hsc : c.net.scalar ≠ 0) (s : State)
    (hs : Fresh s) (Lc Lt : ℕ → List ℕ) (hLc : ∀ p, (Lc p).IsChain (· ≠ ·))
    (hLt : ∀ p, (Lt p).IsChain (· ≠ ·)) (os : List StepOracle) (hos : ∀ o ∈ os, o.Ok c)
    (hr : ∀ o ∈ os, ∃ pc pt, o.routing.tables = some (pc, pt) ∧ pc.links = Lc ∧ pt.links = Lt)
    (r : State × ℕ × ℕ) (h : loadMany c os 0 0 s = .ok r) (o : StepOracle) (ho : o.Ok c)
    (hro : ∃ pc pt, o.routing.tables = some (pc, pt) ∧ pc.links = Lc ∧ pt.links = Lt) (s1 s2 : State)
    (e1 : stepRelease c o r.2.1 r.2.2 r.1 = .ok s1)
    (e2 : o.routing.update c.net o.route s1 = .ok s2) (l : ℕ) (hl : l ∈ c.net.linkIds) (v : ℕ)
    (hv : v ∈ s2.fin l) (hst : (s2.vehs v).adaptive = false) :
    ((s2.vehs v).next = none ↔ c.net.toNode l = c.net.destNode (s2.vehs v).dest) ∧
    ∃ p done, (s2.vehs v).path = some p ∧
      movesOf s2.log v = (none :: done.map some).zip (done.map some) ∧
      (((s2.vehs v).next = none ∧ done = if s2.truck v then Lt p else Lc p) ∨
        ∃ l' rest, (s2.vehs v).next = some l' ∧
          (if s2.truck v then Lt p else Lc p) = done ++ l' :: rest) := by
  obtain ⟨I, T⟩ := loadMany_tr hc hsc hLc hLt os 0 0 s r hos hr (fresh_inv hs) (fresh_mtr hs) h
  obtain ⟨pc, pt, hp, hpc, hpt⟩ := hro
  obtain ⟨_, C⟩ := release_routes hc hLc hLt ho hp hpc hpt I.toMCore T e1 e2
  have e : ∀ p, paths s2.truck Lc Lt v p = if s2.truck v then Lt p else Lc p := by
    intro p; unfold paths; split <;> rfl
  obtain ⟨p, E, a1, a2, _, _, a5⟩ := C l hl v hv hst
  simp only [e] at a5
  rcases a5 with ⟨a5, _, a6, a7⟩ | ⟨l', rest, a5, _, a6, a7⟩
  · exact ⟨⟨fun _ => a7.symm, fun _ => a5⟩, p, E, a1, a2, Or.inl ⟨a5, a6⟩⟩
  · refine ⟨⟨fun e => ?_, fun e => absurd e.symm a7⟩, p, E, a1, a2, Or.inr ⟨l', rest, a5, a6.symm⟩⟩
    have a5' : (s2.vehs v).next = some l' := a5
    rw [a5'] at e; simp at e

namespace MRouteEx

/-- Two roads from junction 2 to junction 3: link 11 for cars, link 13 for trucks. -/
def cfg : MNet.Cfg :=
  { MNetEx.cfg with
    net := { MNetEx.cfg.net with
      linkIds := [10, 11, 12, 13]
      node := fun n => if n = 1 then .origin [10] else if n = 2 then .fwj [10] [11, 13] else
        if n = 3 then .fwj [11, 13] [12] else .dest [12]
      toNode := fun l => if l = 10 then 2 else if l = 11 ∨ l = 13 then 3 else 4
      outLinks := fun n => if n = 1 then [10] else if n = 2 then [11, 13] else
        if n = 3 then [12] else [] }
    attrs := fun _ => [] }

/-- Path 5 is another one for cars than for trucks. -/
def orc : MNet.StepOracle :=
  { MNetEx.orc with
    routing := .biclass none ⟨fun _ _ => some [(5, 1)], fun _ => [10, 11, 12]⟩
      ⟨fun _ _ => some [(5, 1)], fun _ => [10, 13, 12]⟩
    order := fun n _ => if n = 1 then [] else if n = 3 then [1, 0] else [0] }

theorem cfg_ok : cfg.net.Ok := by
  refine ⟨by decide, by decide, ?_, ?_, ?_, ?_⟩
  · intro n hn
    have h : n = 1 ∨ n = 2 ∨ n = 3 ∨ n = 4 := by simpa [cfg, MNetEx.cfg] using hn
    rcases h with rfl | rfl | rfl | rfl <;> simp [cfg, MNetEx.cfg, Net.Node.ins]
  · intro n hn
    have h : n = 1 ∨ n = 2 ∨ n = 3 ∨ n = 4 := by simpa [cfg, MNetEx.cfg] using hn
    rcases h with rfl | rfl | rfl | rfl <;> simp [cfg, MNetEx.cfg, Net.Node.outs]
  · intro o _; simp [cfg, MNetEx.cfg]
  · intro d _; simp [cfg, MNetEx.cfg]

theorem orc_ok : orc.Ok cfg := by
  refine ⟨?_, ?_⟩
  · intro _ l; exact List.reverse_perm l
  · intro n k
    by_cases h : n = 1
    · subst h; simp [orc, cfg, Net.Node.ins]
    · by_cases h2 : n = 2
      · subst h2; simp [orc, cfg, Net.Node.ins, List.range_succ]
      · by_cases h3 : n = 3
        · subst h3; simp [orc, cfg, Net.Node.ins, List.range_succ]; decide
        · simp [orc, cfg, Net.Node.ins, h, h2, h3, List.range_succ]

theorem routes : ∃ pc pt, orc.routing.tables = some (pc, pt) ∧ pc.links = (fun _ => [10, 11, 12]) ∧
    pt.links = fun _ => [10, 13, 12] := ⟨_, _, rfl, rfl, rfl⟩

end MRouteEx

/-- Vehicle 1 is a car, vehicle 4 a truck. -/
example : ((loadMany MRouteEx.cfg (List.replicate 13 MRouteEx.orc) 0 0
      (State.init MNetEx.links)).bind fun r =>
    .ok ([1, 4].map fun v => (r.1.truck v, decide (v ∈ r.1.vehMap), movesOf r.1.log v))) =
    .ok [(false, false, [(none, some 10), (some 10, some 11), (some 11, some 12), (some 12, none)]),
      (true, false, [(none, some 10), (some 10, some 13), (some 13, some 12), (some 12, none)])] := by
  decide +kernel

example : ∀ p : ℕ, ((fun _ => [10, 13, 12] : ℕ → List ℕ) p).IsChain (· ≠ ·) := by
  intro _
  show List.IsChain (· ≠ ·) [10, 13, 12]
  decide

end Verif
