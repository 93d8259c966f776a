import Verif.Lemmas.RouteNodes
import Verif.Props.Net

/-! # C34: vehicles with a fixed route

`movesOf log v` is what vehicle `v` has done so far: which link it left and which it entered, in
order; `legs ls` is the list of moves of a trip that starts in an origin queue, uses the links `ls`
one after the other and ends in the queue of a destination node.  `L p` are the links of path `p`.
A path never lists a link twice in a row (its links are consecutive in a network without
self-loops, C01). -/

namespace Verif
open Net Ults Curve Lnk

/-- C34, every network, demand, mix of link and node models, every fixed or hybrid routing (the path
probabilities may change from interval to interval), every random choice and every number of
intervals: a vehicle without adaptive routing waits in an origin queue and has not moved until it is
given a path; what it has done at any time is the beginning of the trip along its path, and nothing
else; when it leaves the network it has made the whole trip; and if it is on a link, that is the link
it entered last. -/
theorem C34_follows_path (c : Cfg) (hc : c.Ok) (hsc : c.scalar ≠ 0) (s : State) (hs : Fresh s)
    (L : ℕ → List ℕ) (hL : ∀ p, (L p).IsChain (· ≠ ·)) (os : List StepOracle)
    (hos : ∀ o ∈ os, o.Ok c) (hr : ∀ o ∈ os, ∃ pt, o.routing.table = some pt ∧ pt.links = L)
    (r : State × ℕ × ℕ) (h : loadMany c os 0 0 s = .ok r) (v : ℕ) (h1 : 1 ≤ v) (h2 : v ≤ r.1.numVeh)
    (hv : (r.1.vehs v).adaptive = false) :
    ((r.1.vehs v).path = none → movesOf r.1.log v = [] ∧ ∃ n ∈ c.nodeIds, v ∈ r.1.queue n) ∧
    (∀ p, (r.1.vehs v).path = some p → movesOf r.1.log v <+: legs (L p)) ∧
    (v ∉ r.1.vehMap → ∃ p, (r.1.vehs v).path = some p ∧ movesOf r.1.log v = legs (L p)) ∧
    (∀ l ∈ c.linkIds, v ∈ r.1.on l → ∃ m, (movesOf r.1.log v).getLast? = some m ∧ m.2 = some l) := by
  obtain ⟨I, T⟩ := loadMany_tr hc hsc hL os 0 0 s r hos hr (fresh_inv hs) (fresh_tr hs) h
  exact T.story I.core v h1 h2 hv

/-- C34: whenever routes have been updated in an interval, a vehicle without adaptive routing that
waits at the end of a link has no next link exactly when the link leads to its destination, and then
it has entered all the links of its path; otherwise its next link is the one that follows in its
path. -/
theorem C34_next_link (c : Cfg) (hc : c.Ok) (hsc : c.scalar ≠ 0) (s : State) (hs : Fresh s)
    (L : ℕ → List ℕ) (hL : ∀ p, (L p).IsChain (· ≠ ·)) (os : List StepOracle)
    (hos : ∀ o ∈ os, o.Ok c) (hr : ∀ o ∈ os, ∃ pt, o.routing.table = some pt ∧ pt.links = L)
    (r : State × ℕ × ℕ) (h : loadMany c os 0 0 s = .ok r) (o : StepOracle) (ho : o.Ok c)
    (hro : ∃ pt, o.routing.table = some pt ∧ pt.links = L) (s1 s2 : State)
    (e1 : stepRelease c o r.2.1 r.2.2 r.1 = .ok s1) (e2 : o.routing.update c o.route s1 = .ok s2)
    (l : ℕ) (hl : l ∈ c.linkIds) (v : ℕ) (hv : v ∈ s2.fin l) (hst : (s2.vehs v).adaptive = false) :
    ((s2.vehs v).next = none ↔ c.toNode l = c.destNode (s2.vehs v).dest) ∧
    ∃ p done, (s2.vehs v).path = some p ∧
      movesOf s2.log v = (none :: done.map some).zip (done.map some) ∧
      (((s2.vehs v).next = none ∧ done = L p) ∨
        ∃ l' rest, (s2.vehs v).next = some l' ∧ L p = done ++ l' :: rest) := by
  obtain ⟨I, T⟩ := loadMany_tr hc hsc hL os 0 0 s r hos hr (fresh_inv hs) (fresh_tr hs) h
  obtain ⟨k, R⟩ := stepRelease_rel ho e1
  obtain ⟨pt, hpt, hpl⟩ := hro
  obtain ⟨_, C⟩ := routing_tr hc hL hpt hpl (I.core.rel hc R) (T.rel hc I.core R) e2
  obtain ⟨p, E, a1, a2, _, _, a5⟩ := C l hl v hv hst
  rcases a5 with ⟨a5, _, a6, a7⟩ | ⟨l', rest, a5, _, a6, a7⟩
  · exact ⟨⟨fun _ => a7.symm, fun _ => a5⟩, p, E, a1, a2, Or.inl ⟨a5, a6⟩⟩
  · refine ⟨⟨fun e => ?_, fun e => absurd e.symm a7⟩, p, E, a1, a2, Or.inr ⟨l', rest, a5, a6.symm⟩⟩
    rw [a5] at e; simp at e

/-- The network of `NetEx` meets the hypotheses. -/
theorem ex_routes : ∀ o ∈ List.replicate 5 NetEx.orc,
    ∃ pt, o.routing.table = some pt ∧ pt.links = fun _ => [10, 11] := by
  intro o ho
  rw [List.eq_of_mem_replicate ho]
  exact ⟨_, rfl, rfl⟩

example : ∀ p : ℕ, ((fun _ => [10, 11] : ℕ → List ℕ) p).IsChain (· ≠ ·) := by
  intro _
  show List.IsChain (· ≠ ·) [10, 11]
  decide

example : ((loadMany NetEx.cfg (List.replicate 5 NetEx.orc) 0 0 (State.init NetEx.links)).bind fun r =>
    .ok (movesOf r.1.log 2, movesOf r.1.log 1)) =
    .ok ([(none, some 10), (some 10, some 11), (some 11, none)], [(none, some 10), (some 10, some 11)]) := by
  decide +kernel

end Verif
