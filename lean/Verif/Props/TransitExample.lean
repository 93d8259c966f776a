import Verif.Spec.Transit

/-!
# A small multimodal network

One origin, a stop `A`, a bus route 7 from `A` to a stop `B`, a destination with a parking lot.
Links: 0 origin to `A`, 1 boarding at `A`, 2 bus from `A` to `B`, 3 alighting at `B`, 4 `B` to the
destination, 5 parking lot to `A`.
-/

namespace Verif.Tr.Ex
open Ults Curve

/-- The links. -/
def link : ℕ → LinkCfg
  | 0 => ⟨.normal, 2, 10, .physical⟩
  | 1 => ⟨.boarding, 0, 11, .virtualStop⟩
  | 2 => ⟨.bus 7, 0, 12, .virtualStop⟩
  | 3 => ⟨.alighting, 0, 13, .physical⟩
  | 4 => ⟨.normal, 1, 20, .destination⟩
  | _ => ⟨.normal, 1, 10, .physical⟩

/-- The network; `explicit` says whether buses are simulated. -/
def cfg (explicit : Bool) : Cfg :=
  { scalar := 1, assignFreq := 6, totalAssign := 1, explicitBus := explicit, working := false,
    histWait := 0, linkIds := [0, 1, 2, 3, 4, 5], link := link,
    originIds := [0], origin := fun _ => ⟨1, 6, [(0, fun _ => 2)]⟩,
    destIds := [0], dest := fun _ => ⟨20, [4], some 0⟩,
    pstopIds := [0, 1],
    pstop := fun k => if k = 0 then ⟨[0, 5], [], [1], []⟩ else ⟨[], [4], [], [3]⟩,
    vstopIds := [0, 1],
    vstop := fun v => if v = 0 then ⟨7, none, some 2, some 1, none, 10, 10⟩
      else ⟨7, some 2, none, none, some 3, 10, 10⟩,
    lotIds := [0], lot := fun _ => ⟨20, [5], 1, 10⟩,
    outLinks := fun _ => [], busCap := 10, minDwell := 1, lost := 0, maxAlight := 1, maxBoard := 2,
    busRoute := fun _ => 7 }

/-- The paths. -/
def routes : Routes :=
  ⟨fun q => if q = 0 then [0, 1, 2, 3, 4] else [5, 1, 2, 3, 4], fun o d q => o = 1 ∧ d = 20 ∧ q = 0⟩

/-- An interval with the given buses and cars. -/
def orc (buses : List BusEv) (cars : List CarIn) : Orc :=
  { u := fun _ _ => 0, r := fun _ => 0, ratio := 0, junk := fun _ => 0, shuffle := fun _ L => L,
    pt := ⟨fun o d => if o = 1 ∧ d = 20 then some [(0, 1)] else none, routes.links⟩,
    route := ⟨fun _ => 1 / 2, fun _ => 0⟩, trees := fun _ _ => none, order := fun _ L => L,
    busTt := fun _ => 2, buses := buses, cars := fun _ => cars }

/-- A park-and-ride car. -/
def car : CarIn := ⟨true, false, 0, 0, 1, 0⟩

/-- Twelve intervals with one bus, which is at the first stop in the intervals 2 to 5 and at the
second stop in the intervals 6 to 10. -/
def days : List Orc :=
  [orc [] [car], orc [] [], orc [.receive 0 0] [], orc [.visit 0 0 id] [], orc [.visit 0 0 id] [],
    orc [.visit 0 0 id] [], orc [.receive 1 0] [], orc [.visit 1 0 id] [], orc [.visit 1 0 id] [],
    orc [.visit 1 0 id] [], orc [.visit 1 0 id] [], orc [] []]

/-- Twelve intervals without simulated buses. -/
def quiet : List Orc := List.replicate 12 (orc [] [])

theorem wf (e : Bool) : (cfg e).Wf := by
  refine ⟨?_, ?_, ?_, ?_, ?_, ?_, ?_⟩ <;> simp [cfg, link, Kind.walking]

theorem orc_ok (bs : List BusEv) (cs : List CarIn) (h : ∀ v b sh, BusEv.visit v b sh ∈ bs → sh = id) :
    (orc bs cs).Ok routes := by
  refine ⟨fun _ _ => .refl _, fun _ _ => .refl _, fun v b sh hm L => ?_, rfl, fun o d ps hp x hx => ?_⟩
  · rw [h v b sh hm]; exact .refl _
  · simp only [orc] at hp
    split at hp
    · rename_i e
      obtain rfl := Option.some.inj hp
      rw [List.mem_singleton.1 hx]
      exact ⟨e.1, e.2, rfl⟩
    · simp at hp

theorem days_ok : ∀ o ∈ days, o.Ok routes := by
  intro o ho
  simp only [days, List.mem_cons, List.not_mem_nil, or_false] at ho
  rcases ho with rfl | rfl | rfl | rfl | rfl | rfl | rfl | rfl | rfl | rfl | rfl | rfl <;>
    exact orc_ok _ _ (by simp)

theorem quiet_ok : ∀ o ∈ quiet, o.Ok routes := fun o ho => by
  rw [List.eq_of_mem_replicate ho]
  exact orc_ok _ _ (by simp)

theorem chain (q : ℕ) : (routes.links q).IsChain (· ≠ ·) := by
  simp only [routes]
  split <;> decide

end Verif.Tr.Ex
