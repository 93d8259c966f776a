import Verif.Lemmas.TransitWalk
import Verif.Props.TransitExample

/-!
# C113: how long passengers of a multimodal network walk
-/

namespace Verif
open Tr Ults Curve

/-- C113: a passenger that enters a walking link on foot leaves it after the walking time of the link (at least one
interval) or later, and exactly then if it has come from another link and the link leads to a destination or a
physical bus stop (passengers that have just set out may have to wait first). -/
theorem C113_walking_takes_its_time (c : Cfg) (hc : c.Wf) (R : Routes) (orcs : List Orc)
    (hok : ∀ o ∈ orcs, o.Ok R) (r : State × ℕ × ℕ) (h : loadMany c orcs 0 0 (State.init c) = .ok r) (p : ℕ) :
    (moves r.1.log p).IsChain (Paced c) :=
  (load_afoot (strict := False) (R := R) ⟨hc, by simp⟩ hok h).walked p

/-- C113: a passenger that is still on such a link, `orcs.length` intervals after the start of the loading, has
entered it at most its walking time ago. -/
theorem C113_nobody_walks_longer (c : Cfg) (hc : c.Wf) (R : Routes) (orcs : List Orc)
    (hok : ∀ o ∈ orcs, o.Ok R) (r : State × ℕ × ℕ) (h : loadMany c orcs 0 0 (State.init c) = .ok r) (p : ℕ)
    (e : Net.Event) (he : (moves r.1.log p).getLast? = some e) (l : ℕ) (hl : l ∈ c.linkIds) (hd : e.dst = some l)
    (hk : (c.link l).kind = .normal) (hf : onFoot c e) (hs : e.src ≠ none) (hld : c.leads l) :
    (orcs.length : ℤ) ≤ e.t + c.walkTime l := by
  have A := load_afoot (strict := False) (R := R) ⟨hc, by simp⟩ hok h
  have W := A.at_ l hl hk
  have hcur : (r.1.pax p).cur = some l := by
    rw [← hd]; exact (A.full.more.trips.last (p := p) he).symm
  have hv : e.veh = p ∧ e ∈ r.1.log := by
    have := List.mem_of_getLast? he
    simp only [moves, List.mem_filter, decide_eq_true_eq, beq_iff_eq] at this
    exact this.symm
  obtain ⟨a, ha⟩ := (A.full.inv.placed.mem p).2 (hv.1 ▸ A.full.inv.known.log e hv.2)
  have hw := A.full.inv.located a p ha
  have key : ∀ {e'}, lastMove r.1 p = some e' → e' = e := fun h => Option.some.inj (h.symm.trans he)
  cases a with
  | incoming i =>
    obtain rfl : i = l := Option.some.inj (hw.symm.trans hcur)
    obtain ⟨e', h1, -, h3⟩ := W.inc p ha
    rw [key h1] at h3
    exact (h3 hs).1.elim
  | walking i =>
    obtain rfl : i = l := Option.some.inj (hw.symm.trans hcur)
    obtain ⟨e', h1, -, h3, h4⟩ := W.walk p ha
    rw [key h1] at h4
    have := h4 hs
    omega
  | finished i =>
    obtain rfl : i = l := Option.some.inj (hw.symm.trans hcur)
    obtain ⟨e', h1, h2⟩ := W.fin p ha
    rw [key h1] at h2
    exact ((h2 hf).2 hs hld).ge
  | bus b =>
    obtain ⟨i, h1, h2⟩ := A.full.more.buses.ride b p ha
    obtain rfl : i = l := Option.some.inj (h1.symm.trans hcur)
    rw [hk] at h2
    cases h2
  | origin _ => exact nomatch hw.symm.trans hcur
  | lot _ => exact nomatch hw.symm.trans hcur
  | dest _ => exact nomatch hw.symm.trans hcur
  | gone => exact nomatch hw.symm.trans hcur

set_option synthInstance.maxSize 1024 in
example : (Ex.cfg true).Wf ∧ (∀ o ∈ Ex.days, o.Ok Ex.routes) ∧ (Ex.cfg true).leads 4 ∧ (Ex.cfg true).walkTime 0 = 2 ∧
    (Ex.cfg true).walkTime 4 = 1 ∧ (4 ∈ (Ex.cfg true).linkIds) ∧
    ((loadMany (Ex.cfg true) Ex.days 0 0 (State.init (Ex.cfg true))).bind fun r =>
      .ok ((moves r.1.log 2).map fun e : Net.Event => (e.t, e.src, e.dst)))
      = .ok [(0, none, some 0), (2, some 0, some 1), (3, some 1, some 2), (8, some 2, some 3), (9, some 3, some 4),
        (10, some 4, none)] :=
  ⟨Ex.wf true, Ex.days_ok, .inl ⟨0, by decide, by decide⟩, by decide, by decide, by decide, by decide +kernel⟩

set_option synthInstance.maxSize 1024 in
example : (∀ o ∈ Ex.days.take 10, o.Ok Ex.routes) ∧
    ((loadMany (Ex.cfg true) (Ex.days.take 10) 0 0 (State.init (Ex.cfg true))).bind fun r =>
      .ok ((moves r.1.log 2).getLast?.map fun e : Net.Event => (e.t, e.src, e.dst))) = .ok (some (9, some 3, some 4)) ∧
    onFoot (Ex.cfg true) ⟨9, 2, some 3, some 4⟩ :=
  ⟨fun o ho => Ex.days_ok o (List.mem_of_mem_take ho), by decide +kernel, fun l hl => by
    obtain rfl := Option.some.inj hl; exact .inr rfl⟩

end Verif
