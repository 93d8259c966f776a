import Verif.Lemmas.MHistory
import Verif.Props.MNet
import Verif.Props.TravelTime

/-! # C99: the curves of a class of vehicles record what the vehicles of the class did -/

namespace Verif
open Ults Curve MNet Tt
open Net (Event)

theorem upTo_came (truck : ℕ → Bool) (log : List Event) (b : Bool) (l t : ℕ) :
    upTo (came truck log b l) t
      = log.countP fun e => decide (e.dst = some l ∧ truck e.veh = b ∧ e.t < t) := by
  induction log with
  | nil => rfl
  | cons e log ih =>
    rw [List.countP_cons, ← ih]
    unfold upTo came
    by_cases h1 : e.dst = some l <;> by_cases h3 : truck e.veh = b <;> by_cases h2 : e.t < t <;>
      simp [h1, h2, h3, Nat.succ_le_iff]
    omega

theorem upTo_went (truck : ℕ → Bool) (log : List Event) (b : Bool) (l t : ℕ) :
    upTo (went truck log b l) t
      = log.countP fun e => decide (e.src = some l ∧ truck e.veh = b ∧ e.t < t) := by
  induction log with
  | nil => rfl
  | cons e log ih =>
    rw [List.countP_cons, ← ih]
    unfold upTo went
    by_cases h1 : e.src = some l <;> by_cases h3 : truck e.veh = b <;> by_cases h2 : e.t < t <;>
      simp [h1, h2, h3, Nat.succ_le_iff]
    omega

theorem MHistInv.histories {c : Cfg} {T : ℕ} {s : State} (I : MHistInv c T s) (b : Bool) (l : ℕ) :
    History T (came s.truck s.log b l) ∧ History T (went s.truck s.log b l) := by
  have key : ∀ p : Event → Bool, History T ((s.log.filter p).map fun e => (e.t + 1, 1)) := by
    intro p
    refine ⟨?_, ?_⟩
    · intro x hx
      obtain ⟨e, he, rfl⟩ := List.mem_map.1 hx
      have := I.time e (List.mem_of_mem_filter he)
      exact ⟨by simp only; omega, by simp only; omega⟩
    · rw [List.pairwise_map]
      refine (I.sorted.filter p).imp ?_
      intro a b h
      simp only; omega
  exact ⟨key _, key _⟩

/-- C99: after every loading of fewer than 10000 intervals of a network with cars and trucks, the value of the inflow
curve of a link for a class (`b` is `true` for trucks) at the end of interval `t` is the number of vehicles of the
class that have entered the link before `t`, in flow units; the outflow curve tells the same of the vehicles that have
left; at no time have more vehicles of a class left than entered; and those that entered and have not left are on
the link. -/
theorem C99_curves_tell_what_happened (c : Cfg) (hc : c.net.Ok) (hsc : 0 < c.net.scalar) (s : State) (hs : Fresh s)
    (os : List StepOracle) (hos : ∀ o ∈ os, o.Ok c) (hT : os.length < 10000) (assign : ℕ) (r : State × ℕ × ℕ)
    (h : loadMany c os 0 assign s = .ok r) (l : ℕ) (hl : l ∈ c.net.linkIds) (b : Bool) (nIn nOut : Curve)
    (hin : (r.1.links l).nIn b = some nIn) (hout : (r.1.links l).nOut b = some nOut) (t : ℕ) (ht : t < 10000) :
    getResult nIn t
      = .ok ((r.1.log.countP fun e => decide (e.dst = some l ∧ r.1.truck e.veh = b ∧ e.t < t) : ℕ) / c.net.scalar) ∧
    getResult nOut t
      = .ok ((r.1.log.countP fun e => decide (e.src = some l ∧ r.1.truck e.veh = b ∧ e.t < t) : ℕ) / c.net.scalar) ∧
    (r.1.log.countP fun e => decide (e.src = some l ∧ r.1.truck e.veh = b ∧ e.t < t))
      ≤ (r.1.log.countP fun e => decide (e.dst = some l ∧ r.1.truck e.veh = b ∧ e.t < t)) ∧
    (r.1.log.countP fun e => decide (e.dst = some l ∧ r.1.truck e.veh = b))
      = (r.1.log.countP fun e => decide (e.src = some l ∧ r.1.truck e.veh = b))
        + (r.1.on l).countP fun v => r.1.truck v == b := by
  have I := MNet.loadMany_hist hc hsc.ne' os 0 assign s r hos (fresh_inv hs) (MNet.fresh_hist hs) h
  have hlen := (loadMany_inv hc hsc.ne' os 0 assign s r hos (fresh_inv hs) h).2
  rw [hlen, Nat.zero_add] at I
  obtain ⟨H1, H2⟩ := MHistInv.histories I b l
  obtain ⟨c1, a1, b1⟩ := run_holds hsc hT H1
  obtain ⟨c2, a2, b2⟩ := run_holds hsc hT H2
  rw [I.nIn l b nIn hin] at a1
  rw [I.nOut l b nOut hout] at a2
  cases a1; cases a2
  refine ⟨?_, ?_, ?_, ?_⟩
  · rw [← upTo_came]; exact b1.get t ht
  · rw [← upTo_went]; exact b2.get t ht
  · rw [← upTo_came, ← upTo_went]; exact I.le l hl b t
  · have := I.balance l hl b
    simp only [came, went, List.length_map] at this
    rw [List.countP_eq_length_filter, List.countP_eq_length_filter]
    exact this

example : ((loadMany MNetEx.cfg (List.replicate 13 MNetEx.orc) 0 0 (State.init MNetEx.links)).bind fun r =>
    .ok ((r.1.links 11).nIn true, (r.1.links 11).nOut true,
      (r.1.log.countP fun e => decide (e.dst = some 11 ∧ r.1.truck e.veh = true ∧ e.t < 7)),
      (r.1.log.countP fun e => decide (e.src = some 11 ∧ r.1.truck e.veh = true ∧ e.t < 7))))
      = .ok (some [(0, 0), (4, 1 / 4), (5, 1 / 2), (7, 3 / 4), (8, 1)],
          some [(0, 0), (7, 1 / 4), (8, 1 / 2), (10, 3 / 4), (12, 1)], 3, 1) := by
  decide +kernel

/-- C99: so the histories that the claims on travel times (C89 to C96) speak of are, for the curves of a class, those
of the vehicles of the class: after every loading the link is as these claims require. -/
theorem C99_loaded (c : Cfg) (hc : c.net.Ok) (hsc : 0 < c.net.scalar ∧ c.net.scalar < 4503599627370496) (s : State)
    (hs : Fresh s) (os : List StepOracle) (hos : ∀ o ∈ os, o.Ok c) (hT : os.length < 10000) (assign : ℕ)
    (r : State × ℕ × ℕ) (h : loadMany c os 0 assign s = .ok r) (l : ℕ) (hl : l ∈ c.net.linkIds) (b : Bool)
    (nIn nOut : Curve) (hin : (r.1.links l).nIn b = some nIn) (hout : (r.1.links l).nOut b = some nOut) (fftt : ℚ)
    (hf : 0 ≤ fftt) (hbig : (r.1.log.countP fun e => decide (e.dst = some l ∧ r.1.truck e.veh = b)) < 10000) :
    Loaded c.net.scalar os.length (came r.1.truck r.1.log b l) (went r.1.truck r.1.log b l)
      ⟨nIn, nOut, -1, fftt⟩ := by
  have I := MNet.loadMany_hist hc hsc.1.ne' os 0 assign s r hos (fresh_inv hs) (MNet.fresh_hist hs) h
  have hlen := (loadMany_inv hc hsc.1.ne' os 0 assign s r hos (fresh_inv hs) h).2
  rw [hlen, Nat.zero_add] at I
  obtain ⟨H1, H2⟩ := MHistInv.histories I b l
  refine ⟨hsc, hT, H1, H2, I.le l hl b _, ?_, I.nIn l b nIn hin, I.nOut l b nOut hout, rfl, hf⟩
  rw [upTo_came]
  refine lt_of_le_of_lt (List.countP_mono_left ?_) hbig
  intro e _ he
  simp only [decide_eq_true_eq] at he ⊢
  exact ⟨he.1, he.2.1⟩

/-- C99: the travel time that the first query of a link for a class returns after a loading, in terms of the vehicles
of the class. -/
theorem C99_travel_time (c : Cfg) (hc : c.net.Ok) (hsc : 0 < c.net.scalar ∧ c.net.scalar < 4503599627370496)
    (s : State) (hs : Fresh s) (os : List StepOracle) (hos : ∀ o ∈ os, o.Ok c) (hT : os.length < 10000) (assign : ℕ)
    (r : State × ℕ × ℕ) (h : loadMany c os 0 assign s = .ok r) (l : ℕ) (hl : l ∈ c.net.linkIds) (b : Bool)
    (nIn nOut : Curve) (hin : (r.1.links l).nIn b = some nIn) (hout : (r.1.links l).nOut b = some nOut) (fftt : ℚ)
    (hf : 0 ≤ fftt) (hbig : (r.1.log.countP fun e => decide (e.dst = some l ∧ r.1.truck e.veh = b)) < 10000)
    (start : ℕ) :
    ∃ x l', getTravelTime ⟨nIn, nOut, -1, fftt⟩ start os.length = .ok (x, l') ∧
      LinkTime os.length (came r.1.truck r.1.log b l) (went r.1.truck r.1.log b l) fftt start x := by
  have L := C99_loaded c hc hsc s hs os hos hT assign r h l hl b nIn nOut hin hout fftt hf hbig
  obtain ⟨c1, c2, x, l', S, h1, h2, h3, h4, h5⟩ :=
    C89_reported_value hsc.1 hsc.2 hT L.histIn L.histOut L.le L.count hf start
  rw [L.nIn] at h1
  rw [L.nOut] at h2
  cases h1; cases h2
  exact ⟨x, l', h3, S, h4, h5⟩

example : ((loadMany MNetEx.cfg (List.replicate 13 MNetEx.orc) 0 0 (State.init MNetEx.links)).bind fun r =>
    match (r.1.links 11).nIn true, (r.1.links 11).nOut true with
    | some a, some b => (getTravelTime ⟨a, b, -1, 1⟩ 4 13).bind fun x =>
        .ok (x.1, came r.1.truck r.1.log true 11, went r.1.truck r.1.log true 11)
    | _, _ => .ub)
      = .ok (3, [(4, 1), (5, 1), (7, 1), (8, 1)], [(7, 1), (8, 1), (10, 1), (12, 1)]) := by
  decide +kernel

end Verif
