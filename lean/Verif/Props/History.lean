import Verif.Lemmas.History
import Verif.Props.Net
import Verif.Props.TravelTime

/-! # C97: the curves of a link record what happened during the loading -/

namespace Verif
open Net Ults Curve Lnk Tt

theorem upTo_entries (log : List Event) (l t : ℕ) :
    upTo (entries log l) t = log.countP fun e => decide (e.dst = some l ∧ e.t < t) := by
  induction log with
  | nil => rfl
  | cons e log ih =>
    rw [List.countP_cons, ← ih]
    unfold upTo entries
    by_cases h1 : e.dst = some l <;> by_cases h2 : e.t < t <;> simp [h1, h2, Nat.succ_le_iff]
    omega

theorem upTo_exits (log : List Event) (l t : ℕ) :
    upTo (exits log l) t = log.countP fun e => decide (e.src = some l ∧ e.t < t) := by
  induction log with
  | nil => rfl
  | cons e log ih =>
    rw [List.countP_cons, ← ih]
    unfold upTo exits
    by_cases h1 : e.src = some l <;> by_cases h2 : e.t < t <;> simp [h1, h2, Nat.succ_le_iff]
    omega

theorem HistInv.histories {c : Cfg} {T : ℕ} {s : State} (I : HistInv c T s) (l : ℕ) :
    History T (entries s.log l) ∧ History T (exits s.log l) := by
  have key : ∀ p : Event → Bool, History T ((s.log.filter p).map fun e => (e.t + 1, 1)) := by
    intro p
    refine ⟨?_, ?_⟩
    · intro x hx
      obtain ⟨e, he, rfl⟩ := List.mem_map.1 hx
      have := I.time e (List.mem_of_mem_filter he)
      exact ⟨by simp only; omega, by simp only; omega⟩
    · rw [List.pairwise_map]
      refine (I.sorted.filter p).imp ?_
      intro a b h
      simp only; omega
  exact ⟨key _, key _⟩

/-- C97: after every loading of fewer than 10000 intervals, the value of the inflow curve of a link at the end of
interval `t` is the number of vehicles that have entered the link before `t`, in flow units, the outflow curve
tells the same of the vehicles that have left, and at no time have more vehicles left than entered. -/
theorem C97_curves_tell_what_happened (c : Cfg) (hc : c.Ok) (hsc : 0 < c.scalar) (s : State) (hs : Fresh s)
    (os : List StepOracle) (hos : ∀ o ∈ os, o.Ok c) (hT : os.length < 10000) (assign : ℕ) (r : State × ℕ × ℕ)
    (h : loadMany c os 0 assign s = .ok r) (l : ℕ) (nIn nOut : Curve)
    (hin : (r.1.links l).nIn = some nIn) (hout : (r.1.links l).nOut = some nOut) (t : ℕ) (ht : t < 10000) :
    getResult nIn t = .ok ((r.1.log.countP fun e => decide (e.dst = some l ∧ e.t < t) : ℕ) / c.scalar) ∧
    getResult nOut t = .ok ((r.1.log.countP fun e => decide (e.src = some l ∧ e.t < t) : ℕ) / c.scalar) ∧
    (r.1.log.countP fun e => decide (e.src = some l ∧ e.t < t))
      ≤ (r.1.log.countP fun e => decide (e.dst = some l ∧ e.t < t)) ∧
    (r.1.log.countP fun e => decide (e.dst = some l))
      = (r.1.log.countP fun e => decide (e.src = some l)) + (r.1.on l).length := by
  have I := loadMany_hist hc hsc.ne' os 0 assign s r hos (fresh_inv hs) (fresh_hist hs) h
  have hlen := (loadMany_inv hc hsc.ne' os 0 assign s r hos (fresh_inv hs) h).2
  rw [hlen, Nat.zero_add] at I
  obtain ⟨H1, H2⟩ := HistInv.histories I l
  obtain ⟨c1, a1, b1⟩ := run_holds hsc hT H1
  obtain ⟨c2, a2, b2⟩ := run_holds hsc hT H2
  rw [I.nIn l nIn hin] at a1
  rw [I.nOut l nOut hout] at a2
  cases a1; cases a2
  refine ⟨?_, ?_, ?_, ?_⟩
  · rw [← upTo_entries]; exact b1.get t ht
  · rw [← upTo_exits]; exact b2.get t ht
  · rw [← upTo_entries, ← upTo_exits]; exact I.le l t
  · have := I.balance l
    simp only [entries, exits, List.length_map] at this
    rw [List.countP_eq_length_filter, List.countP_eq_length_filter]
    exact this

example : ((loadMany NetEx.cfg (List.replicate 4 NetEx.orc) 0 0 (State.init NetEx.links)).bind fun r =>
    .ok ((r.1.links 11).nIn, r.1.log.countP fun e => decide (e.dst = some 11 ∧ e.t < 3),
      r.1.log.countP fun e => decide (e.src = some 11 ∧ e.t < 3)))
      = .ok (some [(0, 0), (2, 1), (3, 2), (4, 3)], 2, 1) := by
  decide +kernel

/-- C97: so the histories that the claims on travel times (C89 to C96) speak of are those of the vehicles that
moved: after every loading the link is as these claims require. -/
theorem C97_loaded (c : Cfg) (hc : c.Ok) (hsc : 0 < c.scalar ∧ c.scalar < 4503599627370496) (s : State)
    (hs : Fresh s) (os : List StepOracle) (hos : ∀ o ∈ os, o.Ok c) (hT : os.length < 10000) (assign : ℕ)
    (r : State × ℕ × ℕ) (h : loadMany c os 0 assign s = .ok r) (l : ℕ) (nIn nOut : Curve)
    (hin : (r.1.links l).nIn = some nIn) (hout : (r.1.links l).nOut = some nOut) (fftt : ℚ) (hf : 0 ≤ fftt)
    (hbig : (r.1.log.countP fun e => decide (e.dst = some l)) < 10000) :
    Loaded c.scalar os.length (entries r.1.log l) (exits r.1.log l) ⟨nIn, nOut, -1, fftt⟩ := by
  have I := loadMany_hist hc hsc.1.ne' os 0 assign s r hos (fresh_inv hs) (fresh_hist hs) h
  have hlen := (loadMany_inv hc hsc.1.ne' os 0 assign s r hos (fresh_inv hs) h).2
  rw [hlen, Nat.zero_add] at I
  obtain ⟨H1, H2⟩ := HistInv.histories I l
  refine ⟨hsc, hT, H1, H2, I.le l _, ?_, I.nIn l nIn hin, I.nOut l nOut hout, rfl, hf⟩
  rw [upTo_entries]
  refine lt_of_le_of_lt (List.countP_mono_left ?_) hbig
  intro e _ he
  simp only [decide_eq_true_eq] at he ⊢
  exact he.1

/-- C97: the travel time that the first query of a link returns after a loading, in terms of the vehicles that
moved. -/
theorem C97_travel_time (c : Cfg) (hc : c.Ok) (hsc : 0 < c.scalar ∧ c.scalar < 4503599627370496) (s : State)
    (hs : Fresh s) (os : List StepOracle) (hos : ∀ o ∈ os, o.Ok c) (hT : os.length < 10000) (assign : ℕ)
    (r : State × ℕ × ℕ) (h : loadMany c os 0 assign s = .ok r) (l : ℕ) (nIn nOut : Curve)
    (hin : (r.1.links l).nIn = some nIn) (hout : (r.1.links l).nOut = some nOut) (fftt : ℚ) (hf : 0 ≤ fftt)
    (hbig : (r.1.log.countP fun e => decide (e.dst = some l)) < 10000) (start : ℕ) :
    ∃ x l', getTravelTime ⟨nIn, nOut, -1, fftt⟩ start os.length = .ok (x, l') ∧
      LinkTime os.length (entries r.1.log l) (exits r.1.log l) fftt start x := by
  have L := C97_loaded c hc hsc s hs os hos hT assign r h l nIn nOut hin hout fftt hf hbig
  obtain ⟨c1, c2, x, l', S, h1, h2, h3, h4, h5⟩ :=
    C89_reported_value hsc.1 hsc.2 hT L.histIn L.histOut L.le L.count hf start
  rw [L.nIn] at h1
  rw [L.nOut] at h2
  cases h1; cases h2
  exact ⟨x, l', h3, S, h4, h5⟩

example : ((loadMany NetEx.cfg (List.replicate 4 NetEx.orc) 0 0 (State.init NetEx.links)).bind fun r =>
    match (r.1.links 11).nIn, (r.1.links 11).nOut with
    | some a, some b => (getTravelTime ⟨a, b, -1, 1⟩ 2 4).bind fun x => .ok (x.1, entries r.1.log 11, exits r.1.log 11)
    | _, _ => .ub) = .ok (1, [(2, 1), (3, 1), (4, 1)], [(3, 1), (4, 1)]) := by
  decide +kernel

end Verif
