import Verif.Spec.Tour
import Mathlib.Data.List.Nodup
import Mathlib.Algebra.BigOperators.Group.List.Basic
import Mathlib.Data.List.Range
import Mathlib.Tactic.Linarith

/-! # Lemmas about tours -/

namespace Verif.Tour
open Ults

/-- What holds for a vehicle, its trips so far and the destinations that received it. -/
structure VehOk (v : Veh) (under : Prop) (trips : List (ℕ × ℕ)) (seen : List ℕ) : Prop where
  single : v.seq = none → trips = [(v.origin, v.dest)] ∧ (under → seen = []) ∧ (¬ under → seen = [v.dest])
  tour : ∀ sq, v.seq = some sq → ∃ last, sq.getLast? = some last ∧ sq[v.index]? = some (v.origin, v.dest) ∧
    trips = sq.take (v.index + 1) ∧ (∀ i < v.index, ∀ p, sq[i]? = some p → p.2 ≠ last.2) ∧
    (under → seen = (sq.take v.index).map (·.2)) ∧
    (¬ under → seen = (sq.take (v.index + 1)).map (·.2) ∧ v.dest = last.2)
  time : under ↔ v.finish = -1

structure Inv (s : State) : Prop where
  ids : ∀ v ∈ s.map, s.Made v
  nodup : s.map.Nodup
  queueMap : ∀ o, ∀ v ∈ s.queue o, v ∈ s.map ∧ (s.veh v).origin = o ∧ v ∉ s.road ∧ ∀ d, v ∉ s.out d
  roadMap : ∀ v ∈ s.road, v ∈ s.map ∧ ∀ d, v ∉ s.out d
  outMap : ∀ d, ∀ v ∈ s.out d, v ∈ s.map ∧ ∀ d', v ∈ s.out d' → d' = d
  queueNodup : ∀ o, (s.queue o).Nodup
  roadNodup : s.road.Nodup
  outNodup : ∀ d, (s.out d).Nodup
  somewhere : ∀ v ∈ s.map, v ∈ s.queue (s.veh v).origin ∨ v ∈ s.road ∨ ∃ d, v ∈ s.out d
  veh : ∀ v, s.Made v → VehOk (s.veh v) (v ∈ s.map) (s.trips v) (s.seen v)
  enroute : s.enroute = s.map.length
  finished : s.finished + s.enroute = s.num
  delivery : s.delivery = s.count fun v => v.seq.isSome
  electrified : s.electrified = s.count fun v => v.ev.isSome
  nonRoadside : s.nonRoadside = s.count Veh.elsewhere
  total : s.total = ((List.range s.num).map fun i =>
    if i + 1 ∈ s.map then 0 else (s.veh (i + 1)).finish - (s.veh (i + 1)).start).sum

theorem init_inv (v : Veh) : Inv (State.init v) := by
  constructor <;> simp [State.init, State.Made, State.count]
  omega

/-! ## Making vehicles -/

/-- A vehicle right after it was made. -/
structure Fresh (v : Veh) : Prop where
  finish : v.finish = -1
  index : v.index = 0
  tour : ∀ sq, v.seq = some sq → ∃ rest, sq = (v.origin, v.dest) :: rest

theorem make_inv {s : State} (h : Inv s) {v : Veh} (hv : Fresh v) : Inv (s.make v) := by
  have new : s.num + 1 ∉ s.map := fun hm => by
    have := (h.ids _ hm).2
    omega
  have nq : ∀ o, s.num + 1 ∉ s.queue o := fun o hm => new (h.queueMap o _ hm).1
  have nr : s.num + 1 ∉ s.road := fun hm => new (h.roadMap _ hm).1
  have no : ∀ d, s.num + 1 ∉ s.out d := fun d hm => new (h.outMap d _ hm).1
  have old : ∀ w, w ≠ s.num + 1 → (s.make v).veh w = s.veh w := fun w hw => by
    simp [State.make, upd_other _ _ _ _ hw]
  have own : (s.make v).veh (s.num + 1) = v := by simp [State.make]
  have cnt : ∀ P : Veh → Bool, (s.make v).count P = s.count P + (if P v then 1 else 0) := by
    intro P
    unfold State.count
    have hn : (s.make v).num = s.num + 1 := rfl
    rw [hn, List.range_succ, List.countP_append]
    congr 1
    · apply List.countP_congr
      intro i hi
      have : i < s.num := List.mem_range.1 hi
      rw [old _ (by omega)]
    · simp [own]
  refine ⟨?_, ?_, ?_, ?_, ?_, ?_, h.roadNodup, h.outNodup, ?_, ?_, ?_, ?_, ?_, ?_, ?_, ?_⟩
  · intro w hw
    rcases List.mem_append.1 hw with hw | hw
    · have := h.ids w hw
      exact ⟨this.1, le_trans this.2 (Nat.le_succ _)⟩
    · obtain rfl := List.mem_singleton.1 hw
      exact ⟨by omega, le_refl _⟩
  · show (s.map ++ [s.num + 1]).Nodup
    rw [List.nodup_append]
    refine ⟨h.nodup, List.nodup_singleton _, ?_⟩
    intro a ha b hb
    obtain rfl := List.mem_singleton.1 hb
    rintro rfl
    exact new ha
  · intro o w hw
    have hw : w ∈ upd s.queue v.origin (s.queue v.origin ++ [s.num + 1]) o := hw
    show w ∈ s.map ++ [s.num + 1] ∧ _ ∧ w ∉ s.road ∧ ∀ d, w ∉ s.out d
    by_cases hwn : w = s.num + 1
    · subst hwn
      have : v.origin = o := by
        by_contra hne
        rw [upd_other _ _ _ _ (Ne.symm hne)] at hw
        exact nq o hw
      exact ⟨by simp, by rw [own]; exact this, nr, no⟩
    · have : w ∈ s.queue o := by
        by_cases ho : o = v.origin
        · subst ho
          rw [upd_same] at hw
          simpa [hwn] using hw
        · rwa [upd_other _ _ _ _ ho] at hw
      obtain ⟨a, b, d, e⟩ := h.queueMap o w this
      exact ⟨List.mem_append_left _ a, by rw [old w hwn]; exact b, d, e⟩
  · intro w hw
    have := h.roadMap w hw
    exact ⟨List.mem_append_left _ this.1, this.2⟩
  · intro d w hw
    have := h.outMap d w hw
    exact ⟨List.mem_append_left _ this.1, this.2⟩
  · intro o
    show (upd s.queue v.origin (s.queue v.origin ++ [s.num + 1]) o).Nodup
    by_cases ho : o = v.origin
    · subst ho
      rw [upd_same, List.nodup_append]
      refine ⟨h.queueNodup _, List.nodup_singleton _, ?_⟩
      intro a ha b hb
      obtain rfl := List.mem_singleton.1 hb
      rintro rfl
      exact nq _ ha
    · rw [upd_other _ _ _ _ ho]
      exact h.queueNodup o
  · intro w hw
    show w ∈ upd s.queue v.origin (s.queue v.origin ++ [s.num + 1]) ((s.make v).veh w).origin ∨ w ∈ s.road ∨ ∃ d, w ∈ s.out d
    by_cases hwn : w = s.num + 1
    · subst hwn
      left
      rw [own, upd_same]
      simp
    · have hw : w ∈ s.map := by
        rcases List.mem_append.1 hw with hw | hw
        · exact hw
        · exact absurd (List.mem_singleton.1 hw) hwn
      rw [old w hwn]
      rcases h.somewhere w hw with a | a | a
      · left
        by_cases ho : (s.veh w).origin = v.origin
        · rw [ho, upd_same, ← ho]
          exact List.mem_append_left _ a
        · rwa [upd_other _ _ _ _ ho]
      · exact Or.inr (Or.inl a)
      · exact Or.inr (Or.inr a)
  · intro w hw
    show VehOk _ (w ∈ s.map ++ [s.num + 1]) (upd s.trips (s.num + 1) [(v.origin, v.dest)] w)
      (upd s.seen (s.num + 1) [] w)
    by_cases hwn : w = s.num + 1
    · subst hwn
      rw [own, upd_same, upd_same]
      refine ⟨fun _ => ⟨rfl, fun _ => rfl, fun hn => absurd (by simp) hn⟩, ?_, ?_⟩
      · intro sq hsq
        obtain ⟨rest, e⟩ := hv.tour sq hsq
        obtain ⟨last, hl⟩ : ∃ last, sq.getLast? = some last :=
          ⟨_, List.getLast?_eq_some_getLast (by rw [e]; simp)⟩
        refine ⟨last, hl, by rw [hv.index, e]; rfl, by rw [hv.index, e]; simp, ?_, ?_, fun hn => absurd (by simp) hn⟩
        · intro i hi
          rw [hv.index] at hi
          omega
        · rw [hv.index]
          simp
      · simp [hv.finish]
    · rw [old w hwn, upd_other _ _ _ _ hwn, upd_other _ _ _ _ hwn]
      have hm : (w ∈ s.map ++ [s.num + 1]) ↔ w ∈ s.map := by simp [hwn]
      rw [hm]
      exact h.veh w ⟨hw.1, by
        have : w ≤ s.num + 1 := hw.2
        omega⟩
  · show s.enroute + 1 = ((s.map ++ [s.num + 1]).length : ℤ)
    rw [h.enroute]
    simp
  · show s.finished + (s.enroute + 1) = ((s.num + 1 : ℕ) : ℤ)
    have := h.finished
    push_cast
    linarith
  · rw [cnt]
    show s.delivery + _ = _
    rw [h.delivery]
  · rw [cnt]
    show s.electrified + _ = _
    rw [h.electrified]
  · rw [cnt]
    show s.nonRoadside + _ = _
    rw [h.nonRoadside]
    congr 1
    unfold Veh.elsewhere
    cases v.ev with
    | none => rfl
    | some e => cases hr : e.roadside <;> simp [hr]
  · show s.total = _
    have hn : (s.make v).num = s.num + 1 := rfl
    rw [hn, List.range_succ, List.map_append, List.sum_append, h.total]
    have : ((List.range s.num).map fun i => if i + 1 ∈ (s.make v).map then 0 else
        ((s.make v).veh (i + 1)).finish - ((s.make v).veh (i + 1)).start) =
        (List.range s.num).map fun i => if i + 1 ∈ s.map then 0 else
        (s.veh (i + 1)).finish - (s.veh (i + 1)).start := by
      apply List.map_congr_left
      intro i hi
      have : i < s.num := List.mem_range.1 hi
      have hm : (i + 1 ∈ (s.make v).map) ↔ i + 1 ∈ s.map := by
        show (i + 1 ∈ s.map ++ [s.num + 1]) ↔ _
        simp
        omega
      rw [old _ (by omega)]
      simp only [hm]
    rw [this]
    simp [State.make]

/-! ## Other steps -/

/-- The vehicle is the same up to its battery, routing and waiting time. -/
structure SameVeh (v w : Veh) : Prop where
  start : w.start = v.start
  finish : w.finish = v.finish
  origin : w.origin = v.origin
  dest : w.dest = v.dest
  seq : w.seq = v.seq
  index : w.index = v.index
  ev : w.ev.isSome = v.ev.isSome
  elsewhere : w.elsewhere = v.elsewhere

theorem SameVeh.refl (v : Veh) : SameVeh v v := ⟨rfl, rfl, rfl, rfl, rfl, rfl, rfl, rfl⟩

theorem veh_inv {s : State} (h : Inv s) {f : ℕ → Veh} (hf : ∀ v, SameVeh (s.veh v) (f v)) :
    Inv { s with veh := f } := by
  refine ⟨h.ids, h.nodup, ?_, h.roadMap, h.outMap, h.queueNodup, h.roadNodup, h.outNodup, ?_, ?_, h.enroute,
    h.finished, ?_, ?_, ?_, ?_⟩
  · intro o v hv
    have := h.queueMap o v hv
    exact ⟨this.1, by rw [← this.2.1]; exact (hf v).origin, this.2.2⟩
  · intro v hv
    have := h.somewhere v hv
    show v ∈ s.queue (f v).origin ∨ _
    rw [(hf v).origin]
    exact this
  · intro v hv
    obtain ⟨a, b, d⟩ := h.veh v hv
    have e := hf v
    refine ⟨?_, ?_, ?_⟩
    · show (f v).seq = none → s.trips v = [((f v).origin, (f v).dest)] ∧ _ ∧ (_ → s.seen v = [(f v).dest])
      rw [e.seq, e.origin, e.dest]
      exact a
    · show ∀ sq, (f v).seq = some sq → ∃ last, sq.getLast? = some last ∧
        sq[(f v).index]? = some ((f v).origin, (f v).dest) ∧
        s.trips v = sq.take ((f v).index + 1) ∧ (∀ i < (f v).index, ∀ p, sq[i]? = some p → p.2 ≠ last.2) ∧
        (v ∈ s.map → s.seen v = (sq.take (f v).index).map (·.2)) ∧
        (¬ v ∈ s.map → s.seen v = (sq.take ((f v).index + 1)).map (·.2) ∧ (f v).dest = last.2)
      rw [e.seq, e.origin, e.dest, e.index]
      exact b
    · show v ∈ s.map ↔ (f v).finish = -1
      rw [e.finish]
      exact d
  · refine h.delivery.trans ?_
    unfold State.count
    simp only [fun i => (hf i).seq]
  · refine h.electrified.trans ?_
    unfold State.count
    simp only [fun i => (hf i).ev]
  · refine h.nonRoadside.trans ?_
    unfold State.count
    simp only [fun i => (hf i).elsewhere]
  · refine h.total.trans ?_
    simp only [fun i => (hf i).finish, fun i => (hf i).start]

theorem queue_inv {s : State} (h : Inv s) {o : ℕ} {l : List ℕ} (hl : l.Perm (s.queue o)) :
    Inv { s with queue := upd s.queue o l } := by
  have mem : ∀ o' v, v ∈ upd s.queue o l o' ↔ v ∈ s.queue o' := by
    intro o' v
    by_cases ho : o' = o
    · subst ho
      rw [upd_same]
      exact hl.mem_iff
    · rw [upd_other _ _ _ _ ho]
  refine ⟨h.ids, h.nodup, ?_, h.roadMap, h.outMap, ?_, h.roadNodup, h.outNodup, ?_, h.veh, h.enroute,
    h.finished, h.delivery, h.electrified, h.nonRoadside, h.total⟩
  · intro o' v hv
    exact h.queueMap o' v ((mem o' v).1 hv)
  · intro o'
    show (upd s.queue o l o').Nodup
    by_cases ho : o' = o
    · subst ho
      rw [upd_same]
      exact hl.nodup_iff.2 (h.queueNodup _)
    · rw [upd_other _ _ _ _ ho]
      exact h.queueNodup _
  · intro v hv
    rcases h.somewhere v hv with a | a
    · exact Or.inl ((mem _ v).2 a)
    · exact Or.inr a

theorem leave_inv {s : State} (h : Inv s) (p : ℕ × ℕ) : Inv (s.leave p) := by
  unfold State.leave
  split
  case isFalse => exact h
  case isTrue hp =>
    obtain ⟨o, v⟩ := p
    obtain ⟨hm, ho, hr, hd⟩ := h.queueMap o v hp
    have mem : ∀ o' w, w ∈ upd s.queue o ((s.queue o).filter (· ≠ v)) o' ↔ w ∈ s.queue o' ∧ w ≠ v := by
      intro o' w
      by_cases h1 : o' = o
      · subst h1
        rw [upd_same]
        simp
      · rw [upd_other _ _ _ _ h1]
        refine ⟨fun hw => ⟨hw, ?_⟩, And.left⟩
        rintro rfl
        exact h1 ((h.queueMap o' w hw).2.1.symm.trans ho)
    refine ⟨h.ids, h.nodup, ?_, ?_, h.outMap, ?_, ?_, h.outNodup, ?_, h.veh, h.enroute,
      h.finished, h.delivery, h.electrified, h.nonRoadside, h.total⟩
    · intro o' w hw
      obtain ⟨hw, hne⟩ := (mem o' w).1 hw
      obtain ⟨a, b, d, e⟩ := h.queueMap o' w hw
      exact ⟨a, b, by simp [d, hne], e⟩
    · intro w hw
      rcases List.mem_append.1 hw with hw | hw
      · exact h.roadMap w hw
      · obtain rfl := List.mem_singleton.1 hw
        exact ⟨hm, hd⟩
    · intro o'
      show (upd s.queue o _ o').Nodup
      by_cases h1 : o' = o
      · subst h1
        rw [upd_same]
        exact (h.queueNodup _).filter _
      · rw [upd_other _ _ _ _ h1]
        exact h.queueNodup _
    · show (s.road ++ [v]).Nodup
      rw [List.nodup_append]
      refine ⟨h.roadNodup, List.nodup_singleton _, ?_⟩
      intro a ha b hb
      obtain rfl := List.mem_singleton.1 hb
      rintro rfl
      exact hr ha
    · intro w hw
      by_cases hwv : w = v
      · subst hwv
        exact Or.inr (Or.inl (by simp))
      · rcases h.somewhere w hw with a | a | a
        · exact Or.inl ((mem _ w).2 ⟨a, hwv⟩)
        · exact Or.inr (Or.inl (List.mem_append_left _ a))
        · exact Or.inr (Or.inr a)

theorem arrive_inv {s : State} (h : Inv s) (p : ℕ × ℕ) : Inv (s.arrive p) := by
  unfold State.arrive
  split
  case isFalse => exact h
  case isTrue hp =>
    obtain ⟨v, d⟩ := p
    obtain ⟨hm, hd⟩ := h.roadMap v hp
    have mem : ∀ d' w, w ∈ upd s.out d (s.out d ++ [v]) d' ↔ w ∈ s.out d' ∨ (w = v ∧ d' = d) := by
      intro d' w
      by_cases h1 : d' = d
      · subst h1
        rw [upd_same]
        simp
      · rw [upd_other _ _ _ _ h1]
        simp [h1]
    refine ⟨h.ids, h.nodup, ?_, ?_, ?_, h.queueNodup, ?_, ?_, ?_, h.veh, h.enroute,
      h.finished, h.delivery, h.electrified, h.nonRoadside, h.total⟩
    · intro o' w hw
      obtain ⟨a, b, e, f⟩ := h.queueMap o' w hw
      refine ⟨a, b, fun hx => e (List.mem_of_mem_filter hx), fun d' hx => ?_⟩
      rcases (mem d' w).1 hx with hx | ⟨rfl, -⟩
      · exact f d' hx
      · exact e hp
    · intro w hw
      obtain ⟨hw, hne⟩ := List.mem_filter.1 hw
      refine ⟨(h.roadMap w hw).1, fun d' hx => ?_⟩
      rcases (mem d' w).1 hx with hx | ⟨rfl, -⟩
      · exact (h.roadMap w hw).2 d' hx
      · simp at hne
    · intro d' w hw
      rcases (mem d' w).1 hw with hw | ⟨rfl, rfl⟩
      · refine ⟨(h.outMap d' w hw).1, fun d2 hx => ?_⟩
        rcases (mem d2 w).1 hx with hx | ⟨rfl, -⟩
        · exact (h.outMap d' w hw).2 d2 hx
        · exact (hd d' ‹_›).elim
      · refine ⟨hm, fun d2 hx => ?_⟩
        rcases (mem d2 w).1 hx with hx | ⟨-, e⟩
        · exact absurd hx (hd d2)
        · exact e
    · exact h.roadNodup.filter _
    · intro d'
      show (upd s.out d _ d').Nodup
      by_cases h1 : d' = d
      · subst h1
        rw [upd_same, List.nodup_append]
        refine ⟨h.outNodup _, List.nodup_singleton _, ?_⟩
        intro a ha b hb
        obtain rfl := List.mem_singleton.1 hb
        rintro rfl
        exact hd _ ha
      · rw [upd_other _ _ _ _ h1]
        exact h.outNodup _
    · intro w hw
      by_cases hwv : w = v
      · subst hwv
        exact Or.inr (Or.inr ⟨d, (mem d w).2 (Or.inr ⟨rfl, rfl⟩)⟩)
      · rcases h.somewhere w hw with a | a | ⟨d', a⟩
        · exact Or.inl a
        · exact Or.inr (Or.inl (List.mem_filter.2 ⟨a, by simpa using hwv⟩))
        · exact Or.inr (Or.inr ⟨d', (mem d' w).2 (Or.inl a)⟩)

/-! ## Destinations -/

theorem mem_tail_upd {out : ℕ → List ℕ} {d v : ℕ} {rest : List ℕ} (e : out d = v :: rest)
    (hn : ∀ d, (out d).Nodup) (hv : ∀ d', v ∈ out d' → d' = d) (d' w : ℕ) :
    w ∈ upd out d (out d).tail d' ↔ w ∈ out d' ∧ w ≠ v := by
  have := hn d
  rw [e] at this
  by_cases h1 : d' = d
  · subst h1
    rw [upd_same, e]
    have := List.nodup_cons.1 this
    constructor
    · intro hw
      exact ⟨List.mem_cons_of_mem _ hw, fun hx => this.1 (hx ▸ hw)⟩
    · rintro ⟨hw, hne⟩
      rcases List.mem_cons.1 hw with hw | hw
      · exact absurd hw hne
      · exact hw
  · rw [upd_other _ _ _ _ h1]
    refine ⟨fun hw => ⟨hw, ?_⟩, And.left⟩
    rintro rfl
    exact h1 (hv d' hw)

theorem tail_nodup {out : ℕ → List ℕ} {d : ℕ} (hn : ∀ d, (out d).Nodup) (d' : ℕ) :
    (upd out d (out d).tail d').Nodup := by
  by_cases h1 : d' = d
  · subst h1
    rw [upd_same]
    exact (hn _).tail
  · rw [upd_other _ _ _ _ h1]
    exact hn _

theorem sum_one {n : ℕ} {f g : ℕ → ℤ} {k : ℕ} (hk : k < n) (hne : ∀ i < n, i ≠ k → f i = g i) :
    ((List.range n).map f).sum = ((List.range n).map g).sum + (f k - g k) := by
  induction n with
  | zero => omega
  | succ n ih =>
    rw [List.range_succ, List.map_append, List.map_append, List.sum_append, List.sum_append]
    simp only [List.map_cons, List.map_nil, List.sum_cons, List.sum_nil]
    by_cases hkn : k = n
    · subst hkn
      have : (List.range k).map f = (List.range k).map g :=
        List.map_congr_left fun i hi => hne i (by have := List.mem_range.1 hi; omega)
          (by have := List.mem_range.1 hi; omega)
      rw [this]
      ring
    · rw [ih (by omega) fun i hi => hne i (by omega), hne n (by omega) (Ne.symm hkn)]
      ring

/-- The state after the vehicle at the front of the queue of `d` finishes. -/
theorem finish_inv {s s' : State} (h : Inv s) {ts d v : ℕ} {rest : List ℕ} (e : s.out d = v :: rest)
    (hdest : (s.veh v).dest = d)
    (hlast : ∀ sq, (s.veh v).seq = some sq → ∃ last, sq.getLast? = some last ∧ last.2 = d)
    (r : ({ s with out := upd s.out d ((s.out d).tail), seen := upd s.seen v (s.seen v ++ [d]) } : State).finish ts v
      = .ok s') :
    Inv s' ∧ s'.out d = rest := by
  obtain ⟨hm, hd⟩ := h.outMap d v (by rw [e]; simp)
  unfold State.finish at r
  rw [if_pos hm] at r
  obtain rfl := Res.ok.inj r
  have made := h.ids v hm
  have mem := mem_tail_upd e h.outNodup hd
  have old : ∀ w, w ≠ v → upd s.veh v { s.veh v with finish := (ts : ℤ) } w = s.veh w := fun w hw => upd_other _ _ _ _ hw
  have nr : v ∉ s.road := fun hx => (h.roadMap v hx).2 d (by rw [e]; simp)
  have nq : ∀ o, v ∉ s.queue o := fun o hx => (h.queueMap o v hx).2.2.2 d (by rw [e]; simp)
  have mm : ∀ w, w ∈ s.map.filter (· ≠ v) ↔ w ∈ s.map ∧ w ≠ v := by simp
  have cnt : ∀ P : Veh → Bool, P { s.veh v with finish := (ts : ℤ) } = P (s.veh v) →
      ∀ w, P (upd s.veh v { s.veh v with finish := (ts : ℤ) } w) = P (s.veh w) := by
    intro P hP w
    by_cases hw : w = v
    · subst hw
      rw [upd_same, hP]
    · rw [old w hw]
  have len : ((s.map.filter (· ≠ v)).length : ℤ) = s.map.length - 1 := by
    have h1 : s.map.erase v = s.map.filter (· ≠ v) := by
      rw [h.nodup.erase_eq_filter v]
      apply List.filter_congr
      intro x _
      simp [bne, Bool.beq_eq_decide_eq]
    have h2 := List.length_erase_of_mem hm
    have h3 : 0 < s.map.length := List.length_pos_of_mem hm
    rw [← h1, h2]
    omega
  refine ⟨⟨?_, h.nodup.filter _, ?_, ?_, ?_, h.queueNodup, h.roadNodup, tail_nodup h.outNodup, ?_, ?_, ?_, ?_, ?_, ?_,
    ?_, ?_⟩, ?_⟩
  · intro w hw
    exact h.ids w ((mm w).1 hw).1
  · intro o w hw
    obtain ⟨a, b, f, g⟩ := h.queueMap o w hw
    have hne : w ≠ v := fun hx => nq o (hx ▸ hw)
    refine ⟨(mm w).2 ⟨a, hne⟩, ?_, f, fun d' hx => g d' ((mem d' w).1 hx).1⟩
    show (upd s.veh v _ w).origin = o
    rw [old w hne]
    exact b
  · intro w hw
    obtain ⟨a, b⟩ := h.roadMap w hw
    exact ⟨(mm w).2 ⟨a, fun hx => nr (hx ▸ hw)⟩, fun d' hx => b d' ((mem d' w).1 hx).1⟩
  · intro d' w hw
    obtain ⟨hw, hne⟩ := (mem d' w).1 hw
    obtain ⟨a, b⟩ := h.outMap d' w hw
    exact ⟨(mm w).2 ⟨a, hne⟩, fun d2 hx => b d2 ((mem d2 w).1 hx).1⟩
  · intro w hw
    obtain ⟨hw, hne⟩ := (mm w).1 hw
    show w ∈ s.queue (upd s.veh v _ w).origin ∨ w ∈ s.road ∨ ∃ d', w ∈ upd s.out d (s.out d).tail d'
    rw [old w hne]
    rcases h.somewhere w hw with a | a | ⟨d', a⟩
    · exact Or.inl a
    · exact Or.inr (Or.inl a)
    · exact Or.inr (Or.inr ⟨d', (mem d' w).2 ⟨a, hne⟩⟩)
  · intro w hw
    show VehOk (upd s.veh v { s.veh v with finish := (ts : ℤ) } w) (w ∈ s.map.filter (· ≠ v)) (s.trips w)
      (upd s.seen v (s.seen v ++ [d]) w)
    by_cases hwv : w = v
    · subst hwv
      rw [upd_same, upd_same]
      have hnot : ¬ w ∈ s.map.filter (· ≠ w) := fun hx => ((mm w).1 hx).2 rfl
      obtain ⟨a, b, t⟩ := h.veh w made
      refine ⟨?_, ?_, ?_⟩
      · intro hs
        obtain ⟨x, y, -⟩ := a hs
        exact ⟨x, fun hx => absurd hx hnot, fun _ => by rw [y hm]; simp [hdest]⟩
      · intro sq hs
        obtain ⟨last, x1, x2, x3, x4, x5, -⟩ := b sq hs
        refine ⟨last, x1, x2, x3, x4, fun hx => absurd hx hnot, fun _ => ⟨?_, ?_⟩⟩
        · rw [x5 hm]
          show _ = (sq.take ((s.veh w).index + 1)).map (·.2)
          rw [List.take_add_one, x2]
          simp [hdest]
        · obtain ⟨last', y1, y2⟩ := hlast sq hs
          rw [x1] at y1
          obtain rfl := Option.some.inj y1
          exact hdest.trans y2.symm
      · refine ⟨fun hx => absurd hx hnot, fun hx => ?_⟩
        have hx : (ts : ℤ) = -1 := hx
        omega
    · rw [old w hwv, upd_other _ _ _ _ hwv]
      have : (w ∈ s.map.filter (· ≠ v)) ↔ w ∈ s.map := by rw [mm]; simp [hwv]
      rw [this]
      exact h.veh w hw
  · show s.enroute - 1 = ((s.map.filter (· ≠ v)).length : ℤ)
    rw [len, h.enroute]
  · show s.finished + 1 + (s.enroute - 1) = (s.num : ℤ)
    have := h.finished
    linarith
  · refine h.delivery.trans ?_
    unfold State.count
    simp only [cnt (fun v => v.seq.isSome) rfl]
  · refine h.electrified.trans ?_
    unfold State.count
    simp only [cnt (fun v => v.ev.isSome) rfl]
  · refine h.nonRoadside.trans ?_
    unfold State.count
    simp only [cnt Veh.elsewhere rfl]
  · show s.total + ((ts : ℤ) - (s.veh v).start) = ((List.range s.num).map fun i =>
      if i + 1 ∈ s.map.filter (· ≠ v) then 0 else
      (upd s.veh v { s.veh v with finish := (ts : ℤ) } (i + 1)).finish -
        (upd s.veh v { s.veh v with finish := (ts : ℤ) } (i + 1)).start).sum
    obtain ⟨k, rfl⟩ : ∃ k, v = k + 1 := ⟨v - 1, by have := made.1; omega⟩
    rw [sum_one (k := k) (g := fun i => if i + 1 ∈ s.map then 0 else (s.veh (i + 1)).finish - (s.veh (i + 1)).start),
      ← h.total]
    · rw [if_neg (fun hx => ((mm _).1 hx).2 rfl), if_pos hm, upd_same]
      simp
    · have := made.2
      omega
    · intro i hi hne
      have hne' : i + 1 ≠ k + 1 := by omega
      rw [old _ hne']
      have : (i + 1 ∈ s.map.filter (· ≠ k + 1)) ↔ i + 1 ∈ s.map := by rw [mm]; simp [hne]
      simp only [this]
  · show upd s.out d _ d = rest
    rw [upd_same, e]
    rfl

/-- The state after the vehicle at the front of the queue of `d` goes on. -/
theorem next_inv {s : State} (h : Inv s) {d v : ℕ} {rest : List ℕ} (e : s.out d = v :: rest)
    (hdest : (s.veh v).dest = d) {sq : List (ℕ × ℕ)} (hs : (s.veh v).seq = some sq) {last : ℕ × ℕ}
    (hl : sq.getLast? = some last) (hne : last.2 ≠ d) (x : ℤ) (w : Veh) (hw : w = (s.veh v).advance sq) :
    Inv { s with
      out := upd s.out d ((s.out d).tail)
      seen := upd s.seen v (s.seen v ++ [d])
      veh := upd s.veh v { w with waiting := x }
      queue := upd s.queue w.origin (s.queue w.origin ++ [v])
      trips := upd s.trips v (s.trips v ++ [(w.origin, w.dest)]) } := by
  obtain ⟨hm, hd⟩ := h.outMap d v (by rw [e]; simp)
  have made := h.ids v hm
  have mem := mem_tail_upd e h.outNodup hd
  have nr : v ∉ s.road := fun hx => (h.roadMap v hx).2 d (by rw [e]; simp)
  have nq : ∀ o, v ∉ s.queue o := fun o hx => (h.queueMap o v hx).2.2.2 d (by rw [e]; simp)
  obtain ⟨-, b, t⟩ := h.veh v made
  obtain ⟨last', x1, x2, x3, x4, x5, -⟩ := b sq hs
  rw [hl] at x1
  obtain rfl := Option.some.inj x1
  have lt : (s.veh v).index + 1 < sq.length := by
    have h1 : (s.veh v).index < sq.length := by
      by_contra hx
      rw [List.getElem?_eq_none (by omega)] at x2
      exact absurd x2 (by simp)
    by_contra hx
    have h2 : (s.veh v).index = sq.length - 1 := by omega
    rw [List.getLast?_eq_getElem?, ← h2, x2] at hl
    apply hne
    rw [← Option.some.inj hl]
    exact hdest
  obtain ⟨p, hp⟩ : ∃ p, sq[(s.veh v).index + 1]? = some p := ⟨_, List.getElem?_eq_getElem lt⟩
  have hw' : w = { s.veh v with index := (s.veh v).index + 1, origin := p.1, dest := p.2 } := by
    rw [hw]
    unfold Veh.advance
    rw [hp]
  clear hw
  subst hw'
  have old : ∀ y u, u ≠ v → upd s.veh v y u = s.veh u := fun y u hu => upd_other _ _ _ _ hu
  have memq : ∀ o u, u ∈ upd s.queue p.1 (s.queue p.1 ++ [v]) o ↔ u ∈ s.queue o ∨ (u = v ∧ o = p.1) := by
    intro o u
    by_cases h1 : o = p.1
    · subst h1
      rw [upd_same]
      simp
    · rw [upd_other _ _ _ _ h1]
      simp [h1]
  have cnt : ∀ P : Veh → Bool, ∀ y, P y = P (s.veh v) → ∀ u, P (upd s.veh v y u) = P (s.veh u) := by
    intro P y hP u
    by_cases hw : u = v
    · subst hw
      rw [upd_same, hP]
    · rw [old y u hw]
  refine ⟨h.ids, h.nodup, ?_, ?_, ?_, ?_, h.roadNodup, tail_nodup h.outNodup, ?_, ?_, h.enroute, h.finished, ?_, ?_,
    ?_, ?_⟩
  · intro o u hu
    rcases (memq o u).1 hu with hu | ⟨rfl, rfl⟩
    · obtain ⟨a, b, f, g⟩ := h.queueMap o u hu
      refine ⟨a, ?_, f, fun d' hx => g d' ((mem d' u).1 hx).1⟩
      show (upd s.veh v _ u).origin = o
      rw [old _ u (fun hx => nq o (hx ▸ hu))]
      exact b
    · refine ⟨hm, ?_, nr, fun d' hx => ((mem d' u).1 hx).2 rfl⟩
      show (upd s.veh u _ u).origin = _
      rw [upd_same]
  · intro u hu
    obtain ⟨a, b⟩ := h.roadMap u hu
    exact ⟨a, fun d' hx => b d' ((mem d' u).1 hx).1⟩
  · intro d' u hu
    obtain ⟨hu, hne⟩ := (mem d' u).1 hu
    obtain ⟨a, b⟩ := h.outMap d' u hu
    exact ⟨a, fun d2 hx => b d2 ((mem d2 u).1 hx).1⟩
  · intro o
    show (upd s.queue p.1 (s.queue p.1 ++ [v]) o).Nodup
    by_cases ho : o = p.1
    · subst ho
      rw [upd_same, List.nodup_append]
      refine ⟨h.queueNodup _, List.nodup_singleton _, ?_⟩
      intro a ha b hb
      obtain rfl := List.mem_singleton.1 hb
      rintro rfl
      exact nq _ ha
    · rw [upd_other _ _ _ _ ho]
      exact h.queueNodup o
  · intro u hu
    by_cases huv : u = v
    · subst huv
      left
      refine (memq _ _).2 (Or.inr ⟨rfl, ?_⟩)
      show (upd s.veh u _ u).origin = _
      rw [upd_same]
    · rcases h.somewhere u hu with a | a | ⟨d', a⟩
      · left
        refine (memq _ _).2 (Or.inl ?_)
        show u ∈ s.queue (upd s.veh v _ u).origin
        rw [old _ u huv]
        exact a
      · exact Or.inr (Or.inl a)
      · exact Or.inr (Or.inr ⟨d', (mem d' u).2 ⟨a, huv⟩⟩)
  · intro u hu
    show VehOk (upd s.veh v _ u) (u ∈ s.map) (upd s.trips v (s.trips v ++ [(p.1, p.2)]) u)
      (upd s.seen v (s.seen v ++ [d]) u)
    by_cases huv : u = v
    · subst huv
      rw [upd_same, upd_same, upd_same]
      refine ⟨fun hx => ?_, fun sq' hx => ?_, t⟩
      · have hx : (s.veh u).seq = none := hx
        rw [hs] at hx
        cases hx
      · have hx : (s.veh u).seq = some sq' := hx
        rw [hs] at hx
        obtain rfl := Option.some.inj hx
        refine ⟨last, hl, hp, ?_, ?_, fun _ => ?_, fun hx => absurd hm hx⟩
        · show _ = sq.take ((s.veh u).index + 1 + 1)
          rw [List.take_add_one, hp, x3]
          rfl
        · intro i hi q hq
          have hi : i < (s.veh u).index + 1 := hi
          by_cases hii : i = (s.veh u).index
          · rw [hii, x2] at hq
            rw [← Option.some.inj hq]
            exact fun hx => hne (hx.symm.trans hdest)
          · exact x4 i (by omega) q hq
        · show _ = (sq.take ((s.veh u).index + 1)).map (·.2)
          rw [x5 hm, List.take_add_one, x2]
          simp [hdest]
    · rw [old _ u huv, upd_other _ _ _ _ huv, upd_other _ _ _ _ huv]
      exact h.veh u hu
  · refine h.delivery.trans ?_
    unfold State.count
    simp only [cnt (fun v => v.seq.isSome) { s.veh v with index := (s.veh v).index + 1, origin := p.1, dest := p.2, waiting := x } rfl]
  · refine h.electrified.trans ?_
    unfold State.count
    simp only [cnt (fun v => v.ev.isSome) { s.veh v with index := (s.veh v).index + 1, origin := p.1, dest := p.2, waiting := x } rfl]
  · refine h.nonRoadside.trans ?_
    unfold State.count
    simp only [cnt Veh.elsewhere { s.veh v with index := (s.veh v).index + 1, origin := p.1, dest := p.2, waiting := x } rfl]
  · refine h.total.trans ?_
    congr 1
    apply List.map_congr_left
    intro i hi
    by_cases hiv : i + 1 = v
    · show _ = if i + 1 ∈ s.map then 0 else _
      rw [hiv, if_pos hm, if_pos hm]
    · show _ = if i + 1 ∈ s.map then 0 else (upd s.veh v _ (i + 1)).finish - (upd s.veh v _ (i + 1)).start
      rw [old _ _ hiv]

theorem receiveVeh_inv {c : Cfg} {ts d v : ℕ} {rest : List ℕ} {s s' : State} (h : Inv s) (e : s.out d = v :: rest)
    (r : receiveVeh c ts d s v = .ok s') : Inv s' ∧ s'.out d = rest := by
  unfold receiveVeh at r
  split at r
  · cases r
  case isFalse hdest =>
  have hdest : (s.veh v).dest = d := by simpa using hdest
  simp only at r
  split at r
  case h_1 hs =>
    refine finish_inv h e hdest ?_ r
    intro sq hsq
    have hs : (s.veh v).seq = none := hs
    rw [hs] at hsq
    cases hsq
  case h_2 sq hs =>
    have hs : (s.veh v).seq = some sq := hs
    split at r
    · cases r
    · cases r
    case h_3 last cur hl hc =>
      obtain ⟨hm, -⟩ := h.outMap d v (by rw [e]; simp)
      obtain ⟨-, b, -⟩ := h.veh v (h.ids v hm)
      obtain ⟨_, -, x2, -⟩ := b sq hs
      have hc : sq[(s.veh v).index]? = some cur := hc
      rw [x2] at hc
      obtain rfl := Option.some.inj hc
      split at r
      case isTrue hne =>
        obtain rfl := Res.ok.inj r
        refine ⟨next_inv h e hdest hs hl (fun hx => hne (hx.trans hdest.symm)) _ _ rfl, ?_⟩
        show upd s.out d _ d = rest
        rw [upd_same, e]
        rfl
      case isFalse hne =>
        refine finish_inv h e hdest ?_ r
        intro sq' hsq
        rw [hs] at hsq
        obtain rfl := Option.some.inj hsq
        exact ⟨last, hl, (not_not.1 hne).trans hdest⟩

theorem receive_inv {c : Cfg} {ts d : ℕ} {s s' : State} (h : Inv s) (r : receive c ts s d = .ok s') : Inv s' := by
  unfold receive at r
  generalize hl : s.out d = l at r
  induction l generalizing s with
  | nil =>
    obtain rfl := Res.ok.inj r
    exact h
  | cons v rest ih =>
    rw [Res.foldlM_cons, Res.bind_eq_ok] at r
    obtain ⟨s1, r1, r2⟩ := r
    have := receiveVeh_inv h hl r1
    exact ih this.1 this.2 r2

/-- The vehicle is left alone. -/
structure Alone (s s' : State) (v : ℕ) : Prop where
  veh : s'.veh v = s.veh v
  map : v ∈ s'.map ↔ v ∈ s.map
  queue : ∀ o, v ∈ s'.queue o ↔ v ∈ s.queue o

/-- The vehicle has been received. -/
structure Got (c : Cfg) (ts d : ℕ) (s s' : State) (v : ℕ) : Prop where
  dest : (s.veh v).dest = d
  single : (s.veh v).seq = none → s'.veh v = { s.veh v with finish := ts } ∧ v ∉ s'.map
  tour : ∀ sq, (s.veh v).seq = some sq → sq[(s.veh v).index]? = some ((s.veh v).origin, d) →
      (Ends sq d → s'.veh v = { s.veh v with finish := ts } ∧ v ∉ s'.map) ∧
      (¬ Ends sq d → ∃ p, sq[(s.veh v).index + 1]? = some p ∧ v ∈ s'.queue p.1 ∧ (v ∈ s'.map ↔ v ∈ s.map) ∧
        s'.veh v = { s.veh v with
          index := (s.veh v).index + 1, origin := p.1, dest := p.2, waiting := (c.origin p.1).pickup })

theorem finish_veh {s s' : State} {ts v : ℕ} (r : s.finish ts v = .ok s') :
    (∀ u, u ≠ v → Alone s s' u) ∧ s'.veh v = { s.veh v with finish := ts } ∧ v ∉ s'.map := by
  unfold State.finish at r
  split at r
  · obtain rfl := Res.ok.inj r
    refine ⟨fun u hu => ⟨upd_other _ _ _ _ hu, ?_, fun _ => Iff.rfl⟩, upd_same _ _ _, ?_⟩
    · show u ∈ s.map.filter (· ≠ v) ↔ _
      simp [hu]
    · show v ∉ s.map.filter (· ≠ v)
      simp
  · cases r

theorem receiveVeh_got {c : Cfg} {ts d v : ℕ} {s s' : State} (r : receiveVeh c ts d s v = .ok s') :
    (∀ u, u ≠ v → Alone s s' u) ∧ Got c ts d s s' v := by
  unfold receiveVeh at r
  split at r
  · cases r
  case isFalse hdest =>
  have hdest : (s.veh v).dest = d := by simpa using hdest
  simp only at r
  split at r
  case h_1 hs =>
    have hs : (s.veh v).seq = none := hs
    obtain ⟨a, b, e⟩ := finish_veh r
    refine ⟨fun u hu => ⟨(a u hu).veh, (a u hu).map, (a u hu).queue⟩, hdest, fun _ => ⟨b, e⟩, ?_⟩
    intro sq hsq
    rw [hs] at hsq
    cases hsq
  case h_2 sq hs =>
    have hs : (s.veh v).seq = some sq := hs
    split at r
    · cases r
    · cases r
    case h_3 last cur hl hc =>
      have hc : sq[(s.veh v).index]? = some cur := hc
      split at r
      case isTrue hne =>
        obtain rfl := Res.ok.inj r
        refine ⟨fun u hu => ⟨upd_other _ _ _ _ hu, Iff.rfl, ?_⟩, hdest, fun h => ?_, ?_⟩
        · intro o
          show u ∈ upd s.queue _ _ o ↔ _
          by_cases ho : o = ((s.veh v).advance sq).origin
          · rw [ho, upd_same]
            simp [hu]
          · rw [upd_other _ _ _ _ ho]
        · rw [hs] at h
          cases h
        · intro sq' hsq hcur
          rw [hs] at hsq
          obtain rfl := Option.some.inj hsq
          rw [hc] at hcur
          obtain rfl := Option.some.inj hcur
          refine ⟨?_, ?_⟩
          · rintro ⟨p, hp, hpd⟩
            rw [hl] at hp
            obtain rfl := Option.some.inj hp
            exact absurd hpd hne
          · intro hend
            have lt : (s.veh v).index + 1 < sq.length := by
              have h1 : (s.veh v).index < sq.length := by
                by_contra hx
                rw [List.getElem?_eq_none (by omega)] at hc
                exact absurd hc (by simp)
              by_contra hx
              have h2 : (s.veh v).index = sq.length - 1 := by omega
              rw [List.getLast?_eq_getElem?, ← h2, hc] at hl
              apply hne
              rw [← Option.some.inj hl]
            obtain ⟨p, hp⟩ : ∃ p, sq[(s.veh v).index + 1]? = some p := ⟨_, List.getElem?_eq_getElem lt⟩
            have ha : (s.veh v).advance sq = { s.veh v with index := (s.veh v).index + 1, origin := p.1, dest := p.2 } := by
              unfold Veh.advance
              rw [hp]
            refine ⟨p, hp, ?_, Iff.rfl, ?_⟩
            · show v ∈ upd s.queue ((s.veh v).advance sq).origin _ p.1
              rw [ha, upd_same]
              simp
            · show upd s.veh v { (s.veh v).advance sq with
                waiting := (c.origin ((s.veh v).advance sq).origin).pickup } v = _
              rw [upd_same, ha]
      case isFalse hne =>
        obtain ⟨a, b, e⟩ := finish_veh r
        refine ⟨fun u hu => ⟨(a u hu).veh, (a u hu).map, (a u hu).queue⟩, hdest, fun h => ?_, ?_⟩
        · rw [hs] at h
          cases h
        · intro sq' hsq hcur
          rw [hs] at hsq
          obtain rfl := Option.some.inj hsq
          rw [hc] at hcur
          obtain rfl := Option.some.inj hcur
          refine ⟨fun _ => ⟨b, e⟩, fun h => ?_⟩
          exact absurd ⟨last, hl, not_not.1 hne⟩ h

theorem receive_got {c : Cfg} {ts d : ℕ} (l : List ℕ) (hn : l.Nodup) {s s' : State}
    (r : Res.foldlM (receiveVeh c ts d) s l = .ok s') :
    (∀ u, u ∉ l → Alone s s' u) ∧ ∀ v ∈ l, Got c ts d s s' v := by
  induction l generalizing s with
  | nil =>
    obtain rfl := Res.ok.inj r
    exact ⟨fun u _ => ⟨rfl, Iff.rfl, fun _ => Iff.rfl⟩, fun v hv => by simp at hv⟩
  | cons v rest ih =>
    rw [Res.foldlM_cons, Res.bind_eq_ok] at r
    obtain ⟨s1, r1, r2⟩ := r
    obtain ⟨h1, h2⟩ := List.nodup_cons.1 hn
    obtain ⟨a1, g1⟩ := receiveVeh_got r1
    obtain ⟨a2, g2⟩ := ih h2 r2
    refine ⟨fun u hu => ?_, fun u hu => ?_⟩
    · have hu : u ≠ v ∧ u ∉ rest := by simpa using hu
      have b1 := a1 u hu.1
      have b2 := a2 u hu.2
      exact ⟨b2.veh.trans b1.veh, b2.map.trans b1.map, fun o => (b2.queue o).trans (b1.queue o)⟩
    · rcases List.mem_cons.1 hu with rfl | hu
      · have b := a2 u h1
        refine ⟨g1.dest, ?_, ?_⟩
        · rw [b.veh, b.map]
          exact g1.single
        · intro sq hs hc
          rw [b.veh, b.map]
          refine ⟨(g1.tour sq hs hc).1, fun h => ?_⟩
          obtain ⟨p, x1, x2, x3, x4⟩ := (g1.tour sq hs hc).2 h
          exact ⟨p, x1, (b.queue _).2 x2, x3, x4⟩
      · have b := a1 u fun e => h1 (e ▸ hu)
        have g := g2 u hu
        refine ⟨?_, ?_, ?_⟩
        · rw [← b.veh]
          exact g.dest
        · rw [← b.veh]
          exact g.single
        · intro sq hs hc
          rw [← b.veh] at hs hc ⊢
          refine ⟨(g.tour sq hs hc).1, fun h => ?_⟩
          obtain ⟨p, x1, x2, x3, x4⟩ := (g.tour sq hs hc).2 h
          exact ⟨p, x1, x2, x3.trans b.map, x4⟩

theorem ok_of_isOk {α : Type} {r : Res α} {d : α} (h : r.isOk = true) : r = .ok (r.stateOr d) := by
  cases r <;> simp [Res.stateOr, Res.isOk] at h ⊢

/-! ## Release -/

theorem single_fresh (c : Cfg) (oid : ℕ) (orc : ReleaseOracle) (ts d id : ℕ) :
    Fresh (single c oid orc ts d id) ∧ (single c oid orc ts d id).origin = oid := by
  unfold single
  simp only
  split
  · split <;> exact ⟨⟨rfl, rfl, fun _ h => by cases h⟩, rfl⟩
  · exact ⟨⟨rfl, rfl, fun _ h => by cases h⟩, rfl⟩

theorem touring_fresh (c : Cfg) (oid : ℕ) (orc : ReleaseOracle) (ts d id : ℕ) (rest : List (ℕ × ℕ)) :
    Fresh (touring c oid orc ts ((oid, d) :: rest) d id) ∧
      (touring c oid orc ts ((oid, d) :: rest) d id).origin = oid := by
  unfold touring
  simp only
  split
  · exact ⟨⟨rfl, rfl, fun _ h => ⟨rest, (Option.some.inj h).symm⟩⟩, rfl⟩
  · exact ⟨⟨rfl, rfl, fun _ h => ⟨rest, (Option.some.inj h).symm⟩⟩, rfl⟩

theorem makeMany_inv {f : ℕ → Veh} (hf : ∀ i, Fresh (f i)) (n : ℕ) {s : State} (h : Inv s) : Inv (makeMany f n s) := by
  induction n generalizing s with
  | zero => exact h
  | succ n ih => exact ih (make_inv h (hf _))

theorem releaseDests_inv {c : Cfg} {oid : ℕ} {orc : ReleaseOracle} {ts assign : ℕ} (l : List (ℕ × (ℕ → ℚ))) {k : ℕ}
    {s s' : State} (h : Inv s) (r : releaseDests c oid orc ts assign k l s = .ok s') : Inv s' := by
  induction l generalizing s k with
  | nil =>
    obtain rfl := Res.ok.inj r
    exact h
  | cons x rest ih =>
    obtain ⟨d, dem⟩ := x
    unfold releaseDests at r
    rw [Res.bind_eq_ok'] at r
    obtain ⟨n, -, r⟩ := r
    exact ih (makeMany_inv (fun i => (single_fresh c oid orc ts d i).1) _ h) r

theorem releaseTours_inv {c : Cfg} {oid : ℕ} {orc : ReleaseOracle} {ts assign : ℕ}
    (l : List (List (ℕ × ℕ) × (ℕ → ℚ))) (hl : ∀ t ∈ l, ∃ d rest, t.1 = (oid, d) :: rest) {k : ℕ}
    {s s' : State} (h : Inv s) (r : releaseTours c oid orc ts assign k l s = .ok s') : Inv s' := by
  induction l generalizing s k with
  | nil =>
    obtain rfl := Res.ok.inj r
    exact h
  | cons x rest ih =>
    obtain ⟨sq, dem⟩ := x
    obtain ⟨d, sq', rfl⟩ : ∃ d rest, sq = (oid, d) :: rest := hl _ (List.mem_cons_self ..)
    unfold releaseTours at r
    rw [Res.bind_eq_ok'] at r
    obtain ⟨n, -, r⟩ := r
    exact ih (fun t ht => hl t (List.mem_cons_of_mem _ ht))
      (makeMany_inv (fun i => (touring_fresh c oid orc ts d i sq').1) _ h) r

theorem releaseOne_inv {c : Cfg} (hc : c.Wf) {oid : ℕ} {orc : ReleaseOracle} (ho : ∀ l, (orc.shuffle l).Perm l)
    {ts assign : ℕ} {s s' : State} (h : Inv s) (r : releaseOne c oid orc ts assign s = .ok s') : Inv s' := by
  unfold releaseOne at r
  split at r
  · cases r
  rw [Res.bind_eq_ok'] at r
  obtain ⟨s1, r1, r⟩ := r
  rw [Res.bind_eq_ok'] at r
  obtain ⟨s2, r2, r⟩ := r
  obtain rfl := Res.ok.inj r
  exact queue_inv (releaseTours_inv _ (hc.tours oid) (releaseDests_inv _ h r1) r2) (ho _)

/-! ## Loading -/

theorem adjustVeh_inv {c : Cfg} {r : ℕ → ℚ} {s : State} (h : Inv s) (v : ℕ) : Inv (adjustVeh c r s v) := by
  unfold adjustVeh
  split
  · refine veh_inv h fun w => ?_
    by_cases hw : w = v
    · subst hw
      rw [upd_same]
      exact ⟨rfl, rfl, rfl, rfl, rfl, rfl, rfl, rfl⟩
    · rw [upd_other _ _ _ _ hw]
      exact SameVeh.refl _
  · exact h

theorem adjust_inv {c : Cfg} {r : ℕ → ℚ} {oid : ℕ} {s : State} (h : Inv s) : Inv (adjust c r oid s) := by
  unfold adjust
  split
  · exact h
  · generalize s.queue oid = l
    induction l generalizing s with
    | nil => exact h
    | cons v l ih => exact ih (adjustVeh_inv h v)

theorem around_inv {o : StepOracle} (ho : o.Ok) {s : State} (h : Inv s) : Inv (s.around o.around) := by
  have h1 : ∀ (l : List (ℕ × ℕ)) (s : State), Inv s → Inv (l.foldl State.leave s) := by
    intro l
    induction l with
    | nil => exact fun s h => h
    | cons p l ih => exact fun s h => ih _ (leave_inv h p)
  have h2 : ∀ (l : List (ℕ × ℕ)) (s : State), Inv s → Inv (l.foldl State.arrive s) := by
    intro l
    induction l with
    | nil => exact fun s h => h
    | cons p l ih => exact fun s h => ih _ (arrive_inv h p)
  refine h2 _ _ (veh_inv (h1 _ _ h) fun v => ?_)
  split
  · refine ⟨rfl, rfl, rfl, rfl, rfl, rfl, ?_, ?_⟩
    · simp
    · unfold Veh.elsewhere
      cases hev : ((o.around.leave.foldl State.leave s).veh v).ev with
      | none => simp
      | some e => simp [ho.ev]
  · exact SameVeh.refl _

theorem stepOrigin_inv {c : Cfg} (hc : c.Wf) {o : StepOracle} (ho : o.Ok) {ts assign oid : ℕ} {s s' : State} (h : Inv s)
    (r : stepOrigin c o ts assign s oid = .ok s') : Inv s' := by
  unfold stepOrigin at r
  simp only at r
  split at r
  · cases r
  split at r
  · exact releaseOne_inv hc (ho.shuffle oid) (adjust_inv h) r
  · obtain rfl := Res.ok.inj r
    exact adjust_inv h

theorem loadOnce_inv {c : Cfg} (hc : c.Wf) {o : StepOracle} (ho : o.Ok) {ts assign : ℕ} {s s' : State} (h : Inv s)
    (r : loadOnce c o ts assign s = .ok s') : Inv s' := by
  unfold loadOnce at r
  rw [Res.bind_eq_ok'] at r
  obtain ⟨s1, r1, r2⟩ := r
  have := Res.foldlM_inv (P := Inv) (fun s a s' h r => stepOrigin_inv hc ho h r) _ _ _ h r1
  exact Res.foldlM_inv (P := Inv) (fun s a s' h r => receive_inv h r) _ _ _ (around_inv ho this) r2

theorem loadMany_inv {c : Cfg} (hc : c.Wf) (os : List StepOracle) (ho : ∀ o ∈ os, o.Ok) {ts assign : ℕ} {s s' : State}
    (h : Inv s) (r : loadMany c os ts assign s = .ok s') : Inv s' := by
  induction os generalizing s ts assign with
  | nil =>
    obtain rfl := Res.ok.inj r
    exact h
  | cons o os ih =>
    unfold loadMany at r
    rw [Res.bind_eq_ok'] at r
    obtain ⟨s1, r1, r2⟩ := r
    exact ih (fun o h => ho o (List.mem_cons_of_mem _ h)) (loadOnce_inv hc (ho o (List.mem_cons_self ..)) h r1) r2

end Verif.Tour
