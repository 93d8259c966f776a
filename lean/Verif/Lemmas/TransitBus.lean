import Verif.Lemmas.TransitArrive
import Verif.Lemmas.TravelTime

/-!
# Buses at stops of a multimodal network
-/

namespace Verif.Tr
open Ults Curve

/-- Nothing changes at the bus stops. -/
structure BusKept (s s' : State) : Prop where
  counter : s'.counter = s.counter
  stopped : s'.stopped = s.stopped
  busQ : s'.busQ = s.busQ
  bIn : s'.bIn = s.bIn
  bOut : s'.bOut = s.bOut

theorem BusKept.trans {s t u : State} (h : BusKept s t) (h' : BusKept t u) : BusKept s u :=
  ⟨h'.counter.trans h.counter, h'.stopped.trans h.stopped, h'.busQ.trans h.busQ, h'.bIn.trans h.bIn,
    h'.bOut.trans h.bOut⟩

theorem Micro.kept {c : Cfg} {R : Routes} {strict : Prop} {ts : ℕ} {ph : Phase} {s s' : State}
    (h1 : ph ≠ .bus) (h2 : ph ≠ .any) (m : Micro c R strict ts ph s s') : BusKept s s' := by
  cases m with
  | busIn h => rcases h with e | e <;> contradiction
  | busOut h => rcases h with e | e <;> contradiction
  | book h => rcases h with e | e <;> contradiction
  | park orc k car h =>
    unfold parkCar
    simp only
    split <;> exact ⟨rfl, rfl, rfl, rfl, rfl⟩
  | move p a b src dst s' mem phase _ legal cross => rw [cross.eq]; exact ⟨rfl, rfl, rfl, rfl, rfl⟩
  | ride p b v i o s' mem at_ in_ out next cur cross => rw [cross.eq]; exact ⟨rfl, rfl, rfl, rfl, rfl⟩
  | leave p d s' mem h =>
    obtain ⟨_, _, rfl⟩ := receivePax_ok h
    exact ⟨rfl, rfl, rfl, rfl, rfl⟩
  | _ => exact ⟨rfl, rfl, rfl, rfl, rfl⟩

theorem Steps.kept {c : Cfg} {R : Routes} {strict : Prop} {ts : ℕ} {ph : Phase} {s s' : State}
    (h1 : ph ≠ .bus) (h2 : ph ≠ .any) (m : Steps c R strict ts ph s s') : BusKept s s' :=
  m.inv (P := fun t => BusKept s t) (fun _ _ h m => h.trans (m.kept h1 h2)) ⟨rfl, rfl, rfl, rfl, rfl⟩

/-- A curve that records one unit at each of the times of `h`, all of them at most `ts + 1`. -/
structure Counts (c : Cfg) (ts : ℕ) (h : List (ℕ × ℕ)) (k : Curve) : Prop where
  eq : Res.foldlM addIncrement install (Tt.flows c.scalar h) = .ok k
  one : ∀ x ∈ h, x.2 = 1 ∧ 1 ≤ x.1 ∧ x.1 ≤ ts + 1
  order : h.Pairwise fun a b => a.1 ≤ b.1

theorem Counts.add {c : Cfg} {ts : ℕ} {h : List (ℕ × ℕ)} {k k' : Curve} (a : Counts c ts h k)
    (e : addIncrement k ((ts : ℚ) + 1, 1 / c.scalar) = .ok k') : Counts c ts (h ++ [(ts + 1, 1)]) k' := by
  refine ⟨?_, fun x hx => ?_, ?_⟩
  · rw [Net.flows_append, Res.foldlM_append, a.eq, Res.ok_bind, flows_one, Res.foldlM_cons, e]
    rfl
  · rcases List.mem_append.1 hx with hx | hx
    · exact a.one x hx
    · rw [List.mem_singleton.1 hx]; simp
  · rw [List.pairwise_append]
    refine ⟨a.order, by simp, fun x hx y hy => ?_⟩
    rw [List.mem_singleton.1 hy]
    exact (a.one x hx).2.2

theorem Counts.tick {c : Cfg} {ts : ℕ} {h : List (ℕ × ℕ)} {k : Curve} (a : Counts c ts h k) :
    Counts c (ts + 1) h k :=
  ⟨a.eq, fun x hx => ⟨(a.one x hx).1, (a.one x hx).2.1, by have := (a.one x hx).2.2; omega⟩, a.order⟩

/-- What the counters at bus stops mean: `k` buses are a group, the last bus of a group is served. -/
structure Terms (c : Cfg) (ts : ℕ) (s : State) : Prop where
  stop : ∀ v, ∃ hi ho, Counts c ts hi (s.bIn v) ∧ Counts c ts ho (s.bOut v) ∧
    hi.length = ho.length + (s.busQ v).length ∧ 0 ≤ s.counter v ∧ s.counter v ≤ trunc c.scalar ∧
    (s.counter v < trunc c.scalar → s.counter v = (ho.length : ℤ) % trunc c.scalar) ∧
    (s.counter v = trunc c.scalar → (ho.length : ℤ) % trunc c.scalar = trunc c.scalar - 1 ∧
      ∃ b ∈ s.busQ v, 0 < s.stopped b)
  dwell : ∀ v, ∀ b ∈ s.busQ v, 0 < s.stopped b → s.counter v = trunc c.scalar ∧
    ∀ b' ∈ s.busQ v, 0 < s.stopped b' → b' = b
  nonneg : ∀ b, 0 ≤ s.stopped b
  away : ∀ b, (∀ v, b ∉ s.busQ v) → s.stopped b = 0

theorem Terms.of_kept {c : Cfg} {ts : ℕ} {s s' : State} (h : Terms c ts s) (k : BusKept s s') : Terms c ts s' := by
  refine ⟨fun v => ?_, ?_, ?_, ?_⟩
  · rw [k.bIn, k.bOut, k.busQ, k.counter, k.stopped]; exact h.stop v
  · rw [k.busQ, k.counter, k.stopped]; exact h.dwell
  · rw [k.stopped]; exact h.nonneg
  · rw [k.busQ, k.stopped]; exact h.away

theorem Terms.tick {c : Cfg} {ts : ℕ} {s : State} (h : Terms c ts s) : Terms c (ts + 1) s := by
  refine ⟨fun v => ?_, h.dwell, h.nonneg, h.away⟩
  obtain ⟨hi, ho, a, b, r⟩ := h.stop v
  exact ⟨hi, ho, a.tick, b.tick, r⟩

/-- A bus comes to a stop. -/
theorem Terms.busIn {c : Cfg} {ts : ℕ} {s : State} (h : Terms c ts s) {v b : ℕ} {k : Curve}
    (free : ∀ v', b ∉ s.busQ v') (add : addIncrement (s.bIn v) ((ts : ℚ) + 1, 1 / c.scalar) = .ok k) :
    Terms c ts { s with bIn := upd s.bIn v k, busQ := upd s.busQ v (s.busQ v ++ [b]) } := by
  have h0 := h.away b free
  have hm : ∀ x y, y ∈ upd s.busQ v (s.busQ v ++ [b]) x → y ∈ s.busQ x ∨ y = b := fun x y hy => by
    by_cases e : x = v
    · subst e; simpa using hy
    · rw [upd_other _ _ _ _ e] at hy; exact .inl hy
  refine ⟨fun x => ?_, fun x y hy hs => ?_, h.nonneg, fun y hy => ?_⟩
  · obtain ⟨hi, ho, a1, a2, a3, a4, a5, a6, a7⟩ := h.stop x
    by_cases e : x = v
    · subst e
      refine ⟨_, ho, by simpa using a1.add add, a2, by simp [a3]; omega, a4, a5, a6, fun hc => ⟨(a7 hc).1, ?_⟩⟩
      obtain ⟨y, hy, hs⟩ := (a7 hc).2
      exact ⟨y, by simp [hy], hs⟩
    · simp only [upd_other _ _ _ _ e]
      exact ⟨hi, ho, a1, a2, a3, a4, a5, a6, a7⟩
  · simp only at hy hs ⊢
    rcases hm x y hy with hy | rfl
    · refine ⟨(h.dwell x y hy hs).1, fun z hz hzs => ?_⟩
      rcases hm x z hz with hz | rfl
      · exact (h.dwell x y hy hs).2 z hz hzs
      · omega
    · omega
  · simp only at hy ⊢
    refine h.away y fun x hx => hy x ?_
    by_cases e : x = v
    · subst e; simp [hx]
    · simpa [upd_other _ _ _ _ e] using hx

/-- A bus leaves a stop that it passes or where it has been served. -/
theorem Terms.busOut {c : Cfg} {ts : ℕ} {s s' : State} (h : Terms c ts s) (hs : AtStops c s) {v b : ℕ} {k : Curve}
    (hk : 1 ≤ trunc c.scalar) (at_ : b ∈ s.busQ v) (n : ℤ)
    (add : addIncrement (s.bOut v) ((ts : ℚ) + 1, 1 / c.scalar) = .ok k)
    (hn : (s.counter v < trunc c.scalar - 1 ∧ s.stopped b = 0 ∧ n = s.counter v + 1) ∨
      ((0 < s.stopped b ∨ s.counter v = trunc c.scalar - 1) ∧ n = 0))
    (e1 : s'.counter = upd s.counter v n) (e2 : s'.stopped = upd s.stopped b 0)
    (e3 : s'.busQ = upd s.busQ v ((s.busQ v).erase b)) (e4 : s'.bIn = s.bIn) (e5 : s'.bOut = upd s.bOut v k) :
    Terms c ts s' := by
  have hm : ∀ x y, y ∈ upd s.busQ v ((s.busQ v).erase b) x → y ∈ s.busQ x ∧ y ≠ b := fun x y hy => by
    by_cases e : x = v
    · subst e
      rw [upd_same, (hs.nodup x).mem_erase_iff] at hy
      exact ⟨hy.2, hy.1⟩
    · rw [upd_other _ _ _ _ e] at hy
      exact ⟨hy, fun eb => e (hs.uniq _ _ _ (eb ▸ hy) at_)⟩
  refine ⟨fun x => ?_, fun x y hy hys => ?_, fun y => ?_, fun y hy => ?_⟩
  · obtain ⟨hi, ho, a1, a2, a3, a4, a5, a6, a7⟩ := h.stop x
    rw [e1, e2, e3, e4, e5]
    by_cases e : x = v
    · subst e
      simp only [upd_same]
      have hlen : ((s.busQ x).erase b).length + 1 = (s.busQ x).length :=
        List.length_erase_add_one at_
      have hmod : n = ((ho.length : ℤ) + 1) % trunc c.scalar ∧ n < trunc c.scalar ∧ 0 ≤ n := by
        rcases hn with ⟨g1, g2, g3⟩ | ⟨g1, g3⟩
        · have := a6 (by omega)
          have e : ((ho.length : ℤ) + 1) % trunc c.scalar = ((ho.length : ℤ) % trunc c.scalar + 1) % trunc c.scalar := by
            rw [Int.emod_add_emod]
          rw [e, ← this, Int.emod_eq_of_lt (by omega) (by omega)]
          omega
        · have : (ho.length : ℤ) % trunc c.scalar = trunc c.scalar - 1 := by
            rcases g1 with g1 | g1
            · exact (a7 ((h.dwell x b at_ g1).1)).1
            · rw [← a6 (by omega), g1]
          have e : ((ho.length : ℤ) + 1) % trunc c.scalar = ((ho.length : ℤ) % trunc c.scalar + 1) % trunc c.scalar := by
            rw [Int.emod_add_emod]
          rw [e, this, show trunc c.scalar - 1 + 1 = trunc c.scalar by ring, Int.emod_self]
          omega
      refine ⟨hi, _, a1, a2.add add, by simp only [List.length_append, List.length_singleton]; omega, hmod.2.2,
        hmod.2.1.le, fun _ => ?_, fun hc => by omega⟩
      rw [hmod.1]; simp
    · simp only [upd_other _ _ _ _ e]
      refine ⟨hi, ho, a1, a2, a3, a4, a5, a6, fun hc => ⟨(a7 hc).1, ?_⟩⟩
      obtain ⟨y, hy, hys⟩ := (a7 hc).2
      refine ⟨y, hy, ?_⟩
      rw [upd_other _ _ _ _ fun eb : y = b => e (hs.uniq _ _ _ (eb ▸ hy) at_)]
      exact hys
  · rw [e3] at hy ⊢
    rw [e2] at hys ⊢
    rw [e1]
    obtain ⟨hy, hyb⟩ := hm x y hy
    rw [upd_other _ _ _ _ hyb] at hys
    have hd := h.dwell x y hy hys
    have hx : x ≠ v := by
      rintro rfl
      rcases hn with ⟨g1, _⟩ | ⟨g1 | g1, _⟩
      · have := hd.1; omega
      · exact hyb ((hd.2 b at_ g1).symm)
      · have := hd.1; omega
    rw [upd_other _ _ _ _ hx]
    refine ⟨hd.1, fun z hz hzs => ?_⟩
    obtain ⟨hz, hzb⟩ := hm x z hz
    rw [upd_other _ _ _ _ hzb] at hzs
    exact hd.2 z hz hzs
  · rw [e2]
    by_cases e : y = b
    · subst e; simp
    · rw [upd_other _ _ _ _ e]; exact h.nonneg y
  · rw [e3] at hy
    rw [e2]
    by_cases e : y = b
    · subst e; simp
    · rw [upd_other _ _ _ _ e]
      refine h.away y fun x hx => hy x ?_
      by_cases ex : x = v
      · subst ex; rw [upd_same]; exact (List.mem_erase_of_ne e).2 hx
      · rw [upd_other _ _ _ _ ex]; exact hx

/-- A bus is served, one interval more. -/
theorem Terms.held {c : Cfg} {ts : ℕ} {s s' : State} (h : Terms c ts s) (hs : AtStops c s) {v b : ℕ}
    (hk : 1 ≤ trunc c.scalar) (at_ : b ∈ s.busQ v) (hn : 0 < s.stopped b ∨ s.counter v = trunc c.scalar - 1)
    (e1 : s'.counter = upd s.counter v (trunc c.scalar)) (e2 : s'.stopped = upd s.stopped b (s.stopped b + 1))
    (e3 : s'.busQ = s.busQ) (e4 : s'.bIn = s.bIn) (e5 : s'.bOut = s.bOut) :
    Terms c ts s' := by
  have h0 := h.nonneg b
  refine ⟨fun x => ?_, fun x y hy hys => ?_, fun y => ?_, fun y hy => ?_⟩
  · obtain ⟨hi, ho, a1, a2, a3, a4, a5, a6, a7⟩ := h.stop x
    rw [e1, e2, e3, e4, e5]
    by_cases e : x = v
    · subst e
      simp only [upd_same]
      refine ⟨hi, ho, a1, a2, a3, by omega, le_refl _, fun hc => by omega, fun _ => ⟨?_, b, at_, by simp; omega⟩⟩
      rcases hn with g1 | g1
      · exact (a7 ((h.dwell x b at_ g1).1)).1
      · rw [← a6 (by omega), g1]
    · simp only [upd_other _ _ _ _ e]
      refine ⟨hi, ho, a1, a2, a3, a4, a5, a6, fun hc => ⟨(a7 hc).1, ?_⟩⟩
      obtain ⟨y, hy, hys⟩ := (a7 hc).2
      refine ⟨y, hy, ?_⟩
      rw [upd_other _ _ _ _ fun eb : y = b => e (hs.uniq _ _ _ (eb ▸ hy) at_)]
      exact hys
  · rw [e3] at hy ⊢
    rw [e2] at hys ⊢
    rw [e1]
    by_cases ex : x = v
    · subst ex
      rw [upd_same]
      refine ⟨rfl, ?_⟩
      have : ∀ z ∈ s.busQ x, 0 < upd s.stopped b (s.stopped b + 1) z → z = b := fun z hz hzs => by
        by_contra e
        rw [upd_other _ _ _ _ e] at hzs
        have hd := h.dwell x z hz hzs
        rcases hn with g1 | g1
        · exact e ((hd.2 b at_ g1).symm)
        · have := hd.1; omega
      rw [this y hy hys]
      exact this
    · rw [upd_other _ _ _ _ ex]
      have hne : ∀ z ∈ s.busQ x, z ≠ b := fun z hz eb => ex (hs.uniq _ _ _ (eb ▸ hz) at_)
      rw [upd_other _ _ _ _ (hne y hy)] at hys
      refine ⟨(h.dwell x y hy hys).1, fun z hz hzs => ?_⟩
      rw [upd_other _ _ _ _ (hne z hz)] at hzs
      exact (h.dwell x y hy hys).2 z hz hzs
  · rw [e2]
    by_cases e : y = b
    · subst e; simp; omega
    · rw [upd_other _ _ _ _ e]; exact h.nonneg y
  · rw [e3] at hy
    rw [e2, upd_other _ _ _ _ fun e : y = b => hy v (e ▸ at_)]
    exact h.away y hy

end Verif.Tr
