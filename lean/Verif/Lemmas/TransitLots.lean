import Verif.Lemmas.TransitArrive

/-!
# Parking lots of a multimodal network
-/

namespace Verif.Tr
open Ults Curve

/-- Parking lots do not change. -/
structure LotsKept (s s' : State) : Prop where
  parked : s'.parked = s.parked
  occupancy : s'.occupancy = s.occupancy
  cruise : s'.cruise = s.cruise
  numPnr : s'.numPnr = s.numPnr

theorem LotsKept.trans {s t u : State} (h : LotsKept s t) (h' : LotsKept t u) : LotsKept s u :=
  ⟨h'.parked.trans h.parked, h'.occupancy.trans h.occupancy, h'.cruise.trans h.cruise, h'.numPnr.trans h.numPnr⟩

theorem receivePax_lots {c : Cfg} {ts d p : ℕ} {s s' : State} (h : receivePax c ts d s p = .ok s') :
    LotsKept s s' := by
  obtain ⟨_, _, rfl⟩ := receivePax_ok h
  exact ⟨rfl, rfl, rfl, rfl⟩

theorem Micro.lots {c : Cfg} {R : Routes} {strict : Prop} {ts : ℕ} {ph : Phase} {s s' : State}
    (h1 : ph ≠ .recv) (h2 : ph ≠ .any) (m : Micro c R strict ts ph s s') : LotsKept s s' := by
  cases m with
  | park orc k car h => rcases h with e | e <;> contradiction
  | lotRec k h => rcases h with e | e <;> contradiction
  | move p a b src dst s' mem phase _ legal cross => rw [cross.eq]; exact ⟨rfl, rfl, rfl, rfl⟩
  | ride p b v i o s' mem at_ in_ out next cur cross => rw [cross.eq]; exact ⟨rfl, rfl, rfl, rfl⟩
  | leave p d s' mem h => exact receivePax_lots h
  | _ => exact ⟨rfl, rfl, rfl, rfl⟩

theorem Steps.lots {c : Cfg} {R : Routes} {strict : Prop} {ts : ℕ} {ph : Phase} {s s' : State}
    (h1 : ph ≠ .recv) (h2 : ph ≠ .any) (m : Steps c R strict ts ph s s') : LotsKept s s' :=
  m.inv (P := fun t => LotsKept s t) (fun _ _ h m => h.trans (m.lots h1 h2)) ⟨rfl, rfl, rfl, rfl⟩

theorem parkCars_lots (orc : Orc) (ts k : ℕ) : ∀ (L : List CarIn) (s : State),
    (L.foldl (parkCar orc ts k) s).parked = upd s.parked k (s.parked k + L.length) ∧
    (L.foldl (parkCar orc ts k) s).occupancy = s.occupancy ∧
    (L.foldl (parkCar orc ts k) s).cruise = s.cruise ∧
    (L.foldl (parkCar orc ts k) s).numPnr = s.numPnr + (L.countP fun x => x.pnr : ℕ)
  | [], s => by
    refine ⟨funext fun x => ?_, rfl, rfl, by simp⟩
    by_cases e : x = k
    · subst e; simp
    · simp [upd_other _ _ _ _ e]
  | x :: L, s => by
    obtain ⟨a1, a2, a3, a4⟩ := parkCars_lots orc ts k L (parkCar orc ts k s x)
    have b : (parkCar orc ts k s x).parked = upd s.parked k (s.parked k + 1) ∧
        (parkCar orc ts k s x).occupancy = s.occupancy ∧ (parkCar orc ts k s x).cruise = s.cruise ∧
        (parkCar orc ts k s x).numPnr = s.numPnr + if x.pnr then 1 else 0 := by
      unfold parkCar
      cases x.pnr <;> simp [State.makePax]
    obtain ⟨b1, b2, b3, b4⟩ := b
    rw [List.foldl_cons]
    refine ⟨?_, a2.trans b2, a3.trans b3, ?_⟩
    · rw [a1, b1, upd_same]
      funext y
      by_cases e : y = k
      · subst e; simp; ring
      · simp [upd_other _ _ _ _ e]
    · rw [a4, b4, List.countP_cons]
      cases x.pnr <;> simp <;> ring

/-- What `receive` at a destination does to the parking lots. -/
theorem receive_lots {c : Cfg} {orc : Orc} {ts d : ℕ} {s s' : State} (h : receive c orc ts s d = .ok s') :
    ((c.dest d).lot = none → LotsKept s s') ∧
    ∀ k, (c.dest d).lot = some k →
      s'.parked = upd s.parked k (s.parked k + (orc.cars k).length) ∧
      s'.occupancy = upd s.occupancy k ((s.parked k + (orc.cars k).length : ℤ) : ℚ) ∧
      s'.cruise = upd s.cruise k ((s.cruise k).insert ((ts : ℤ) + 1)
        (if ((s.parked k + (orc.cars k).length : ℤ) : ℚ) ≥ (c.lot k).capacity then 10 * (c.lot k).avg
          else (c.lot k).avg / (1 - ((s.parked k + (orc.cars k).length : ℤ) : ℚ) / (c.lot k).capacity))) ∧
      s'.numPnr = s.numPnr + ((orc.cars k).countP fun x => x.pnr : ℕ) := by
  unfold receive at h
  simp only at h
  have key : ∀ t, Res.foldlM (receivePax c ts d) t (t.loc (.dest d)) = .ok s' → LotsKept t s' := fun t h =>
    Res.foldlM_inv (P := fun x => LotsKept t x) (fun _ _ _ hP hx => hP.trans (receivePax_lots hx)) _ _ _ ⟨rfl, rfl, rfl, rfl⟩ h
  refine ⟨fun hn => ?_, fun k hk => ?_⟩
  · rw [hn] at h; exact key s h
  · rw [hk] at h
    have e := key _ h
    obtain ⟨a1, a2, a3, a4⟩ := parkCars_lots orc ts k (orc.cars k) s
    refine ⟨?_, ?_, ?_, ?_⟩
    · rw [e.parked]; exact a1
    · rw [e.occupancy]; simp only [lotRelease, lotRecord, a1, a2, upd_same]
    · rw [e.cruise]; simp only [lotRelease, lotRecord, a1, a3, upd_same]
    · rw [e.numPnr]; exact a4

/-- What receiving at all destinations does to the parking lots. -/
theorem receiveAll_lots {c : Cfg} {orc : Orc} {ts : ℕ} : ∀ (L : List ℕ) (s s' : State),
    (L.filterMap fun d => (c.dest d).lot).Nodup → Res.foldlM (receive c orc ts) s L = .ok s' →
    (∀ k, k ∉ (L.filterMap fun d => (c.dest d).lot) → s'.parked k = s.parked k ∧ s'.occupancy k = s.occupancy k ∧
      s'.cruise k = s.cruise k) ∧
    (∀ k ∈ (L.filterMap fun d => (c.dest d).lot),
      s'.parked k = s.parked k + (orc.cars k).length ∧
      s'.occupancy k = ((s.parked k + (orc.cars k).length : ℤ) : ℚ) ∧
      s'.cruise k = (s.cruise k).insert ((ts : ℤ) + 1)
        (if ((s.parked k + (orc.cars k).length : ℤ) : ℚ) ≥ (c.lot k).capacity then 10 * (c.lot k).avg
          else (c.lot k).avg / (1 - ((s.parked k + (orc.cars k).length : ℤ) : ℚ) / (c.lot k).capacity))) ∧
    s'.numPnr = s.numPnr + (((L.filterMap fun d => (c.dest d).lot).map fun k =>
      (orc.cars k).countP fun x => x.pnr).sum : ℕ)
  | [], s, s', _, h => by
    simp only [Res.foldlM_nil, Res.ok.injEq] at h
    subst h
    simp
  | d :: L, s, s', hn, h => by
    rw [Res.foldlM_cons, Res.bind_eq_ok] at h
    obtain ⟨t, h1, h⟩ := h
    obtain ⟨r1, r2⟩ := receive_lots h1
    cases hd : (c.dest d).lot with
    | none =>
      rw [List.filterMap_cons_none (f := fun d => (c.dest d).lot) hd] at hn ⊢
      obtain ⟨i1, i2, i3⟩ := receiveAll_lots L t s' hn h
      have e := r1 hd
      rw [e.parked, e.occupancy, e.cruise] at i1
      rw [e.parked, e.cruise] at i2
      rw [e.numPnr] at i3
      exact ⟨i1, i2, i3⟩
    | some k =>
      rw [List.filterMap_cons_some (f := fun d => (c.dest d).lot) hd] at hn ⊢
      rw [List.nodup_cons] at hn
      obtain ⟨i1, i2, i3⟩ := receiveAll_lots L t s' hn.2 h
      obtain ⟨e1, e2, e3, e4⟩ := r2 k hd
      refine ⟨fun x hx => ?_, fun x hx => ?_, ?_⟩
      · simp only [List.mem_cons, not_or] at hx
        rw [e1, e2, e3] at i1
        simpa [upd_other _ _ _ _ hx.1] using i1 x hx.2
      · by_cases hxk : x = k
        · subst hxk
          have := i1 x hn.1
          rw [e1, e2, e3] at this
          simpa using this
        · have hx : x ∈ L.filterMap fun d => (c.dest d).lot := by simpa [hxk] using hx
          have := i2 x hx
          rw [e1, e3] at this
          simpa [upd_other _ _ _ _ hxk] using this
      · rw [i3, e4, List.map_cons, List.sum_cons]; push_cast; ring

/-- The parking lots between intervals. -/
structure LotsInv (c : Cfg) (orcs : List Orc) (ts : ℕ) (s : State) : Prop where
  time : ts = orcs.length
  parked : ∀ k ∈ c.lots, s.parked k = carsAt orcs k
  occupancy : ∀ k ∈ c.lots, s.occupancy k = carsAt orcs k
  cruise : ∀ k ∈ c.lots, s.cruise k = ((0 : ℤ), (c.lot k).avg) ::
    (List.range orcs.length).map fun i : ℕ => (((i : ℤ) + 1), (c.lot k).search (carsAt (orcs.take (i + 1)) k))
  numPnr : s.numPnr = pnrCars c orcs

theorem loadOnce_lots {c : Cfg} {R : Routes} {strict : Prop} (hy : Hyp c R strict) {o : Orc} (ho : o.Ok R)
    (hn : c.lots.Nodup) {pre : List Orc} {ts assign : ℕ} {s s' : State} (hi : Inv c R strict s)
    (h : LotsInv c pre ts s) (hl : loadOnce c o ts assign s = .ok s') :
    LotsInv c (pre ++ [o]) (ts + 1) s' := by
  obtain ⟨t, w, u, v, h1, h2, _, h2', h3, h4, h5⟩ := loadOnce_phases hy ho hi hl
  have e1 := ((Steps.lots (by simp) (by simp) h1).trans (Steps.lots (by simp) (by simp) h2)).trans
    (Steps.lots (by simp) (by simp) h2')
  have e2 := Steps.lots (by simp) (by simp) h5
  obtain ⟨_, i2, i3⟩ := receiveAll_lots c.destIds u v hn h3
  rw [e1.parked, e1.cruise] at i2
  rw [e1.numPnr] at i3
  have hc : ∀ k, (carsAt (pre ++ [o]) k : ℤ) = carsAt pre k + (o.cars k).length := fun k => by
    simp [carsAt]
  have hq : ∀ k, (carsAt (pre ++ [o]) k : ℚ) = carsAt pre k + (o.cars k).length := fun k => by
    simp [carsAt]
  refine ⟨by rw [h.time]; simp, fun k hk => ?_, fun k hk => ?_, fun k hk => ?_, ?_⟩
  · rw [e2.parked, (i2 k hk).1, h.parked k hk, hc]
  · rw [e2.occupancy, (i2 k hk).2.1, h.parked k hk, hq]; push_cast; ring
  · rw [e2.cruise, (i2 k hk).2.2, h.parked k hk, h.cruise k hk, Store.insert, if_neg, List.length_append,
      List.length_singleton, List.range_succ, List.map_append, List.cons_append]
    · congr 2
      · refine List.map_congr_left fun i hi => ?_
        rw [List.take_append_of_le_length (by have := List.mem_range.1 hi; omega)]
      · simp only [List.map_cons, List.map_nil, List.cons.injEq, Prod.mk.injEq, and_true]
        refine ⟨by rw [h.time], ?_⟩
        rw [show pre.length + 1 = (pre ++ [o]).length by simp, List.take_length]
        unfold Lot.search
        rw [hq]
        push_cast
        rfl
    · rw [Store.has_iff]
      simp only [Store.keys, List.map_cons, List.map_map, List.mem_cons, List.mem_map, List.mem_range,
        Function.comp, not_or, not_exists, not_and]
      refine ⟨by omega, fun i hi => ?_⟩
      rw [h.time]
      omega
  · rw [e2.numPnr, i3, h.numPnr]
    simp [pnrCars, Cfg.lots]

/-- The parking lots after a loading. -/
theorem load_lots {c : Cfg} {R : Routes} {strict : Prop} (hy : Hyp c R strict) (hn : c.lots.Nodup)
    {orcs : List Orc} (hok : ∀ o ∈ orcs, o.Ok R) {r : State × ℕ × ℕ}
    (h : loadMany c orcs 0 0 (State.init c) = .ok r) : LotsInv c orcs orcs.length r.1 := by
  have := loadMany_each (R := R) (P := fun pre ts s => Inv c R strict s ∧ LotsInv c pre ts s)
    (fun pre o ts assign s s' ho hP hl =>
      ⟨hP.1.steps hy (loadOnce_steps hy ho hP.1 hl), loadOnce_lots hy ho hn hP.1 hP.2 hl⟩) orcs [] 0 0 _ r hok
    ⟨Inv.init c R strict, rfl, fun k _ => by simp [State.init, carsAt], fun k _ => by simp [State.init, carsAt],
      fun k _ => by simp [State.init], by simp [State.init, pnrCars]⟩ h
  rw [loadMany_ts orcs 0 0 _ r h] at this
  simpa using this.2

end Verif.Tr
