import Verif.Lemmas.TransitCount
import Verif.Spec.MmStats

/-!
# The record of passengers who wait
-/

namespace Verif.Tr
open Ults Curve

theorem Micro.queueNum {c : Cfg} {R : Routes} {strict : Prop} {ts : ℕ} {ph : Phase} {s s' : State}
    (h1 : ph ≠ .late) (h2 : ph ≠ .any) (m : Micro c R strict ts ph s s') : s'.queueNum = s.queueNum := by
  cases m with
  | park orc k car h =>
    unfold parkCar
    simp only
    split <;> rfl
  | move p a b src dst s' mem phase _ legal cross => rw [cross.eq]; rfl
  | ride p b v i o s' mem at_ in_ out next cur cross => rw [cross.eq]
  | leave p d s' mem h =>
    obtain ⟨_, _, rfl⟩ := receivePax_ok h
    rfl
  | record q e _ keep => exact keep h1 h2
  | _ => rfl

theorem Steps.queueNum {c : Cfg} {R : Routes} {strict : Prop} {ts : ℕ} {ph : Phase} {s s' : State}
    (h1 : ph ≠ .late) (h2 : ph ≠ .any) (m : Steps c R strict ts ph s s') : s'.queueNum = s.queueNum :=
  m.inv (P := fun t => t.queueNum = s.queueNum) (fun _ _ h m => (m.queueNum h1 h2).trans h) rfl

private theorem fold_queueNum {α : Type} (f : State → α → Res State)
    (hf : ∀ s a s', f s a = .ok s' → s'.queueNum = s.queueNum) (as : List α) (s s' : State)
    (h : Res.foldlM f s as = .ok s') : s'.queueNum = s.queueNum := by
  induction as generalizing s with
  | nil => cases h; rfl
  | cons a as ih =>
    rw [Res.foldlM_cons] at h
    obtain ⟨t, h1, h2⟩ := Res.bind_eq_ok.1 h
    rw [ih t h2, hf s a t h1]

private theorem busLinkStep_queueNum (c : Cfg) (orc : Orc) (s : State) (l : ℕ) (s' : State)
    (h : busLinkStep c orc s l = .ok s') : s'.queueNum = s.queueNum := by
  unfold busLinkStep at h
  split at h
  · cases h; rfl
  · obtain ⟨t, h1, h2⟩ := Res.bind_eq_ok'.1 h
    have a := fold_queueNum (busClearPax l) (fun s p s' h => by
      unfold busClearPax at h
      cases h
      rfl) _ _ _ h1
    have b := fold_queueNum (agePax l (orc.busTt l)) (fun s p s' h => by
      unfold agePax at h
      split at h <;> cases h <;> rfl) _ _ _ h2
    rw [b, a]

theorem loadOnce_queueNum {c : Cfg} {R : Routes} {strict : Prop} (hy : Hyp c R strict) {orc : Orc} (ho : orc.Ok R)
    {ts assign : ℕ} {s s' : State} (hs : Inv c R strict s) (h : loadOnce c orc ts assign s = .ok s') :
    ∃ w, beforeBuses c orc ts assign s = .ok w ∧ s'.queueNum = s.queueNum ++ [atEnds c w] := by
  simp only [loadOnce, Res.bind_eq_ok'] at h
  obtain ⟨w, hw, u, h8, hafter⟩ := h
  refine ⟨w, hw, ?_⟩
  obtain ⟨t, b1, b2⟩ := beforeBuses_phases hy ho hs hw
  have iw := (hs.steps hy b1).steps hy b2
  have a8 := buses_steps hy ho (fun _ h => h) iw h8
  have i8 := iw.steps hy a8
  have hA : s'.queueNum = w.queueNum := by
    obtain ⟨v, _, c1, c2⟩ := afterBuses_phases hy ho i8 hafter
    rw [c2.queueNum (by simp) (by simp), c1.queueNum (by simp) (by simp), a8.queueNum (by simp) (by simp)]
  rw [hA]
  simp only [beforeBuses, Res.bind_eq_ok', Res.ok.injEq] at hw
  obtain ⟨s1, h1, s2, h2, s3, h3, s4, h4, s5, h5, s6, h6, s7, h7, rfl⟩ := hw
  have a1 : Steps c R strict ts .early s s1 := stepRelease_steps ho hy hs h1
  have i1 := hs.steps hy a1
  obtain ⟨a2, r2⟩ := routing_steps (ts := ts) hy ho i1 h2
  have a2 : Steps c R strict ts .early s1 s2 := a2
  have a3 : Steps c R strict ts .early s2 s3 :=
    steps_each hy (fun _ _ _ _ hi h => originEvolve_steps hy hi h) r2.1 h3
  have r3 := r2.steps hy a3
  have a4 : Steps c R strict ts .early s3 s4 :=
    steps_each hy (fun _ _ _ hd hi h => destEvolve_steps hy rfl hd hi h) r3.1 h4
  have r4 := r3.steps hy a4
  have a5 : Steps c R strict ts .early s4 s5 :=
    steps_each hy (fun _ _ _ hk hi h => stopEvolve_steps hy rfl hk hi h) r4.1 h5
  have r5 := r4.steps hy a5
  have a6 : Steps c R strict ts .early s5 s6 :=
    steps_each hy (fun _ _ _ _ hi h => walkStep_steps hy ho (.inl rfl) hi h) r5.1 h6
  have r6 := r5.steps hy a6
  have e7 : s7.queueNum = s6.queueNum := by
    unfold implicitStep at h7
    split at h7
    · cases h7; rfl
    · obtain ⟨x, g1, g2⟩ := Res.bind_eq_ok'.1 h7
      have ax : Steps c R strict ts .early s6 x :=
        (steps_fold (Q := Routed c R strict (fun x _ => x ∈ c.linkIds)) _ (fun s v s' hv hQ h =>
          ⟨virtualEvolve_steps hy hv hQ h, hQ.steps hy (virtualEvolve_steps (ph := .early) (ts := ts) hy hv hQ h)⟩)
          s6 x r6 g1).1
      rw [fold_queueNum _ (busLinkStep_queueNum c orc) _ _ _ g2, ax.queueNum (by simp) (by simp)]
  show s7.queueNum ++ [atEnds c s7] = _
  rw [e7, a6.queueNum (by simp) (by simp), a5.queueNum (by simp) (by simp), a4.queueNum (by simp) (by simp),
    a3.queueNum (by simp) (by simp), a2.queueNum (by simp) (by simp), a1.queueNum (by simp) (by simp)]
  rfl

/-- The record of waiting passengers over a loading: entry `i` is what interval `i` finds. -/
theorem loadMany_queueNum {c : Cfg} {R : Routes} {strict : Prop} (hy : Hyp c R strict) :
    ∀ (orcs : List Orc) (ts assign : ℕ) (s : State) (r : State × ℕ × ℕ), (∀ o ∈ orcs, o.Ok R) → Inv c R strict s →
      loadMany c orcs ts assign s = .ok r →
      ∃ L : List ℕ, r.1.queueNum = s.queueNum ++ L ∧ L.length = orcs.length ∧
        ∀ i o, orcs[i]? = some o → ∃ si ai w, loadMany c (orcs.take i) ts assign s = .ok (si, ts + i, ai) ∧
          beforeBuses c o (ts + i) ai si = .ok w ∧ L[i]? = some (atEnds c w)
  | [], ts, assign, s, r, _, _, h => by
    simp only [loadMany, Res.ok.injEq] at h
    subst h
    exact ⟨[], by simp, rfl, fun i o hi => by simp at hi⟩
  | o :: os, ts, assign, s, r, hok, hs, h => by
    simp only [loadMany, Res.bind_eq_ok'] at h
    obtain ⟨s1, h1, h⟩ := h
    have i1 := hs.steps hy (loadOnce_steps hy (hok o List.mem_cons_self) hs h1)
    obtain ⟨w, hw, e1⟩ := loadOnce_queueNum hy (hok o List.mem_cons_self) hs h1
    obtain ⟨L, e2, e3, e4⟩ := loadMany_queueNum hy os (ts + 1) _ s1 r (fun x hx => hok x (List.mem_cons_of_mem _ hx)) i1 h
    refine ⟨atEnds c w :: L, by rw [e2, e1]; simp, by simp [e3], fun i o' hi => ?_⟩
    cases i with
    | zero =>
      simp only [List.getElem?_cons_zero, Option.some.injEq] at hi
      subst hi
      exact ⟨s, assign, w, rfl, hw, by simp⟩
    | succ i =>
      rw [List.getElem?_cons_succ] at hi
      obtain ⟨si, ai, w', g1, g2, g3⟩ := e4 i o' hi
      rw [show ts + 1 + i = ts + (i + 1) by omega] at g1 g2
      refine ⟨si, ai, w', ?_, g2, by rw [List.getElem?_cons_succ]; exact g3⟩
      rw [List.take_succ_cons]
      simp only [loadMany]
      rw [h1, Res.bind_ok']
      exact g1

end Verif.Tr
