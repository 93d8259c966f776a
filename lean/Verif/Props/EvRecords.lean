import Verif.Lemmas.EvRecords
import Verif.Props.Charge

/-!
# C216: the records that charging stations save
-/

namespace Verif
open Text Io Rd FlowF EvRec

/-- **C216 (the file of waiting times).**  Take any record of waiting times — intervals in ascending order, each once, with a
wait each — kept in memory in any order.  Saving it succeeds, and the file has the header and then one line for each interval
of the record in ascending order, of two cells: the interval, and the wait in seconds. -/
theorem C216_waiting_file (unit : ℤ) (xs r : List (ℤ × ℤ)) (hs : (xs.map (·.1)).Pairwise (· < ·)) (hp : r.Perm xs)
    (hb : ∀ x ∈ xs, IntOk x.1 ∧ IntOk (x.2 * unit)) :
    ∃ text rows, saveWaits unit r = .ok text ∧ linesOf text = "loading_interval,waiting_time_in_second".toList :: rows ∧
      List.Forall₂ (fun x l => ∃ a b, Text.split l ',' = [a, b] ∧ stoi a = .ok x.1 ∧ stoi b = .ok (x.2 * unit)) xs rows := by
  have hsort : (r.map (·.1)).mergeSort (fun a b => decide (a ≤ b)) = xs.map (·.1) := by
    refine List.Perm.eq_of_pairwise (le := (· ≤ ·)) (fun a b _ _ => le_antisymm) ?_ (hs.imp le_of_lt)
      ((List.mergeSort_perm _ _).trans (hp.map _))
    have := List.pairwise_mergeSort (le := fun a b : ℤ => decide (a ≤ b)) (fun a b c h1 h2 => by simp at *; omega)
      (fun a b => by simp; omega) (r.map (·.1))
    exact this.imp fun h => by simpa using h
  have hn : (r.map (·.1)).Nodup := (hp.map _).nodup_iff.2 (hs.imp fun h => ne_of_lt h)
  have e := waitRows hn (fun x hx => (hb x (hp.mem_iff.1 hx)).2) xs (waitHeader ++ ['\n']) fun x hx => hp.mem_iff.2 hx
  refine ⟨((waitHeader ++ ['\n']) ++ (xs.map fun x => csvRow (toStr x.1) (toStr (x.2 * unit))).flatMap fun l => l ++ ['\n']).dropLast,
    xs.map fun x => csvRow (toStr x.1) (toStr (x.2 * unit)), ?_, ?_, ?_⟩
  · unfold saveWaits
    rw [hsort, e, Res.bind_ok']
  · rw [List.append_assoc, List.singleton_append]
    refine linesOf_join waitHeader _ (by decide) ?_
    intro l hl
    obtain ⟨x, _, rfl⟩ := List.mem_map.1 hl
    unfold csvRow
    simp only [List.mem_append, List.mem_cons, not_or]
    exact ⟨(toStr_plain _).2.1, by decide, (toStr_plain _).2.1⟩
  · rw [List.forall₂_map_right_iff, List.forall₂_same]
    intro x hx
    obtain ⟨a1, _, a3⟩ := toStr_plain x.1
    obtain ⟨b1, _, b3⟩ := toStr_plain (x.2 * unit)
    exact ⟨_, _, split_csv a1 b1 a3 b3, stoi_toStr _ (hb x hx).1, stoi_toStr _ (hb x hx).2⟩

/-- **C216 (what a station saves after a loading).**  After any number of intervals, with any vehicles arriving, a station
saves one line for each of the intervals from zero to the last one, in this order: the interval, and — in seconds — the
charging time of the vehicles in a shortest queue at that time (nothing at time zero). -/
theorem C216_station_waits (c : Chg.Cfg) (hl : c.inLinks.Nodup) (as : List Chg.Around) (veh : ℕ → Chg.Ev)
    (ho : Chg.Ok c as 0 (Chg.State.init c veh)) (s : Chg.State) (hr : Chg.run c as 0 (Chg.State.init c veh) = .ok s)
    (r : List (ℤ × ℤ)) (hp : r.Perm s.record) (hlen : as.length ≤ 2147483647) (hb : ∀ x ∈ s.record, IntOk (x.2 * c.unit)) :
    ∃ text rows, saveWaits c.unit r = .ok text ∧ linesOf text = "loading_interval,waiting_time_in_second".toList :: rows ∧
      rows.length = as.length + 1 ∧ ∀ t (h : t < rows.length), ∃ a b, Text.split rows[t] ',' = [a, b] ∧ stoi a = .ok (t : ℤ) ∧
        (t = 0 → stoi b = .ok 0) ∧ (0 < t → ∃ i < c.queues, stoi b = .ok (c.time * s.waiting i t * c.unit) ∧
          ∀ j < c.queues, s.waiting i t ≤ s.waiting j t) := by
  obtain ⟨hk0, h0, hv⟩ := C116_waiting_times_are_recorded c hl as veh ho s hr
  have hk : s.record.map (·.1) = (List.range (as.length + 1)).map (Nat.cast : ℕ → ℤ) := by
    rw [hk0, List.map_id', List.map_eq_flatMap]
    rfl
  have hs : (s.record.map (·.1)).Pairwise (· < ·) := by
    rw [hk, List.pairwise_map]
    exact List.pairwise_lt_range.imp fun h => by exact_mod_cast h
  have hmem : ∀ x ∈ s.record, ∃ t : ℕ, t ≤ as.length ∧ x.1 = t := by
    intro x hx
    have : x.1 ∈ s.record.map (·.1) := List.mem_map.2 ⟨x, hx, rfl⟩
    rw [hk] at this
    obtain ⟨t, ht, e⟩ := List.mem_map.1 this
    exact ⟨t, by have := List.mem_range.1 ht; omega, e.symm⟩
  obtain ⟨text, rows, e1, e2, e3⟩ := C216_waiting_file c.unit s.record r hs hp fun x hx => by
    obtain ⟨t, ht, e⟩ := hmem x hx
    refine ⟨?_, hb x hx⟩
    unfold IntOk
    omega
  have hl' : s.record.length = as.length + 1 := by
    have := congrArg List.length hk
    simpa using this
  have hlr : rows.length = as.length + 1 := by rw [← e3.length_eq, hl']
  refine ⟨text, rows, e1, e2, hlr, fun t ht => ?_⟩
  have ht' : t < s.record.length := by omega
  obtain ⟨a, b, f1, f2, f3⟩ := e3.get ht' ht
  simp only [List.get_eq_getElem] at f1 f2 f3
  have hkey : (s.record[t]).1 = (t : ℤ) := by
    have : (s.record.map (·.1))[t]'(by simpa using ht') = ((List.range (as.length + 1)).map (Nat.cast : ℕ → ℤ))[t]'(by simp; omega) := by
      simp only [hk]
    simpa using this
  have hin : ((t : ℤ), (s.record[t]).2) ∈ s.record := by
    have := List.getElem_mem ht'
    rw [← hkey]
    exact this
  refine ⟨a, b, f1, by rw [f2, hkey], fun h => ?_, fun h => ?_⟩
  · subst h
    have hnd : (s.record.map (·.1)).Nodup := hs.imp fun h => ne_of_lt h
    have g1 := find_key hnd h0
    have g2 := find_key hnd hin
    rw [show ((0 : ℕ) : ℤ) = 0 from rfl, g1] at g2
    have g3 : (s.record[0]).2 = 0 := by
      have := Option.some.inj g2
      exact (congrArg Prod.snd this).symm
    rw [f3, g3]
    simp
  · obtain ⟨u, rfl⟩ : ∃ u, t = u + 1 := ⟨t - 1, by omega⟩
    obtain ⟨i, hi, e, hmin⟩ := hv u (s.record[u + 1]).2 (by exact_mod_cast hin)
    exact ⟨i, hi, by rw [f3, e], hmin⟩

/-- **C216 (the file of charged vehicles).**  Take any curve with at least one record, times whole and ascending, kept in
memory in any order.  Saving it succeeds, and the file has the header and then one line for each record in ascending order, of
two cells: the time, and the number up to half a millionth. -/
theorem C216_charged_file (xs r : Curve.Curve) (hne : xs ≠ []) (hs : (xs.map (·.1)).Pairwise (· < ·)) (hp : r.Perm xs)
    (hb : ∀ x ∈ xs, ∃ n : ℤ, IntOk n ∧ x.1 = n) :
    ∃ text rows, saveCharged r = .ok text ∧ linesOf text = "loading_interval,cum_vehicle_charged".toList :: rows ∧
      List.Forall₂ (fun (x : ℚ × ℚ) l => ∃ a b, ∃ n : ℤ, Text.split l ',' = [a, b] ∧ stoi a = .ok n ∧ x.1 = n ∧ ∃ y, stod b = .ok y ∧ Close x.2 y)
        xs rows := by
  have hlt : xs.Pairwise fun a b => a.1 < b.1 := List.pairwise_map.1 hs
  have hsort : Curve.arrange r = xs := by
    unfold Curve.arrange
    refine List.Perm.eq_of_pairwise (le := fun a b : ℚ × ℚ => a.1 ≤ b.1) ?_ ?_ (hlt.imp le_of_lt)
      ((List.mergeSort_perm _ _).trans hp)
    · intro a b ha hb' h1 h2
      have ha' : a ∈ xs := ((List.mergeSort_perm _ _).trans hp).mem_iff.1 ha
      by_contra hab
      rcases lt_trichotomy a.1 b.1 with h | h | h
      · exact absurd h2 (not_le.2 h)
      · have hnd : (xs.map (·.1)).Nodup := hs.imp fun h => ne_of_lt h
        exact hab (List.inj_on_of_nodup_map hnd ha' hb' h)
      · exact absurd h1 (not_le.2 h)
    · have := List.pairwise_mergeSort (le := fun a b : ℚ × ℚ => decide (a.1 ≤ b.1))
        (fun a b c h1 h2 => by simp only [decide_eq_true_eq] at *; exact le_trans h1 h2)
        (fun a b => by simp only [Bool.or_eq_true, decide_eq_true_eq]; exact le_total _ _) r
      exact this.imp fun h => by simpa using h
  have hcut : ∀ n : ℤ, cut (n : ℚ) = n := by
    intro n
    unfold cut
    split <;> simp
  obtain ⟨x0, xs', rfl⟩ := List.exists_cons_of_ne_nil hne
  have hflat : ((x0 :: xs').flatMap fun r => toStr (cut r.1) ++ ',' :: (dec r.2 ++ ['\n'])) =
      ((x0 :: xs').map fun r => csvRow (toStr (cut r.1)) (dec r.2)).flatMap fun l => l ++ ['\n'] := by
    rw [List.flatMap_map]
    apply List.flatMap_congr
    intro x _
    simp [csvRow]
  have htext : ∃ a s, ((x0 :: xs').flatMap fun r => toStr (cut r.1) ++ ',' :: (dec r.2 ++ ['\n'])) = a :: s :=
    List.exists_cons_of_ne_nil (by simp)
  obtain ⟨a, s, has⟩ := htext
  refine ⟨chargedHeader ++ '\n' :: (a :: s).dropLast, (x0 :: xs').map fun r => csvRow (toStr (cut r.1)) (dec r.2), ?_, ?_, ?_⟩
  · unfold saveCharged curveText
    rw [hsort, has]
    rfl
  · have : chargedHeader ++ '\n' :: (a :: s).dropLast = (chargedHeader ++ '\n' :: (a :: s)).dropLast := by
      rw [List.dropLast_append_of_ne_nil (by simp)]
      rfl
    rw [this, ← has, hflat]
    refine linesOf_join chargedHeader _ (by decide) ?_
    intro l hl
    obtain ⟨x, _, rfl⟩ := List.mem_map.1 hl
    unfold csvRow
    simp only [List.mem_append, List.mem_cons, not_or]
    exact ⟨(toStr_plain _).2.1, by decide, (dec_plain _).2.1⟩
  · rw [List.forall₂_map_right_iff, List.forall₂_same]
    intro x hx
    obtain ⟨n, hn, e⟩ := hb x hx
    obtain ⟨a1, _, a3⟩ := toStr_plain (cut x.1)
    obtain ⟨b1, _, b3⟩ := dec_plain x.2
    refine ⟨_, _, n, split_csv a1 b1 a3 b3, ?_, e, _, stod_dec _, close_dec _⟩
    rw [e, hcut]
    exact stoi_toStr _ hn

/-! The hypotheses are met by the station of C115 and C116. -/

example : ∃ s, Chg.run chgDemo (chgDay.take 8) 0 chgStart = .ok s ∧ chgDemo.inLinks.Nodup ∧
    Chg.Ok chgDemo (chgDay.take 8) 0 chgStart ∧ (∀ x ∈ s.record, -2147483648 ≤ x.2 * chgDemo.unit ∧ x.2 * chgDemo.unit ≤ 2147483647) :=
  ⟨_, chgDay_run 8 le_rfl, by decide, chgDay_ok 8 le_rfl, by decide +kernel⟩

example : (([(0, 0), (1, 3), (2, 1)] : List (ℤ × ℤ)).map (·.1)).Pairwise (· < ·) ∧
    List.Perm ([(2, 1), (0, 0), (1, 3)] : List (ℤ × ℤ)) [(0, 0), (1, 3), (2, 1)] := by decide

example : (([(0, 0), (3, 1 / 2), (4, 3 / 2)] : Curve.Curve).map (·.1)).Pairwise (· < ·) ∧
    ∀ x ∈ ([(0, 0), (3, 1 / 2), (4, 3 / 2)] : Curve.Curve), ∃ n : ℤ, IntOk n ∧ x.1 = n := by
  refine ⟨by decide, ?_⟩
  intro x hx
  simp only [List.mem_cons, List.not_mem_nil, or_false] at hx
  rcases hx with rfl | rfl | rfl
  · exact ⟨0, by unfold IntOk; decide, by norm_num⟩
  · exact ⟨3, by unfold IntOk; decide, by norm_num⟩
  · exact ⟨4, by unfold IntOk; decide, by norm_num⟩

end Verif
