import Verif.Lemmas.Stats

/-! # C47: recorded averages are averages -/

namespace Verif
open Stat

/-- The mean of the values of link `l` at the `n` loading intervals up to and including `t`. -/
def meanUpTo (n : ℕ) (val : ℤ → ℤ → ℚ) (t l : ℤ) : ℚ :=
  ((List.range n).map fun (i : ℕ) => val (t - i) l).sum / n

/-- The rows that the record file should have after intervals `0 … T`: the empty network if a record is
made in every interval, interval 0 by itself, and then for every full period of `n` intervals the mean of
its values, in the order of the links of the header. -/
def meanRows (n : ℕ) (links : List ℤ) (val : ℤ → ℤ → ℚ) (T : ℕ) : List (ℤ × List ℚ) :=
  (if n = 1 then [(-1, links.map (val (-1)))] else []) ++
  (0, links.map (val 0)) ::
  (List.range (T / n)).map fun (k : ℕ) =>
    (((k + 1) * n : ℤ), links.map fun l => meanUpTo n val ((k + 1) * n : ℤ) l)

/-- C47.  A loading of the intervals `0 … T` with records every `n ≥ 1` intervals, all switches on, with
any link values: the loading files have a row with the value of every link for every call, the record
files have the means. -/
theorem C47_records (n : ℕ) (hn : 0 < n) (links : List ℤ) (hl : links.Nodup) (flow time : ℤ → ℤ → ℚ) (T : ℕ) :
    ∃ s, run links flow time (init ⟨true, true, true, true, true, true⟩ n links) (times T) = .ok s ∧
      s.volumeLoad = some ⟨links, (times T).map fun t => (t, links.map (flow t))⟩ ∧
      s.ttLoad = some ⟨links, (times T).map fun t => (t, links.map (time t))⟩ ∧
      s.volumeRecord = some ⟨links, meanRows n links flow T⟩ ∧
      s.ttRecord = some ⟨links, meanRows n links time T⟩ := by
  have hn' : (init ⟨true, true, true, true, true, true⟩ n links).n ≠ 0 := by
    show ((n : ℤ)) ≠ 0
    exact_mod_cast hn.ne'
  obtain ⟨s, h1, h2, h3⟩ := run_tracks links flow time (times T) _ hn'
  have hrows : ∀ val : ℤ → ℤ → ℚ, recRows n links val T = meanRows n links val T := by
    intro val
    unfold recRows meanRows
    unfold lastSum meanUpTo
    push_cast
    rfl
  refine ⟨s, h1, ?_⟩
  have e1 := track_run hn hl flow (some ⟨links, []⟩) (some ⟨links, []⟩)
    (by intro x hx; cases hx; rfl) (by intro x hx; cases hx; rfl) T
  have e2 := track_run hn hl time (some ⟨links, []⟩) (some ⟨links, []⟩)
    (by intro x hx; cases hx; rfl) (by intro x hx; cases hx; rfl) T
  obtain ⟨_, _, a1, a2⟩ := e1
  obtain ⟨_, _, b1, b2⟩ := e2
  have hv : s.volumeLoad = s.vol.load ∧ s.volumeRecord = s.vol.record ∧ s.ttLoad = s.time.load ∧
    s.ttRecord = s.time.record := ⟨rfl, rfl, rfl, rfl⟩
  refine ⟨?_, ?_, ?_, ?_⟩
  · rw [hv.1, h2]; exact a1
  · rw [hv.2.2.1, h3]; exact b1
  · rw [hv.2.1, h2, ← hrows]; exact a2
  · rw [hv.2.2.2, h3, ← hrows]; exact b2

/-- The record map of one quantity right after a full period. -/
theorem track_mean {n : ℕ} (hn : 0 < n) {links : List ℤ} (hl : links.Nodup) (k : ℕ) (val : ℤ → ℤ → ℚ) (a b : Option Sheet)
    (ha : ∀ x ∈ a, x.rows = []) (hb : ∀ x ∈ b, x.rows = []) (l : ℤ) (hl' : l ∈ links) :
    ((Track.mk ⟨true, fun _ => 0, fun _ => 0, fun _ => 0⟩ a b).run n links links val
      (times ((k + 1) * n))).q.record l = meanUpTo n val (((k + 1) * n : ℕ) : ℤ) l := by
  obtain ⟨m, hm⟩ : ∃ m, (k + 1) * n = m + 1 := ⟨(k + 1) * n - 1, by
    have : 0 < (k + 1) * n := by positivity
    omega⟩
  obtain ⟨c1, c2, _, _⟩ := track_run hn hl val a b ha hb m
  have e : times (m + 1) = times m ++ [((m + 1 : ℕ) : ℤ)] := by
    unfold times
    rw [List.range_succ (n := m + 1), List.map_append]
    rfl
  rw [hm, e]
  unfold Track.run
  rw [List.foldl_append]
  show (Quantity.all _ _ _ _ _).record l = _
  unfold Track.run at c1 c2
  unfold Quantity.all
  rw [if_pos c1]
  have hr : Rec n ((m + 1 : ℕ) : ℤ) := (rec_iff hn (m + 1)).2 (by rw [← hm]; simp)
  rw [((fold_mem n _ (val _) l links _ hl hl').2.1 hr).1]
  have hne : (((m + 1 : ℕ) : ℤ)) ≠ 0 := by omega
  rw [if_neg hne, c2 l hl']
  have hmod : m % n + 1 = n := by
    have h4 := Nat.div_add_mod m n
    have h5 := Nat.mod_lt m hn
    have h6 : n * (k + 1) = n * (m / n) + (m % n + 1) := by rw [Nat.mul_comm]; omega
    have h7 : n ∣ m % n + 1 := (Nat.dvd_add_right (Dvd.intro _ rfl)).1 (h6 ▸ Dvd.intro _ rfl)
    have h8 := Nat.le_of_dvd (by omega) h7
    omega
  have h5 := lastSum_succ val m (m % n) l
  rw [hmod] at h5
  unfold meanUpTo
  have h6 : ((List.range n).map fun (i : ℕ) => val (((m + 1 : ℕ) : ℤ) - i) l).sum =
      lastSum val ((m : ℤ) + 1) n l := by
    unfold lastSum; push_cast; rfl
  rw [h6, h5]
  push_cast
  ring

/-- C47, the values that adaptive routing reads: right after a full period the record map of every link
holds the mean over the period, whatever files are written. -/
theorem C47_record_map (n : ℕ) (hn : 0 < n) (links : List ℤ) (hl : links.Nodup) (flow time : ℤ → ℤ → ℚ)
    (sw : Switches) (hv : sw.volume = true) (ht : sw.tt = true) (k : ℕ) :
    ∃ s, run links flow time (init sw n links) (times ((k + 1) * n)) = .ok s ∧
      ∀ l ∈ links, s.volume.record l = meanUpTo n flow (((k + 1) * n : ℕ) : ℤ) l ∧
        s.tt.record l = meanUpTo n time (((k + 1) * n : ℕ) : ℤ) l := by
  have hn' : (init sw n links).n ≠ 0 := by
    show ((n : ℤ)) ≠ 0
    exact_mod_cast hn.ne'
  obtain ⟨s, h1, h2, h3⟩ := run_tracks links flow time (times ((k + 1) * n)) _ hn'
  refine ⟨s, h1, ?_⟩
  have hempty : ∀ a b : Bool, ∀ x ∈ openSheet a b links, x.rows = [] := by
    intro a b x hx
    unfold openSheet at hx
    split at hx
    · cases hx; rfl
    · simp at hx
  intro l hl'
  have k1 := track_mean hn hl k flow (openSheet sw.volume sw.volumeLoad links) (openSheet sw.volume sw.volumeRecord links)
    (hempty _ _) (hempty _ _) l hl'
  have k2 := track_mean hn hl k time (openSheet sw.tt sw.ttLoad links) (openSheet sw.tt sw.ttRecord links)
    (hempty _ _) (hempty _ _) l hl'
  have hs1 : s.volume = s.vol.q := rfl
  have hs2 : s.tt = s.time.q := rfl
  constructor
  · rw [hs1, h2, ← k1]
    simp only [init, Stats.vol, hv]
  · rw [hs2, h3, ← k2]
    simp only [init, Stats.time, ht]

/-- Two links, records every two intervals: link 7 has values 10, 11, …, link 3 the squares. -/
example : ((run [7, 3] (fun t l => if l = 7 then 10 + t else t * t) (fun _ _ => 1)
      (init ⟨true, true, true, true, true, true⟩ 2 [7, 3]) (times 5)).bind fun s => .ok s.volumeRecord) =
    .ok (some ⟨[7, 3], [(0, [10, 0]), (2, [23 / 2, 5 / 2]), (4, [27 / 2, 25 / 2])]⟩) := by decide +kernel

end Verif
