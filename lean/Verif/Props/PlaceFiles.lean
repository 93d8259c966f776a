import Verif.Lemmas.PlaceFiles

/-!
# C213: files of origins and destinations of electrified and delivery traffic
-/

namespace Verif
open Text Io Rd PlF

/-- **C213 (origins and destinations, with how long vehicles wait at the origins).**  Take a file with any first line, a row
for each of any number of origins (number, node and, optionally, waiting seconds and — for electrified traffic — the share
that charges at the roadside), any other line, and a row for each of any number of destinations, numbers and nodes being
distinct among the origins and among the destinations.  Loading succeeds.  The origins are those of the file and no others,
each at its node, its node hooked to it, with its share (zero if the row is silent); its waiting time is a number of intervals
that differs from the seconds divided by the interval's length by less than one.  The destinations are those of the file and
no others, each at its node, its node hooked to it.  No other node is hooked to anything.  Proved in part: files whose rows
are refused, or that repeat a number, are not described. -/
theorem C213_places_partial (ev : Bool) (q : Str → ℚ) (unit : ℤ) (hu : 0 < unit) (u : ℕ → ℚ) (hu0 : ∀ k, 0 ≤ u k)
    (kind : ℤ → Option NodeKind) (h1 h2 : Str) (hn1 : '\n' ∉ h1) (hn2 : '\n' ∉ h2) (os : List OriginLine) (ds : List (ℤ × ℤ))
    (hos : ∀ r ∈ os, r.Ok ev q unit kind) (hds : ∀ d ∈ ds, IntOk d.1 ∧ IntOk d.2 ∧ kind d.2 = some .dest)
    (do1 : (os.map (·.id)).Nodup) (do2 : (os.map (·.node)).Nodup) (dd1 : (ds.map (·.1)).Nodup) (dd2 : (ds.map (·.2)).Nodup) :
    ∃ o d : St, PlF.build ev unit u kind os.length ds.length (some (placesFile h1 h2 os ds)) = .ok (o, d) ∧
      (∀ r ∈ os, o.at' r.node = some (some r.id) ∧ ∃ n : ℤ, o.org r.id = some ⟨r.node, n, r.ratio q⟩ ∧
        r.wait q / unit - 1 < n ∧ (n : ℚ) < r.wait q / unit + 1) ∧
      (∀ x ∈ ds, d.at' x.2 = some (some x.1) ∧ d.org x.1 = some ⟨x.2, 0, 0⟩) ∧
      (∀ k, (∀ r ∈ os, r.id ≠ k) → o.org k = none) ∧ (∀ k, (∀ r ∈ os, r.node ≠ k) → o.at' k = none) ∧
      (∀ k, (∀ x ∈ ds, x.1 ≠ k) → d.org k = none) ∧ ∀ k, (∀ x ∈ ds, x.2 ≠ k) → d.at' k = none := by
  obtain ⟨o, a1, a2, a3, a4⟩ := origins_fold hu u hu0 os St.init hos do1 do2 (fun _ _ => rfl)
  obtain ⟨d, b1, b2, b3, b4⟩ := dests_fold ds St.init hds dd1 dd2 (fun _ _ => rfl)
  refine ⟨o, d, ?_, a2, b2, fun k hk => a3 k hk, fun k hk => a4 k hk, fun k hk => b3 k hk, fun k hk => b4 k hk⟩
  have hl : linesOf (placesFile h1 h2 os ds) = h1 :: ((os.map fun r => lineOf r.words) ++
      (h2 :: ((ds.map fun d => lineOf [toStr d.1, toStr d.2]) ++ [[]]))) := by
    unfold placesFile
    rw [linesOf_cat hn1, linesOf_rows, linesOf_cat hn2, linesOf_text, List.map_map, List.map_map]
    · rfl
    · intro ws hws
      obtain ⟨x, _, rfl⟩ := List.mem_map.1 hws
      exact MmPt.rowOk_ints x.1 [x.2]
    · intro ws hws
      obtain ⟨x, hx, rfl⟩ := List.mem_map.1 hws
      exact words_ok (hos x hx)
  have g0 := has_open (placesFile h1 h2 os ds)
  rw [hl] at g0
  obtain ⟨_, g1⟩ := getline_spec g0 (getline (In.open (placesFile h1 h2 os ds))).line
  obtain ⟨i, e1, g2⟩ := countLoop_rows _ _ _ _ _ g1 a1
  obtain ⟨_, g3⟩ := getline_spec g2 (getline i).line
  obtain ⟨j, e2, _⟩ := countLoop_rows _ _ _ _ _ g3 b1
  rw [List.length_map] at e1 e2
  unfold PlF.build
  simp only [Int.toNat_natCast]
  rw [e1, Res.bind_ok', e2, Res.bind_ok']

/-- **C213 (a wait that is a whole number of intervals is exact).**  If the seconds are a multiple of the interval's length,
the waiting time is exactly that many intervals, whatever the random draws. -/
theorem C213_whole (x : ℚ) (m n : ℤ) (h : x = m) (h1 : x - 1 < n) (h2 : (n : ℚ) < x + 1) : n = m := by
  subst h
  have a : m - 1 < n := by exact_mod_cast h1
  have b : n < m + 1 := by exact_mod_cast h2
  omega

/-- **C213 (without the file nothing is defined).** -/
theorem C213_no_file (ev : Bool) (unit : ℤ) (u : ℕ → ℚ) (kind : ℤ → Option NodeKind) (no nd : ℤ) :
    PlF.build ev unit u kind no nd none = .ok (St.init, St.init) := rfl

/-- **C213 (rows of origins with too many words are dropped, refuted).**  An origin's row with a word too many — five for
electrified traffic, four for delivery traffic — changes nothing and raises no error, whatever its words, though the code has
an error message for it. -/
theorem C213_false_too_many (ev : Bool) (unit : ℤ) (u : ℕ → ℚ) (kind : ℤ → Option NodeKind) (s : St) (ws : List Str)
    (hws : RowOk ws) (h : (if ev then 4 else 3) < ws.length) : originRow ev unit u kind s (lineOf ws) = .ok s := by
  unfold originRow
  rw [split_line hws]
  match ws, h with
  | [a, b, c, d], h => cases ev <;> simp at h ⊢
  | a :: b :: c :: d :: e :: l, _ => rfl
  | [a, b, c], h => cases ev <;> simp at h
  | [a, b], h => cases ev <;> simp at h
  | [a], h => cases ev <;> simp at h
  | [], h => cases ev <;> simp at h

private def demoKindPlF : ℤ → Option NodeKind := fun k => if k = 10 ∨ k = 11 then some .origin else if k = 20 then some .dest else none

/-- **C213 (a load is not a function of its files, refuted).**  One file, read twice with interval length 5 and a wait of 7
seconds, defines a wait of one interval or of two, as the random draw falls. -/
theorem C213_false_random : ∃ (f : Str) (u u' : ℕ → ℚ), (∀ k, 0 ≤ u k ∧ u k ≤ 1 ∧ 0 ≤ u' k ∧ u' k ≤ 1) ∧
    (PlF.build true 5 u demoKindPlF 1 0 (some f)).bind (fun r => .ok ((r.1.org 1).map (·.wait))) = .ok (some 1) ∧
    (PlF.build true 5 u' demoKindPlF 1 0 (some f)).bind (fun r => .ok ((r.1.org 1).map (·.wait))) = .ok (some 2) :=
  ⟨"#\n1 10 7\n#\n".toList, fun _ => 1 / 2, fun _ => 1 / 4, fun _ => by norm_num, by decide +kernel, by decide +kernel⟩

/-! The hypotheses are met: two origins, one with a wait of twelve seconds and a share of a half, and one destination. -/

private def demoRowsPlF : List OriginLine := [⟨1, 10, some ("12".toList, some "0.5".toList)⟩, ⟨2, 11, none⟩]

private def demoQPlF : Str → ℚ := fun w => if w = "12".toList then 12 else 1 / 2

example : (∀ r ∈ demoRowsPlF, r.Ok true demoQPlF 5 demoKindPlF) ∧
    (∀ d ∈ [((7 : ℤ), (20 : ℤ))], IntOk d.1 ∧ IntOk d.2 ∧ demoKindPlF d.2 = some .dest) ∧
    (demoRowsPlF.map (·.id)).Nodup ∧ (demoRowsPlF.map (·.node)).Nodup := by
  refine ⟨?_, by unfold IntOk; decide, by decide, by decide⟩
  intro r hr
  simp only [demoRowsPlF, List.mem_cons, List.not_mem_nil, or_false] at hr
  rcases hr with rfl | rfl
  · refine ⟨by unfold IntOk; decide, by decide, ?_, ?_⟩
    · intro w v h
      simp only [Option.some.injEq, Prod.mk.injEq] at h
      obtain ⟨rfl, rfl⟩ := h
      unfold WordOk
      decide +kernel
    · intro w v h
      simp only [Option.some.injEq, Prod.mk.injEq] at h
      obtain ⟨rfl, rfl⟩ := h
      unfold WordOk
      decide +kernel
  · exact ⟨by unfold IntOk; decide, by decide, by intro w v h; simp at h, by intro w v h; simp at h⟩

example : (PlF.build true 5 (fun _ => 1 / 2) demoKindPlF 2 1 (some (placesFile "#".toList "#".toList demoRowsPlF [(7, 20)]))).bind
    (fun r => .ok ((r.1.org 1, r.1.org 2), (r.2.org 7, r.2.at' 20))) =
    .ok ((some ⟨10, 2, 1 / 2⟩, some ⟨11, 0, 0⟩), (some ⟨20, 0, 0⟩, some (some 7))) := by decide +kernel

end Verif
