import Verif.Lemmas.PlaceFiles
import Verif.Lemmas.FlowFiles
import Verif.Spec.NumFiles

/-!
# C221: files of numbers, of speeds and of work zones

Partial: the property also asks that a missing file is an error; that is refuted below (`C221_false_missing`).
-/

namespace Verif
open Text Io Rd NumF

private theorem counted_run {σ : Type} {body : σ → Str → Res σ} {rows : List (List Str)} {rest : Str} {s : σ}
    (hl : rows.length ≤ 2147483647) (h : ∀ ws ∈ rows, (∀ w ∈ ws, WordOk w) ∧ ws ≠ []) :
    ∃ i, Has i (rows.map lineOf ++ linesOf rest) ∧
      readCounted body s (some (counted rows rest)) = (countLoop body (rows.map lineOf).length i s).bind fun r => .ok r.1 := by
  have hw := toStr_word (rows.length : ℤ)
  have hn : '\n' ∉ toStr (rows.length : ℤ) := fun hm => by
    have := hw.1.2 _ hm
    revert this
    decide
  have hlines : ∀ rows : List (List Str), (∀ ws ∈ rows, (∀ w ∈ ws, WordOk w) ∧ ws ≠ []) →
      linesOf (textOf rows ++ rest) = rows.map lineOf ++ linesOf rest := by
    intro rows
    induction rows with
    | nil => intro _; rfl
    | cons ws rows ih =>
      intro h
      have hn : '\n' ∉ lineOf ws := line_no_newline (h ws (by simp)).1
      have e : textOf (ws :: rows) ++ rest = lineOf ws ++ '\n' :: (textOf rows ++ rest) := by simp [textOf]
      unfold linesOf at ih ⊢
      rw [e, List.splitOn_append_cons_self_of_not_mem hn, ih fun w hw => h w (by simp [hw])]
      rfl
  have g0 := has_open (counted rows rest)
  have e0 : linesOf (counted rows rest) = toStr (rows.length : ℤ) :: (rows.map lineOf ++ linesOf rest) := by
    unfold counted
    unfold linesOf at hlines ⊢
    rw [List.splitOn_append_cons_self_of_not_mem hn, hlines rows h]
  rw [e0] at g0
  obtain ⟨h1, h2⟩ := getline_spec g0 (getline (In.open (counted rows rest))).line
  refine ⟨getline (In.open (counted rows rest)), h2, ?_⟩
  unfold readCounted
  simp only
  rw [h1, trim_word hw.1, stoi_toStr _ ⟨by omega, by omega⟩, Res.bind_ok', Int.toNat_natCast, List.length_map]

private theorem counted_eq {σ : Type} {body : σ → Str → Res σ} {rows : List (List Str)} {rest : Str} {s s' : σ}
    (hl : rows.length ≤ 2147483647) (h : ∀ ws ∈ rows, (∀ w ∈ ws, WordOk w) ∧ ws ≠ [])
    (e : Res.foldlM body s (rows.map lineOf) = .ok s') : readCounted body s (some (counted rows rest)) = .ok s' := by
  obtain ⟨i, hi, e0⟩ := counted_run (body := body) (rest := rest) (s := s) hl h
  obtain ⟨i', e1, _⟩ := PlF.countLoop_rows (rows.map lineOf) _ _ _ _ hi e
  rw [e0, e1, Res.bind_ok']

private theorem countLoop_throw {σ : Type} {body : σ → Str → Res σ} {msg : String} : ∀ (ls rest : List Str) (i : In) (s : σ),
    Has i (ls ++ rest) → Res.foldlM body s ls = .throw msg → countLoop body ls.length i s = .throw msg := by
  intro ls
  induction ls with
  | nil => intro rest i s _ e; simp at e
  | cons l ls ih =>
    intro rest i s h e
    obtain ⟨h1, h2⟩ := getline_spec h (getline i).line
    rw [Res.foldlM_cons] at e
    rw [List.length_cons, countLoop, h1]
    cases hb : body s l with
    | ok t =>
      rw [hb, Res.ok_bind] at e
      rw [Res.bind_ok', ih rest (getline i) t h2 e]
    | throw m => rw [hb] at e; cases e; rfl
    | ub => rw [hb] at e; cases e
    | diverge => rw [hb] at e; cases e

private theorem counted_bad {σ : Type} {body : σ → Str → Res σ} {rows : List (List Str)} {rest : Str} {s : σ} {msg : String}
    (hl : rows.length ≤ 2147483647) (h : ∀ ws ∈ rows, (∀ w ∈ ws, WordOk w) ∧ ws ≠ [])
    (e : Res.foldlM body s (rows.map lineOf) = .throw msg) : readCounted body s (some (counted rows rest)) = .throw msg := by
  obtain ⟨i, hi, e0⟩ := counted_run (body := body) (rest := rest) (s := s) hl h
  rw [e0, countLoop_throw (rows.map lineOf) _ _ _ hi e]
  rfl

private theorem fold_push {α β : Type} {body : List α → Str → Res (List α)} (line : β → Str) (val : β → α) : ∀ (xs : List β) (v : List α),
    (∀ x ∈ xs, ∀ v, body v (line x) = .ok (v ++ [val x])) → Res.foldlM body v (xs.map line) = .ok (v ++ xs.map val) := by
  intro xs
  induction xs with
  | nil => intro v _; simp
  | cons x xs ih =>
    intro v h
    rw [List.map_cons, Res.foldlM_cons, h x (by simp), Res.ok_bind, ih _ fun y hy => h y (by simp [hy])]
    simp

private theorem split_words {ws : List Str} (h : ∀ w ∈ ws, WordOk w) (hn : ws ≠ []) : split (lineOf ws) ' ' = ws := by
  rw [split_eq]
  exact wordsOf_line h hn

private theorem pairs_fold {x : Str → ℚ} : ∀ (rows : List (ℤ × Str)) (m : ℤ → Option ℚ), (∀ r ∈ rows, IntOk r.1 ∧ Decimal r.2 (x r.2)) →
    (∀ r ∈ rows, ∀ w ∈ [toStr r.1, r.2], WordOk w) →
    ∃ m', Res.foldlM pairRow m (rows.map fun r => lineOf [toStr r.1, r.2]) = .ok m' ∧
      ∀ k, m' k = (m k).or ((rows.find? fun r => r.1 = k).map fun r => x r.2) := by
  intro rows
  induction rows with
  | nil => intro m _ _; exact ⟨m, rfl, by simp⟩
  | cons r rows ih =>
    intro m h hw
    obtain ⟨h1, h2, h3⟩ := h r (by simp)
    have e : pairRow m (lineOf [toStr r.1, r.2]) = .ok (match m r.1 with | some _ => m | none => upd m r.1 (some (x r.2))) := by
      unfold pairRow
      rw [split_words (hw r (by simp)) (by simp)]
      simp only
      rw [trim_word (toStr_word _).1, stoi_toStr _ h1, Res.bind_ok', trim_word h2, h3, Res.bind_ok']
      cases m r.1 <;> rfl
    obtain ⟨m', e', hm⟩ := ih (match m r.1 with | some _ => m | none => upd m r.1 (some (x r.2)))
      (fun q hq => h q (by simp [hq])) fun q hq => hw q (by simp [hq])
    refine ⟨m', by rw [List.map_cons, Res.foldlM_cons, e, Res.ok_bind, e'], fun k => ?_⟩
    rw [hm k, List.find?_cons]
    by_cases hk : r.1 = k
    · subst hk
      cases hmk : m r.1 with
      | some y => simp [hmk]
      | none => simp
    · simp only [hk, decide_false]
      cases hmk : m r.1 with
      | some y => rfl
      | none => simp only; rw [upd_other _ _ _ _ (Ne.symm hk)]

/-- **C221 (files of speeds).**  A file with a count and that many lines of a link and a decimal number, followed by anything, is
read without an error; a link that had no value gets the one of its first line. -/
theorem C221_pairs_partial (rows : List (ℤ × Str)) (x : Str → ℚ) (hl : rows.length ≤ 2147483647)
    (h : ∀ r ∈ rows, IntOk r.1 ∧ Decimal r.2 (x r.2)) (rest : Str) (m : ℤ → Option ℚ) :
    ∃ m', readPairs m (some (counted (rows.map fun r => [toStr r.1, r.2]) rest)) = .ok m' ∧
      ∀ k, m' k = (m k).or ((rows.find? fun r => r.1 = k).map fun r => x r.2) := by
  have hrow : ∀ r ∈ rows, ∀ w ∈ [toStr r.1, r.2], WordOk w := by
    intro r hr w hw
    simp only [List.mem_cons, List.not_mem_nil, or_false] at hw
    rcases hw with rfl | rfl
    · exact (toStr_word _).1
    · exact (h r hr).2.1
  obtain ⟨m', e, hm⟩ := pairs_fold rows m h hrow
  refine ⟨m', ?_, hm⟩
  unfold readPairs
  apply counted_eq (by simpa using hl)
  · intro ws hws
    obtain ⟨r, hr, rfl⟩ := List.mem_map.1 hws
    exact ⟨hrow r hr, by simp⟩
  · rw [List.map_map]
    exact e

/-- **C221 (files of integers).** -/
theorem C221_ints_partial (ks : List ℤ) (hl : ks.length ≤ 2147483647) (h : ∀ k ∈ ks, IntOk k) (rest : Str) (v : List ℤ) :
    readInts v (some (counted (ks.map fun k => [toStr k]) rest)) = .ok (v ++ ks) := by
  unfold readInts
  apply counted_eq (by simpa using hl)
  · intro ws hws
    obtain ⟨k, _, rfl⟩ := List.mem_map.1 hws
    exact ⟨by simpa using (toStr_word k).1, by simp⟩
  · rw [List.map_map]
    have := fold_push (body := fun v line => (stoi (trim line)).bind fun k => .ok (v ++ [k])) (fun k : ℤ => lineOf [toStr k]) id ks v
      fun k hk v => by
        rw [lineOf_single, trim_word (toStr_word k).1, stoi_toStr _ (h k hk), Res.bind_ok']
        rfl
    rw [List.map_id] at this
    exact this

/-- **C221 (files of lists of decimal numbers).** -/
theorem C221_floats_partial (rows : List (List Str)) (x : Str → ℚ) (hl : rows.length ≤ 2147483647)
    (h : ∀ ws ∈ rows, ws ≠ [] ∧ ∀ w ∈ ws, Decimal w (x w)) (rest : Str) (v : List (List ℚ)) :
    readFloats v (some (counted rows rest)) = .ok (v ++ rows.map fun ws => ws.map x) := by
  unfold readFloats
  apply counted_eq hl
  · exact fun ws hws => ⟨fun w hw => ((h ws hws).2 w hw).1, (h ws hws).1⟩
  · refine fold_push lineOf (fun ws => ws.map x) rows v fun ws hws v => ?_
    rw [split_words (fun w hw => ((h ws hws).2 w hw).1) (h ws hws).1]
    have key : ∀ (ws : List Str) (acc : List ℚ), (∀ w ∈ ws, Decimal w (x w)) →
        Res.foldlM (fun acc w => (stod w).bind fun y => .ok (acc ++ [y])) acc (ws.map trim) = .ok (acc ++ ws.map x) := by
      intro ws
      induction ws with
      | nil => intro acc _; simp
      | cons w ws ih =>
        intro acc h
        have hw := h w (by simp)
        rw [List.map_cons, Res.foldlM_cons, trim_word hw.1, hw.2, Res.bind_ok', Res.ok_bind, ih _ fun u hu => h u (by simp [hu])]
        simp
    have := key ws [] (h ws hws).2
    unfold stods
    rw [this, Res.bind_ok']
    rfl

private theorem zones_fold (ks : List ℤ) (h : ∀ k ∈ ks, IntOk k) (v : List ℤ) :
    Res.foldlM zoneRow v (ks.map fun k => lineOf [toStr k]) = .ok (v ++ ks) := by
  have := fold_push (body := zoneRow) (fun k : ℤ => lineOf [toStr k]) id ks v fun k hk v => by
    unfold zoneRow
    rw [split_words (by simpa using (toStr_word k).1) (by simp)]
    simp only
    rw [trim_word (toStr_word k).1, stoi_toStr _ (h k hk), Res.bind_ok']
    rfl
  rw [List.map_id] at this
  exact this

/-- **C221 (files of work zones).** -/
theorem C221_zones_partial (ks : List ℤ) (hl : ks.length ≤ 2147483647) (h : ∀ k ∈ ks, IntOk k) (rest : Str) (v : List ℤ) :
    readZones v (some (counted (ks.map fun k => [toStr k]) rest)) = .ok (v ++ ks) := by
  unfold readZones
  apply counted_eq (by simpa using hl)
  · intro ws hws
    obtain ⟨k, _, rfl⟩ := List.mem_map.1 hws
    exact ⟨by simpa using (toStr_word k).1, by simp⟩
  · rw [List.map_map]
    exact zones_fold ks h v

/-- **C221 (other rows are rejected).**  A file of speeds is rejected if one of the announced rows, after rows as above, does not
have two words. -/
theorem C221_bad_pairs_partial (rows : List (ℤ × Str)) (x : Str → ℚ) (h : ∀ r ∈ rows, IntOk r.1 ∧ Decimal r.2 (x r.2))
    (bad : List Str) (hb : bad ≠ []) (h2 : bad.length ≠ 2) (more : List (List Str)) (hm : ∀ ws ∈ bad :: more, (∀ w ∈ ws, WordOk w) ∧ ws ≠ [])
    (hl : rows.length + (more.length + 1) ≤ 2147483647) (rest : Str) (m : ℤ → Option ℚ) :
    readPairs m (some (counted ((rows.map fun r => [toStr r.1, r.2]) ++ bad :: more) rest)) =
      .throw "failed to build read_int_float" := by
  have hrow : ∀ r ∈ rows, ∀ w ∈ [toStr r.1, r.2], WordOk w := by
    intro r hr w hw
    simp only [List.mem_cons, List.not_mem_nil, or_false] at hw
    rcases hw with rfl | rfl
    · exact (toStr_word _).1
    · exact (h r hr).2.1
  obtain ⟨m', e, _⟩ := pairs_fold rows m h hrow
  unfold readPairs
  apply counted_bad (by simpa using hl)
  · intro ws hws
    rcases List.mem_append.1 hws with hws | hws
    · obtain ⟨r, hr, rfl⟩ := List.mem_map.1 hws
      exact ⟨hrow r hr, by simp⟩
    · exact hm ws hws
  · rw [List.map_append, List.map_map, Res.foldlM_append]
    have e' : Res.foldlM pairRow m (rows.map (lineOf ∘ fun r => [toStr r.1, r.2])) = .ok m' := e
    have e2 : pairRow m' (lineOf bad) = .throw "failed to build read_int_float" := by
      unfold pairRow
      rw [split_words (hm bad (by simp)).1 hb]
      match bad, h2 with
      | [], _ => rfl
      | [_], _ => rfl
      | [_, _], h2 => exact absurd rfl h2
      | _ :: _ :: _ :: _, _ => rfl
    rw [e', Res.ok_bind, List.map_cons, Res.foldlM_cons, e2]
    rfl

/-- **C221 (other rows are rejected).**  A file of work zones is rejected if one of the announced rows, after rows as above, has more
than one word. -/
theorem C221_bad_zones_partial (ks : List ℤ) (h : ∀ k ∈ ks, IntOk k) (bad : List Str) (h2 : 1 < bad.length) (more : List (List Str))
    (hm : ∀ ws ∈ bad :: more, (∀ w ∈ ws, WordOk w) ∧ ws ≠ []) (hl : ks.length + (more.length + 1) ≤ 2147483647) (rest : Str) (v : List ℤ) :
    readZones v (some (counted ((ks.map fun k => [toStr k]) ++ bad :: more) rest)) = .throw "failed to build workzone" := by
  unfold readZones
  apply counted_bad (by simpa using hl)
  · intro ws hws
    rcases List.mem_append.1 hws with hws | hws
    · obtain ⟨k, _, rfl⟩ := List.mem_map.1 hws
      exact ⟨by simpa using (toStr_word k).1, by simp⟩
    · exact hm ws hws
  · rw [List.map_append, List.map_map, Res.foldlM_append]
    have e := zones_fold ks h v
    have e2 : zoneRow (v ++ ks) (lineOf bad) = .throw "failed to build workzone" := by
      unfold zoneRow
      rw [split_words (hm bad (by simp)).1 (hm bad (by simp)).2]
      match bad, h2 with
      | [], h2 => exact absurd h2 (by simp)
      | [_], h2 => exact absurd h2 (by simp)
      | _ :: _ :: _, _ => rfl
    have e' : Res.foldlM zoneRow v (ks.map (lineOf ∘ fun k => [toStr k])) = .ok (v ++ ks) := e
    rw [e', Res.ok_bind, List.map_cons, Res.foldlM_cons, e2]
    rfl

/-- **C221 (a missing file goes unnoticed, refuted).**  Without the file all four readers end as if it were empty. -/
theorem C221_false_missing (m : ℤ → Option ℚ) (v : List ℤ) (w : List (List ℚ)) :
    readPairs m none = .ok m ∧ readInts v none = .ok v ∧ readFloats w none = .ok w ∧ readZones v none = .ok v :=
  ⟨rfl, rfl, rfl, rfl⟩

/-! The hypotheses are met: the texts are as expected. -/

example : counted ([((3 : ℤ), "1.5".toList), (4, "2".toList)].map fun r => [toStr r.1, r.2]) [] = "2\n3 1.5\n4 2\n".toList := by
  decide +kernel

example : stod "1.5".toList = .ok (3 / 2) ∧ stod "2".toList = .ok 2 := by decide +kernel

example : (readPairs (fun _ => none) (some "2\n3 1.5\n3 2\n".toList)).bind (fun m => .ok (m 3, m 4)) = .ok (some (3 / 2), none) ∧
    readPairs (fun _ => none) (some "1\n3 1.5 2\n".toList) = .throw "failed to build read_int_float" ∧
    readInts [] (some "2\n3\n-4\n5\n".toList) = .ok [3, -4] ∧ readFloats [] (some "1\n0.5 1\n".toList) = .ok [[1 / 2, 1]] ∧
    readZones [] (some "1\n7\n".toList) = .ok [7] ∧
    readZones [] (some "1\n7 8\n".toList) = .throw "failed to build workzone" := by
  refine ⟨by decide +kernel, rfl, by decide +kernel, by decide +kernel, by decide +kernel, by decide +kernel⟩

end Verif
