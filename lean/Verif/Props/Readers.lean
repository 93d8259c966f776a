import Verif.Lemmas.Readers

/-! # C195 to C199: tables with a first line — tolls, label shares, tracking, adaptive ratios, attributes by interval -/

namespace Verif
open Text Io Rd

/-! ## C195: toll files -/

/-- The words of a row of a toll file. -/
private def tollWords (r : ℤ × Str) : List Str := [toStr r.1, r.2]

private theorem toll_rowOk {q : Str → ℚ} {r : ℤ × Str} (h : TollOk q r) : RowOk (tollWords r) :=
  rowOk_cons (by simpa using h.2.1)

private theorem tollRow_eq {q : Str → ℚ} {links : List ℤ} {r : ℤ × Str} (h : TollOk q r) (hl : r.1 ∈ links) (t : ℤ → ℚ) :
    tollRow links t (lineOf (tollWords r)) = .ok (upd t r.1 (q r.2)) := by
  unfold tollRow
  rw [split_line (toll_rowOk h)]
  simp only [tollWords]
  rw [trim_word (toStr_word r.1).1, stoi_toStr _ h.1, Res.bind_ok', if_pos hl, trim_word h.2.1, h.2.2, Res.bind_ok']

/-- C195.  From a file with a first line and one row `link toll` per tolled link, with as many rows as the configuration
says, every link of the file has the toll of its last row and every other link the toll it had. -/
theorem C195_toll_file (head : Str) (rows : List (ℤ × Str)) (q : Str → ℚ) (links : List ℤ) (t : ℤ → ℚ)
    (hh : '\n' ∉ head) (h : ∀ r ∈ rows, TollOk q r) (hl : ∀ r ∈ rows, r.1 ∈ links) :
    ∃ t', buildToll rows.length links t (some (fileOf head (rows.map fun r => [toStr r.1, r.2]))) = .ok t' ∧
      ∀ l, t' l = lastOf (fun r => r.1) (fun r => q r.2) rows (t l) l := by
  refine ⟨rows.foldl (fun t r => upd t r.1 (q r.2)) t, ?_, fun l => foldl_upd_lastOf _ _ rows t l⟩
  by_cases h0 : rows = []
  · subst h0; rfl
  rw [buildToll_pos (List.length_pos_of_ne_nil h0)]
  exact count_rows head tollWords rows t hh (fun r hr => toll_rowOk (h r hr)) fun r hr t => tollRow_eq (h r hr) (hl r hr) t

/-- Two tolls, the second link charged twice. -/
example : ((buildToll 3 [1, 2, 3] (fun _ => 0) (some "#link toll\n1 2.5\n3 1\n3 4\n".toList)).bind fun t =>
    .ok [t 1, t 2, t 3]) = .ok [5 / 2, 0, 4] ∧
    "#link toll\n1 2.5\n3 1\n3 4\n".toList = fileOf "#link toll".toList
      ([((1 : ℤ), "2.5".toList), (3, "1".toList), (3, "4".toList)].map fun r => [toStr r.1, r.2]) := by
  decide +kernel

/-- C195, whatever the file: a line among those that are to be read that has not two words, or that names a link that does
not exist, is an error. -/
theorem C195_error (num : ℕ) (links : List ℤ) (t : ℤ → ℚ) (content : Str) (k : ℕ) (hk : k < num)
    (hbad : (wordsOf (lineAt content (k + 1))).length ≠ 2 ∨
      ∃ w0 w1 id, wordsOf (lineAt content (k + 1)) = [w0, w1] ∧ stoi (trim w0) = .ok id ∧ id ∉ links) :
    ∀ t', buildToll num links t (some content) ≠ .ok t' := by
  intro t'
  rw [buildToll_pos (by omega)]
  refine foldlM_notOk _ _ (lineAt content (k + 1)) (List.mem_map.2 ⟨k, List.mem_range.2 hk, rfl⟩) ?_ t'
  intro c c'
  unfold tollRow
  rw [split_eq]
  rcases hbad with hb | ⟨w0, w1, id, hw, hi, hn⟩
  · rcases hw : wordsOf (lineAt content (k + 1)) with _ | ⟨a, _ | ⟨b, _ | ⟨x, y⟩⟩⟩
    · simp
    · simp
    · rw [hw] at hb; exact absurd rfl hb
    · simp
  · rw [hw]
    simp only
    rw [hi, Res.bind_ok', if_neg hn]
    simp

/-- C195, a file that does not reach as far as the configuration says: it ends with a newline, and one more toll is
expected. -/
theorem C195_too_few (head : Str) (rows : List (ℤ × Str)) (q : Str → ℚ) (links : List ℤ) (t : ℤ → ℚ) (num : ℕ)
    (hh : '\n' ∉ head) (h : ∀ r ∈ rows, TollOk q r) (hn : rows.length < num) :
    ∀ t', buildToll num links t (some (fileOf head (rows.map fun r => [toStr r.1, r.2]))) ≠ .ok t' := by
  refine C195_error num links t _ rows.length hn (Or.inl ?_)
  have hrow : ∀ ws ∈ rows.map tollWords, RowOk ws := by
    intro ws hw
    obtain ⟨r, hr, rfl⟩ := List.mem_map.1 hw
    exact toll_rowOk (h r hr)
  show (wordsOf ((linesOf (fileOf head (rows.map tollWords))).getD (rows.length + 1)
    ((linesOf (fileOf head (rows.map tollWords))).getLastD []))).length ≠ 2
  rw [linesOf_fileOf hh hrow, List.getD_cons_succ]
  have : (List.map lineOf (rows.map tollWords) ++ [[]]).getD rows.length
      ((head :: (List.map lineOf (rows.map tollWords) ++ [[]])).getLastD []) = [] := by
    rw [List.getD_eq_getElem?_getD, List.getElem?_append_right (by simp)]
    simp
  rw [this]
  decide

example : ((buildToll 3 [1, 2, 3] (fun _ => 0) (some "#link toll\n1 2.5\n3 1\n".toList)).bind fun t => .ok (t 1)) =
    .throw "failed to build link toll" := by decide +kernel

/-- C195 is false for files without a first line: the first row is taken for it.  If the file ends without a newline,
nobody notices: the link of the first row is not charged, and the last row is read twice. -/
theorem C195_false_no_first_line (r : ℤ × Str) (rows : List (ℤ × Str)) (q : Str → ℚ) (links : List ℤ) (t : ℤ → ℚ)
    (h : ∀ x ∈ r :: rows, TollOk q x) (hl : ∀ x ∈ r :: rows, x.1 ∈ links) (hne : rows ≠ []) :
    ∃ t', buildToll (rows.length + 1) links t (some (bareOf ((r :: rows).map fun r => [toStr r.1, r.2]))) = .ok t' ∧
      ∀ l, t' l = lastOf (fun r => r.1) (fun r => q r.2) rows (t l) l := by
  have hrow : ∀ ws ∈ (r :: rows).map tollWords, RowOk ws := by
    intro ws hw
    obtain ⟨r, hr, rfl⟩ := List.mem_map.1 hw
    exact toll_rowOk (h r hr)
  obtain ⟨init, z, rfl⟩ : ∃ init z, rows = init ++ [z] := by
    rcases List.eq_nil_or_concat rows with h0 | ⟨a, b, hb⟩
    · exact absurd h0 hne
    · exact ⟨a, b, by rw [hb, List.concat_eq_append]⟩
  have hlines : (List.range ((init ++ [z]).length + 1)).map
      (fun k => lineAt (bareOf ((r :: (init ++ [z])).map tollWords)) (k + 1)) =
      (init ++ [z] ++ [z]).map (lineOf ∘ tollWords) := by
    have e := linesOf_bareOf (rows := (r :: (init ++ [z])).map tollWords) (by simp) hrow
    apply List.ext_getElem
    · simp
    · intro k h1 h2
      simp only [List.length_map, List.length_range] at h1
      simp only [List.getElem_map, List.getElem_range]
      unfold lineAt
      rw [e, List.map_map, List.map_cons, List.getD_cons_succ, List.getD_eq_getElem?_getD]
      by_cases hk : k < (init ++ [z]).length
      · rw [List.getElem?_eq_getElem (by simpa using hk), Option.getD_some, List.getElem_map,
          List.getElem_append_left hk]
      · have hk' : k = (init ++ [z]).length := by omega
        subst hk'
        rw [List.getElem?_eq_none (by simp), Option.getD_none, List.getElem_append_right (by simp)]
        simp only [List.map_append, List.map_cons, List.map_nil, List.getLastD_eq_getLast?]
        rw [← List.cons_append, List.getLast?_concat]
        simp
  refine ⟨(init ++ [z] ++ [z]).foldl (fun t r => upd t r.1 (q r.2)) t, ?_, fun l => ?_⟩
  · have ec : ((init ++ [z]).length : ℤ) + 1 = (((init ++ [z]).length + 1 : ℕ) : ℤ) := by push_cast; rfl
    rw [ec, buildToll_pos (by omega)]
    show Res.foldlM _ t ((List.range _).map fun k => lineAt (bareOf ((r :: (init ++ [z])).map tollWords)) (k + 1)) = _
    rw [hlines, foldlM_map]
    refine BusP.foldlM_okMem _ t fun x hx c => ?_
    have hx' : x ∈ r :: (init ++ [z]) := by
      simp only [List.mem_append, List.mem_cons, List.not_mem_nil, or_false] at hx ⊢
      tauto
    exact tollRow_eq (h x hx') (hl x hx') c
  · rw [foldl_upd_lastOf]
    unfold lastOf
    by_cases hz : z.1 = l
    · simp [hz]
    · simp [hz]

/-- Links 1 and 2 are to be charged; link 1 is not. -/
example : ((buildToll 2 [1, 2] (fun _ => 0) (some "1 5\n2 6".toList)).bind fun t => .ok [t 1, t 2]) = .ok [0, 6] ∧
    "1 5\n2 6".toList = bareOf ([((1 : ℤ), "5".toList), (2, "6".toList)].map fun r => [toStr r.1, r.2]) := by
  decide +kernel

/-- C195, no toll is read when the configuration says there are none, whatever the file says. -/
theorem C195_none (num : ℤ) (h : num ≤ 0) (links : List ℤ) (t : ℤ → ℚ) (file : Option Str) :
    buildToll num links t file = .ok t := by
  cases file with
  | none => rfl
  | some c => exact if_pos h

private def tollWords2 (r : ℤ × Str × Str) : List Str := [toStr r.1, r.2.1, r.2.2]

/-- C195, two classes: tolls of cars and of trucks; the toll without class is the one of cars. -/
theorem C195_two_classes (head : Str) (rows : List (ℤ × Str × Str)) (q : Str → ℚ) (links : List ℤ) (t : ℤ → Toll)
    (hh : '\n' ∉ head) (h : ∀ r ∈ rows, IntOk r.1 ∧ NumsOk q [r.2.1, r.2.2]) (hl : ∀ r ∈ rows, r.1 ∈ links) :
    ∃ t', buildToll2 rows.length links t (some (fileOf head (rows.map fun r => [toStr r.1, r.2.1, r.2.2]))) = .ok t' ∧
      ∀ l, t' l = lastOf (fun r => r.1) (fun r => ⟨q r.2.1, q r.2.1, q r.2.2⟩) rows (t l) l := by
  refine ⟨rows.foldl (fun t r => upd t r.1 ⟨q r.2.1, q r.2.1, q r.2.2⟩) t, ?_, fun l => foldl_upd_lastOf _ _ rows t l⟩
  by_cases h0 : rows = []
  · subst h0; rfl
  have hr1 : ∀ r ∈ rows, RowOk (tollWords2 r) := fun r hr =>
    rowOk_cons fun w hw => ((h r hr).2 w hw).1
  rw [buildToll2_pos (List.length_pos_of_ne_nil h0)]
  refine count_rows head tollWords2 rows t hh hr1 fun r hr t => ?_
  obtain ⟨h1, h2⟩ := h r hr
  unfold tollRow2
  rw [split_line (hr1 r hr)]
  simp only [tollWords2]
  rw [trim_word (toStr_word r.1).1, stoi_toStr _ h1, Res.bind_ok', if_pos (hl r hr), trim_word (h2 _ (by simp)).1,
    (h2 _ (by simp)).2, Res.bind_ok', trim_word (h2 r.2.2 (by simp)).1, (h2 r.2.2 (by simp)).2, Res.bind_ok']

example : ((buildToll2 1 [1, 2] (fun _ => ⟨0, 0, 0⟩) (some "#link car truck\n2 1.5 3\n".toList)).bind fun t =>
    .ok [t 1, t 2]) = .ok [⟨0, 0, 0⟩, ⟨3 / 2, 3 / 2, 3⟩] ∧
    "#link car truck\n2 1.5 3\n".toList = fileOf "#link car truck".toList
      ([((2 : ℤ), "1.5".toList, "3".toList)].map fun r => [toStr r.1, r.2.1, r.2.2]) := by
  decide +kernel

/-! ## C196: label files -/

private def labelWords (r : ℤ × List Str) : List Str := toStr r.1 :: r.2

private theorem labelRow_eq {q : Str → ℚ} {k : ℕ} {origins : List ℤ} {r : ℤ × List Str} (h1 : IntOk r.1)
    (h2 : r.2.length = k → r.1 ∈ origins) (h3 : NumsOk q r.2) (s : ℤ → List ℚ) :
    labelRow k origins s (lineOf (labelWords r)) =
      .ok (if r.2.length = k then upd s r.1 (s r.1 ++ r.2.map q) else s) := by
  unfold labelRow
  rw [split_line (show RowOk (labelWords r) from rowOk_cons fun w hw => (h3 w hw).1)]
  simp only [labelWords]
  by_cases hk : r.2.length = k
  · rw [if_pos hk, if_pos hk, stoi_toStr _ h1, Res.bind_ok', if_pos (h2 hk), stods_eq fun w hw => (h3 w hw).2,
      Res.bind_ok']
  · rw [if_neg hk, if_neg hk]

private theorem labels_fold (q : Str → ℚ) (k : ℕ) : ∀ (rows : List (ℤ × List Str)) (s : ℤ → List ℚ) (o : ℤ),
    rows.foldl (fun s r => if r.2.length = k then upd s r.1 (s r.1 ++ r.2.map q) else s) s o =
      s o ++ (rows.filter fun r => r.1 = o ∧ r.2.length = k).flatMap fun r => r.2.map q := by
  intro rows
  induction rows with
  | nil => intro s o; simp
  | cons r rows ih =>
    intro s o
    rw [List.foldl_cons, ih]
    by_cases hk : r.2.length = k
    · by_cases ho : r.1 = o
      · subst ho
        simp [hk, upd_same]
      · rw [if_pos hk, upd_other _ _ _ _ (Ne.symm ho)]
        simp [ho]
    · simp [hk]

/-- C196, what a label file makes of every origin: with `k` labels and a row per origin that is to be read, an origin gets
the shares of its rows with `k` shares, one row after the other, in addition to those it has. -/
theorem C196_label_file (head : Str) (rows : List (ℤ × List Str)) (q : Str → ℚ) (k : ℕ) (hk : 0 < k) (origins : List ℤ)
    (s : ℤ → List ℚ) (hh : '\n' ∉ head)
    (h : ∀ r ∈ rows, IntOk r.1 ∧ (r.2.length = k → r.1 ∈ origins) ∧ NumsOk q r.2) :
    ∃ s', readLabels rows.length k origins s (some (fileOf head (rows.map fun r => toStr r.1 :: r.2))) = .ok s' ∧
      ∀ o, s' o = s o ++ (rows.filter fun r => r.1 = o ∧ r.2.length = k).flatMap fun r => r.2.map q := by
  refine ⟨_, ?_, labels_fold q k rows s⟩
  rw [readLabels_pos _ hk]
  exact count_rows head labelWords rows s hh (fun r hr => rowOk_cons fun w hw => ((h r hr).2.2 w hw).1)
    fun r hr s => labelRow_eq (h r hr).1 (h r hr).2.1 (h r hr).2.2 s

/-- C196, part: if every origin has one row, with as many shares as there are labels, every origin has the shares of its
row.  Missing: rows with another number of shares are to be refused (`C196_false_short_row`), and a file that is shorter
than the configuration says (`C196_false_beyond_end`). -/
theorem C196_labels_partial (head : Str) (rows : List (ℤ × List Str)) (q : Str → ℚ) (k : ℕ) (hk : 0 < k)
    (origins : List ℤ) (hh : '\n' ∉ head) (h : ∀ r ∈ rows, IntOk r.1 ∧ r.1 ∈ origins ∧ NumsOk q r.2)
    (hlen : ∀ r ∈ rows, r.2.length = k) (hone : (rows.map fun r => r.1).Nodup) :
    ∃ s', readLabels rows.length k origins (fun _ => []) (some (fileOf head (rows.map fun r => toStr r.1 :: r.2))) =
        .ok s' ∧ ∀ r ∈ rows, s' r.1 = r.2.map q := by
  obtain ⟨s', e1, e2⟩ := C196_label_file head rows q k hk origins (fun _ => []) hh
    fun r hr => ⟨(h r hr).1, fun _ => (h r hr).2.1, (h r hr).2.2⟩
  refine ⟨s', e1, fun r hr => ?_⟩
  rw [e2, List.nil_append]
  have : (rows.filter fun x => x.1 = r.1 ∧ x.2.length = k) = [r] := by
    clear e1 e2 h hh
    induction rows with
    | nil => simp at hr
    | cons x rows ih =>
      simp only [List.map_cons, List.nodup_cons] at hone
      rcases List.mem_cons.1 hr with rfl | hr'
      · rw [List.filter_cons_of_pos (by simp [hlen r (by simp)]), List.filter_eq_nil_iff.2]
        intro y hy
        have : y.1 ≠ r.1 := fun e => hone.1 (List.mem_map.2 ⟨y, hy, e⟩)
        simp [this]
      · have hx : x.1 ≠ r.1 := fun e => hone.1 (List.mem_map.2 ⟨r, hr', e.symm⟩)
        rw [List.filter_cons_of_neg (by simp [hx])]
        exact ih (fun y hy => hlen y (by simp [hy])) hone.2 hr'
  rw [this]
  simp

/-- Shares of two origins; the second row has one share too few, and origin 2 has none. -/
example : ((readLabels 2 2 [1, 2] (fun _ => []) (some "#origin a b\n1 0.3 0.7\n2 1\n".toList)).bind fun s =>
    .ok [s 1, s 2]) = .ok [[3 / 10, 7 / 10], []] ∧
    "#origin a b\n1 0.3 0.7\n2 1\n".toList = fileOf "#origin a b".toList
      ([((1 : ℤ), ["0.3".toList, "0.7".toList]), (2, ["1".toList])].map fun r => toStr r.1 :: r.2) := by
  decide +kernel

/-- C196 is false for rows with another number of shares than there are labels: they are passed over in silence, and the
origin stays without shares. -/
theorem C196_false_short_row (head : Str) (rows : List (ℤ × List Str)) (q : Str → ℚ) (k : ℕ) (hk : 0 < k)
    (origins : List ℤ) (hh : '\n' ∉ head) (h : ∀ r ∈ rows, IntOk r.1 ∧ r.1 ∈ origins ∧ NumsOk q r.2) (o : ℤ)
    (ho : ∀ r ∈ rows, r.1 = o → r.2.length ≠ k) :
    ∃ s', readLabels rows.length k origins (fun _ => []) (some (fileOf head (rows.map fun r => toStr r.1 :: r.2))) =
        .ok s' ∧ s' o = [] := by
  obtain ⟨s', e1, e2⟩ := C196_label_file head rows q k hk origins (fun _ => []) hh
    fun r hr => ⟨(h r hr).1, fun _ => (h r hr).2.1, (h r hr).2.2⟩
  refine ⟨s', e1, ?_⟩
  rw [e2, List.nil_append, List.filter_eq_nil_iff.2]
  · rfl
  · intro r hr
    simp only [decide_eq_true_eq, not_and]
    exact ho r hr

/-- C196 is false for files that are shorter than the configuration says and end without a newline: the last row is read
again for each missing one, and its origin has its shares several times. -/
theorem C196_false_beyond_end (head : Str) (r : ℤ × List Str) (q : Str → ℚ) (k : ℕ) (hk : 0 < k) (origins : List ℤ)
    (hh : '\n' ∉ head) (h : IntOk r.1 ∧ r.1 ∈ origins ∧ NumsOk q r.2) (hlen : r.2.length = k) (num : ℕ) :
    ∃ s', readLabels num k origins (fun _ => []) (some (head ++ '\n' :: lineOf (toStr r.1 :: r.2))) = .ok s' ∧
      s' r.1 = (List.replicate num (r.2.map q)).flatten := by
  have hrow : RowOk (labelWords r) := rowOk_cons fun w hw => (h.2.2 w hw).1
  have hl : ∀ j, lineAt (head ++ '\n' :: lineOf (labelWords r)) (j + 1) = lineOf (labelWords r) := by
    intro j
    have e : linesOf (head ++ '\n' :: lineOf (labelWords r)) = [head, lineOf (labelWords r)] := by
      unfold linesOf
      rw [List.splitOn_append_cons_self_of_not_mem hh, List.splitOn_eq_singleton (line_no_newline hrow.1)]
    unfold lineAt
    rw [e]
    cases j <;> rfl
  rw [readLabels_pos _ hk]
  show ∃ s', Res.foldlM _ _ ((List.range num).map fun j => lineAt (head ++ '\n' :: lineOf (labelWords r)) (j + 1)) = _ ∧ _
  simp only [hl]
  have : ∀ (num : ℕ) (s : ℤ → List ℚ), ∃ s', Res.foldlM (labelRow k origins) s
      ((List.range num).map fun _ => lineOf (labelWords r)) = .ok s' ∧
      s' r.1 = s r.1 ++ (List.replicate num (r.2.map q)).flatten := by
    intro num
    induction num with
    | zero => intro s; exact ⟨s, rfl, by simp⟩
    | succ n ih =>
      intro s
      obtain ⟨s', e1, e2⟩ := ih (upd s r.1 (s r.1 ++ r.2.map q))
      refine ⟨s', ?_, ?_⟩
      · rw [List.range_succ_eq_map, List.map_cons, Res.foldlM_cons, labelRow_eq h.1 (fun _ => h.2.1) h.2.2, if_pos hlen,
          Res.ok_bind, List.map_map]
        exact e1
      · rw [e2, upd_same]
        simp [List.replicate_succ]
  simpa using this num fun _ => []

/-- The shares 0.3 and 0.2 (half of the vehicles has no label) are read twice: a vehicle gets label 2, which does not
exist. -/
example : ((readLabels 2 2 [1, 2] (fun _ => []) (some "#origin a b\n1 0.3 0.2".toList)).bind fun s =>
    .ok (s 1, Net.generateLabel (s 1) (6 / 10), Net.generateLabel [3 / 10, 2 / 10] (6 / 10))) =
      .ok ([3 / 10, 2 / 10, 3 / 10, 2 / 10], 2, -1) := by
  decide +kernel

/-! ## C197: tracking files -/

/-- C197.  The pairs and the intervals to be tracked are those of the rows of the two files, in this order; a missing file
stands for none. -/
theorem C197_tracking (h1 h2 : Str) (ps : List (ℤ × ℤ)) (ks : List ℤ) (hh1 : '\n' ∉ h1) (hh2 : '\n' ∉ h2)
    (hp : ∀ p ∈ ps, IntOk p.1 ∧ IntOk p.2) (hk : ∀ k ∈ ks, IntOk k) (fuel : ℕ) (hf1 : ps.length + 2 ≤ fuel)
    (hf2 : ks.length + 2 ≤ fuel) :
    readTracking fuel (some (fileOf h1 (ps.map fun p => [toStr p.1, toStr p.2])))
        (some (fileOf h2 (ks.map fun k => [toStr k]))) = .ok (ps, ks) ∧
      readTracking fuel none (some (fileOf h2 (ks.map fun k => [toStr k]))) = .ok ([], ks) ∧
      readTracking fuel (some (fileOf h1 (ps.map fun p => [toStr p.1, toStr p.2]))) none = .ok (ps, []) := by
  have hr1 : ∀ p : ℤ × ℤ, RowOk [toStr p.1, toStr p.2] := fun p => rowOk_cons (by simpa using (toStr_word p.2).1)
  have hr2 : ∀ k : ℤ, RowOk [toStr k] := fun k => rowOk_cons (by simp)
  have e1 : readAll trackPairRow fuel [] (some (fileOf h1 (ps.map fun p => [toStr p.1, toStr p.2]))) = .ok ps := by
    rw [all_rows (g := fun s p => s ++ [p]) h1 (fun p : ℤ × ℤ => [toStr p.1, toStr p.2]) ps [] hh1 (fun p _ => hr1 p) (by
      intro p hp' s
      unfold trackPairRow
      rw [split_line (hr1 p)]
      simp only
      rw [stoi_toStr _ (hp p hp').1, Res.bind_ok', stoi_toStr _ (hp p hp').2, Res.bind_ok']) fuel hf1]
    have : ∀ (ps acc : List (ℤ × ℤ)), ps.foldl (fun s p => s ++ [p]) acc = acc ++ ps := by
      intro ps
      induction ps with
      | nil => simp
      | cons p ps ih => intro acc; rw [List.foldl_cons, ih]; simp
    rw [this]; rfl
  have e2 : readAll trackIntervalRow fuel [] (some (fileOf h2 (ks.map fun k => [toStr k]))) = .ok ks := by
    rw [all_rows (g := fun s p => s ++ [p]) h2 (fun k : ℤ => [toStr k]) ks [] hh2 (fun p _ => hr2 p) (by
      intro p hp' s
      unfold trackIntervalRow
      rw [split_line (hr2 p)]
      simp only
      rw [stoi_toStr _ (hk p hp'), Res.bind_ok']) fuel hf2]
    have : ∀ (ps acc : List ℤ), ps.foldl (fun s p => s ++ [p]) acc = acc ++ ps := by
      intro ps
      induction ps with
      | nil => simp
      | cons p ps ih => intro acc; rw [List.foldl_cons, ih]; simp
    rw [this]; rfl
  unfold readTracking
  rw [e1, e2]
  exact ⟨rfl, rfl, rfl⟩

example : readTracking 9 (some "#o d\n1 4\n1 5\n".toList) (some "#k\n0\n3\n".toList) = .ok ([(1, 4), (1, 5)], [0, 3]) ∧
    "#o d\n1 4\n1 5\n".toList = fileOf "#o d".toList ([((1 : ℤ), (4 : ℤ)), (1, 5)].map fun p => [toStr p.1, toStr p.2]) ∧
    "#k\n0\n3\n".toList = fileOf "#k".toList ([(0 : ℤ), 3].map fun k => [toStr k]) := by
  decide +kernel

/-- C197, whatever the file: a line after the first that has not two words, a blank one included, is an error. -/
theorem C197_error (content : Str) (other : Option Str) (fuel : ℕ) (hf : (linesOf content).length ≤ fuel) (l : Str)
    (hl : l ∈ (fileLines content).tail) (hw : (wordsOf l).length ≠ 2) :
    ∀ r, readTracking fuel (some content) other ≠ .ok r := by
  intro r hr
  unfold readTracking at hr
  rw [readAll_file fuel content [] hf] at hr
  obtain ⟨ps, e, _⟩ := Res.bind_eq_ok'.1 hr
  refine foldlM_notOk _ _ l hl ?_ ps e
  intro c c'
  unfold trackPairRow
  rw [split_eq]
  rcases hws : wordsOf l with _ | ⟨a, _ | ⟨b, _ | ⟨x, y⟩⟩⟩
  · simp
  · simp
  · rw [hws] at hw; exact absurd rfl hw
  · simp

example : readTracking 9 (some "#o d\n1 4\n\n1 5\n".toList) none = .throw "Wrong OD tracking file" := by decide +kernel

/-- C197 is false for files without a first line: the first pair is not tracked. -/
theorem C197_false_no_first_line (p : ℤ × ℤ) (ps : List (ℤ × ℤ)) (hp : ∀ x ∈ p :: ps, IntOk x.1 ∧ IntOk x.2) (fuel : ℕ)
    (hf : ps.length + 2 ≤ fuel) :
    readTracking fuel (some (textOf ((p :: ps).map fun p => [toStr p.1, toStr p.2]))) none = .ok (ps, []) := by
  have e : textOf ((p :: ps).map fun p => [toStr p.1, toStr p.2]) =
      fileOf (lineOf [toStr p.1, toStr p.2]) (ps.map fun p => [toStr p.1, toStr p.2]) := by
    simp [textOf, fileOf]
  have hr1 : RowOk [toStr p.1, toStr p.2] := rowOk_cons (by simpa using (toStr_word p.2).1)
  rw [e]
  exact (C197_tracking _ [] ps [] (line_no_newline hr1.1) (by simp) (fun x hx => hp x (by simp [hx])) (by simp) fuel hf
    (by simp; omega)).2.2

example : readTracking 9 (some "1 4\n1 5\n".toList) none = .ok ([(1, 5)], []) := by decide +kernel

end Verif
