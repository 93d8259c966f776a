import Verif.Lemmas.Readers
import Verif.Props.MmFleet

/-! # C198 to C202: adaptive ratios, attributes by interval, places of origins and destinations, two-class networks -/

namespace Verif
open Text Io Rd

/-! ## C198: files of adaptive ratios -/

private theorem demandLine_rowOk {q : Str → ℚ} {r : DemandLine} (h : NumsOk q r.values) : RowOk r.words := by
  refine rowOk_cons fun w hw => ?_
  rcases List.mem_cons.1 hw with rfl | hw
  · exact (toStr_word _).1
  · exact (h w hw).1

private theorem split_trim_line {ws : List Str} (h : RowOk ws) : split (trim (lineOf ws)) ' ' = ws := by
  rw [trim_eq, strip_line h.1, split_line h]

/-- C198.  From a file with a first line and one row `origin destination r₁ … rₘ …` per pair, every pair has the first `m`
ratios of its first row, and other pairs have none of their own. -/
theorem C198_ratio_file (head : Str) (rows : List DemandLine) (m : ℕ) (origins dests : List ℤ) (q : Str → ℚ)
    (hh : '\n' ∉ head) (hi : ∀ r ∈ rows, IntOk r.o ∧ IntOk r.d) (ho : ∀ r ∈ rows, r.o ∈ origins ∧ r.d ∈ dests)
    (hv : ∀ r ∈ rows, m ≤ r.values.length ∧ NumsOk q r.values) (fuel : ℕ) (hf : rows.length + 2 ≤ fuel) :
    ∃ t, buildRatios fuel m origins dests (some (fileOf head (rows.map DemandLine.words))) = .ok t ∧
      ∀ o d, t.get (o, d) =
        (rows.find? fun r => r.o = o ∧ r.d = d).map fun r => (r.values.take m).map q := by
  have hrow : ∀ r ∈ rows, RowOk r.words := fun r hr => demandLine_rowOk (hv r hr).2
  obtain ⟨t, e1, e2⟩ := fold_insert (body := ratioRow m origins dests) (fun r => lineOf r.words)
    (fun r : DemandLine => (r.o, r.d)) (fun r => (r.values.take m).map q) rows [] (by
      intro r hr s
      unfold ratioRow
      rw [split_trim_line (hrow r hr)]
      simp only [DemandLine.words]
      rw [if_pos (hv r hr).1, stoi_toStr _ (hi r hr).1, Res.bind_ok', stoi_toStr _ (hi r hr).2,
        Res.bind_ok', stods_eq fun w hw => ((hv r hr).2 w (List.mem_of_mem_take hw)).2,
        Res.bind_ok', if_pos (ho r hr).1, if_pos (ho r hr).2])
  refine ⟨t, ?_, fun o d => by simpa [Prod.ext_iff] using e2 (o, d)⟩
  have hr : ∀ ws ∈ rows.map DemandLine.words, RowOk ws := by
    intro ws hw
    obtain ⟨r, hr, rfl⟩ := List.mem_map.1 hw
    exact hrow r hr
  unfold buildRatios
  rw [readAll_file fuel _ [] (by rw [linesOf_fileOf hh hr]; simp; omega), fileLines_fileOf hh hr, List.map_map]
  exact e1

example : ((buildRatios 9 2 [1] [4, 6] (some "#O D r r\n1 4 0.5 1\n1 6 0 0\n".toList)).bind fun t =>
    .ok [t.get (1, 4), t.get (1, 6), t.get (4, 1)]) = .ok [some [1 / 2, 1], some [0, 0], none] ∧
    "#O D r r\n1 4 0.5 1\n1 6 0 0\n".toList = fileOf "#O D r r".toList
      ([(⟨1, 4, ["0.5".toList, "1".toList]⟩ : DemandLine), ⟨1, 6, ["0".toList, "0".toList]⟩].map DemandLine.words) := by
  decide +kernel

private theorem perMinute_length (n : ℕ) (xs : List ℚ) : (perMinute n xs).length = xs.length * n := by
  unfold perMinute
  induction xs with
  | nil => simp
  | cons x xs ih =>
    rw [List.flatMap_cons, List.length_append, ih, List.length_replicate, List.length_cons]
    ring

private theorem perMinute_get {n : ℕ} (hn : 0 < n) : ∀ (xs : List ℚ) (m : ℕ), (perMinute n xs)[m]? = xs[m / n]?
  | [], m => by simp [perMinute]
  | x :: xs, m => by
    have e : perMinute n (x :: xs) = List.replicate n x ++ perMinute n xs := by simp [perMinute]
    rw [e]
    by_cases h : m < n
    · rw [List.getElem?_append_left (by simpa using h), Nat.div_eq_of_lt h]
      simp [h]
    · rw [List.getElem?_append_right (by simpa using Nat.not_lt.1 h), List.length_replicate, perMinute_get hn xs]
      have : m / n = (m - n) / n + 1 := by
        rw [← Nat.add_div_right _ hn, Nat.sub_add_cancel (Nat.not_lt.1 h)]
      rw [this, List.getElem?_cons_succ]

private theorem ratioRow2_eq {q : Str → ℚ} {m n : ℕ} (hn : 15 ≤ n) {origins dests : List ℤ} {r : DemandLine}
    (hi : IntOk r.o ∧ IntOk r.d) (ho : r.o ∈ origins ∧ r.d ∈ dests) (hv : r.values.length = m * 2 ∧ NumsOk q r.values)
    (s : Store (ℤ × ℤ) (List ℚ × List ℚ)) :
    ratioRow2 m n origins dests s (lineOf r.words) = .ok (s.insert (r.o, r.d)
      ((perMinute n ((r.values.take m).map q)).take (m * 15), (perMinute n ((r.values.drop m).map q)).take (m * 15))) := by
  have l1 : ((r.values.take m).map q).length = m := by rw [List.length_map, List.length_take]; omega
  have l2 : ((r.values.drop m).map q).length = m := by rw [List.length_map, List.length_drop]; omega
  have hle : m * 15 ≤ m * n := Nat.mul_le_mul_left _ hn
  unfold ratioRow2
  rw [split_trim_line (demandLine_rowOk hv.2)]
  simp only [DemandLine.words]
  rw [if_pos hv.1, stoi_toStr _ hi.1, Res.bind_ok', stoi_toStr _ hi.2, Res.bind_ok',
    stods_eq fun w hw => (hv.2 w (List.mem_of_mem_take hw)).2, Res.bind_ok',
    stods_eq fun w hw => (hv.2 w (List.mem_of_mem_drop hw)).2, Res.bind_ok', if_pos ho.1, if_pos ho.2]
  unfold MmF.copyRow
  rw [perMinute_length, perMinute_length, l1, l2, if_neg (by omega), if_neg (by omega), Res.bind_ok', Res.bind_ok']

/-- C198, two classes, at least fifteen minutes per interval: every pair keeps, for each class, fifteen times as many
ratios as there are intervals; the one of a minute is that of the interval the minute is in. -/
theorem C198_two_classes_partial (head : Str) (rows : List DemandLine) (m frq unit n : ℕ) (origins dests : List ℤ)
    (q : Str → ℚ) (hh : '\n' ∉ head) (hn : numMinutes frq unit = .ok n) (hn15 : 15 ≤ n)
    (hi : ∀ r ∈ rows, IntOk r.o ∧ IntOk r.d) (ho : ∀ r ∈ rows, r.o ∈ origins ∧ r.d ∈ dests)
    (hv : ∀ r ∈ rows, r.values.length = m * 2 ∧ NumsOk q r.values) (fuel : ℕ) (hf : rows.length + 2 ≤ fuel) :
    ∃ t, buildRatios2 fuel m frq unit origins dests (some (fileOf head (rows.map DemandLine.words))) = .ok t ∧
      (∀ o d, (rows.find? fun r => r.o = o ∧ r.d = d) = none → t.get (o, d) = none) ∧
      ∀ o d r, (rows.find? fun r => r.o = o ∧ r.d = d) = some r → ∃ car truck, t.get (o, d) = some (car, truck) ∧
        car.length = m * 15 ∧ truck.length = m * 15 ∧
        ∀ i < m * 15, car[i]? = (r.values[i / n]?).map q ∧ truck[i]? = (r.values[m + i / n]?).map q := by
  have hrow : ∀ r ∈ rows, RowOk r.words := fun r hr => demandLine_rowOk (hv r hr).2
  obtain ⟨t, e1, e2⟩ := fold_insert (body := ratioRow2 m n origins dests) (fun r => lineOf r.words)
    (fun r : DemandLine => (r.o, r.d))
    (fun r => ((perMinute n ((r.values.take m).map q)).take (m * 15), (perMinute n ((r.values.drop m).map q)).take (m * 15)))
    rows [] fun r hr s => ratioRow2_eq hn15 (hi r hr) (ho r hr) (hv r hr) s
  have hr : ∀ ws ∈ rows.map DemandLine.words, RowOk ws := by
    intro ws hw
    obtain ⟨r, hr, rfl⟩ := List.mem_map.1 hw
    exact hrow r hr
  have e2' : ∀ o d, t.get (o, d) = (rows.find? fun r => r.o = o ∧ r.d = d).map fun r =>
      ((perMinute n ((r.values.take m).map q)).take (m * 15), (perMinute n ((r.values.drop m).map q)).take (m * 15)) :=
    fun o d => by simpa [Prod.ext_iff] using e2 (o, d)
  refine ⟨t, ?_, fun o d h => by rw [e2', h]; rfl, ?_⟩
  · unfold buildRatios2
    rw [hn, Res.bind_ok', readAll_file fuel _ [] (by rw [linesOf_fileOf hh hr]; simp; omega), fileLines_fileOf hh hr,
      List.map_map]
    exact e1
  · intro o d r hfind
    have hmem := List.mem_of_find?_eq_some hfind
    have hl := (hv r hmem).1
    have l1 : ((r.values.take m).map q).length = m := by rw [List.length_map, List.length_take]; omega
    have l2 : ((r.values.drop m).map q).length = m := by rw [List.length_map, List.length_drop]; omega
    have hle : m * 15 ≤ m * n := Nat.mul_le_mul_left _ hn15
    refine ⟨_, _, by rw [e2', hfind]; rfl, ?_, ?_, ?_⟩
    · rw [List.length_take, perMinute_length, l1]; omega
    · rw [List.length_take, perMinute_length, l2]; omega
    · intro i hi
      have hdiv : i / n < m := by
        rw [Nat.div_lt_iff_lt_mul (by omega)]
        omega
      rw [List.getElem?_take_of_lt hi, List.getElem?_take_of_lt hi, perMinute_get (by omega), perMinute_get (by omega),
        List.getElem?_map, List.getElem?_map, List.getElem?_take_of_lt hdiv, List.getElem?_drop]
      exact ⟨rfl, rfl⟩

/-- One interval of fifteen minutes (180 time steps of five seconds). -/
example : ((buildRatios2 9 2 180 5 [1] [4] (some "#O D c c t t\n1 4 0.5 1 0 0.25\n".toList)).bind fun t =>
    .ok ((t.get (1, 4)).map fun p => (p.1.length, [p.1[14]?, p.1[15]?, p.2[14]?, p.2[15]?]))) =
      .ok (some (30, [some (1 / 2), some 1, some 0, some (1 / 4)])) ∧ numMinutes 180 5 = .ok 15 ∧
    "#O D c c t t\n1 4 0.5 1 0 0.25\n".toList = fileOf "#O D c c t t".toList
      ([(⟨1, 4, ["0.5".toList, "1".toList, "0".toList, "0.25".toList]⟩ : DemandLine)].map DemandLine.words) := by
  decide +kernel

/-- C198 is false for intervals shorter than fifteen minutes: reading the first row runs past the end of the array. -/
theorem C198_false_short_interval (head : Str) (r : DemandLine) (rows : List DemandLine) (m frq unit n : ℕ)
    (origins dests : List ℤ) (q : Str → ℚ) (hh : '\n' ∉ head) (hn : numMinutes frq unit = .ok n) (hn15 : n < 15)
    (hm : 0 < m) (hi : IntOk r.o ∧ IntOk r.d) (ho : r.o ∈ origins ∧ r.d ∈ dests)
    (hv : ∀ x ∈ r :: rows, NumsOk q x.values) (hl : r.values.length = m * 2) (fuel : ℕ) (hf : rows.length + 3 ≤ fuel) :
    buildRatios2 fuel m frq unit origins dests (some (fileOf head ((r :: rows).map DemandLine.words))) = .ub := by
  have hr : ∀ ws ∈ (r :: rows).map DemandLine.words, RowOk ws := by
    intro ws hw
    obtain ⟨r, hr, rfl⟩ := List.mem_map.1 hw
    exact demandLine_rowOk (hv r hr)
  unfold buildRatios2
  rw [hn, Res.bind_ok', readAll_file fuel _ [] (by rw [linesOf_fileOf hh hr]; simp; omega), fileLines_fileOf hh hr,
    List.map_cons, List.map_cons, Res.foldlM_cons]
  have : ratioRow2 m n origins dests [] (lineOf r.words) = .ub := by
    have l1 : ((r.values.take m).map q).length = m := by rw [List.length_map, List.length_take]; omega
    have hlt : m * n < m * 15 := (Nat.mul_lt_mul_left hm).2 hn15
    unfold ratioRow2
    rw [split_trim_line (demandLine_rowOk (hv r (by simp)))]
    simp only [DemandLine.words]
    rw [if_pos hl, stoi_toStr _ hi.1, Res.bind_ok', stoi_toStr _ hi.2, Res.bind_ok',
      stods_eq fun w hw => (hv r (by simp) w (List.mem_of_mem_take hw)).2, Res.bind_ok',
      stods_eq fun w hw => (hv r (by simp) w (List.mem_of_mem_drop hw)).2, Res.bind_ok', if_pos ho.1, if_pos ho.2]
    unfold MmF.copyRow
    rw [perMinute_length, l1, if_pos hlt]
    rfl
  rw [this]
  rfl

example : ((buildRatios2 9 1 60 5 [1] [4] (some "#O D c t\n1 4 0.5 1\n".toList)).bind fun t =>
    .ok (t.get (1, 4))) = .ub ∧ numMinutes 60 5 = .ok 5 := by
  decide +kernel

/-! ## C199: link attributes by interval -/

private theorem attr_rowOk {q : Str → ℚ} {n : Str → ℤ} {r : AttrLine} (h : r.Ok q n) : RowOk r.words := by
  obtain ⟨_, _, _, h4, h5, h6, _⟩ := h
  refine rowOk_cons fun w hw => ?_
  simp only [List.mem_cons, List.not_mem_nil, or_false] at hw
  rcases hw with rfl | rfl | rfl | rfl | rfl | rfl | rfl | rfl | rfl | rfl | rfl | rfl
  all_goals first
    | exact (toStr_word _).1
    | exact h4
    | exact h6
    | exact (h5 _ (by simp)).1

/-- C199, part: from a file with a first line and rows with thirteen words, the table has, for every interval and link, the
last row, in metres, seconds and vehicles, and nothing where there is no row.  Missing: tolls that are not whole numbers
(`C199_false_fraction`). -/
theorem C199_attr_file_partial (head : Str) (rows : List AttrLine) (q : Str → ℚ) (n : Str → ℤ) (hh : '\n' ∉ head)
    (h : ∀ r ∈ rows, r.Ok q n) (fuel : ℕ) (hf : rows.length + 2 ≤ fuel) :
    ∃ t, buildAttrs2 fuel (some (fileOf head (rows.map AttrLine.words))) = .ok t ∧
      ∀ k l, t k l = (rows.reverse.find? fun r => r.interval = k ∧ r.link = l).map (AttrLine.meaning q n) := by
  refine ⟨rows.foldl (fun s r => upd s r.interval (upd (s r.interval) r.link (some (r.meaning q n)))) fun _ _ => none, ?_, ?_⟩
  · refine all_rows head AttrLine.words rows _ hh (fun r hr => attr_rowOk (h r hr)) (fun r hr s => ?_) fuel hf
    obtain ⟨h1, h2, h3, h4, h5, h6, h7⟩ := h r hr
    unfold attrRow2
    rw [split_line (attr_rowOk (h r hr))]
    simp only [AttrLine.words]
    rw [stoi_toStr _ h1, Res.bind_ok', stoi_toStr _ h2, Res.bind_ok', (h5 r.length (by simp)).2, Res.bind_ok',
      (h5 r.ffsCar (by simp)).2, Res.bind_ok', (h5 r.capCar (by simp)).2, Res.bind_ok', (h5 r.holdCar (by simp)).2,
      Res.bind_ok', stoi_toStr _ h3, Res.bind_ok', (h5 r.ffsTruck (by simp)).2, Res.bind_ok',
      (h5 r.capTruck (by simp)).2, Res.bind_ok', (h5 r.holdTruck (by simp)).2, Res.bind_ok', (h5 r.factor (by simp)).2,
      Res.bind_ok', h7, Res.bind_ok', trim_word h4]
    rfl
  · clear h hf
    induction rows using List.reverseRecOn with
    | nil => intro k l; rfl
    | append_singleton rows r ih =>
      intro k l
      rw [List.foldl_append, List.foldl_cons, List.foldl_nil, List.reverse_append, List.reverse_singleton,
        List.singleton_append, List.find?_cons]
      by_cases hk : r.interval = k
      · subst hk
        by_cases hl : r.link = l
        · subst hl
          simp [upd_same]
        · rw [upd_same, upd_other _ _ _ _ (Ne.symm hl), ih]
          simp [hl]
      · rw [upd_other _ _ _ _ (Ne.symm hk), ih]
        simp [hk]

/-- Link 7 loses a lane in interval 3 and costs two units. -/
example : ((buildAttrs2 9 (some "#i l ...\n3 7 CTM 1 36 1800 160 2 36 1800 160 1.5 2\n".toList)).bind fun t =>
    .ok (t 3 7, t 4 7)) =
      .ok (some ⟨"CTM".toList, 1600, 16, 1 / 2, 1 / 10, 2, 16, 1 / 2, 1 / 10, 3 / 2, 2⟩, none) ∧
    "#i l ...\n3 7 CTM 1 36 1800 160 2 36 1800 160 1.5 2\n".toList = fileOf "#i l ...".toList
      ([(⟨3, 7, "CTM".toList, "1".toList, "36".toList, "1800".toList, "160".toList, 2, "36".toList, "1800".toList,
        "160".toList, "1.5".toList, "2".toList⟩ : AttrLine)].map AttrLine.words) := by
  decide +kernel

/-- C199, whatever the file: a line after the first without exactly thirteen words is an error, in both kinds of loading. -/
theorem C199_error (content : Str) (fuel : ℕ) (hf : (linesOf content).length ≤ fuel) (l : Str)
    (hl : l ∈ (fileLines content).tail) (hw : (wordsOf l).length ≠ 13) :
    (∀ t, buildAttrs2 fuel (some content) ≠ .ok t) ∧ ∀ t, buildAttrs fuel (some content) ≠ .ok t := by
  constructor
  · intro t
    unfold buildAttrs2
    rw [readAll_file fuel content _ hf]
    refine foldlM_notOk _ _ l hl ?_ t
    intro c c'
    unfold attrRow2
    rw [split_eq]
    split
    · rename_i heq
      rw [heq] at hw
      exact absurd rfl hw
    · simp
  · intro t
    unfold buildAttrs
    rw [readAll_file fuel content _ hf]
    refine foldlM_notOk _ _ l hl ?_ t
    intro c c'
    unfold attrRow
    rw [split_eq]
    split
    · rename_i heq
      rw [heq] at hw
      exact absurd rfl hw
    · simp

/-- A row with the nine words that a loading with one class uses is refused. -/
example : ((buildAttrs 9 (some "#i l ...\n3 7 CTM 1 36 1800 160 2 2\n".toList)).bind fun t => .ok (t 3 7)) =
    .throw "failed to parse line" ∧
    "3 7 CTM 1 36 1800 160 2 2".toList ∈ (fileLines "#i l ...\n3 7 CTM 1 36 1800 160 2 2\n".toList).tail ∧
    (wordsOf "3 7 CTM 1 36 1800 160 2 2".toList).length = 9 := by
  decide +kernel

/-- C199 is false for tolls that are not whole numbers: whatever the file says, every toll of the table is one. -/
theorem C199_false_fraction (content : Option Str) (fuel : ℕ) (t : ℤ → ℤ → Option Attr2)
    (h : buildAttrs2 fuel content = .ok t) (k l : ℤ) (a : Attr2) (ha : t k l = some a) : ∃ n : ℤ, a.toll = n := by
  have key : ∀ (s s' : ℤ → ℤ → Option Attr2) (line : Str), attrRow2 s line = .ok s' →
      (∀ k l a, s k l = some a → ∃ n : ℤ, a.toll = n) → ∀ k l a, s' k l = some a → ∃ n : ℤ, a.toll = n := by
    intro s s' line e hs
    unfold attrRow2 at e
    split at e
    · obtain ⟨i, _, e⟩ := Res.bind_eq_ok'.1 e
      obtain ⟨j, _, e⟩ := Res.bind_eq_ok'.1 e
      obtain ⟨_, _, e⟩ := Res.bind_eq_ok'.1 e
      obtain ⟨_, _, e⟩ := Res.bind_eq_ok'.1 e
      obtain ⟨_, _, e⟩ := Res.bind_eq_ok'.1 e
      obtain ⟨_, _, e⟩ := Res.bind_eq_ok'.1 e
      obtain ⟨_, _, e⟩ := Res.bind_eq_ok'.1 e
      obtain ⟨_, _, e⟩ := Res.bind_eq_ok'.1 e
      obtain ⟨_, _, e⟩ := Res.bind_eq_ok'.1 e
      obtain ⟨_, _, e⟩ := Res.bind_eq_ok'.1 e
      obtain ⟨_, _, e⟩ := Res.bind_eq_ok'.1 e
      obtain ⟨n, _, e⟩ := Res.bind_eq_ok'.1 e
      simp only [Res.ok.injEq] at e
      subst e
      intro k l a ha
      by_cases hk : k = i
      · subst hk
        rw [upd_same] at ha
        by_cases hl : l = j
        · subst hl
          rw [upd_same] at ha
          simp only [Option.some.injEq] at ha
          subst ha
          exact ⟨n, rfl⟩
        · rw [upd_other _ _ _ _ hl] at ha
          exact hs _ _ _ ha
      · rw [upd_other _ _ _ _ hk] at ha
        exact hs _ _ _ ha
    · cases e
  have loop : ∀ (fuel : ℕ) (i : In) (s t : ℤ → ℤ → Option Attr2), whileLoop attrRow2 fuel i s = .ok t →
      (∀ k l a, s k l = some a → ∃ n : ℤ, a.toll = n) → ∀ k l a, t k l = some a → ∃ n : ℤ, a.toll = n := by
    intro fuel
    induction fuel with
    | zero => intro i s t e; cases e
    | succ fuel ih =>
      intro i s t e hs
      rw [whileLoop] at e
      by_cases hok : getlineOk i = true
      · rw [if_pos hok] at e
        obtain ⟨s', e1, e2⟩ := Res.bind_eq_ok'.1 e
        exact ih _ s' t e2 (key s s' _ e1 hs)
      · rw [if_neg hok] at e
        simp only [Res.ok.injEq] at e
        subst e
        exact hs
  cases content with
  | none =>
    have e : (fun _ _ => none) = t := by
      have : (Res.ok (fun _ _ => none) : Res (ℤ → ℤ → Option Attr2)) = .ok t := h
      simpa using this
    subst e
    cases ha
  | some c => exact loop fuel _ _ t h (fun _ _ _ h => by cases h) k l a ha

/-- A toll of one and a half becomes one. -/
example : ((buildAttrs2 9 (some "#i l ...\n3 7 CTM 1 36 1800 160 2 36 1800 160 1.5 1.5\n".toList)).bind fun t =>
    .ok ((t 3 7).map fun a => a.toll)) = .ok (some 1) := by
  decide +kernel

/-! ## C200: places of origins and destinations -/

private def placeWords (r : ℤ × ℤ) : List Str := [toStr r.1, toStr r.2]

private theorem place_rowOk (r : ℤ × ℤ) : RowOk (placeWords r) := rowOk_cons (by simpa using (toStr_word r.2).1)

/-- What a row makes of the places, when the node has the right kind. -/
private def addPlace (s : Places) (r : ℤ × ℤ) : Places :=
  ⟨s.node.insert r.1 r.2, upd s.at' r.2 (some (if (s.node.get r.1).isSome then none else some r.1))⟩

private theorem placeRow_eq {want : NodeKind} {kind : Store ℤ NodeKind} {r : ℤ × ℤ} (h1 : IntOk r.1 ∧ IntOk r.2)
    (hk : kind.get r.2 = some want) (s : Places) :
    placeRow want kind s (lineOf (placeWords r)) = .ok (addPlace s r) := by
  unfold placeRow
  rw [split_line (place_rowOk r)]
  simp only [placeWords]
  rw [stoi_toStr _ h1.1, Res.bind_ok', stoi_toStr _ h1.2, Res.bind_ok', hk]
  simp only [if_true]
  rfl

private theorem addPlace_fold : ∀ (rows : List (ℤ × ℤ)) (s : Places),
    (∀ k, (rows.foldl addPlace s).node.get k = (s.node.get k).or ((rows.find? fun r => r.1 = k).map (·.2))) ∧
      ∀ n, (rows.map (·.1)).Nodup → (rows.map (·.2)).Nodup → (∀ r ∈ rows, s.node.get r.1 = none) →
        (rows.foldl addPlace s).at' n = ((rows.find? fun r => r.2 = n).map fun r => some r.1).or (s.at' n) := by
  intro rows
  induction rows with
  | nil => intro s; exact ⟨fun k => by simp, fun n _ _ _ => by simp⟩
  | cons r rows ih =>
    intro s
    obtain ⟨i1, i2⟩ := ih (addPlace s r)
    refine ⟨fun k => ?_, fun n hn1 hn2 hs => ?_⟩
    · rw [List.foldl_cons, i1]
      show ((s.node.insert r.1 r.2).get k).or _ = _
      rw [get_insert, Option.or_assoc]
      congr 1
      by_cases hk : r.1 = k
      · simp [hk]
      · simp [hk]
    · rw [List.map_cons, List.nodup_cons] at hn1 hn2
      rw [List.foldl_cons, i2 n hn1.2 hn2.2]
      · by_cases hr : r.2 = n
        · have hnone : rows.find? (fun x => x.2 = n) = none := by
            rw [List.find?_eq_none]
            intro x hx
            have : x.2 ≠ n := fun e => hn2.1 (List.mem_map.2 ⟨x, hx, by rw [e, hr]⟩)
            simpa using this
          rw [hnone]
          subst hr
          show Option.or none (upd s.at' r.2 (some (if (s.node.get r.1).isSome then none else some r.1)) r.2) = _
          rw [upd_same, hs r (by simp)]
          simp
        · show Option.or _ (upd s.at' r.2 _ n) = _
          rw [upd_other _ _ _ _ (Ne.symm hr)]
          simp [hr]
      · intro x hx
        show (s.node.insert r.1 r.2).get x.1 = none
        have hne : r.1 ≠ x.1 := fun e => hn1.1 (List.mem_map.2 ⟨x, hx, e.symm⟩)
        rw [get_insert, hs x (by simp [hx])]
        simp [hne]

private theorem placesFold {want : NodeKind} {kind : Store ℤ NodeKind} (rows : List (ℤ × ℤ))
    (h : ∀ r ∈ rows, IntOk r.1 ∧ IntOk r.2 ∧ kind.get r.2 = some want) (s : Places) :
    Res.foldlM (placeRow want kind) s (rows.map (lineOf ∘ placeWords)) = .ok (rows.foldl addPlace s) := by
  rw [foldlM_map]
  exact BusP.foldlM_okMem rows s fun r hr c => placeRow_eq ⟨(h r hr).1, (h r hr).2.1⟩ (h r hr).2.2 c

/-- The rest of a file after its first rows have been read. -/
theorem readLoop_rows {σ : Type} {body : σ → Str → Res σ} : ∀ (rows : List (List Str)) (ps : List Str) (fuel : ℕ) (i : In)
    (s s' : σ), Has i (rows.map lineOf ++ ps) → (∀ ws ∈ rows, RowOk ws) → rows.length < fuel →
    Res.foldlM body s (rows.map lineOf) = .ok s' →
    ∃ i', readLoop body fuel rows.length i s = .ok (s', i') ∧ Has i' ps
  | [], ps, fuel, i, s, s', hi, _, hf, e => by
    obtain ⟨fuel, rfl⟩ : ∃ k, fuel = k + 1 := ⟨fuel - 1, by omega⟩
    rw [List.map_nil, Res.foldlM_nil] at e
    simp only [Res.ok.injEq] at e
    subst e
    exact ⟨i, rfl, by simpa using hi⟩
  | ws :: rows, ps, fuel, i, s, s', hi, hr, hf, e => by
    obtain ⟨fuel, rfl⟩ : ∃ k, fuel = k + 1 := ⟨fuel - 1, by omega⟩
    rw [List.map_cons, List.cons_append] at hi
    rw [List.map_cons, Res.foldlM_cons] at e
    obtain ⟨s1, e1, e2⟩ := Res.bind_eq_ok.1 e
    have hws := hr ws (by simp)
    obtain ⟨g1, g2⟩ := getline_spec hi (trim (getline i).line)
    have hl : trim (getline i).line = lineOf ws := by rw [g1, trim_eq, strip_line hws.1]
    rw [List.length_cons, readLoop]
    simp only [hl]
    rw [if_neg (is_row (isRow_line hws)), e1, Res.bind_ok']
    rw [hl] at g2
    exact readLoop_rows rows ps fuel _ s1 s' g2 (fun x hx => hr x (by simp [hx])) (by simp at hf; omega) e2

/-- C200, part: from a file with one row `number node` per origin and then one per destination, where the nodes exist and
have the right kind, numbers and nodes are used once: every origin is at the node of its row and that node releases for
this origin, the same for destinations, and there are no others.  Missing: rows without two words are to be refused
(`C200_false_skipped`), as are numbers that appear twice (`C200_false_twice`) and nodes of another kind
(`C200_false_kind`). -/
theorem C200_places_partial (os ds : List (ℤ × ℤ)) (kind : Store ℤ NodeKind)
    (ho : ∀ r ∈ os, IntOk r.1 ∧ IntOk r.2 ∧ kind.get r.2 = some .origin)
    (hd : ∀ r ∈ ds, IntOk r.1 ∧ IntOk r.2 ∧ kind.get r.2 = some .dest)
    (hon : (os.map (·.1)).Nodup ∧ (os.map (·.2)).Nodup) (hdn : (ds.map (·.1)).Nodup ∧ (ds.map (·.2)).Nodup)
    (fuel : ℕ) (hf : os.length + ds.length < fuel) :
    ∃ po pd, buildPlaces fuel os.length ds.length kind (some (textOf ((os ++ ds).map fun r => [toStr r.1, toStr r.2]))) =
        .ok (po, pd) ∧
      (∀ k, po.node.get k = (os.find? fun r => r.1 = k).map (·.2)) ∧
      (∀ n, po.at' n = (os.find? fun r => r.2 = n).map fun r => some r.1) ∧
      (∀ k, pd.node.get k = (ds.find? fun r => r.1 = k).map (·.2)) ∧
      (∀ n, pd.at' n = (ds.find? fun r => r.2 = n).map fun r => some r.1) := by
  obtain ⟨a1, a2⟩ := addPlace_fold os ⟨[], fun _ => none⟩
  obtain ⟨b1, b2⟩ := addPlace_fold ds ⟨[], fun _ => none⟩
  refine ⟨os.foldl addPlace ⟨[], fun _ => none⟩, ds.foldl addPlace ⟨[], fun _ => none⟩, ?_, fun k => by simpa using a1 k,
    fun n => by simpa using a2 n hon.1 hon.2 fun _ _ => rfl, fun k => by simpa using b1 k,
    fun n => by simpa using b2 n hdn.1 hdn.2 fun _ _ => rfl⟩
  have hrow : ∀ (rs : List (ℤ × ℤ)), ∀ ws ∈ rs.map placeWords, RowOk ws := by
    intro rs ws hw
    obtain ⟨r, _, rfl⟩ := List.mem_map.1 hw
    exact place_rowOk r
  have hlines : linesOf (textOf ((os ++ ds).map placeWords)) =
      (os.map placeWords).map lineOf ++ ((ds.map placeWords).map lineOf ++ [[]]) := by
    rw [linesOf_text (hrow _)]
    simp
  have hopen := has_open (textOf ((os ++ ds).map placeWords))
  rw [hlines] at hopen
  obtain ⟨i1, r1, h1⟩ := readLoop_rows (body := placeRow .origin kind) (os.map placeWords) _ fuel _ ⟨[], fun _ => none⟩ _
    hopen (hrow os) (by simp; omega) (by rw [List.map_map]; exact placesFold os ho _)
  obtain ⟨i2, r2, _⟩ := readLoop_rows (body := placeRow .dest kind) (ds.map placeWords) _ fuel _ ⟨[], fun _ => none⟩ _
    h1 (hrow ds) (by simp; omega) (by rw [List.map_map]; exact placesFold ds hd _)
  rw [List.length_map] at r1 r2
  show (readLoop (placeRow .origin kind) fuel (os.length : ℤ).toNat
    (In.open (textOf ((os ++ ds).map placeWords))) ⟨[], fun _ => none⟩).bind _ = _
  rw [Int.toNat_natCast, Int.toNat_natCast, r1, Res.bind_ok']
  simp only
  rw [r2, Res.bind_ok']

/-- Origins 1 and 2 at nodes 10 and 11, destination 1 at node 20. -/
example : ((buildPlaces 9 2 1 [(10, .origin), (11, .origin), (20, .dest)] (some "1 10\n2 11\n1 20\n".toList)).bind fun r =>
    .ok ([r.1.node.get 1, r.1.node.get 2, r.2.node.get 1], [r.1.at' 10, r.1.at' 11, r.1.at' 20, r.2.at' 20])) =
      .ok ([some 10, some 11, some 20], [some (some 1), some (some 2), none, some (some 1)]) ∧
    "1 10\n2 11\n1 20\n".toList = textOf (([((1 : ℤ), (10 : ℤ)), (2, 11)] ++ [(1, 20)]).map
      fun r : ℤ × ℤ => [toStr r.1, toStr r.2]) := by
  decide +kernel

/-- C200 is false for rows that have not two words: such a row counts but makes nothing, whatever is in it. -/
theorem C200_false_skipped (want : NodeKind) (kind : Store ℤ NodeKind) (s : Places) (line : Str)
    (h : (wordsOf line).length ≠ 2) : placeRow want kind s line = .ok s := by
  unfold placeRow
  rw [split_eq]
  split
  · rename_i heq
    rw [heq] at h
    exact absurd rfl h
  · rfl

/-- The second origin is written with a third word and does not exist. -/
example : ((buildPlaces 9 2 1 [(10, .origin), (11, .origin), (20, .dest)] (some "1 10\n2 11 x\n1 20\n".toList)).bind fun r =>
    .ok ([r.1.node.get 1, r.1.node.get 2, r.2.node.get 1], r.1.at' 11)) = .ok ([some 10, none, some 20], none) := by
  decide +kernel

/-- C200 is false for origins that appear twice: the first node stays the node of the origin; the second node releases for
an origin that no demand can reach. -/
theorem C200_false_twice (want : NodeKind) (kind : Store ℤ NodeKind) (id n n' : ℤ)
    (h : IntOk id ∧ IntOk n ∧ IntOk n') (hk : kind.get n = some want ∧ kind.get n' = some want) (hne : n ≠ n') :
    ∃ s, Res.foldlM (placeRow want kind) ⟨[], fun _ => none⟩ [lineOf [toStr id, toStr n], lineOf [toStr id, toStr n']] =
        .ok s ∧ s.node.get id = some n ∧ s.at' n = some (some id) ∧ s.at' n' = some none := by
  have e := placesFold (want := want) (kind := kind) [(id, n), (id, n')] (by
    intro r hr
    simp only [List.mem_cons, List.not_mem_nil, or_false] at hr
    rcases hr with rfl | rfl
    · exact ⟨h.1, h.2.1, hk.1⟩
    · exact ⟨h.1, h.2.2, hk.2⟩) ⟨[], fun _ => none⟩
  refine ⟨_, e, ?_, ?_, ?_⟩
  · rw [(addPlace_fold _ _).1]
    simp
  · show upd (upd _ n _) n' _ n = _
    rw [upd_other _ _ _ _ hne, upd_same]
    rfl
  · show upd (upd _ n _) n' _ n' = _
    rw [upd_same]
    have : ((addPlace ⟨[], fun _ => none⟩ (id, n)).node.get id).isSome = true := by
      show ((Store.insert [] id n).get id).isSome = true
      rw [get_insert]; simp
    rw [this]
    rfl

example : IntOk 1 ∧ IntOk 10 ∧ IntOk 11 ∧ Store.get [((10 : ℤ), NodeKind.origin), (11, .origin)] 10 = some .origin ∧
    Store.get [((10 : ℤ), NodeKind.origin), (11, .origin)] 11 = some .origin := by
  unfold IntOk; decide +kernel

/-- C200 is false for nodes of another kind: the row is undefined behaviour, not an error. -/
theorem C200_false_kind (want k : NodeKind) (kind : Store ℤ NodeKind) (r : ℤ × ℤ) (s : Places)
    (h : IntOk r.1 ∧ IntOk r.2) (hk : kind.get r.2 = some k) (hne : k ≠ want) :
    placeRow want kind s (lineOf [toStr r.1, toStr r.2]) = .ub := by
  unfold placeRow
  rw [split_line (show RowOk [toStr r.1, toStr r.2] from place_rowOk r)]
  simp only
  rw [stoi_toStr _ h.1, Res.bind_ok', stoi_toStr _ h.2, Res.bind_ok', hk]
  simp only
  rw [if_neg hne]

example : ((buildPlaces 9 1 0 [(10, .fwj)] (some "1 10\n".toList)).bind fun r => .ok (r.1.node.get 1)) = .ub := by
  decide +kernel

/-! ## C201: nodes and links of two-class loadings -/

/-- C201, nodes: from a file with one row `number type factor` per node, a number has type and conversion factor of its
first row. -/
theorem C201_node_file (rows : List (ℤ × NodeKind × Str)) (q : Str → ℚ)
    (h : ∀ r ∈ rows, IntOk r.1 ∧ r.2.1 ≠ .grj ∧ WordOk r.2.2 ∧ stod r.2.2 = .ok (q r.2.2)) (fuel : ℕ)
    (hf : rows.length < fuel) :
    ∃ m, buildNodes2 fuel rows.length (some (textOf (rows.map fun r => [toStr r.1, r.2.1.word, r.2.2]))) = .ok m ∧
      ∀ n, m.get n = (rows.find? fun r => r.1 = n).map fun r => (r.2.1, q r.2.2) := by
  have hw : ∀ k : NodeKind, WordOk k.word := fun k => by cases k <;> exact ⟨by decide, by decide⟩
  have hrow : ∀ r ∈ rows, RowOk [toStr r.1, r.2.1.word, r.2.2] := by
    intro r hr
    refine rowOk_cons fun w hw' => ?_
    simp only [List.mem_cons, List.not_mem_nil, or_false] at hw'
    rcases hw' with rfl | rfl
    · exact hw _
    · exact (h r hr).2.2.1
  obtain ⟨m, e1, e2⟩ := fold_insert (body := nodeRow2) (fun r => lineOf [toStr r.1, r.2.1.word, r.2.2])
    (fun r => r.1) (fun r : ℤ × NodeKind × Str => (r.2.1, q r.2.2)) rows [] (by
      intro r hr s
      obtain ⟨h1, h2, h3, h4⟩ := h r hr
      unfold nodeRow2
      rw [split_line (hrow r hr)]
      simp only
      rw [stoi_toStr _ h1, Res.bind_ok', h4, Res.bind_ok', trim_word (hw _)]
      cases hk : r.2.1 with
      | fwj => rw [if_pos (by decide)]
      | grj => exact absurd hk h2
      | origin => rw [if_neg (by decide), if_pos (by decide)]
      | dest => rw [if_neg (by decide), if_neg (by decide), if_pos (by decide)])
  refine ⟨m, ?_, fun n => by simpa using e2 n⟩
  have := readLoop_text (body := nodeRow2) (rows := rows.map fun r => [toStr r.1, r.2.1.word, r.2.2])
    (by
      intro ws hw
      obtain ⟨r, hr, rfl⟩ := List.mem_map.1 hw
      exact hrow r hr) fuel (by simpa using hf) []
  rw [List.length_map] at this
  show (readLoop nodeRow2 fuel (rows.length : ℤ).toNat (In.open _) []).bind (fun r => .ok r.1) = _
  rw [Int.toNat_natCast, this, List.map_map]
  exact e1

example : ((buildNodes2 9 2 (some "1 DMOND 1.5\n2 FWJ 2\n".toList)).bind fun m => .ok [m.get 1, m.get 2, m.get 3]) =
    .ok [some (.origin, 3 / 2), some (.fwj, 2), none] ∧
    "1 DMOND 1.5\n2 FWJ 2\n".toList = textOf ([((1 : ℤ), NodeKind.origin, "1.5".toList), (2, .fwj, "2".toList)].map
      fun r => [toStr r.1, r.2.1.word, r.2.2]) := by
  decide +kernel

/-- C201, links: from a file with one row of eleven words per link, a number has the link of its first row, built with the
values of the row in metres, seconds and vehicles. -/
theorem C201_link_file (rows : List LinkLine2) (q : Str → ℚ) (unit scalar : ℚ) (mk : LinkLine2 → MLnk.Link ℕ)
    (h : ∀ r ∈ rows, r.Ok q) (hmk : ∀ r ∈ rows, MLnk.mkLink r.kind (r.meaning q unit scalar) = .ok (mk r)) (fuel : ℕ)
    (hf : rows.length < fuel) :
    ∃ m, buildLinks2 fuel rows.length unit scalar (some (textOf (rows.map LinkLine2.words))) = .ok m ∧
      ∀ n, m.get n = (rows.find? fun r => r.id = n).map mk := by
  have hw : ∀ k : MLnk.Kind, WordOk (kindWord2 k) := fun k => by cases k <;> exact ⟨by decide, by decide⟩
  have hrow : ∀ r ∈ rows, RowOk r.words := by
    intro r hr
    obtain ⟨_, _, h5⟩ := h r hr
    refine rowOk_cons fun w hw' => ?_
    simp only [List.mem_cons, List.not_mem_nil, or_false] at hw'
    rcases hw' with rfl | rfl | rfl | rfl | rfl | rfl | rfl | rfl | rfl | rfl
    all_goals first
      | exact (toStr_word _).1
      | exact hw _
      | exact (h5 _ (by simp)).1
  obtain ⟨m, e1, e2⟩ := fold_insert (body := linkRow2 unit scalar) (fun r => lineOf r.words)
    (fun r : LinkLine2 => r.id) mk rows [] (by
      intro r hr s
      obtain ⟨h1, h3, h5⟩ := h r hr
      have hm := hmk r hr
      unfold linkRow2
      rw [split_line (hrow r hr)]
      simp only [LinkLine2.words]
      rw [stoi_toStr _ h1, Res.bind_ok', (h5 r.length (by simp)).2, Res.bind_ok',
        (h5 r.ffsCar (by simp)).2, Res.bind_ok', (h5 r.capCar (by simp)).2, Res.bind_ok', (h5 r.holdCar (by simp)).2,
        Res.bind_ok', stoi_toStr _ h3, Res.bind_ok', (h5 r.ffsTruck (by simp)).2, Res.bind_ok',
        (h5 r.capTruck (by simp)).2, Res.bind_ok', (h5 r.holdTruck (by simp)).2, Res.bind_ok', (h5 r.factor (by simp)).2,
        Res.bind_ok', trim_word (hw _)]
      unfold LinkLine2.meaning at hm
      cases hk : r.kind with
      | ctm => rw [hk] at hm; rw [if_neg (by decide), if_neg (by decide), if_pos (by decide), hm, Res.bind_ok']
      | lq => rw [hk] at hm; rw [if_neg (by decide), if_pos (by decide), hm, Res.bind_ok']
      | pq => rw [hk] at hm; rw [if_pos (by decide), hm, Res.bind_ok'])
  refine ⟨m, ?_, fun n => by simpa using e2 n⟩
  have := readLoop_text (body := linkRow2 unit scalar) (rows := rows.map LinkLine2.words)
    (by
      intro ws hw
      obtain ⟨r, hr, rfl⟩ := List.mem_map.1 hw
      exact hrow r hr) fuel (by simpa using hf) []
  rw [List.length_map] at this
  show (readLoop (linkRow2 unit scalar) fuel (rows.length : ℤ).toNat (In.open _) []).bind (fun r => .ok r.1) = _
  rw [Int.toNat_natCast, this, List.map_map]
  exact e1

/-- A point queue of one mile. -/
example : ((buildLinks2 9 1 5 1 (some "7 PQ 1 36 1800 160 2 30 1200 80 1.5\n".toList)).bind fun m =>
      match m.get 7 with
      | some (.pq l) => .ok [l.args.length, l.args.ffsCar, l.args.capCar, l.args.holdCar, l.args.ffsTruck]
      | _ => .ub) = .ok [1600, 16, 1 / 2, 1 / 10, 40 / 3] ∧
    (MLnk.mkLink (V := ℕ) .pq (LinkLine2.meaning Text.atof 5 1 ⟨7, .pq, "1".toList, "36".toList, "1800".toList,
        "160".toList, 2, "30".toList, "1200".toList, "80".toList, "1.5".toList⟩)).isOk = true ∧
    "7 PQ 1 36 1800 160 2 30 1200 80 1.5\n".toList = textOf ([(⟨7, .pq, "1".toList, "36".toList, "1800".toList,
      "160".toList, 2, "30".toList, "1200".toList, "80".toList, "1.5".toList⟩ : LinkLine2)].map LinkLine2.words) := by
  decide +kernel

/-! ## C202: demand files of two-class loadings -/

private theorem spread_length {split : ℤ} {n : ℕ} {scalar d : ℚ} {xs : List ℚ} (h : MmF.spreadRow split n scalar d = .ok xs) :
    xs.length = n := by
  have fit : ∀ (n k : ℕ), MmF.firstFit scalar d n = some k → k ≤ n := by
    intro n
    induction n with
    | zero => intro k e; cases e
    | succ n ih =>
      intro k e
      rw [MmF.firstFit] at e
      split at e
      · cases e; exact Nat.le_refl _
      · exact Nat.le_succ_of_le (ih k e)
  unfold MmF.spreadRow at h
  split at h
  · split at h
    · cases h
    · cases h
      simp; omega
  · split at h
    · split at h
      · cases h; simp
      · rename_i k hk
        cases h
        have := fit n k hk
        simp; omega
    · cases h

private theorem minute_length {split : ℤ} {n : ℕ} {scalar : ℚ} : ∀ {ds xs : List ℚ},
    MmF.minuteRow split n scalar ds = .ok xs → xs.length = ds.length * n
  | [], xs, h => by cases h; simp
  | d :: ds, xs, h => by
    rw [MmF.minuteRow] at h
    obtain ⟨x, h1, h⟩ := Res.bind_eq_ok'.1 h
    obtain ⟨y, h2, h⟩ := Res.bind_eq_ok'.1 h
    cases h
    rw [List.length_append, spread_length h1, minute_length h2, List.length_cons]
    ring

/-- C202, part: intervals of fifteen minutes.  From a file with one row per pair, with the demand of cars of all intervals
and then that of trucks, every pair has, per class, the demand of its first row spread over the minutes as it is for buses
(C168 says what `readRow` gives).  Missing: other lengths of the intervals (`C202_false_short_interval`,
`C202_false_long_interval`). -/
theorem C202_demand_partial (rows : List DemandLine) (m frq unit : ℕ) (split : ℤ) (scalar : ℚ) (origins dests : List ℤ)
    (q : Str → ℚ) (spread : List ℚ → List ℚ) (hn : numMinutes frq unit = .ok 15)
    (hi : ∀ r ∈ rows, IntOk r.o ∧ IntOk r.d) (ho : ∀ r ∈ rows, r.o ∈ origins ∧ r.d ∈ dests)
    (hv : ∀ r ∈ rows, r.values.length = m * 2 ∧ NumsOk q r.values)
    (hs : ∀ ds, MmF.readRow split 15 scalar ds = .ok (spread ds)) (fuel : ℕ) (hf : rows.length < fuel) :
    ∃ t, buildDemand2 fuel rows.length m frq unit split scalar origins dests
        (some (textOf (rows.map DemandLine.words))) = .ok t ∧
      ∀ o d, t.get (o, d) = (rows.find? fun r => r.o = o ∧ r.d = d).map fun r =>
        (spread ((r.values.take m).map q), spread ((r.values.drop m).map q)) := by
  have hrow : ∀ r ∈ rows, RowOk r.words := fun r hr => demandLine_rowOk (hv r hr).2
  obtain ⟨t, e1, e2⟩ := fold_insert (body := demandRow2 m 15 split scalar origins dests) (fun r => lineOf r.words)
    (fun r : DemandLine => (r.o, r.d))
    (fun r => (spread ((r.values.take m).map q), spread ((r.values.drop m).map q))) rows [] (by
      intro r hr s
      have hlen := (hv r hr).1
      have l1 : ((r.values.take m).map q).length = m := by rw [List.length_map, List.length_take]; omega
      have l2 : ((r.values.drop m).map q).length = m := by rw [List.length_map, List.length_drop]; omega
      obtain ⟨x, hx, hx'⟩ := Res.bind_eq_ok'.1 (hs ((r.values.take m).map q))
      obtain ⟨y, hy, hy'⟩ := Res.bind_eq_ok'.1 (hs ((r.values.drop m).map q))
      rw [l1] at hx'
      rw [l2] at hy'
      unfold demandRow2
      rw [split_line (hrow r hr)]
      simp only [DemandLine.words]
      rw [if_pos hlen, stoi_toStr _ (hi r hr).1, Res.bind_ok', stoi_toStr _ (hi r hr).2, Res.bind_ok',
        stods_eq fun w hw => ((hv r hr).2 w (List.mem_of_mem_take hw)).2, Res.bind_ok',
        stods_eq fun w hw => ((hv r hr).2 w (List.mem_of_mem_drop hw)).2, Res.bind_ok', hx, Res.bind_ok', hy, Res.bind_ok',
        if_pos (ho r hr).1, if_pos (ho r hr).2, hx', Res.bind_ok', hy', Res.bind_ok'])
  refine ⟨t, ?_, fun o d => by simpa [Prod.ext_iff] using e2 (o, d)⟩
  have := readLoop_text (body := demandRow2 m 15 split scalar origins dests) (rows := rows.map DemandLine.words)
    (by
      intro ws hw
      obtain ⟨r, hr, rfl⟩ := List.mem_map.1 hw
      exact hrow r hr) fuel (by simpa using hf) []
  rw [List.length_map] at this
  unfold buildDemand2
  rw [hn, Res.bind_ok']
  show (readLoop (demandRow2 m 15 split scalar origins dests) fuel (rows.length : ℤ).toNat (In.open _) []).bind
    (fun r => .ok r.1) = _
  rw [Int.toNat_natCast, this, List.map_map]
  exact e1

private theorem minuteRow_first (scalar : ℚ) (ds : List ℚ) :
    MmF.minuteRow 0 15 scalar ds = .ok (ds.flatMap fun d => d :: List.replicate 14 0) := by
  induction ds with
  | nil => rfl
  | cons d ds ih =>
    rw [MmF.minuteRow, ih]
    rfl

/-- C202, part, when demand is not split: all vehicles of an interval leave in its first minute. -/
theorem C202_first_minute_partial (rows : List DemandLine) (m frq unit : ℕ) (scalar : ℚ) (origins dests : List ℤ)
    (q : Str → ℚ) (hn : numMinutes frq unit = .ok 15)
    (hi : ∀ r ∈ rows, IntOk r.o ∧ IntOk r.d) (ho : ∀ r ∈ rows, r.o ∈ origins ∧ r.d ∈ dests)
    (hv : ∀ r ∈ rows, r.values.length = m * 2 ∧ NumsOk q r.values) (fuel : ℕ) (hf : rows.length < fuel) :
    ∃ t, buildDemand2 fuel rows.length m frq unit 0 scalar origins dests
        (some (textOf (rows.map DemandLine.words))) = .ok t ∧
      ∀ o d, t.get (o, d) = (rows.find? fun r => r.o = o ∧ r.d = d).map fun r =>
        (((r.values.take m).map q).flatMap (fun x => x :: List.replicate 14 0),
          ((r.values.drop m).map q).flatMap (fun x => x :: List.replicate 14 0)) := by
  refine C202_demand_partial rows m frq unit 0 scalar origins dests q
    (fun ds => ds.flatMap fun d => d :: List.replicate 14 0) hn hi ho hv (fun ds => ?_) fuel hf
  unfold MmF.readRow
  have hl : (ds.flatMap fun d => d :: List.replicate 14 (0 : ℚ)).length = ds.length * 15 :=
    minute_length (minuteRow_first scalar ds)
  rw [minuteRow_first, Res.bind_ok']
  unfold MmF.copyRow
  rw [if_neg (by omega), List.take_of_length_le (by omega)]

/-- Two cars and one truck, all in the first minute of the interval. -/
example : ((buildDemand2 9 1 1 180 5 0 1 [1] [4] (some "1 4 2 1\n".toList)).bind fun t => .ok (t.get (1, 4))) =
    .ok (some (2 :: List.replicate 14 0, 1 :: List.replicate 14 0)) ∧ numMinutes 180 5 = .ok 15 ∧
    "1 4 2 1\n".toList = textOf ([(⟨1, 4, ["2".toList, "1".toList]⟩ : DemandLine)].map DemandLine.words) := by
  decide +kernel

/-- C202 is false for intervals shorter than fifteen minutes: reading a row runs past the end of the array. -/
theorem C202_false_short_interval (r : DemandLine) (m n : ℕ) (split : ℤ) (scalar : ℚ) (origins dests : List ℤ)
    (q : Str → ℚ) (s : Store (ℤ × ℤ) (List ℚ × List ℚ)) (hn15 : n < 15) (hm : 0 < m) (hi : IntOk r.o ∧ IntOk r.d)
    (ho : r.o ∈ origins ∧ r.d ∈ dests) (hv : r.values.length = m * 2 ∧ NumsOk q r.values)
    (hs : ∀ ds, ∃ xs, MmF.minuteRow split n scalar ds = .ok xs) :
    demandRow2 m n split scalar origins dests s (lineOf r.words) = .ub := by
  obtain ⟨xs, hx⟩ := hs ((r.values.take m).map q)
  obtain ⟨ys, hy⟩ := hs ((r.values.drop m).map q)
  have l1 : ((r.values.take m).map q).length = m := by rw [List.length_map, List.length_take]; omega
  have s1 := minute_length hx
  rw [l1] at s1
  have hlt : m * n < m * 15 := (Nat.mul_lt_mul_left hm).2 hn15
  unfold demandRow2
  rw [split_line (demandLine_rowOk hv.2)]
  simp only [DemandLine.words]
  rw [if_pos hv.1, stoi_toStr _ hi.1, Res.bind_ok', stoi_toStr _ hi.2, Res.bind_ok',
    stods_eq fun w hw => (hv.2 w (List.mem_of_mem_take hw)).2, Res.bind_ok',
    stods_eq fun w hw => (hv.2 w (List.mem_of_mem_drop hw)).2, Res.bind_ok', hx, Res.bind_ok', hy, Res.bind_ok',
    if_pos ho.1, if_pos ho.2]
  unfold MmF.copyRow
  rw [if_pos (by omega)]
  rfl

example : ((buildDemand2 9 1 1 60 5 0 1 [1] [4] (some "1 4 2 1\n".toList)).bind fun t => .ok (t.get (1, 4))) = .ub ∧
    numMinutes 60 5 = .ok 5 ∧ ((MmF.minuteRow 0 5 1 [2]).bind fun xs => .ok xs.length) = .ok 5 := by
  decide +kernel

/-- C202 is false for intervals longer than fifteen minutes: of each pair only the first fifteen minutes per interval are
kept, counted from the start, so that the later intervals are lost. -/
theorem C202_false_long_interval (r : DemandLine) (m n : ℕ) (split : ℤ) (scalar : ℚ) (origins dests : List ℤ)
    (q : Str → ℚ) (hn15 : 15 < n) (hi : IntOk r.o ∧ IntOk r.d)
    (ho : r.o ∈ origins ∧ r.d ∈ dests) (hv : r.values.length = m * 2 ∧ NumsOk q r.values)
    (hs : ∀ ds, ∃ xs, MmF.minuteRow split n scalar ds = .ok xs) :
    ∃ t car truck, demandRow2 m n split scalar origins dests [] (lineOf r.words) = .ok t ∧
      t.get (r.o, r.d) = some (car, truck) ∧ car.length = m * 15 ∧ truck.length = m * 15 ∧
      ∀ j, m * 15 ≤ j * n → ∀ i, car[j * n + i]? = none ∧ truck[j * n + i]? = none := by
  obtain ⟨xs, hx⟩ := hs ((r.values.take m).map q)
  obtain ⟨ys, hy⟩ := hs ((r.values.drop m).map q)
  have l1 : ((r.values.take m).map q).length = m := by rw [List.length_map, List.length_take]; omega
  have l2 : ((r.values.drop m).map q).length = m := by rw [List.length_map, List.length_drop]; omega
  have s1 := minute_length hx
  have s2 := minute_length hy
  rw [l1] at s1
  rw [l2] at s2
  have hle : m * 15 ≤ m * n := Nat.mul_le_mul_left _ (by omega)
  refine ⟨Store.insert [] (r.o, r.d) (xs.take (m * 15), ys.take (m * 15)), xs.take (m * 15), ys.take (m * 15), ?_, ?_, ?_, ?_, ?_⟩
  · unfold demandRow2
    rw [split_line (demandLine_rowOk hv.2)]
    simp only [DemandLine.words]
    rw [if_pos hv.1, stoi_toStr _ hi.1, Res.bind_ok', stoi_toStr _ hi.2, Res.bind_ok',
      stods_eq fun w hw => (hv.2 w (List.mem_of_mem_take hw)).2, Res.bind_ok',
      stods_eq fun w hw => (hv.2 w (List.mem_of_mem_drop hw)).2, Res.bind_ok', hx, Res.bind_ok', hy, Res.bind_ok',
      if_pos ho.1, if_pos ho.2]
    unfold MmF.copyRow
    rw [if_neg (by omega), if_neg (by omega), Res.bind_ok', Res.bind_ok']
  · rw [get_insert]; simp
  · rw [List.length_take]; omega
  · rw [List.length_take]; omega
  · intro j hj i
    exact ⟨List.getElem?_eq_none (by rw [List.length_take]; omega), List.getElem?_eq_none (by rw [List.length_take]; omega)⟩

/-- Two intervals of half an hour: nothing is kept of the second one. -/
example : ((buildDemand2 9 1 2 360 5 0 1 [1] [4] (some "1 4 2 7 1 8\n".toList)).bind fun t =>
    .ok ((t.get (1, 4)).map fun p => (p.1, p.1[30]?))) =
      .ok (some (2 :: List.replicate 29 0, none)) ∧ numMinutes 360 5 = .ok 30 := by
  decide +kernel

end Verif
