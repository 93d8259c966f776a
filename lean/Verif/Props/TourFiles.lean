import Verif.Lemmas.TourFiles

/-!
# C212: files of tours
-/

namespace Verif
open Text Io Rd TourF

private theorem tours_eq (n : ℕ) (m : ℤ) (os ds : List ℤ) (a b : Str) :
    tours (some (n : ℤ)) m os ds (some a) (some b) =
      Res.foldlM (fun s k => row m os ds s (lineAt a (k + 1)) (lineAt b (k + 1))) [] (List.range n) := by
  unfold tours
  simp only [Int.toNat_natCast]
  exact loop2_file n a b []

/-- C212: from a file with the trips of tours and a file with the demands of the same tours in the same order, there is
one tour per row, in the order of the rows: it belongs to the origin of its first trip and has the trips and the demand of
its rows. -/
theorem C212_tour_files (q : Str → ℚ) (m : ℕ) (hm : 0 < m) (os ds : List ℤ) (h1 h2 : Str) (n1 : '\n' ∉ h1) (n2 : '\n' ∉ h2)
    (rows : List Line) (hok : ∀ r ∈ rows, r.Ok q m os ds) :
    tours (some rows.length) m os ds (some (fileOf h1 (rows.map Line.trips))) (some (fileOf h2 (rows.map Line.demand))) =
      .ok (rows.map fun r => ⟨r.first.1, r.first :: r.rest, r.demand.map q⟩) := by
  have e1 := lineAt_fileOf (rows := rows.map Line.trips) n1 (by
    intro ws hw
    obtain ⟨r, _, rfl⟩ := List.mem_map.1 hw
    exact trips_rowOk r)
  have e2 := lineAt_fileOf (rows := rows.map Line.demand) n2 (by
    intro ws hw
    obtain ⟨r, hr, rfl⟩ := List.mem_map.1 hw
    exact demand_rowOk (hok r hr) hm)
  rw [List.length_map, List.map_map] at e1 e2
  rw [tours_eq]
  have hl : ∀ k (hk : k < rows.length), lineAt (fileOf h1 (rows.map Line.trips)) (k + 1) = lineOf rows[k].trips ∧
      lineAt (fileOf h2 (rows.map Line.demand)) (k + 1) = lineOf rows[k].demand := by
    intro k hk
    constructor
    · have := congrArg (·[k]?) e1
      simpa [List.getElem?_map, List.getElem?_range, hk] using this
    · have := congrArg (·[k]?) e2
      simpa [List.getElem?_map, List.getElem?_range, hk] using this
  have key : ∀ n, n ≤ rows.length →
      Res.foldlM (fun s k => row m os ds s (lineAt (fileOf h1 (rows.map Line.trips)) (k + 1))
        (lineAt (fileOf h2 (rows.map Line.demand)) (k + 1))) [] (List.range n) =
      .ok ((rows.take n).map fun r => ⟨r.first.1, r.first :: r.rest, r.demand.map q⟩) := by
    intro n hn
    have hf := BusP.foldlM_okMem (f := fun (s : List Rec) k => row m os ds s (lineAt (fileOf h1 (rows.map Line.trips)) (k + 1))
        (lineAt (fileOf h2 (rows.map Line.demand)) (k + 1)))
      (g := fun s k => s ++ (rows[k]?.map fun r => (⟨r.first.1, r.first :: r.rest, r.demand.map q⟩ : Rec)).toList) (List.range n) []
      (by
        intro k hk s
        have hk' : k < rows.length := lt_of_lt_of_le (List.mem_range.1 hk) hn
        simp only [(hl k hk').1, (hl k hk').2]
        rw [row_eq hm (hok _ (List.getElem_mem hk')), List.getElem?_eq_getElem hk']
        rfl)
    rw [hf]
    clear hf
    congr 1
    induction n with
    | zero => simp
    | succ n ih =>
      rw [List.range_succ, List.foldl_append, ih (by omega), List.foldl_cons, List.foldl_nil, List.take_succ, List.map_append]
      congr 1
      rw [List.getElem?_eq_getElem (by omega : n < rows.length)]
      rfl
  rw [key _ le_rfl, List.take_length]

def tfRows : List Line := [⟨(1, 3), [(2, 4), (2, 3)], ["1".toList, "0.5".toList]⟩, ⟨(2, 4), [], ["0".toList, "1".toList]⟩]

example : ∀ r ∈ tfRows, r.Ok (fun w => if w = "1".toList then 1 else if w = "0.5".toList then 1 / 2 else 0) 2 [1, 2] [3, 4] := by
  intro r hr
  simp only [tfRows, List.mem_cons, List.not_mem_nil, or_false] at hr
  rcases hr with rfl | rfl
  · refine ⟨by simp [IntOk], rfl, ?_⟩
    intro w hw
    simp only [List.mem_cons, List.not_mem_nil, or_false] at hw
    rcases hw with rfl | rfl <;> exact ⟨⟨by decide +kernel, by decide +kernel⟩, by decide +kernel, by decide +kernel⟩
  · refine ⟨by simp [IntOk], rfl, ?_⟩
    intro w hw
    simp only [List.mem_cons, List.not_mem_nil, or_false] at hw
    rcases hw with rfl | rfl <;> exact ⟨⟨by decide +kernel, by decide +kernel⟩, by decide +kernel, by decide +kernel⟩

example : fileOf "#".toList (tfRows.map Line.trips) = "#\n1 3 2 4 2 3\n2 4\n".toList ∧
    fileOf "#".toList (tfRows.map Line.demand) = "#\n1 0.5\n0 1\n".toList ∧
    tours (some 2) 2 [1, 2] [3, 4] (some "#\n1 3 2 4 2 3\n2 4\n".toList) (some "#\n1 0.5\n0 1\n".toList) =
      .ok [⟨1, [(1, 3), (2, 4), (2, 3)], [1, 1 / 2]⟩, ⟨2, [(2, 4)], [0, 1]⟩] := by
  decide +kernel

/-- C212, whatever the files: what is read without error are tours with at least one trip, between origins and
destinations that exist, that belong to the origin of the first trip and have a demand for each interval; there are as many
as the configuration says, and each has half as many trips as there are words in its line. -/
theorem C212_read_tours (n : ℕ) (m : ℤ) (os ds : List ℤ) (a b : Str) (ts : List Rec)
    (h : tours (some (n : ℤ)) m os ds (some a) (some b) = .ok ts) :
    ts.length = n ∧ ∀ k t, ts[k]? = some t → (wordsOf (lineAt a (k + 1))).length = 2 * t.trips.length ∧
      (wordsOf (lineAt b (k + 1))).length = m ∧ t.trips.head?.map (·.1) = some t.origin ∧ (t.demand.length : ℤ) = m ∧
      ∀ p ∈ t.trips, p.1 ∈ os ∧ p.2 ∈ ds := by
  rw [tours_eq] at h
  have key : ∀ n ts, Res.foldlM (fun s k => row m os ds s (lineAt a (k + 1)) (lineAt b (k + 1))) [] (List.range n) = .ok ts →
      ts.length = n ∧ ∀ k t, ts[k]? = some t → (wordsOf (lineAt a (k + 1))).length = 2 * t.trips.length ∧
        (wordsOf (lineAt b (k + 1))).length = m ∧ t.trips.head?.map (·.1) = some t.origin ∧ (t.demand.length : ℤ) = m ∧
        ∀ p ∈ t.trips, p.1 ∈ os ∧ p.2 ∈ ds := by
    intro n
    induction n with
    | zero => intro ts h; simp at h; subst h; simp
    | succ n ih =>
      intro ts h
      rw [List.range_succ, Res.foldlM_append] at h
      obtain ⟨s, h1, h2⟩ := Res.bind_eq_ok.1 h
      obtain ⟨i1, i2⟩ := ih s h1
      rw [Res.foldlM_cons] at h2
      obtain ⟨s', h3, h4⟩ := Res.bind_eq_ok.1 h2
      simp only [Res.foldlM_nil, Res.ok.injEq] at h4
      subst h4
      unfold row at h3
      obtain ⟨trips, h5, h6⟩ := Res.bind_eq_ok'.1 h3
      rw [split_eq] at h5 h6
      obtain ⟨j1, j2⟩ := readTrips_ok _ _ h5
      cases trips with
      | nil => simp at h6
      | cons t rest =>
        simp only at h6
        split at h6
        · rename_i hlen
          obtain ⟨v, h7, h8⟩ := Res.bind_eq_ok'.1 h6
          simp only [Res.ok.injEq] at h8
          subst h8
          refine ⟨by simp [i1], ?_⟩
          intro k t' ht'
          by_cases hk : k < s.length
          · rw [List.getElem?_append_left hk] at ht'
            exact i2 k t' ht'
          · rw [List.getElem?_append_right (by omega)] at ht'
            have hk0 : k - s.length = 0 := by
              by_contra hne
              rw [List.getElem?_eq_none (by simp; omega)] at ht'
              simp at ht'
            have hkn : k = n := by omega
            subst hkn
            rw [hk0] at ht'
            simp only [List.getElem?_cons_zero, Option.some.injEq] at ht'
            subst ht'
            exact ⟨j1, hlen, rfl, by rw [stods_length h7]; exact hlen, j2⟩
        · simp at h6
  exact key n ts h

/-- C212: a row with an odd number of words makes the reader read outside of the vector. -/
theorem C212_false_odd (m : ℤ) (os ds : List ℤ) (s : List Rec) (ts : List (ℤ × ℤ)) (o : ℤ) (ho : IntOk o)
    (hts : ∀ t ∈ ts, IntOk t.1 ∧ IntOk t.2 ∧ t.1 ∈ os ∧ t.2 ∈ ds) (dl : Str) :
    row m os ds s (lineOf ((ts.flatMap (fun t => [t.1, t.2]) ++ [o]).map toStr)) dl = .ub := by
  have hrow : RowOk ((ts.flatMap (fun t => [t.1, t.2]) ++ [o]).map toStr) := by
    cases ts with
    | nil => exact MmPt.rowOk_ints _ _
    | cons t ts => exact MmPt.rowOk_ints _ _
  have key : ∀ ts : List (ℤ × ℤ), (∀ t ∈ ts, IntOk t.1 ∧ IntOk t.2 ∧ t.1 ∈ os ∧ t.2 ∈ ds) →
      readTrips os ds ((ts.flatMap (fun t => [t.1, t.2]) ++ [o]).map toStr) = .ub := by
    intro ts
    induction ts with
    | nil =>
      intro _
      simp only [List.flatMap_nil, List.nil_append, List.map_cons, List.map_nil, readTrips]
      rw [stoi_toStr _ ho, Res.bind_ok']
    | cons t ts ih =>
      intro h
      obtain ⟨h1, h2, h3, h4⟩ := h t (by simp)
      simp only [List.flatMap_cons, List.cons_append, List.nil_append, List.map_cons, readTrips]
      rw [stoi_toStr _ h1, Res.bind_ok', stoi_toStr _ h2, Res.bind_ok', if_neg (by simpa using h3), if_neg (by simpa using h4),
        ih fun t ht => h t (by simp [ht])]
      rfl
  unfold row
  rw [split_line hrow, key ts hts]
  rfl

example : row 1 [1, 2] [3] [] "1 3 2".toList "1".toList = .ub := by decide +kernel

/-- C212: without one of the files, or without the number of tours in the configuration, there are no tours. -/
theorem C212_no_tours (num : Option ℤ) (m : ℤ) (os ds : List ℤ) (a b : Option Str) (h : num = none ∨ a = none ∨ b = none) :
    tours num m os ds a b = .ok [] := by
  unfold tours
  rcases h with rfl | rfl | rfl
  · rfl
  · cases num <;> rfl
  · cases num <;> cases a <;> rfl

end Verif
