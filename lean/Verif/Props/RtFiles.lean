import Verif.Model.RtFiles
import Verif.Props.Readers2

/-! # C204, C205: places and message signs of real-time loadings -/

namespace Verif
open Text Io Rd Rtf

private def rtWords (r : ℤ × ℤ) : List Str := [toStr r.1, toStr r.2]

private theorem rt_rowOk (r : ℤ × ℤ) : RowOk (rtWords r) := rowOk_cons (by simpa using (toStr_word r.2).1)

private theorem rt_rowsOk (rs : List (ℤ × ℤ)) : ∀ ws ∈ rs.map rtWords, RowOk ws := by
  intro ws hw
  obtain ⟨r, _, rfl⟩ := List.mem_map.1 hw
  exact rt_rowOk r

private theorem rt_lines (os ds : List (ℤ × ℤ)) : Has (In.open (textOf ((os ++ ds).map rtWords)))
    ((os.map rtWords).map lineOf ++ ((ds.map rtWords).map lineOf ++ [[]])) := by
  have h := has_open (textOf ((os ++ ds).map rtWords))
  rw [linesOf_text (rt_rowsOk _)] at h
  simpa using h

/-! ## C204: origins and destinations -/

private def addNumber (s : List ℤ) (r : ℤ × ℤ) : List ℤ := if r.1 ∈ s then s else s ++ [r.1]

private theorem numberRow_eq {r : ℤ × ℤ} (h : IntOk r.1 ∧ IntOk r.2) (s : List ℤ) :
    numberRow s (lineOf (rtWords r)) = .ok (addNumber s r) := by
  unfold numberRow
  rw [split_line (rt_rowOk r)]
  simp only [rtWords]
  rw [stoi_toStr _ h.1, Res.bind_ok', stoi_toStr _ h.2, Res.bind_ok']
  rfl

private theorem numbersFold (rows : List (ℤ × ℤ)) (h : ∀ r ∈ rows, IntOk r.1 ∧ IntOk r.2) (s : List ℤ) :
    Res.foldlM numberRow s ((rows.map rtWords).map lineOf) = .ok (rows.foldl addNumber s) := by
  rw [List.map_map, foldlM_map]
  exact BusP.foldlM_okMem rows s fun r hr c => numberRow_eq (h r hr) c

private theorem addNumber_fold : ∀ (rows : List (ℤ × ℤ)) (s : List ℤ), s.Nodup →
    (rows.foldl addNumber s).Nodup ∧ ∀ k, k ∈ rows.foldl addNumber s ↔ k ∈ s ∨ k ∈ rows.map (·.1) := by
  intro rows
  induction rows with
  | nil => intro s hs; exact ⟨hs, fun k => by simp⟩
  | cons r rows ih =>
    intro s hs
    have hs' : (addNumber s r).Nodup := by
      unfold addNumber
      split
      · exact hs
      · rename_i hr
        rw [List.nodup_append]
        refine ⟨hs, by simp, fun a ha b hb e => ?_⟩
        simp only [List.mem_singleton] at hb
        exact hr (by rw [← hb, ← e]; exact ha)
    obtain ⟨i1, i2⟩ := ih (addNumber s r) hs'
    refine ⟨i1, fun k => ?_⟩
    rw [List.foldl_cons, i2, List.map_cons, List.mem_cons]
    unfold addNumber
    split
    · rename_i hr
      constructor
      · rintro (h | h)
        · exact .inl h
        · exact .inr (.inr h)
      · rintro (h | rfl | h)
        · exact .inl h
        · exact .inl hr
        · exact .inr h
    · simp only [List.mem_append, List.mem_singleton]
      tauto

/-- C204, first reading: from a file with one row `number node` per origin and then one per destination, exactly the numbers
of the rows are origins and destinations, each once. -/
theorem C204_numbers (os ds : List (ℤ × ℤ)) (h : ∀ r ∈ os ++ ds, IntOk r.1 ∧ IntOk r.2) (fuel : ℕ)
    (hf : os.length + ds.length < fuel) :
    ∃ no nd, buildNumbers fuel os.length ds.length (some (textOf ((os ++ ds).map fun r => [toStr r.1, toStr r.2]))) =
        .ok (no, nd) ∧
      no.Nodup ∧ nd.Nodup ∧ (∀ k, k ∈ no ↔ k ∈ os.map (·.1)) ∧ (∀ k, k ∈ nd ↔ k ∈ ds.map (·.1)) := by
  obtain ⟨a1, a2⟩ := addNumber_fold os [] List.nodup_nil
  obtain ⟨b1, b2⟩ := addNumber_fold ds [] List.nodup_nil
  refine ⟨os.foldl addNumber [], ds.foldl addNumber [], ?_, a1, b1, fun k => by simpa using a2 k, fun k => by simpa using b2 k⟩
  obtain ⟨i1, r1, h1⟩ := readLoop_rows (body := numberRow) (os.map rtWords) _ fuel _ [] _ (rt_lines os ds) (rt_rowsOk os)
    (by simp; omega) (numbersFold os (fun r hr => h r (by simp [hr])) _)
  obtain ⟨i2, r2, _⟩ := readLoop_rows (body := numberRow) (ds.map rtWords) _ fuel _ [] _ h1 (rt_rowsOk ds)
    (by simp; omega) (numbersFold ds (fun r hr => h r (by simp [hr])) _)
  rw [List.length_map] at r1 r2
  show (readLoop numberRow fuel (os.length : ℤ).toNat (In.open (textOf ((os ++ ds).map rtWords))) []).bind _ = _
  rw [Int.toNat_natCast, Int.toNat_natCast, r1, Res.bind_ok']
  simp only
  rw [r2, Res.bind_ok']

example : buildNumbers 9 2 1 (some "1 10\n2 11\n1 20\n".toList) = .ok ([1, 2], [1]) := by decide +kernel

/-- Rows that are read before they are trimmed. -/
private theorem rawLoop_rows {σ : Type} {body : σ → Str → Res σ} : ∀ (rows : List (List Str)) (ps : List Str) (fuel : ℕ) (i : In)
    (s s' : σ), Has i (rows.map lineOf ++ ps) → (∀ ws ∈ rows, RowOk ws) → rows.length < fuel →
    Res.foldlM body s (rows.map lineOf) = .ok s' →
    ∃ i', rawLoop body fuel rows.length i s = .ok (s', i') ∧ Has i' ps
  | [], ps, fuel, i, s, s', hi, _, hf, e => by
    obtain ⟨fuel, rfl⟩ : ∃ k, fuel = k + 1 := ⟨fuel - 1, by omega⟩
    rw [List.map_nil, Res.foldlM_nil] at e
    simp only [Res.ok.injEq] at e
    subst e
    exact ⟨i, rfl, by simpa using hi⟩
  | ws :: rows, ps, fuel, i, s, s', hi, hr, hf, e => by
    obtain ⟨fuel, rfl⟩ : ∃ k, fuel = k + 1 := ⟨fuel - 1, by omega⟩
    rw [List.map_cons, List.cons_append] at hi
    rw [List.map_cons, Res.foldlM_cons] at e
    obtain ⟨s1, e1, e2⟩ := Res.bind_eq_ok.1 e
    have hws := hr ws (by simp)
    obtain ⟨g1, g2⟩ := getline_spec hi (trim (getline i).line)
    have hl : trim (getline i).line = lineOf ws := by rw [g1, trim_eq, strip_line hws.1]
    rw [List.length_cons, rawLoop]
    simp only [hl]
    rw [if_neg (is_row (isRow_line hws)), g1, e1, Res.bind_ok']
    rw [hl] at g2
    exact rawLoop_rows rows ps fuel _ s1 s' g2 (fun x hx => hr x (by simp [hx])) (by simp at hf; omega) e2

private def addHook (s : Hooks) (r : ℤ × ℤ) : Hooks := ⟨upd s.node r.1 (some r.2), upd s.at' r.2 (some r.1)⟩

private theorem hookRow_eq {want : NodeKind} {known : List ℤ} {err : String} {kind : Store ℤ NodeKind} {r : ℤ × ℤ}
    (h : IntOk r.1 ∧ IntOk r.2) (hk : r.1 ∈ known) (hn : kind.get r.2 = some want) (s : Hooks) :
    hookRow want known err kind s (lineOf (rtWords r)) = .ok (addHook s r) := by
  unfold hookRow
  rw [split_line (rt_rowOk r)]
  simp only [rtWords]
  rw [stoi_toStr _ h.1, Res.bind_ok', stoi_toStr _ h.2, Res.bind_ok', if_pos hk, hn]
  simp only [if_true]
  rfl

private theorem hooksFold {want : NodeKind} {known : List ℤ} {err : String} {kind : Store ℤ NodeKind} (rows : List (ℤ × ℤ))
    (h : ∀ r ∈ rows, IntOk r.1 ∧ IntOk r.2 ∧ r.1 ∈ known ∧ kind.get r.2 = some want) (s : Hooks) :
    Res.foldlM (hookRow want known err kind) s ((rows.map rtWords).map lineOf) = .ok (rows.foldl addHook s) := by
  rw [List.map_map, foldlM_map]
  exact BusP.foldlM_okMem rows s fun r hr c =>
    hookRow_eq ⟨(h r hr).1, (h r hr).2.1⟩ (h r hr).2.2.1 (h r hr).2.2.2 c

private theorem addHook_fold (rows : List (ℤ × ℤ)) (s : Hooks) :
    (∀ k, (rows.foldl addHook s).node k = lastOf (fun r : ℤ × ℤ => r.1) (fun r => some r.2) rows (s.node k) k) ∧
      ∀ n, (rows.foldl addHook s).at' n = lastOf (fun r : ℤ × ℤ => r.2) (fun r => some r.1) rows (s.at' n) n := by
  have e : ∀ (rows : List (ℤ × ℤ)) (s : Hooks), rows.foldl addHook s =
      ⟨rows.foldl (fun t r => upd t r.1 (some r.2)) s.node, rows.foldl (fun t r => upd t r.2 (some r.1)) s.at'⟩ := by
    intro rows
    induction rows with
    | nil => intro s; rfl
    | cons r rows ih => intro s; rw [List.foldl_cons, ih]; rfl
  rw [e]
  exact ⟨fun k => foldl_upd_lastOf (fun r : ℤ × ℤ => r.1) (fun r => some r.2) rows s.node k,
    fun n => foldl_upd_lastOf (fun r : ℤ × ℤ => r.2) (fun r => some r.1) rows s.at' n⟩

/-- C204, part, second reading: when the same file is read again for a copy of the network in which the nodes of the rows
exist and have the right kind, every origin is at the node of its last row and every node of the file releases for the
origin of the last row that names it; the same for destinations; all others stay as they were.  Missing: rows that the
first reading accepts are to be accepted by the second (`C204_false_trailing_blank`). -/
theorem C204_hooks_partial (os ds : List (ℤ × ℤ)) (kind : Store ℤ NodeKind) (origins dests : List ℤ)
    (ho : ∀ r ∈ os, IntOk r.1 ∧ IntOk r.2 ∧ r.1 ∈ origins ∧ kind.get r.2 = some .origin)
    (hd : ∀ r ∈ ds, IntOk r.1 ∧ IntOk r.2 ∧ r.1 ∈ dests ∧ kind.get r.2 = some .dest)
    (s : Hooks × Hooks) (fuel : ℕ) (hf : os.length + ds.length < fuel) :
    ∃ po pd, hookUp fuel os.length ds.length origins dests kind s
        (some (textOf ((os ++ ds).map fun r => [toStr r.1, toStr r.2]))) = .ok (po, pd) ∧
      (∀ k, po.node k = lastOf (fun r : ℤ × ℤ => r.1) (fun r => some r.2) os (s.1.node k) k) ∧
      (∀ n, po.at' n = lastOf (fun r : ℤ × ℤ => r.2) (fun r => some r.1) os (s.1.at' n) n) ∧
      (∀ k, pd.node k = lastOf (fun r : ℤ × ℤ => r.1) (fun r => some r.2) ds (s.2.node k) k) ∧
      (∀ n, pd.at' n = lastOf (fun r : ℤ × ℤ => r.2) (fun r => some r.1) ds (s.2.at' n) n) := by
  obtain ⟨a1, a2⟩ := addHook_fold os s.1
  obtain ⟨b1, b2⟩ := addHook_fold ds s.2
  refine ⟨os.foldl addHook s.1, ds.foldl addHook s.2, ?_, a1, a2, b1, b2⟩
  obtain ⟨i1, r1, h1⟩ := rawLoop_rows (body := hookRow .origin origins noOrigin kind) (os.map rtWords) _ fuel _ s.1 _
    (rt_lines os ds) (rt_rowsOk os) (by simp; omega) (hooksFold os ho _)
  obtain ⟨i2, r2, _⟩ := readLoop_rows (body := hookRow .dest dests noDest kind) (ds.map rtWords) _ fuel _ s.2 _ h1 (rt_rowsOk ds)
    (by simp; omega) (hooksFold ds hd _)
  rw [List.length_map] at r1 r2
  show (rawLoop (hookRow .origin origins noOrigin kind) fuel (os.length : ℤ).toNat
    (In.open (textOf ((os ++ ds).map rtWords))) s.1).bind _ = _
  rw [Int.toNat_natCast, Int.toNat_natCast, r1, Res.bind_ok']
  simp only
  rw [r2, Res.bind_ok']

/-- Nobody is hooked. -/
def noHooks : Hooks := ⟨fun _ => none, fun _ => none⟩

/-- Origins 1 and 2 at nodes 10 and 11, destination 1 at node 20. -/
example : ((hookUp 9 2 1 [1, 2] [1] [(10, .origin), (11, .origin), (20, .dest)] (noHooks, noHooks)
    (some "1 10\n2 11\n1 20\n".toList)).bind fun r =>
      .ok [r.1.node 1, r.1.node 2, r.1.at' 10, r.1.at' 11, r.2.node 1, r.2.at' 20]) =
    .ok [some 10, some 11, some 1, some 2, some 20, some 1] ∧
    "1 10\n2 11\n1 20\n".toList = textOf ((([(1, 10), (2, 11)] : List (ℤ × ℤ)) ++ [(1, 20)]).map fun r : ℤ × ℤ => [toStr r.1, toStr r.2]) := by
  decide +kernel

/-- C204, both readings together: the copy is built from the file that the origins were read from, so none is missing. -/
theorem C204_both_readings_partial (os ds : List (ℤ × ℤ)) (kind : Store ℤ NodeKind)
    (ho : ∀ r ∈ os, IntOk r.1 ∧ IntOk r.2 ∧ kind.get r.2 = some .origin)
    (hd : ∀ r ∈ ds, IntOk r.1 ∧ IntOk r.2 ∧ kind.get r.2 = some .dest)
    (s : Hooks × Hooks) (fuel : ℕ) (hf : os.length + ds.length < fuel) :
    ∃ no nd po pd,
      buildNumbers fuel os.length ds.length (some (textOf ((os ++ ds).map fun r => [toStr r.1, toStr r.2]))) = .ok (no, nd) ∧
      hookUp fuel os.length ds.length no nd kind s
        (some (textOf ((os ++ ds).map fun r => [toStr r.1, toStr r.2]))) = .ok (po, pd) ∧
      (∀ k ∈ no, ∃ n, po.node k = some n ∧ (k, n) ∈ os) ∧ (∀ k ∈ nd, ∃ n, pd.node k = some n ∧ (k, n) ∈ ds) := by
  obtain ⟨no, nd, e1, _, _, m1, m2⟩ := C204_numbers os ds (by
    intro r hr
    rw [List.mem_append] at hr
    rcases hr with hr | hr
    · exact ⟨(ho r hr).1, (ho r hr).2.1⟩
    · exact ⟨(hd r hr).1, (hd r hr).2.1⟩) fuel hf
  obtain ⟨po, pd, e2, n1, _, n2, _⟩ := C204_hooks_partial os ds kind no nd
    (fun r hr => ⟨(ho r hr).1, (ho r hr).2.1, (m1 r.1).2 (List.mem_map.2 ⟨r, hr, rfl⟩), (ho r hr).2.2⟩)
    (fun r hr => ⟨(hd r hr).1, (hd r hr).2.1, (m2 r.1).2 (List.mem_map.2 ⟨r, hr, rfl⟩), (hd r hr).2.2⟩) s fuel hf
  have key : ∀ (rows : List (ℤ × ℤ)) (old : Option ℤ) (k : ℤ), k ∈ rows.map (·.1) →
      ∃ n, lastOf (fun r : ℤ × ℤ => r.1) (fun r => some r.2) rows old k = some n ∧ (k, n) ∈ rows := by
    intro rows old k hk
    obtain ⟨r, hr, rfl⟩ := List.mem_map.1 hk
    unfold lastOf
    cases hf' : rows.reverse.find? fun x => decide (x.1 = r.1) with
    | none =>
      rw [List.find?_eq_none] at hf'
      exact absurd (by simp) (hf' r (by simpa using hr))
    | some x =>
      refine ⟨x.2, rfl, ?_⟩
      have h1 := List.find?_some hf'
      have h2 := List.mem_of_find?_eq_some hf'
      simp only [decide_eq_true_eq] at h1
      rw [← h1]
      simpa using h2
  refine ⟨no, nd, po, pd, e1, e2, fun k hk => ?_, fun k hk => ?_⟩
  · rw [n1]; exact key os _ k ((m1 k).1 hk)
  · rw [n2]; exact key ds _ k ((m2 k).1 hk)

/-- C204, second reading: a row for a number that the first reading did not make, or for a node that the copy of the
network does not have, is an error. -/
theorem C204_error (want : NodeKind) (known : List ℤ) (err : String) (kind : Store ℤ NodeKind) (s : Hooks) (line w0 w1 : Str)
    (id n : ℤ) (hw : wordsOf line = [w0, w1]) (h0 : stoi w0 = .ok id) (h1 : stoi w1 = .ok n)
    (h : id ∉ known ∨ kind.get n = none) : ∃ e, hookRow want known err kind s line = .throw e := by
  unfold hookRow
  rw [split_eq, hw]
  simp only
  rw [h0, Res.bind_ok', h1, Res.bind_ok']
  by_cases hk : id ∈ known
  · rw [if_pos hk]
    rcases h with h | h
    · exact absurd hk h
    · rw [h]; exact ⟨_, rfl⟩
  · rw [if_neg hk]; exact ⟨_, rfl⟩

example : wordsOf "5 10".toList = ["5".toList, "10".toList] ∧ stoi "5".toList = .ok 5 ∧ stoi "10".toList = .ok 10 ∧
    (hookRow .origin [4] noOrigin [(10, .origin)] ⟨fun _ => none, fun _ => none⟩ "5 10".toList).bind (fun _ => .ok ()) =
      .throw noOrigin := by
  decide +kernel

/-- C204 is false for rows of origins that end with a blank and a carriage return (or a tab): the first reading makes the
origin, the second passes over the row, whatever the network is, and leaves the origin without node. -/
theorem C204_false_trailing_blank (r : ℤ × ℤ) (h : IntOk r.1 ∧ IntOk r.2) (c : Char) (hc : c = '\r' ∨ c = '\t') (known : List ℤ)
    (kind : Store ℤ NodeKind) (s : Hooks) (no : List ℤ) :
    (∃ no', numberRow no (trim (lineOf [toStr r.1, toStr r.2] ++ [' ', c])) = .ok no' ∧ r.1 ∈ no') ∧
      hookRow .origin known noOrigin kind s (lineOf [toStr r.1, toStr r.2] ++ [' ', c]) = .ok s := by
  have hl : lineOf (rtWords r) ++ [' ', c] = [' '].intercalate (rtWords r ++ [[c]]) := by
    show [' '].intercalate [toStr r.1, toStr r.2] ++ [' ', c] = [' '].intercalate [toStr r.1, toStr r.2, [c]]
    simp [List.intercalate, List.intersperse]
  have hw : split (lineOf (rtWords r) ++ [' ', c]) ' ' = [toStr r.1, toStr r.2, [c]] := by
    have hne : c ≠ ' ' := by rcases hc with rfl | rfl <;> decide
    rw [split_eq, hl]
    unfold wordsOf
    rw [List.splitOn_intercalate _ _ (by simp)]
    · rw [List.filter_eq_self.2]
      · rfl
      · intro w hw
        simp only [rtWords, List.cons_append, List.nil_append, List.mem_cons, List.not_mem_nil, or_false] at hw
        rcases hw with rfl | rfl | rfl
        · simpa using (toStr_word r.1).1.1
        · simpa using (toStr_word r.2).1.1
        · simp
    · intro w hw
      simp only [rtWords, List.cons_append, List.nil_append, List.mem_cons, List.not_mem_nil, or_false] at hw
      rcases hw with rfl | rfl | rfl
      · intro hm; have := (toStr_word r.1).1.2 _ hm; simp [isSpace] at this
      · intro hm; have := (toStr_word r.2).1.2 _ hm; simp [isSpace] at this
      · simpa using hne.symm
  constructor
  · have ht : trim (lineOf (rtWords r) ++ [' ', c]) = lineOf (rtWords r) := by
      rw [trim_eq]
      have : strip (lineOf (rtWords r) ++ [' ', c]) = strip (lineOf (rtWords r)) := by
        unfold strip
        rw [List.reverse_append]
        show (List.dropWhile _ (c :: ' ' :: (lineOf (rtWords r)).reverse)).reverse.dropWhile _ = _
        rw [List.dropWhile_cons_of_pos (by rcases hc with rfl | rfl <;> decide), List.dropWhile_cons_of_pos (by decide)]
      rw [this, strip_line (rt_rowOk r).1]
    refine ⟨addNumber no r, ?_, ?_⟩
    · show numberRow no (trim (lineOf (rtWords r) ++ [' ', c])) = _
      rw [ht, numberRow_eq h]
    · unfold addNumber
      split
      · assumption
      · simp
  · show hookRow .origin known noOrigin kind s (lineOf (rtWords r) ++ [' ', c]) = _
    unfold hookRow
    rw [hw]

/-- The origin exists; it has no node. -/
example : buildNumbers 9 1 1 (some "1 10 \r\n1 20\r\n".toList) = .ok ([1], [1]) ∧
    ((hookUp 9 1 1 [1] [1] [(10, .origin), (20, .dest)] (noHooks, noHooks)
      (some "1 10 \r\n1 20\r\n".toList)).bind fun r => .ok [r.1.node 1, r.1.at' 10, r.2.node 1]) =
    .ok [none, none, some 20] := by
  decide +kernel

/-! ## C205: message signs -/

/-- C205.  From a file with one row `sign link` per sign, with as many rows as the configuration says: every number has the
sign of its first row.  That sign stands on the link of the row, shows no detour, is followed by everyone, and offers the
links that leave the node in which its link starts. -/
theorem C205_sign_file (rows : List (ℤ × ℤ)) (ends : ℤ → Option (ℤ × ℤ)) (outOf : ℤ → List ℤ) (e : ℤ → ℤ × ℤ)
    (h : ∀ r ∈ rows, IntOk r.1 ∧ IntOk r.2 ∧ ends r.2 = some (e r.2)) (fuel : ℕ) (hf : rows.length < fuel) :
    ∃ m, buildSigns fuel rows.length ends outOf (some (textOf (rows.map fun r => [toStr r.1, toStr r.2]))) = .ok m ∧
      ∀ k, match rows.find? fun r => r.1 = k with
        | none => m.get k = none
        | some r => ∃ v, m.get k = some v ∧ v.link = r.2 ∧ v.detour = -1 ∧ v.ratio = 1 ∧ v.outs = outOf (e r.2).1 := by
  obtain ⟨m, e1, e2⟩ := fold_insert (body := signRow ends outOf) (fun r => lineOf (rtWords r))
    (fun r => r.1) (fun r : ℤ × ℤ => (⟨r.2, outOf (e r.2).1, (outOf (e r.2).1).foldl Rt.insertNew [], -1, 1⟩ : Rt.Sign)) rows [] (by
      intro r hr s
      obtain ⟨h1, h2, h3⟩ := h r hr
      unfold signRow
      rw [split_line (rt_rowOk r)]
      simp only [rtWords]
      rw [trim_word (toStr_word r.1).1, stoi_toStr _ h1, Res.bind_ok', trim_word (toStr_word r.2).1, stoi_toStr _ h2,
        Res.bind_ok']
      unfold Rt.mkSign
      rw [h3, Res.bind_ok'])
  refine ⟨m, ?_, fun k => ?_⟩
  · have := readLoop_text (body := signRow ends outOf) (rt_rowsOk rows) fuel (by simpa using hf) []
    rw [List.length_map] at this
    show (readLoop (signRow ends outOf) fuel (rows.length : ℤ).toNat (In.open (textOf (rows.map rtWords))) []).bind _ = _
    rw [Int.toNat_natCast, this, List.map_map]
    exact e1
  · have hk := e2 k
    cases hfind : rows.find? fun r => decide (r.1 = k) with
    | none => rw [hfind] at hk; simpa using hk
    | some r =>
      rw [hfind] at hk
      exact ⟨_, by simpa using hk, rfl, rfl, rfl, rfl⟩

/-- C205: a row among those to be read with another number of words, or with a link that does not exist, is an error. -/
theorem C205_error (ends : ℤ → Option (ℤ × ℤ)) (outOf : ℤ → List ℤ) (s : Store ℤ Rt.Sign) (line : Str)
    (h : (wordsOf line).length ≠ 2 ∨ ∃ w0 w1 l, wordsOf line = [w0, w1] ∧ stoi (trim w1) = .ok l ∧ ends l = none) :
    ∀ s', signRow ends outOf s line ≠ .ok s' := by
  intro s'
  unfold signRow
  rw [split_eq]
  rcases h with h | ⟨w0, w1, l, hw, hi, hn⟩
  · rcases hw : wordsOf line with _ | ⟨a, _ | ⟨b, _ | ⟨x, y⟩⟩⟩
    · simp
    · simp
    · rw [hw] at h; exact absurd rfl h
    · simp
  · rw [hw]
    simp only
    intro hc
    obtain ⟨a, _, hc⟩ := Res.bind_eq_ok'.1 hc
    rw [hi, Res.bind_ok'] at hc
    unfold Rt.mkSign at hc
    rw [hn] at hc
    simp [Res.bind] at hc

/-- Signs 5 and 6 on links 1 and 3; link 1 starts at node 10, from where links 1 and 2 leave. -/
example : ((buildSigns 9 2 (fun l => if l = 1 ∨ l = 2 then some (10, 11) else if l = 3 then some (11, 12) else none)
      (fun n => if n = 10 then [1, 2] else if n = 11 then [3] else []) (some "#sign link\n5 1\n6 3\n".toList)).bind fun m =>
        .ok ((m.get 5).map fun v => (v.link, v.outs), (m.get 6).map fun v => (v.link, v.outs))) =
    .ok (some (1, [1, 2]), some (3, [3])) ∧
    ((buildSigns 9 1 (fun _ => none) (fun _ => []) (some "5 1\n".toList)).bind fun m => .ok ((m.get 5).map fun v => v.link)) =
      .throw "link not found" := by
  decide +kernel

end Verif
