import Verif.Lemmas.IoRows
import Verif.Props.Graph

/-! # C64 to C67: what is read from node, graph, link and demand files

The files are written as rows of words separated by one space. -/

namespace Verif
open Graph Text Io

/-! ## C64: node files -/

theorem nodeRow_ok (r : ℤ × NodeKind) : RowOk [toStr r.1, r.2.word] := by
  refine ⟨?_, _, _, rfl, (toStr_word r.1).2⟩
  intro w hw
  simp only [List.mem_cons, List.not_mem_nil, or_false] at hw
  rcases hw with rfl | rfl
  · exact (toStr_word r.1).1
  · cases r.2 <;> exact ⟨by decide, by decide⟩

theorem nodeRow_eq (r : ℤ × NodeKind) (h : IntOk r.1) (s : Store ℤ NodeKind) :
    nodeRow s (lineOf [toStr r.1, r.2.word]) = .ok (s.insert r.1 r.2) := by
  unfold nodeRow
  rw [split_line (nodeRow_ok r)]
  simp only [stoi_toStr r.1 h, Res.bind_ok']
  cases r.2
  · rw [if_pos (by decide)]
  · rw [if_neg (by decide), if_pos (by decide)]
  · rw [if_neg (by decide), if_neg (by decide), if_pos (by decide)]
  · rw [if_neg (by decide), if_neg (by decide), if_neg (by decide), if_pos (by decide)]

theorem buildNodes_eq (rows : List (ℤ × NodeKind)) (fuel : ℕ) (hf : rows.length < fuel) :
    buildNodes fuel rows.length (some (textOf (rows.map fun r => [toStr r.1, r.2.word]))) =
      Res.foldlM nodeRow [] (rows.map fun r => lineOf [toStr r.1, r.2.word]) := by
  have := readLoop_text (body := nodeRow) (rows := rows.map fun r => [toStr r.1, r.2.word])
    (by
      intro ws hw
      obtain ⟨r, _, rfl⟩ := List.mem_map.1 hw
      exact nodeRow_ok r) fuel (by simpa using hf) []
  rw [List.length_map] at this
  show (readLoop nodeRow fuel (rows.length : ℤ).toNat (In.open _) []).bind (fun r => .ok r.1) = _
  rw [Int.toNat_natCast, this, List.map_map]
  rfl

/-- C64.  From a file with one row `number type` per node, the reader builds exactly these nodes: a
number has the type of its first row, and there is no node without a row. -/
theorem C64_node_file (rows : List (ℤ × NodeKind)) (hi : ∀ r ∈ rows, IntOk r.1) (fuel : ℕ)
    (hf : rows.length < fuel) :
    ∃ m, buildNodes fuel rows.length (some (textOf (rows.map fun r => [toStr r.1, r.2.word]))) = .ok m ∧
      ∀ n, m.get n = (rows.find? fun r => r.1 = n).map (·.2) := by
  obtain ⟨m, e1, e2⟩ := fold_insert (body := nodeRow) (fun r => lineOf [toStr r.1, r.2.word])
    (fun r => r.1) (fun r => r.2) rows [] fun r hr s => nodeRow_eq r (hi r hr) s
  exact ⟨m, by rw [buildNodes_eq rows fuel hf, e1], fun n => by simpa using e2 n⟩

/-- C64, a number that does not fit the integer type is an exception wherever it stands in the file,
never another number. -/
theorem C64_node_number_too_large (rows : List (ℤ × NodeKind)) (hi : ∃ r ∈ rows, ¬ IntOk r.1) (fuel : ℕ)
    (hf : rows.length < fuel) :
    buildNodes fuel rows.length (some (textOf (rows.map fun r => [toStr r.1, r.2.word]))) =
      .throw "out_of_range" := by
  rw [buildNodes_eq rows fuel hf]
  generalize ([] : Store ℤ NodeKind) = s
  clear hf
  induction rows generalizing s with
  | nil => simp at hi
  | cons r rows ih =>
    rw [List.map_cons, Res.foldlM_cons]
    by_cases h : IntOk r.1
    · rw [nodeRow_eq r h]
      obtain ⟨x, hx, hn⟩ := hi
      rcases List.mem_cons.1 hx with rfl | hx
      · exact absurd h hn
      · exact ih ⟨x, hx, hn⟩ _
    · have : nodeRow s (lineOf [toStr r.1, r.2.word]) = .throw "out_of_range" := by
        unfold nodeRow
        rw [split_line (nodeRow_ok r)]
        simp only [stoi_toStr_out r.1 h]
        rfl
      rw [this]
      rfl

example : buildNodes 9 2 (some "1 FWJ\n4294967297 FWJ\n".toList) = .throw "out_of_range" := by
  decide +kernel

/-- A file with an origin, two junctions and a destination, the second row for node 2 ignored. -/
example : ((buildNodes 9 5 (some "1 DMOND\n2 FWJ\n3 GRJ\n4 DMDND\n2 GRJ\n".toList)).bind fun m =>
    .ok [m.get 1, m.get 2, m.get 3, m.get 4, m.get 5]) =
    .ok [some .origin, some .fwj, some .grj, some .dest, none] ∧
    "1 DMOND\n2 FWJ\n3 GRJ\n4 DMDND\n2 GRJ\n".toList =
      textOf ([((1 : ℤ), NodeKind.origin), (2, .fwj), (3, .grj), (4, .dest), (2, .grj)].map
        fun r => [toStr r.1, r.2.word]) := by
  decide +kernel

/-! ## C65: graph files -/

/-- C65.  From a file with one row `link from to` per link, with different link numbers and no loops,
the reader builds the graph with exactly these links between these nodes, and it is a graph that the
other theorems speak about. -/
theorem C65_graph_file (ls : List (ℤ × ℤ × ℤ)) (hi : ∀ x ∈ ls, IntOk x.1 ∧ IntOk x.2.1 ∧ IntOk x.2.2)
    (hne : ∀ x ∈ ls, x.2.1 ≠ x.2.2) (hnd : (ls.map (·.1)).Nodup) (fuel : ℕ) (hf : ls.length < fuel) :
    ∃ g, buildGraph fuel ls.length
        (some (textOf (ls.map fun x => [toStr x.1, toStr x.2.1, toStr x.2.2]))) = .ok g ∧
      linkIds g = ls.map (·.1) ∧ (nodeIds g).Nodup ∧
      (∀ n, n ∈ nodeIds g ↔ ∃ x ∈ ls, n = x.2.1 ∨ n = x.2.2) ∧
      (∀ x ∈ ls, getEndpoints g x.1 = .ok (x.2.1, x.2.2)) ∧
      ∃ ops, g = run Graph.empty ops := by
  obtain ⟨e1, e2, e3⟩ := graph_fold ls [] hi hne hnd (by simp [Spec.run, Spec.empty, Spec.linkIds])
  have hrel := run_rel_empty ([] ++ ls.flatMap linkOps)
  refine ⟨run Graph.empty ([] ++ ls.flatMap linkOps), ?_, ?_, ?_, ?_, ?_, _, rfl⟩
  · have := readLoop_text (body := graphRow) (rows := ls.map fun x => [toStr x.1, toStr x.2.1, toStr x.2.2])
      (by
        intro ws hw
        obtain ⟨x, _, rfl⟩ := List.mem_map.1 hw
        refine ⟨?_, _, _, rfl, (toStr_word x.1).2⟩
        intro w hw
        simp only [List.mem_cons, List.not_mem_nil, or_false] at hw
        rcases hw with rfl | rfl | rfl <;> exact (toStr_word _).1) fuel (by simpa using hf) Graph.empty
    rw [List.length_map] at this
    show (readLoop graphRow fuel (ls.length : ℤ).toNat (In.open _) Graph.empty).bind (fun r => .ok r.1) = _
    rw [Int.toNat_natCast, this, List.map_map]
    exact e1
  · rw [linkIds, hrel.linkKeys, Spec.linkIds, e2]
    simp [Spec.run, Spec.empty]
  · rw [nodeIds, hrel.nodeKeys]; exact hrel.nodeNodup
  · intro n
    rw [nodeIds, hrel.nodeKeys, e3]
    simp [Spec.run, Spec.empty]
  · intro x hx
    exact getEndpoints_spec hrel (by rw [e2]; simp [hx])

/-- C65, the other direction: a repeated link number or a loop makes the reader raise an error. -/
theorem C65_graph_file_error (ls : List (ℤ × ℤ × ℤ)) (hi : ∀ x ∈ ls, IntOk x.1 ∧ IntOk x.2.1 ∧ IntOk x.2.2)
    (hbad : (∃ x ∈ ls, x.2.1 = x.2.2) ∨ ¬(ls.map (·.1)).Nodup) (fuel : ℕ) (hf : ls.length < fuel) :
    ∃ m, buildGraph fuel ls.length
        (some (textOf (ls.map fun x => [toStr x.1, toStr x.2.1, toStr x.2.2]))) = .throw m := by
  obtain ⟨m, e⟩ := graph_fold_throw ls [] hi (by
    rintro ⟨h1, h2, _⟩
    rcases hbad with ⟨x, hx, e⟩ | hb
    · exact h1 x hx e
    · exact hb h2)
  refine ⟨m, ?_⟩
  have := readLoop_text (body := graphRow) (rows := ls.map fun x => [toStr x.1, toStr x.2.1, toStr x.2.2])
    (by
      intro ws hw
      obtain ⟨x, _, rfl⟩ := List.mem_map.1 hw
      refine ⟨?_, _, _, rfl, (toStr_word x.1).2⟩
      intro w hw
      simp only [List.mem_cons, List.not_mem_nil, or_false] at hw
      rcases hw with rfl | rfl | rfl <;> exact (toStr_word _).1) fuel (by simpa using hf) Graph.empty
  rw [List.length_map] at this
  show (readLoop graphRow fuel (ls.length : ℤ).toNat (In.open _) Graph.empty).bind (fun r => .ok r.1) = _
  rw [Int.toNat_natCast, this, List.map_map]
  exact e

/-- Two links from node 1 through node 2 to node 3, and a loop. -/
example : ((buildGraph 9 2 (some "7 1 2\n8 2 3\n".toList)).bind fun g =>
    (getEndpoints g 8).bind fun e => .ok (linkIds g, nodeIds g, e)) = .ok ([7, 8], [1, 2, 3], (2, 3)) ∧
    "7 1 2\n8 2 3\n".toList = textOf ([((7 : ℤ), (1 : ℤ), (2 : ℤ)), (8, 2, 3)].map
      fun x => [toStr x.1, toStr x.2.1, toStr x.2.2]) ∧
    ((buildGraph 9 1 (some "7 1 1\n".toList)).bind fun g => .ok (linkIds g)).isOk = false := by
  decide +kernel

/-! ## C66: link files -/

theorem linkLine_rowOk {r : LinkLine} {a b c d : ℚ} (h : r.Denotes a b c d) : RowOk r.words := by
  obtain ⟨_, _, h1, _, h2, _, h3, _, h4, _⟩ := h
  refine ⟨?_, _, _, rfl, (toStr_word r.id).2⟩
  intro w hw
  simp only [LinkLine.words, List.mem_cons, List.not_mem_nil, or_false] at hw
  rcases hw with rfl | rfl | rfl | rfl | rfl | rfl | rfl
  · exact (toStr_word _).1
  · cases r.kind <;> exact ⟨by decide, by decide⟩
  · exact h1
  · exact h2
  · exact h3
  · exact h4
  · exact (toStr_word _).1

/-- C66.  From a file with one row per link, the reader builds exactly these links, each with the
parameters of its first row in metres, seconds and vehicles: lengths of 1600 metres per mile, speeds and
capacities per hour of 3600 seconds. -/
theorem C66_link_file (rows : List LinkLine) (q : LinkLine → ℚ × ℚ × ℚ × ℚ) (mk : LinkLine → Lnk.Link ℕ)
    (unit scalar : ℚ)
    (hq : ∀ r ∈ rows, r.Denotes (q r).1 (q r).2.1 (q r).2.2.1 (q r).2.2.2)
    (hmk : ∀ r ∈ rows, Lnk.mkLink r.kind
      { length := 1600 * (q r).1, ffs := 1600 * (q r).2.1 / 3600, cap := (q r).2.2.1 / 3600,
        hold := (q r).2.2.2 / 1600, lanes := r.lanes, unit := unit, scalar := scalar } = .ok (mk r))
    (fuel : ℕ) (hf : rows.length < fuel) :
    ∃ m, buildLinks fuel rows.length unit scalar (some (textOf (rows.map LinkLine.words))) = .ok m ∧
      ∀ n, m.get n = (rows.find? fun r => r.id = n).map mk := by
  obtain ⟨m, e1, e2⟩ := fold_insert (body := linkRow unit scalar) (fun r => lineOf r.words)
    (fun r : LinkLine => r.id) mk rows [] (by
      intro r hr s
      have hd := hq r hr
      have hm := hmk r hr
      have hw := split_line (linkLine_rowOk hd)
      obtain ⟨i1, i2, _, h1, _, h2, _, h3, _, h4⟩ := hd
      rw [mul_comm 1600 (q r).1, mul_comm 1600 (q r).2.1] at hm
      unfold linkRow
      rw [hw]
      simp only [LinkLine.words, stoi_toStr _ i1, stoi_toStr _ i2, h1, h2, h3, h4, Res.bind_ok']
      revert hm
      cases hk : r.kind <;> intro hm
      · rw [if_neg (by decide), if_pos (by decide), hm]; rfl
      · rw [if_pos (by decide), hm]; rfl
      · rw [if_neg (by decide), if_neg (by decide), if_pos (by decide), hm]; rfl
      · rw [if_neg (by decide), if_neg (by decide), if_neg (by decide), if_pos (by decide), hm]; rfl)
  refine ⟨m, ?_, fun n => by simpa using e2 n⟩
  have := readLoop_text (body := linkRow unit scalar) (rows := rows.map LinkLine.words)
    (by
      intro ws hw
      obtain ⟨r, hr, rfl⟩ := List.mem_map.1 hw
      exact linkLine_rowOk (hq r hr)) fuel (by simpa using hf) []
  rw [List.length_map] at this
  show (readLoop (linkRow unit scalar) fuel (rows.length : ℤ).toNat (In.open _) []).bind
    (fun r => .ok r.1) = _
  rw [Int.toNat_natCast, this, List.map_map]
  exact e1

/-- A point queue of half a mile at 36 miles per hour, and the hypotheses of C66 hold for its row. -/
def exLine : LinkLine := ⟨5, .pq, "0.5".toList, "36".toList, "1800".toList, "160".toList, 2⟩

example : exLine.Denotes (1 / 2) 36 1800 160 :=
  ⟨by simp [IntOk, exLine], by simp [IntOk, exLine], ⟨by decide, by decide⟩, by decide +kernel,
    ⟨by decide, by decide⟩, by decide +kernel, ⟨by decide, by decide⟩, by decide +kernel,
    ⟨by decide, by decide⟩, by decide +kernel⟩

example : (Lnk.mkLink (V := ℕ) .pq
    { length := 1600 * (1 / 2), ffs := 1600 * 36 / 3600, cap := 1800 / 3600, hold := 160 / 1600,
      lanes := 2, unit := 5, scalar := 1 }).isOk = true ∧
    textOf [exLine.words] = "5 PQ 0.5 36 1800 160 2\n".toList ∧
    ((buildLinks 5 1 5 1 (some "5 PQ 0.5 36 1800 160 2\n".toList)).bind fun m =>
      match m.get 5 with
      | some (.pq l) => .ok [l.length, l.ffs, l.cap, l.hold, l.lanes]
      | _ => .ub) = .ok [800, 16, 1 / 2, 1 / 10, 2] := by
  decide +kernel

/-! ## C67: demand files -/

theorem stods_fold : ∀ (ws : List Str) (q : Str → ℚ) (acc : List ℚ), (∀ w ∈ ws, stod w = .ok (q w)) →
    Res.foldlM (fun acc w => (stod w).bind fun x => .ok (acc ++ [x])) acc ws = .ok (acc ++ ws.map q) := by
  intro ws
  induction ws with
  | nil => intro q acc _; simp
  | cons w ws ih =>
    intro q acc h
    rw [Res.foldlM_cons, h w (by simp)]
    show Res.foldlM _ (acc ++ [q w]) ws = _
    rw [ih q _ fun x hx => h x (by simp [hx])]
    simp

/-- C67.  From a file with one row `origin destination d₁ … dₘ …` per pair, over existing origins and
destinations, the reader gives every pair the first `m` values of its first row, and no demand to pairs
without a row. -/
theorem C67_demand_file (rows : List DemandLine) (m : ℕ) (origins dests : List ℤ) (q : Str → ℚ)
    (hi : ∀ r ∈ rows, IntOk r.o ∧ IntOk r.d) (ho : ∀ r ∈ rows, r.o ∈ origins ∧ r.d ∈ dests)
    (hv : ∀ r ∈ rows, m ≤ r.values.length ∧ ∀ w ∈ r.values, WordOk w ∧ stod w = .ok (q w))
    (fuel : ℕ) (hf : rows.length < fuel) :
    ∃ t, buildDemand fuel rows.length m origins dests (some (textOf (rows.map DemandLine.words))) = .ok t ∧
      ∀ o d, t.get (o, d) =
        (rows.find? fun r => r.o = o ∧ r.d = d).map fun r => (r.values.take m).map q := by
  have hrow : ∀ r ∈ rows, RowOk r.words := by
    intro r hr
    refine ⟨?_, _, _, rfl, (toStr_word r.o).2⟩
    intro w hw
    simp only [DemandLine.words, List.mem_cons] at hw
    rcases hw with rfl | rfl | hw
    · exact (toStr_word _).1
    · exact (toStr_word _).1
    · exact ((hv r hr).2 w hw).1
  obtain ⟨t, e1, e2⟩ := fold_insert (body := demandRow m origins dests) (fun r => lineOf r.words)
    (fun r : DemandLine => (r.o, r.d)) (fun r => (r.values.take m).map q) rows [] (by
      intro r hr s
      unfold demandRow
      rw [split_line (hrow r hr)]
      simp only [DemandLine.words]
      rw [if_pos (hv r hr).1, stoi_toStr _ (hi r hr).1, Res.bind_ok', stoi_toStr _ (hi r hr).2,
        Res.bind_ok', stods_fold _ q [] fun w hw => ((hv r hr).2 w (List.mem_of_mem_take hw)).2,
        Res.bind_ok', if_pos (ho r hr).1, if_pos (ho r hr).2]
      rfl)
  refine ⟨t, ?_, fun o d => by simpa [Prod.ext_iff] using e2 (o, d)⟩
  have := readLoop_text (body := demandRow m origins dests) (rows := rows.map DemandLine.words)
    (by
      intro ws hw
      obtain ⟨r, hr, rfl⟩ := List.mem_map.1 hw
      exact hrow r hr) fuel (by simpa using hf) []
  rw [List.length_map] at this
  show (readLoop (demandRow m origins dests) fuel (rows.length : ℤ).toNat (In.open _) []).bind
    (fun r => .ok r.1) = _
  rw [Int.toNat_natCast, this, List.map_map]
  exact e1

/-- Two pairs; the third value of a row is not used with two intervals. -/
example : ((buildDemand 9 2 2 [1] [4, 6] (some "1 4 0.5 2 7\n1 6 3 1e1 0\n".toList)).bind fun t =>
    .ok [t.get (1, 4), t.get (1, 6), t.get (4, 1)]) = .ok [some [1 / 2, 2], some [3, 10], none] ∧
    "1 4 0.5 2 7\n1 6 3 1e1 0\n".toList = textOf ([(⟨1, 4, ["0.5".toList, "2".toList, "7".toList]⟩ : DemandLine),
      ⟨1, 6, ["3".toList, "1e1".toList, "0".toList]⟩].map DemandLine.words) := by
  decide +kernel

end Verif
