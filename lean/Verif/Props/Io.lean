import Verif.Lemmas.Io

/-! # C50 and C56: reading input files, saving and loading path tables -/

namespace Verif
open Graph Text Io

/-! ## C50: readers of input files

`rowsOf content` are the rows of the file: the lines that are neither blank nor comments. -/

/-- C50, as far as it is true: if the file has at least the configured number of rows, every reader
ends, having processed exactly the first `n` rows, in order; nothing else in the file matters.  Missing
from C50: with fewer rows the readers do not report an error, see the next two theorems. -/
theorem C50_enough_rows_partial (content : Str) (n : ℕ) (hn : n ≤ (rowsOf content).length) (fuel : ℕ)
    (hf : (linesOf content).length ≤ fuel) (unit scalar : ℚ) (maxInterval : ℕ) (origins dests : List ℤ) :
    buildNodes fuel n (some content) = Res.foldlM nodeRow [] ((rowsOf content).take n) ∧
    buildLinks fuel n unit scalar (some content) =
      Res.foldlM (linkRow unit scalar) [] ((rowsOf content).take n) ∧
    buildGraph fuel n (some content) = Res.foldlM graphRow Graph.empty ((rowsOf content).take n) ∧
    buildDemand fuel n maxInterval origins dests (some content) =
      Res.foldlM (demandRow maxInterval origins dests) [] ((rowsOf content).take n) :=
  ⟨readLoop_enough _ _ _ _ _ (has_open content) hn hf, readLoop_enough _ _ _ _ _ (has_open content) hn hf,
    readLoop_enough _ _ _ _ _ (has_open content) hn hf, readLoop_enough _ _ _ _ _ (has_open content) hn hf⟩

theorem short_lemma {σ : Type} {body : σ → Str → Res σ} (content : Str) (n : ℕ)
    (hn : (rowsOf content).length < n) (hl : isRow (lastLine content) = false) (s s' : σ)
    (hs : Res.foldlM body s (rowsOf content) = .ok s') (fuel : ℕ) :
    readLoop body fuel n (In.open content) s = .diverge := by
  obtain ⟨q, ps, hq⟩ := List.exists_cons_of_ne_nil (List.splitOn_ne_nil '\n' content)
  have hh : Has (In.open content) (q :: ps) := Or.inr ⟨rfl, hq⟩
  have hr : rowsOf content = rowsIn (q :: ps) := by unfold rowsOf rowsIn linesOf; rw [hq]
  unfold lastLine linesOf at hl
  rw [hq, List.getLastD_eq_getLast?, List.getLast?_eq_some_getLast (by simp), Option.getD_some] at hl
  rw [hr] at hn hs
  exact readLoop_never ps n fuel _ s q hh hn hl s' hs

/-- C50 is false of the code: if the file has fewer rows than configured, all of them are fine, and the
file ends with a newline (or a comment or a blank line), reading it never ends. -/
theorem C50_short_file_hangs (content : Str) (n : ℕ) (hn : (rowsOf content).length < n)
    (hl : isRow (lastLine content) = false) (fuel : ℕ) :
    (∀ r, Res.foldlM nodeRow [] (rowsOf content) = .ok r → buildNodes fuel n (some content) = .diverge) ∧
    (∀ unit scalar r, Res.foldlM (linkRow unit scalar) [] (rowsOf content) = .ok r →
      buildLinks fuel n unit scalar (some content) = .diverge) ∧
    (∀ r, Res.foldlM graphRow Graph.empty (rowsOf content) = .ok r →
      buildGraph fuel n (some content) = .diverge) ∧
    (∀ mi os ds r, Res.foldlM (demandRow mi os ds) [] (rowsOf content) = .ok r →
      buildDemand fuel n mi os ds (some content) = .diverge) := by
  refine ⟨fun r h => ?_, fun u sc r h => ?_, fun r h => ?_, fun mi os ds r h => ?_⟩
  · have := short_lemma content n hn hl _ _ h fuel
    simp only [buildNodes, Int.toNat_natCast, this, Res.bind_diverge']
  · have := short_lemma content n hn hl _ _ h fuel
    simp only [buildLinks, Int.toNat_natCast, this, Res.bind_diverge']
  · have := short_lemma content n hn hl _ _ h fuel
    simp only [buildGraph, Int.toNat_natCast, this, Res.bind_diverge']
  · have := short_lemma content n hn hl _ _ h fuel
    simp only [buildDemand, Int.toNat_natCast, this, Res.bind_diverge']

/-- C50 is false of the code in another way: if the file has fewer rows than configured and its last
line is a row without a newline at the end, the readers process that row again and again until the
count is reached, and report nothing. -/
theorem C50_short_file_repeats (content : Str) (n : ℕ) (hn : (rowsOf content).length < n)
    (hl : isRow (lastLine content) = true) (fuel : ℕ) (hf : (linesOf content).length + n ≤ fuel) :
    buildNodes fuel n (some content) = Res.foldlM nodeRow []
      (rowsOf content ++ List.replicate (n - (rowsOf content).length) (lastLine content)) ∧
    buildGraph fuel n (some content) = Res.foldlM graphRow Graph.empty
      (rowsOf content ++ List.replicate (n - (rowsOf content).length) (lastLine content)) := by
  obtain ⟨q, ps, hq⟩ := List.exists_cons_of_ne_nil (List.splitOn_ne_nil '\n' content)
  have hh : Has (In.open content) (q :: ps) := Or.inr ⟨rfl, hq⟩
  have hr : rowsOf content = rowsIn (q :: ps) := by unfold rowsOf rowsIn linesOf; rw [hq]
  have hll : lastLine content = strip ((q :: ps).getLast (by simp)) := by
    unfold lastLine linesOf
    rw [hq, List.getLastD_eq_getLast?, List.getLast?_eq_some_getLast (by simp), Option.getD_some]
  have hf' : (q :: ps).length + n ≤ fuel := by rw [← hq]; exact hf
  rw [hll] at hl ⊢
  rw [hr] at hn ⊢
  exact ⟨readLoop_short ps n fuel _ _ q hh hn hl hf', readLoop_short ps n fuel _ _ q hh hn hl hf'⟩

theorem nodeRow_fine (s : Store ℤ NodeKind) (l : Str) : Fine (nodeRow s l) := by
  unfold nodeRow
  split
  · refine (stoi_fine _).bind fun id => ?_
    simp only
    split
    · exact Fine.ok _
    · split
      · exact Fine.ok _
      · split
        · exact Fine.ok _
        · split
          · exact Fine.ok _
          · exact Fine.throw _
  · exact Fine.throw _

/-- C50: reading a node file ends exactly when the file has enough rows, or one of its rows is
malformed, or its last line is a row without a newline. -/
theorem C50_nodes_end_iff (content : Str) (n : ℕ) :
    (∃ fuel, buildNodes fuel n (some content) ≠ .diverge) ↔
      n ≤ (rowsOf content).length ∨ (∃ m, Res.foldlM nodeRow [] (rowsOf content) = .throw m) ∨
      isRow (lastLine content) = true := by
  have hfine := Fine.foldlM nodeRow_fine (rowsOf content) []
  constructor
  · rintro ⟨fuel, hd⟩
    by_contra hcon
    simp only [not_or, not_le, Bool.not_eq_true] at hcon
    obtain ⟨c1, c2, c3⟩ := hcon
    rcases hfine with ⟨a, ha⟩ | ⟨m, hm⟩
    · exact hd ((C50_short_file_hangs content n c1 c3 fuel).1 a ha)
    · exact c2 ⟨m, hm⟩
  · intro h
    by_cases hn : n ≤ (rowsOf content).length
    · refine ⟨(linesOf content).length, ?_⟩
      rw [(C50_enough_rows_partial content n hn _ (le_refl _) 0 0 0 [] []).1]
      exact (Fine.foldlM nodeRow_fine _ _).ne
    · rcases h with h | ⟨m, hm⟩ | hl
      · exact absurd h hn
      · refine ⟨(linesOf content).length, ?_⟩
        have := readLoop_throw (body := nodeRow) (linesOf content) n _ _ [] m (has_open content)
          (by show (rowsOf content).length ≤ n; omega) (le_refl _) hm
        simp only [buildNodes, Int.toNat_natCast, this]
        simp
      · refine ⟨(linesOf content).length + n, ?_⟩
        rw [(C50_short_file_repeats content n (by omega) hl _ (le_refl _)).1]
        exact (Fine.foldlM nodeRow_fine _ _).ne

/-- A missing graph file makes the graph reader run forever, for every positive number of links. -/
theorem C50_missing_graph_file_hangs (n : ℕ) (hn : 0 < n) (fuel : ℕ) : buildGraph fuel n none = .diverge := by
  obtain ⟨k, rfl⟩ : ∃ k, n = k + 1 := ⟨n - 1, by omega⟩
  have : readLoop graphRow fuel (k + 1) ⟨[], false, []⟩ Graph.empty = .diverge :=
    readLoop_hang fuel k _ _ (Or.inl ⟨rfl, rfl⟩) rfl rfl
  simp only [buildGraph, Int.toNat_natCast, this, Res.bind_diverge']

/-- A file with comments, blanks and three rows; the second and third row are fine for a reader of two
or three rows, four rows are too many. -/
def nodeFile : Str := "#ID type\n\n 1 DMOND \n  # more\n2\tx FWJ\n3  FWJ 9 \n".toList

example : rowsOf nodeFile = ["1 DMOND".toList, "2\tx FWJ".toList, "3  FWJ 9".toList] := by
  decide +kernel

example : buildNodes 20 3 (some nodeFile) = .ok [(1, .origin), (2, .fwj), (3, .fwj)] ∧
    isRow (lastLine nodeFile) = false ∧ (rowsOf nodeFile).length = 3 ∧
    Res.foldlM nodeRow [] (rowsOf nodeFile) = .ok [(1, .origin), (2, .fwj), (3, .fwj)] := by
  decide +kernel

/-- The last row of this file has no newline; asked for two links, the graph reader reads it twice. -/
example : rowsOf "7 1 2".toList = ["7 1 2".toList] ∧ isRow (lastLine "7 1 2".toList) = true ∧
    ((buildGraph 20 2 (some "7 1 2".toList)).bind fun g => .ok (linkIds g)) = .throw "link already in graph" ∧
    ((buildGraph 20 1 (some "7 1 2".toList)).bind fun g => .ok (linkIds g)) = .ok [7] := by decide +kernel

/-! ## C56: saving and loading path tables -/

/-- C56, for every graph and every table whose paths are walks between their ends in a network
without parallel links along them: writing the table and reading the file back succeeds, and gives
for every pair of nodes the same paths in the same order, with the same node and link sequences (a
pair without paths is not in the table any more); the paths are numbered anew, in the order of the
file. -/
theorem C56_round_trip (ops : List Op) (t : PTable)
    (h : ∀ o ∈ t, ∀ d ∈ o.2, ∀ p ∈ d.2, PathOk (run empty ops) o.1 d.1 p) (hne : t.paths ≠ []) (fuel : ℕ)
    (hf : sizeLinks (run empty ops) + t.paths.length < fuel) :
    ∃ text t', savePathTable t = .ok text ∧
      loadPathTable fuel (run empty ops) t.paths.length (some text) = .ok (some t') ∧
      ∀ o d, (t' o d = none ↔ t.pathsFor o d = []) ∧
        ((t' o d).getD []).map (fun p => (p.nodes, p.links)) =
          (t.pathsFor o d).map (fun p => (p.nodes, p.links)) ∧
        (((t' o d).getD []).map (·.id)).Pairwise (· < ·) ∧ ∀ p ∈ (t' o d).getD [], p.id < t.paths.length := by
  have htag : ∀ q ∈ tagged t, PathOk (run empty ops) q.1 q.2.1 q.2.2 := by
    intro q hq
    obtain ⟨o, ho, d, hd, p, hp, rfl⟩ := mem_tagged hq
    exact h o ho d hd p hp
  have hpath : ∀ p ∈ t.paths, ∃ o d, PathOk (run empty ops) o d p := by
    intro p hp
    rw [← tagged_paths] at hp
    obtain ⟨q, hq, rfl⟩ := List.mem_map.1 hp
    exact ⟨_, _, htag q hq⟩
  have hsave : savePathTable t = .ok (textOf (t.paths.map fun p => p.nodes.map toStr)) := by
    unfold savePathTable
    rw [save_eq t.paths [] ?_, List.nil_append]
    intro p hp
    obtain ⟨o, d, hpo⟩ := hpath p hp
    rw [hpo.nodes]
    obtain ⟨r, hr⟩ := walkNodes_head (run empty ops) o p.links
    rw [hr]; simp
  have hrows : ∀ ws ∈ t.paths.map fun p => p.nodes.map toStr, RowOk ws := by
    intro ws hws
    obtain ⟨p, hp, rfl⟩ := List.mem_map.1 hws
    obtain ⟨o, d, hpo⟩ := hpath p hp
    obtain ⟨r, hr⟩ := walkNodes_head (run empty ops) o p.links
    refine ⟨?_, toStr o, r.map toStr, by rw [hpo.nodes, hr]; rfl, (toStr_word o).2⟩
    intro w hw
    obtain ⟨n, _, rfl⟩ := List.mem_map.1 hw
    exact (toStr_word n).1
  obtain ⟨s', e1, e2⟩ := load_fold ops fuel (by omega) (tagged t) ⟨fun _ _ => none, 0, none⟩ htag
  refine ⟨_, s'.table, hsave, ?_, ?_⟩
  · unfold loadPathTable
    have hpos : 0 < t.paths.length := List.length_pos_iff.2 hne
    rw [if_neg (by omega)]
    have hr := readLoop_text (body := pathRow fuel (run empty ops)) hrows fuel (by simp; omega)
      ⟨fun _ _ => none, 0, none⟩
    rw [List.length_map] at hr
    have hmap : (t.paths.map fun p => p.nodes.map toStr).map lineOf =
        (tagged t).map fun q => lineOf (q.2.2.nodes.map toStr) := by
      rw [← tagged_paths]
      simp [Function.comp_def]
    rw [hmap, e1] at hr
    simp only [Int.toNat_natCast]
    rw [Res.bind_eq_ok'] at hr
    obtain ⟨r, hr1, hr2⟩ := hr
    rw [hr1]
    simp only [Res.bind_ok', Res.ok.injEq] at hr2 ⊢
    rw [hr2]
  · intro o d
    have hlen : (tagged t).length = t.paths.length := by rw [← tagged_paths]; simp
    have hp := picks_eq (o := o) (d := d) (tagged t) 0
    rw [tagged_filter] at hp
    have e := e2 o d
    simp only [Option.getD_none, List.nil_append] at e
    by_cases hnil : picks o d 0 (tagged t) = []
    · rw [if_pos hnil] at e
      rw [hnil] at hp
      have hz : t.pathsFor o d = [] := by simpa using hp.symm
      rw [e, hz]
      simp
    · rw [if_neg hnil] at e
      rw [e]
      simp only [reduceCtorEq, false_iff, Option.getD_some]
      refine ⟨?_, hp, picks_ids _ _, ?_⟩
      · intro hz
        rw [hz] at hp
        exact hnil (by simpa using hp)
      · intro p hpm
        have := (mem_picks hpm).2
        omega

/-- Nodes 1, 2, 3; links 10 from 1 to 2, 11 from 2 to 3, 12 from 1 to 2 again. -/
def ptOps : List Op := [.addNode 1, .addNode 2, .addNode 3, .addLink 1 2 10, .addLink 2 3 11]

def ptTable : PTable := [(1, [(3, [⟨4, [1, 2, 3], [10, 11]⟩]), (2, [⟨9, [1, 2], [10]⟩])]), (2, [(3, [⟨1, [2, 3], [11]⟩])])]

theorem ptOk : ∀ o ∈ ptTable, ∀ d ∈ o.2, ∀ p ∈ d.2, PathOk (run empty ptOps) o.1 d.1 p := by
  have e10 : getEndpoints (run empty ptOps) 10 = .ok (1, 2) := by decide +kernel
  have e11 : getEndpoints (run empty ptOps) 11 = .ok (2, 3) := by decide +kernel
  have only : ∀ l, l ∈ linkIds (run empty ptOps) → l = 10 ∨ l = 11 := by
    have : linkIds (run empty ptOps) = [10, 11] := by decide +kernel
    rw [this]; simp
  have one : ∀ l ∈ ([10, 11] : List ℤ), ∀ l', getEndpoints (run empty ptOps) l' = getEndpoints (run empty ptOps) l → l' = l := by
    intro l hl l' h
    have hin : l' ∈ linkIds (run empty ptOps) := by
      by_contra hn
      rw [(C05_endpoints_unknown ptOps l').1 hn] at h
      simp only [List.mem_cons, List.not_mem_nil, or_false] at hl
      rcases hl with rfl | rfl
      · rw [e10] at h; simp at h
      · rw [e11] at h; simp at h
    simp only [List.mem_cons, List.not_mem_nil, or_false] at hl
    rcases only l' hin with rfl | rfl <;> rcases hl with rfl | rfl <;> first | rfl | (rw [e10, e11] at h; simp at h)
  intro o ho d hd p hp
  simp only [ptTable, List.mem_cons, List.not_mem_nil, or_false] at ho
  rcases ho with rfl | rfl <;> simp only [List.mem_cons, List.not_mem_nil, or_false] at hd
  · rcases hd with rfl | rfl <;> simp only [List.mem_cons, List.not_mem_nil, or_false] at hp <;> subst hp
    · exact ⟨⟨2, e10, 3, e11, rfl⟩, by simp, by simp [Sp.walkNodes, e10, e11], fun l hl => one l (by simpa using hl),
        by simp [IntOk]⟩
    · exact ⟨⟨2, e10, rfl⟩, by simp, by simp [Sp.walkNodes, e10], fun l hl => one l (by simp at hl; simp [hl]), by simp [IntOk]⟩
  · subst hd
    simp only [List.mem_cons, List.not_mem_nil, or_false] at hp
    subst hp
    exact ⟨⟨3, e11, rfl⟩, by simp, by simp [Sp.walkNodes, e11], fun l hl => one l (by simp at hl; simp [hl]), by simp [IntOk]⟩

example : savePathTable ptTable = .ok "1 2 3\n1 2\n2 3\n".toList := by decide +kernel

/-- Outside the hypotheses of C56: with a second link from node 1 to node 2, the path that used the
older link comes back with the newer one. -/
theorem C56_parallel_link_changed :
    ((loadPathTable 20 (run empty (ptOps ++ [.addLink 1 2 12])) 1 (some "1 2 3\n".toList)).bind fun t =>
      .ok (t.map fun t => t 1 3)) = .ok (some (some [⟨0, [1, 2, 3], [12, 11]⟩])) := by decide +kernel

/-- Outside the hypotheses of C56: a row whose nodes are not connected is accepted; it gets the link
found last before, here link 11 instead of a link from 1 to 3. -/
theorem C56_unconnected_row_accepted :
    ((loadPathTable 20 (run empty ptOps) 2 (some "2 3\n1 3\n".toList)).bind fun t =>
      .ok (t.map fun t => t 1 3)) = .ok (some (some [⟨1, [1, 3], [11]⟩])) := by decide +kernel

/-- ... and if nothing was found before, an uninitialised variable is used. -/
theorem C56_unconnected_first_row_undefined :
    ((loadPathTable 20 (run empty ptOps) 1 (some "1 3\n".toList)).bind fun t =>
      .ok (t.map fun t => t 1 3)) = .ub := by decide +kernel

end Verif
