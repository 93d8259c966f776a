import Verif.Lemmas.FlowFiles
import Verif.Props.Io

/-!
# C214, C215: numbers in files; saving and loading path tables with flows
-/

namespace Verif
open Text Io Rd FlowF Graph

/-- **C214 (numbers survive writing and reading).**  Every number that the program writes with `std::to_string` is a word
without blanks that does not look like a comment, and reading it succeeds and gives a number that differs from it by at most
half a millionth — the same number if it has at most six decimals. -/
theorem C214_number_round_trip (x : ℚ) : (WordOk (dec x) ∧ (dec x).head? ≠ some '#') ∧ ∃ y, stod (dec x) = .ok y ∧ Close x y :=
  ⟨dec_word x, _, stod_dec x, close_dec x⟩

/-- **C214 (small numbers are lost, refuted).**  Distinct numbers can be written alike: a flow below half a millionth is read
back as zero. -/
theorem C214_false_small (x : ℚ) (h0 : 0 ≤ x) (h : x < 1 / 2000000) : stod (dec x) = .ok 0 := by
  rw [stod_dec]
  have hn : near (|x| * 1000000) = 0 := by
    rw [abs_of_nonneg h0]
    have hf : ⌊x * 1000000⌋ = 0 := by
      rw [Int.floor_eq_zero_iff]
      constructor
      · positivity
      · linarith
    unfold near
    simp only [hf, Int.toNat_zero, Nat.cast_zero, sub_zero]
    rw [if_pos (by linarith)]
  unfold decVal
  rw [hn]
  simp

example : dec (1 / 3) = "0.333333".toList ∧ dec (-5 / 2) = "-2.500000".toList ∧ dec (123456789 / 1000) = "123456.789000".toList ∧
    dec 0 = "0.000000".toList ∧ stod (dec (-5 / 2)) = .ok (-5 / 2) := by decide +kernel

/-- **C215 (path tables with flows survive saving and loading).**  Take any graph and any table of paths that are walks in a
network without parallel links along them, and any flows of the paths — for each path, in the order of the file, any number
of them, possibly none.  Writing the table and the flows and reading both files back succeeds.  It gives the table that
reading without flows gives; each of its paths has the nodes and links of the path that was written at the place its number
says, and has the flows of that path, as many of them, each the same up to half a millionth (exactly the same with at most
six decimals). -/
theorem C215_flow_round_trip (ops : List Op) (t : PTable)
    (h : ∀ o ∈ t, ∀ d ∈ o.2, ∀ p ∈ d.2, PathOk (run empty ops) o.1 d.1 p) (hne : t.paths ≠ []) (bs : List (List ℚ))
    (hbs : bs.length = t.paths.length) (fuel : ℕ) (hf : sizeLinks (run empty ops) + t.paths.length < fuel) :
    ∃ text t' fl, savePathTable t = .ok text ∧
      loadPathTable fuel (run empty ops) t.paths.length (some text) = .ok (some t') ∧
      loadFlows fuel (run empty ops) t.paths.length (some text) (some (saveBuffers bs)) = .ok (some (t', fl)) ∧
      ∀ o d, ∀ p ∈ (t' o d).getD [], ∃ q b, t.paths[p.id]? = some q ∧ bs[p.id]? = some b ∧ p.nodes = q.nodes ∧
        p.links = q.links ∧ List.Forall₂ Close b (fl p.id) := by
  have htag : ∀ q ∈ tagged t, PathOk (run empty ops) q.1 q.2.1 q.2.2 := by
    intro q hq
    obtain ⟨o, ho, d, hd, p, hp, rfl⟩ := mem_tagged hq
    exact h o ho d hd p hp
  have hpath : ∀ p ∈ t.paths, ∃ o d, PathOk (run empty ops) o d p := by
    intro p hp
    rw [← tagged_paths] at hp
    obtain ⟨q, hq, rfl⟩ := List.mem_map.1 hp
    exact ⟨_, _, htag q hq⟩
  have hsave : savePathTable t = .ok (textOf (t.paths.map fun p => p.nodes.map toStr)) := by
    unfold savePathTable
    rw [Io.save_eq t.paths [] ?_, List.nil_append]
    intro p hp
    obtain ⟨o, d, hpo⟩ := hpath p hp
    rw [hpo.nodes]
    obtain ⟨r, hr⟩ := walkNodes_head (run empty ops) o p.links
    rw [hr]; simp
  have hrows : ∀ ws ∈ t.paths.map fun p => p.nodes.map toStr, RowOk ws := by
    intro ws hws
    obtain ⟨p, hp, rfl⟩ := List.mem_map.1 hws
    obtain ⟨o, d, hpo⟩ := hpath p hp
    obtain ⟨r, hr⟩ := walkNodes_head (run empty ops) o p.links
    refine ⟨?_, toStr o, r.map toStr, by rw [hpo.nodes, hr]; rfl, (toStr_word o).2⟩
    intro w hw
    obtain ⟨n, _, rfl⟩ := List.mem_map.1 hw
    exact (toStr_word n).1
  have hlong : ∀ l ∈ (t.paths.map fun p => p.nodes.map toStr).map lineOf, ∃ a b c, split l ' ' = a :: b :: c := by
    intro l hl
    obtain ⟨ws, hws, rfl⟩ := List.mem_map.1 hl
    rw [split_line (hrows ws hws)]
    obtain ⟨p, hp, rfl⟩ := List.mem_map.1 hws
    obtain ⟨o, d, hpo⟩ := hpath p hp
    obtain ⟨k, ks, hk⟩ := List.exists_cons_of_ne_nil hpo.long
    have hw := hpo.walk
    rw [hk] at hw
    obtain ⟨m, hm, _⟩ := hw
    obtain ⟨r, hr⟩ := walkNodes_head (run empty ops) m ks
    have hn : p.nodes = o :: m :: r := by
      rw [hpo.nodes, hk, Sp.walkNodes, hm]
      simpa using hr
    rw [hn]
    exact ⟨_, _, _, rfl⟩
  obtain ⟨s', e1, e2⟩ := load_fold ops fuel (by omega) (tagged t) ⟨fun _ _ => none, 0, none⟩ htag
  have hmap : (t.paths.map fun p => p.nodes.map toStr).map lineOf =
      (tagged t).map fun q => lineOf (q.2.2.nodes.map toStr) := by
    rw [← tagged_paths]
    simp [Function.comp_def]
  rw [← hmap] at e1
  have hj := has_open (saveBuffers bs)
  rw [linesOf_buffers] at hj
  obtain ⟨j', fl, f1, -, f3⟩ := flow_fold [[]] _ bs _ s' (In.open (saveBuffers bs)) (fun _ => []) (by simp [hbs]) hlong hj
    (fun _ _ => rfl) e1
  have hpos : 0 < t.paths.length := List.length_pos_iff.2 hne
  refine ⟨_, s'.table, fl, hsave, ?_, ?_, ?_⟩
  · unfold loadPathTable
    rw [if_neg (by omega)]
    have hr := readLoop_text (body := pathRow fuel (run empty ops)) hrows fuel (by simp; omega)
      ⟨fun _ _ => none, 0, none⟩
    rw [List.length_map, e1] at hr
    simp only [Int.toNat_natCast]
    rw [Res.bind_eq_ok'] at hr
    obtain ⟨r, hr1, hr2⟩ := hr
    rw [hr1]
    simp only [Res.bind_ok', Res.ok.injEq] at hr2 ⊢
    rw [hr2]
  · unfold loadFlows
    rw [if_neg (by omega)]
    have hr := readLoop_text (body := flowRow fuel (run empty ops)) hrows fuel (by simp; omega)
      ⟨⟨fun _ _ => none, 0, none⟩, In.open (saveBuffers bs), fun _ => []⟩
    rw [List.length_map, f1] at hr
    simp only [Int.toNat_natCast]
    rw [Res.bind_eq_ok'] at hr
    obtain ⟨r, hr1, hr2⟩ := hr
    rw [hr1]
    simp only [Res.bind_ok', Res.ok.injEq] at hr2 ⊢
    rw [hr2]
  · intro o d p hp
    have hp' : p ∈ picks o d 0 (tagged t) := by
      rw [e2 o d] at hp
      split at hp
      · simp at hp
      · simpa using hp
    obtain ⟨q, hq, hn, hl⟩ := mem_picks_path hp'
    have hlt := (mem_picks hp').2
    have hlen : (tagged t).length = t.paths.length := by rw [← tagged_paths]; simp
    have hid : p.id < bs.length := by omega
    refine ⟨q, bs[p.id], ?_, by simp [hid], hn, hl, ?_⟩
    · rw [← tagged_paths, List.getElem?_map]
      rw [Nat.sub_zero] at hq
      rw [hq]; rfl
    · have hfl := f3 p.id
      simp only [Nat.zero_add] at hfl
      have hg : bs.getD p.id [] = bs[p.id] := by simp [List.getD, hid]
      rw [hfl, hg, List.forall₂_map_right_iff, List.forall₂_same]
      exact fun x _ => close_dec x

/-- **C215 (a missing file of flows goes unnoticed, refuted).**  Without the file of flows, loading a table "with flows" ends as
loading it without them does, and no path has flows; no error is raised for the missing file. -/
theorem C215_false_missing_file (fuel : ℕ) (g : G) (num : ℤ) (file : Option Str) :
    loadFlows fuel g num file none = (loadPathTable fuel g num file).bind fun t => .ok (t.map fun t => (t, fun _ => [])) := by
  unfold loadFlows loadPathTable
  split
  · rfl
  · cases file with
    | none => rfl
    | some c =>
      simp only
      rw [readLoop_dead]
      cases readLoop (pathRow fuel g) fuel num.toNat (In.open c) ⟨fun _ _ => none, 0, none⟩ <;> rfl

/-- **C215 (comments and blank lines in the file of flows are not skipped, refuted).**  In the file of paths they are.  In the
file of flows a blank line is the flows of a path, which then has none; a comment is an error. -/
theorem C215_false_comments :
    ((loadFlows 20 (run empty ptOps) 1 (some "\n# a\n1 2 3\n".toList) (some "\n0.5\n".toList)).bind fun r =>
      .ok (r.map fun r => (r.1 1 3, r.2 0))) = .ok (some (some [⟨0, [1, 2, 3], [10, 11]⟩], [])) ∧
    ((loadFlows 20 (run empty ptOps) 1 (some "\n# a\n1 2 3\n".toList) (some "# a\n0.5\n".toList)).bind fun r =>
      .ok (r.map fun r => (r.1 1 3, r.2 0))) = .throw "invalid_argument" ∧
    ((loadFlows 20 (run empty ptOps) 1 (some "\n# a\n1 2 3\n".toList) (some "0.5\n".toList)).bind fun r =>
      .ok (r.map fun r => (r.1 1 3, r.2 0))) = .ok (some (some [⟨0, [1, 2, 3], [10, 11]⟩], [1 / 2])) :=
  ⟨by decide +kernel, by decide +kernel, by decide +kernel⟩

/-! The hypotheses of `C215_flow_round_trip` are met by the table of C56, with two flows, none and one. -/

example : (∀ o ∈ ptTable, ∀ d ∈ o.2, ∀ p ∈ d.2, PathOk (run empty ptOps) o.1 d.1 p) ∧ ptTable.paths ≠ [] ∧
    ([[1 / 2, 1 / 3], [], [7]] : List (List ℚ)).length = ptTable.paths.length :=
  ⟨ptOk, by decide, rfl⟩

example : saveBuffers [[1 / 2, 1 / 3], [], [7]] = "0.500000 0.333333\n\n7.000000\n".toList := by decide +kernel

end Verif
