import Verif.Lemmas.FlowFiles
import Verif.Spec.CostFiles

/-!
# C219: the files of travel times and disutilities of paths
-/

namespace Verif
open Text Io Rd FlowF CostF

private theorem vec_eq {v : List ℚ} (h : v ≠ []) : vecText v = .ok (lineOf (v.map dec) ++ ['\n']) := by
  unfold vecText
  simp only
  rw [flat_dec v h, if_neg (by simp), List.dropLast_concat]

private theorem dec_row {v : List ℚ} (h : v ≠ []) : RowOk (v.map dec) := by
  obtain ⟨x, r, rfl⟩ := List.exists_cons_of_ne_nil h
  refine ⟨fun w hw => ?_, dec x, r.map dec, rfl, (dec_word x).2⟩
  obtain ⟨y, _, rfl⟩ := List.mem_map.1 hw
  exact (dec_word y).1

private theorem int_row {v : List ℤ} (h : v ≠ []) : RowOk (v.map toStr) := by
  obtain ⟨x, r, rfl⟩ := List.exists_cons_of_ne_nil h
  refine ⟨fun w hw => ?_, toStr x, r.map toStr, rfl, (toStr_word x).2⟩
  obtain ⟨y, _, rfl⟩ := List.mem_map.1 hw
  exact (toStr_word y).1

private theorem in_line {v : List ℚ} (h : v ≠ []) : InLine v (lineOf (v.map dec)) := by
  refine ⟨v.map decVal, ?_, ?_⟩
  · rw [split_line (dec_row h), stods_dec]
  · rw [List.forall₂_map_right_iff, List.forall₂_same]
    exact fun x _ => close_dec x

private theorem costs_eq : ∀ (ps : List CostRec) (f : Files), (∀ p ∈ ps, p.nodes ≠ [] ∧ p.times ≠ [] ∧ p.dis ≠ []) →
    Res.foldlM costRow f ps = .ok ⟨f.table ++ textOf (ps.map fun p => p.nodes.map toStr),
      f.times ++ textOf (ps.map fun p => p.times.map dec), f.dis ++ textOf (ps.map fun p => p.dis.map dec)⟩ := by
  intro ps
  induction ps with
  | nil => intro f _; simp [textOf]
  | cons p ps ih =>
    intro f h
    obtain ⟨h1, h2, h3⟩ := h p (by simp)
    have e : costRow f p = .ok ⟨f.table ++ (lineOf (p.nodes.map toStr) ++ ['\n']), f.times ++ (lineOf (p.times.map dec) ++ ['\n']),
        f.dis ++ (lineOf (p.dis.map dec) ++ ['\n'])⟩ := by
      unfold costRow
      rw [nodeVecToString_eq h1, Res.bind_ok', vec_eq h2, Res.bind_ok', vec_eq h3, Res.bind_ok']
    rw [Res.foldlM_cons, e, Res.ok_bind, ih _ fun q hq => h q (by simp [hq])]
    simp [textOf]

/-- **C219 (the costs of paths are saved beside the table).**  If every path has at least one node, one travel time and one
disutility, saving ends without an error.  The three files have one line for each path, in the same order; its words are the
nodes, the travel times and the disutilities of that path, the latter two up to half a millionth. -/
theorem C219_cost_files_partial (ps : List CostRec) (h : ∀ p ∈ ps, p.nodes ≠ [] ∧ p.times ≠ [] ∧ p.dis ≠ [])
    (hi : ∀ p ∈ ps, ∀ n ∈ p.nodes, IntOk n) :
    ∃ f ns ts ds, saveCosts ps = .ok f ∧ linesOf f.table = ns ++ [[]] ∧ linesOf f.times = ts ++ [[]] ∧ linesOf f.dis = ds ++ [[]] ∧
      List.Forall₂ (fun p l => NodesInLine p.nodes l) ps ns ∧ List.Forall₂ (fun p l => InLine p.times l) ps ts ∧
      List.Forall₂ (fun p l => InLine p.dis l) ps ds := by
  have hrow : ∀ (g : CostRec → List Str), (∀ p ∈ ps, RowOk (g p)) → linesOf (textOf (ps.map g)) = (ps.map g).map lineOf ++ [[]] := by
    intro g hg
    apply linesOf_text
    intro ws hws
    obtain ⟨p, hp, rfl⟩ := List.mem_map.1 hws
    exact hg p hp
  refine ⟨_, _, _, _, costs_eq ps _ h, hrow _ fun p hp => int_row (h p hp).1, hrow _ fun p hp => dec_row (h p hp).2.1,
    hrow _ fun p hp => dec_row (h p hp).2.2, ?_, ?_, ?_⟩
  · rw [List.map_map, List.forall₂_map_right_iff, List.forall₂_same]
    intro p hp
    show NodesInLine p.nodes (lineOf (p.nodes.map toStr))
    unfold NodesInLine
    rw [split_line (int_row (h p hp).1), List.forall₂_map_left_iff, List.forall₂_same]
    exact fun n hn => stoi_toStr n (hi p hp n hn)
  · rw [List.map_map, List.forall₂_map_right_iff, List.forall₂_same]
    exact fun p hp => in_line (h p hp).2.1
  · rw [List.map_map, List.forall₂_map_right_iff, List.forall₂_same]
    exact fun p hp => in_line (h p hp).2.2

/-- **C219 (paths without costs, refuted).**  If all paths have nodes but the travel times or the disutilities of one were never
computed, saving the costs is undefined: it takes a character from an empty text. -/
theorem C219_false_no_costs (ps : List CostRec) (h : ∀ p ∈ ps, p.nodes ≠ []) (he : ∃ p ∈ ps, p.times = [] ∨ p.dis = []) :
    saveCosts ps = .ub := by
  have key : ∀ (ps : List CostRec) (f : Files), (∀ p ∈ ps, p.nodes ≠ []) → (∃ p ∈ ps, p.times = [] ∨ p.dis = []) →
      Res.foldlM costRow f ps = .ub := by
    intro ps
    induction ps with
    | nil => rintro f _ ⟨p, hp, _⟩; simp at hp
    | cons p ps ih =>
      intro f h he
      rw [Res.foldlM_cons]
      by_cases ht : p.times = []
      · have e : costRow f p = .ub := by
          unfold costRow
          rw [nodeVecToString_eq (h p (by simp)), Res.bind_ok', ht]
          rfl
        rw [e]; rfl
      · by_cases hd : p.dis = []
        · have e : costRow f p = .ub := by
            unfold costRow
            rw [nodeVecToString_eq (h p (by simp)), Res.bind_ok', vec_eq ht, Res.bind_ok', hd]
            rfl
          rw [e]; rfl
        · have e := costs_eq [p] f (by simpa using ⟨h p (by simp), ht, hd⟩)
          rw [Res.foldlM_cons] at e
          cases hc : costRow f p with
          | ok f' =>
            rw [Res.ok_bind]
            apply ih f' (fun q hq => h q (by simp [hq]))
            obtain ⟨q, hq, hq'⟩ := he
            rcases List.mem_cons.1 hq with rfl | hq
            · rcases hq' with h | h
              · exact absurd h ht
              · exact absurd h hd
            · exact ⟨q, hq, hq'⟩
          | throw m => rw [hc] at e; simp at e
          | ub => rfl
          | diverge => rw [hc] at e; simp at e
  exact key ps _ h he

/-! The hypotheses are met, and the texts are as expected. -/

private def twoPaths : List CostRec := [⟨[1, 2], [3, 1 / 3], [5 / 2]⟩, ⟨[1, 3, 2], [7], [-1]⟩]

example : (∀ p ∈ twoPaths, p.nodes ≠ [] ∧ p.times ≠ [] ∧ p.dis ≠ []) ∧ ∀ p ∈ twoPaths, ∀ n ∈ p.nodes, IntOk n := by
  unfold IntOk
  decide +kernel

example : (saveCosts twoPaths).bind (fun f => .ok (f.table, f.times, f.dis)) = .ok ("1 2\n1 3 2\n".toList,
    "3.000000 0.333333\n7.000000\n".toList, "2.500000\n-1.000000\n".toList) := by decide +kernel

example : (saveCosts [⟨[1, 2], [3], []⟩]).bind (fun f => .ok f.table) = .ub := by decide +kernel

end Verif
