import Verif.Lemmas.EvRecords
import Verif.Lemmas.PlaceFiles
import Verif.Spec.CurveDump

/-!
# C223: the file of cumulative curves
-/

namespace Verif
open Text Io Rd FlowF CvD

private theorem arrange_keeps {c : Curve.Curve} {xs : List (ℤ × ℚ)} (h : Keeps c xs) :
    Curve.arrange c = xs.map fun x => ((x.1 : ℚ), x.2) := by
  obtain ⟨_, hs, hp⟩ := h
  have hlt : (xs.map fun x => ((x.1 : ℚ), x.2)).Pairwise fun a b => a.1 < b.1 := by
    rw [List.pairwise_map] at hs ⊢
    exact hs.imp fun h => Int.cast_lt.2 h
  unfold Curve.arrange
  refine List.Perm.eq_of_pairwise (le := fun a b : ℚ × ℚ => a.1 ≤ b.1) ?_ ?_ (hlt.imp le_of_lt)
    ((List.mergeSort_perm _ _).trans hp)
  · intro a b ha hb' h1 h2
    have ha' := ((List.mergeSort_perm _ _).trans hp).mem_iff.1 ha
    have hnd : ((xs.map fun x => ((x.1 : ℚ), x.2)).map (·.1)).Nodup := List.Pairwise.map _ (fun _ _ h => ne_of_lt h) hlt
    exact List.inj_on_of_nodup_map hnd ha' hb' (le_antisymm h1 h2)
  · have := List.pairwise_mergeSort (le := fun a b : ℚ × ℚ => decide (a.1 ≤ b.1))
      (fun a b c h1 h2 => by simp only [decide_eq_true_eq] at *; exact le_trans h1 h2)
      (fun a b => by simp only [Bool.or_eq_true, decide_eq_true_eq]; exact le_total _ _) c
    exact this.imp fun h => by simpa using h

private theorem cut_int (n : ℤ) : EvRec.cut (n : ℚ) = n := by
  unfold EvRec.cut
  split <;> simp

private theorem drop_newline (ls : List Str) (h : ls ≠ []) :
    (ls.flatMap fun l => l ++ ['\n']).dropLast ++ ['\n'] = ls.flatMap fun l => l ++ ['\n'] := by
  rcases List.eq_nil_or_concat ls with rfl | ⟨init, last, rfl⟩
  · exact absurd rfl h
  · rw [List.concat_eq_append, List.flatMap_append]
    simp only [List.flatMap_cons, List.flatMap_nil, List.append_nil]
    rw [← List.append_assoc, List.dropLast_concat]

private theorem curve_text {c : Curve.Curve} {xs : List (ℤ × ℚ)} (h : Keeps c xs) :
    ∃ s, EvRec.curveText c = .ok s ∧ s ++ ['\n'] = (xs.map recLine).flatMap fun l => l ++ ['\n'] := by
  have hflat : (((xs.map fun x => ((x.1 : ℚ), x.2))).flatMap fun r => toStr (EvRec.cut r.1) ++ ',' :: (dec r.2 ++ ['\n'])) =
      (xs.map recLine).flatMap fun l => l ++ ['\n'] := by
    rw [List.flatMap_map, List.flatMap_map]
    apply List.flatMap_congr
    intro x _
    simp [recLine, cut_int]
  have hne : ((xs.map recLine).flatMap fun l => l ++ ['\n']) ≠ [] := by
    obtain ⟨x, xs', rfl⟩ := List.exists_cons_of_ne_nil h.1
    simp
  obtain ⟨a, s, has⟩ := List.exists_cons_of_ne_nil hne
  refine ⟨(a :: s).dropLast, ?_, ?_⟩
  · unfold EvRec.curveText
    rw [arrange_keeps h, hflat, has]
  · rw [← has]
    exact drop_newline _ (by simpa using h.1)

private theorem one_curve {id : ℤ} {word : String} {w : Str} (hw : w = word.toList) {c : Option Curve.Curve} {xs : List (ℤ × ℚ)}
    (h : KeepsOpt c xs) : oneCurve id w c = .ok ((curveLines id word xs).flatMap fun l => l ++ ['\n']) := by
  cases c with
  | none =>
    have h' : xs = [] := h
    subst h'
    rfl
  | some c =>
    obtain ⟨s, e1, e2⟩ := curve_text h
    obtain ⟨x, xs', rfl⟩ := List.exists_cons_of_ne_nil h.1
    unfold oneCurve
    simp only
    rw [e1, Res.bind_ok', e2, hw]
    simp [curveLines]

private theorem lines_text (ls : List Str) (h : ∀ l ∈ ls, '\n' ∉ l) : linesOf (ls.flatMap fun l => l ++ ['\n']) = ls ++ [[]] := by
  induction ls with
  | nil => rfl
  | cons l ls ih =>
    have e : ((l :: ls).flatMap fun l => l ++ ['\n']) = l ++ '\n' :: (ls.flatMap fun l => l ++ ['\n']) := by simp
    rw [e, PlF.linesOf_cat (h l (by simp)), ih fun m hm => h m (by simp [hm])]
    rfl

private theorem word_line {w : Str} (h : WordOk w) : '\n' ∉ w := fun hm => by
  have := h.2 _ hm
  revert this
  decide

private theorem rec_line (x : ℤ × ℚ) : '\n' ∉ recLine x := by
  unfold recLine
  simp [word_line (toStr_word x.1).1, word_line (dec_word x.2).1]

private theorem curve_line {id : ℤ} {word : String} (hw : '\n' ∉ word.toList) (xs : List (ℤ × ℚ)) :
    ∀ l ∈ curveLines id word xs, '\n' ∉ l := by
  cases xs with
  | nil => intro l hl; cases hl
  | cons x xs =>
    intro l hl
    rcases List.mem_cons.1 hl with rfl | hl
    · intro hm
      simp only [List.mem_append, List.mem_cons] at hm
      rcases hm with hm | hm | hm | hm | hm
      · exact word_line (toStr_word id).1 hm
      · revert hm; decide
      · exact hw hm
      · revert hm; decide
      · exact rec_line x hm
    · obtain ⟨y, _, rfl⟩ := List.mem_map.1 hl
      exact rec_line y

/-- **C223.**  Take any links, each with a curve of arrivals, a curve of departures, both or none; every curve has at least one record,
whole times, each once, and keeps the records in any order.  Writing the file succeeds, and its lines are those of the links in
turn: for every curve one line for each record, ascending in time; the first line of a curve names the link and the kind of curve.  The
last line ends with a newline. -/
theorem C223_dump (links : List Lk) (recs : List Recs)
    (h : List.Forall₂ (fun l r => KeepsOpt l.ins r.ins ∧ KeepsOpt l.outs r.outs) links recs) :
    ∃ text, dump links = .ok text ∧ linesOf text = (List.zipWith linkLines links recs).flatten ++ [[]] := by
  have key : ∀ (acc : Str), Res.foldlM (fun acc l => (oneCurve l.id ['i', 'n'] l.ins).bind fun a =>
      (oneCurve l.id ['o', 'u', 't'] l.outs).bind fun b => .ok (acc ++ a ++ b)) acc links =
        .ok (acc ++ (List.zipWith linkLines links recs).flatten.flatMap fun l => l ++ ['\n']) := by
    induction h with
    | nil => intro acc; simp
    | @cons l r links recs h _ ih =>
      intro acc
      rw [Res.foldlM_cons, one_curve (word := "in") (by decide) h.1, Res.bind_ok', one_curve (word := "out") (by decide) h.2, Res.bind_ok', Res.ok_bind, ih]
      simp [linkLines, List.flatMap_append, List.append_assoc]
  refine ⟨_, by unfold dump; rw [key []], ?_⟩
  rw [List.nil_append]
  apply lines_text
  clear key
  induction h with
  | nil => intro s hs; cases hs
  | @cons l r links recs h _ ih =>
    intro s hs
    obtain ⟨ls, hls, hs⟩ := List.mem_flatten.1 hs
    rcases List.mem_cons.1 hls with rfl | hls
    · rcases List.mem_append.1 hs with hs | hs
      · exact curve_line (by decide) _ s hs
      · exact curve_line (by decide) _ s hs
    · exact ih s (List.mem_flatten.2 ⟨ls, hls, hs⟩)

/-! The hypotheses are met: one link with both curves, one kept out of order, and one link without curves. -/

private def demo : List Lk := [⟨7, some [(2, 3 / 2), (0, 0)], some [(0, 0)]⟩, ⟨8, none, none⟩]

private def demoRecs : List Recs := [⟨[(0, 0), (2, 3 / 2)], [(0, 0)]⟩, ⟨[], []⟩]

example : List.Forall₂ (fun (l : Lk) (r : Recs) => KeepsOpt l.ins r.ins ∧ KeepsOpt l.outs r.outs) demo demoRecs := by
  refine .cons ⟨⟨by decide, by decide, ?_⟩, ⟨by decide, by decide, ?_⟩⟩ (.cons ⟨rfl, rfl⟩ .nil)
  · simpa using List.Perm.swap _ _ _
  · simp

example : (List.zipWith linkLines demo demoRecs).flatten =
    ["7,in,0,0.000000".toList, "2,1.500000".toList, "7,out,0,0.000000".toList] := by decide +kernel

end Verif
