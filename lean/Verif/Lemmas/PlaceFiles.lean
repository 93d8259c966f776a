import Verif.Lemmas.Readers
import Verif.Lemmas.Ults
import Verif.Lemmas.MmPaths
import Verif.Spec.PlaceFiles

/-!
# Files of origins and destinations
-/

namespace Verif.PlF
open Text Io Rd

theorem countLoop_rows {σ : Type} {body : σ → Str → Res σ} : ∀ (ls rest : List Str) (i : In) (s s' : σ), Has i (ls ++ rest) →
    Res.foldlM body s ls = .ok s' → ∃ i', countLoop body ls.length i s = .ok (s', i') ∧ Has i' rest := by
  intro ls
  induction ls with
  | nil =>
    intro rest i s s' h e
    simp only [Res.foldlM_nil, Res.ok.injEq] at e
    subst e
    exact ⟨i, rfl, h⟩
  | cons l ls ih =>
    intro rest i s s' h e
    obtain ⟨h1, h2⟩ := getline_spec h (getline i).line
    rw [Res.foldlM_cons] at e
    obtain ⟨t, e1, e2⟩ := Res.bind_eq_ok.1 e
    obtain ⟨i', e3, e4⟩ := ih rest (getline i) t s' h2 e2
    refine ⟨i', ?_, e4⟩
    rw [List.length_cons, countLoop, h1, e1, Res.bind_ok', e3]

theorem words_ok {ev : Bool} {q : Str → ℚ} {unit : ℤ} {kind : ℤ → Option NodeKind} {r : OriginLine} (h : r.Ok ev q unit kind) :
    RowOk r.words := by
  refine rowOk_cons ?_
  intro w hw
  rcases List.mem_cons.1 hw with rfl | hw
  · exact (toStr_word _).1
  · rcases hm : r.more with _ | ⟨a, _ | b⟩ <;> rw [hm] at hw
    · simp at hw
    · simp only [List.mem_singleton] at hw
      subst hw
      exact (h.wait _ _ hm).1
    · simp only [List.mem_cons, List.not_mem_nil, or_false] at hw
      rcases hw with rfl | rfl
      · exact (h.wait _ _ hm).1
      · exact (h.ratio _ _ hm).2.1

theorem wait_range {ev : Bool} {q : Str → ℚ} {unit : ℤ} {kind : ℤ → Option NodeKind} {r : OriginLine} (h : r.Ok ev q unit kind) :
    0 ≤ r.wait q ∧ r.wait q / unit < 2147483647 := by
  unfold OriginLine.wait
  rcases hm : r.more with _ | ⟨a, b⟩
  · simp
  · exact (h.wait _ _ hm).2.2

theorem round_near {x u : ℚ} (h0 : 0 ≤ x) (h1 : x < 2147483647) (hu : 0 ≤ u) :
    ∃ n : ℤ, Ults.round x u = .ok n ∧ x - 1 < n ∧ (n : ℚ) < x + 1 := by
  refine ⟨_, Ults.round_nonneg_ok h0 h1, ?_⟩
  rw [Ults.roundVal_nonneg h0]
  have a := Int.floor_le x
  have b := Int.lt_floor_add_one x
  split
  · rename_i h
    have : x - ⌊x⌋ > u := h
    push_cast
    constructor <;> linarith
  · constructor <;> linarith

theorem originRow_eq {ev : Bool} {q : Str → ℚ} {unit : ℤ} (hu : 0 < unit) (u : ℕ → ℚ) (hu0 : ∀ k, 0 ≤ u k)
    {kind : ℤ → Option NodeKind} {r : OriginLine} (h : r.Ok ev q unit kind) (s : St) :
    ∃ n : ℤ, originRow ev unit u kind s (lineOf r.words) = St.add .origin kind { s with draws := s.draws + 1 } r.id ⟨r.node, n, r.ratio q⟩ ∧
      r.wait q / unit - 1 < n ∧ (n : ℚ) < r.wait q / unit + 1 := by
  have hu' : (0 : ℚ) < unit := by exact_mod_cast hu
  obtain ⟨n, e, b⟩ := round_near (div_nonneg (wait_range h).1 hu'.le) (wait_range h).2 (hu0 s.draws)
  refine ⟨n, ?_, b⟩
  have key : makeOrigin unit u kind s r.id r.node (r.wait q) (r.ratio q) =
      St.add .origin kind { s with draws := s.draws + 1 } r.id ⟨r.node, n, r.ratio q⟩ := by
    unfold makeOrigin
    rw [if_neg (by omega), e, Res.bind_ok']
  rw [← key]
  unfold originRow
  rw [split_line (words_ok h)]
  unfold OriginLine.words OriginLine.wait OriginLine.ratio
  rcases hm : r.more with _ | ⟨a, _ | c⟩
  · simp only
    rw [stoi_toStr _ h.range.1, Res.bind_ok', stoi_toStr _ h.range.2, Res.bind_ok']
  · simp only
    rw [stoi_toStr _ h.range.1, Res.bind_ok', stoi_toStr _ h.range.2, Res.bind_ok', (h.wait _ _ hm).2.1, Res.bind_ok']
  · simp only
    rw [(h.ratio _ _ hm).1, if_pos rfl, stoi_toStr _ h.range.1, Res.bind_ok', stoi_toStr _ h.range.2, Res.bind_ok',
      (h.wait _ _ hm).2.1, Res.bind_ok', (h.ratio _ _ hm).2.2, Res.bind_ok']

theorem add_eq {want : NodeKind} {kind : ℤ → Option NodeKind} {s : St} {id : ℤ} {o : Org} (hk : kind o.node = some want)
    (hnew : s.org id = none) : St.add want kind s id o = .ok ⟨upd s.org id (some o), upd s.at' o.node (some (some id)), s.draws⟩ := by
  unfold St.add
  rw [hk]
  simp [hnew]

theorem origins_fold {ev : Bool} {q : Str → ℚ} {unit : ℤ} (hu : 0 < unit) (u : ℕ → ℚ) (hu0 : ∀ k, 0 ≤ u k)
    {kind : ℤ → Option NodeKind} : ∀ (rows : List OriginLine) (s : St), (∀ r ∈ rows, r.Ok ev q unit kind) →
    (rows.map (·.id)).Nodup → (rows.map (·.node)).Nodup → (∀ r ∈ rows, s.org r.id = none) →
    ∃ s', Res.foldlM (originRow ev unit u kind) s (rows.map fun r => lineOf r.words) = .ok s' ∧
      (∀ r ∈ rows, s'.at' r.node = some (some r.id) ∧ ∃ n : ℤ, s'.org r.id = some ⟨r.node, n, r.ratio q⟩ ∧
        r.wait q / unit - 1 < n ∧ (n : ℚ) < r.wait q / unit + 1) ∧
      (∀ k, (∀ r ∈ rows, r.id ≠ k) → s'.org k = s.org k) ∧ ∀ k, (∀ r ∈ rows, r.node ≠ k) → s'.at' k = s.at' k := by
  intro rows
  induction rows with
  | nil => intro s _ _ _ _; exact ⟨s, rfl, by simp, by simp, by simp⟩
  | cons r rows ih =>
    intro s hok h1 h2 hnew
    rw [List.map_cons, List.nodup_cons] at h1 h2
    obtain ⟨n, e, b⟩ := originRow_eq hu u hu0 (hok r (by simp)) s
    rw [add_eq (s := { s with draws := s.draws + 1 }) (o := ⟨r.node, n, r.ratio q⟩) (hok r (by simp)).node (hnew r (by simp))] at e
    have ne1 : ∀ x ∈ rows, x.id ≠ r.id := fun x hx e => h1.1 (e ▸ List.mem_map.2 ⟨x, hx, rfl⟩)
    have ne2 : ∀ x ∈ rows, x.node ≠ r.node := fun x hx e => h2.1 (e ▸ List.mem_map.2 ⟨x, hx, rfl⟩)
    obtain ⟨s', f1, f2, f3, f4⟩ := ih ⟨upd s.org r.id (some ⟨r.node, n, r.ratio q⟩), upd s.at' r.node (some (some r.id)), s.draws + 1⟩
      (fun x hx => hok x (by simp [hx])) h1.2 h2.2 (fun x hx => by
        show upd s.org r.id _ x.id = none
        rw [upd_other _ _ _ _ (ne1 x hx)]
        exact hnew x (by simp [hx]))
    refine ⟨s', ?_, ?_, ?_, ?_⟩
    · rw [List.map_cons, Res.foldlM_cons, e, Res.ok_bind]
      exact f1
    · intro x hx
      rcases List.mem_cons.1 hx with rfl | hx
      · refine ⟨?_, n, ?_, b⟩
        · rw [f4 _ ne2]; exact upd_same _ _ _
        · rw [f3 _ ne1]; exact upd_same _ _ _
      · exact f2 x hx
    · intro k hk
      rw [f3 k fun x hx => hk x (by simp [hx])]
      exact upd_other _ _ _ _ (Ne.symm (hk r (by simp)))
    · intro k hk
      rw [f4 k fun x hx => hk x (by simp [hx])]
      exact upd_other _ _ _ _ (Ne.symm (hk r (by simp)))

theorem destRow_eq {kind : ℤ → Option NodeKind} {d : ℤ × ℤ} (h1 : IntOk d.1) (h2 : IntOk d.2) (s : St) :
    destRow kind s (lineOf [toStr d.1, toStr d.2]) = St.add .dest kind s d.1 ⟨d.2, 0, 0⟩ := by
  unfold destRow
  rw [split_line (ws := [toStr d.1, toStr d.2]) (MmPt.rowOk_ints d.1 [d.2])]
  simp only
  rw [stoi_toStr _ h1, Res.bind_ok', stoi_toStr _ h2, Res.bind_ok']

theorem dests_fold {kind : ℤ → Option NodeKind} : ∀ (rows : List (ℤ × ℤ)) (s : St),
    (∀ r ∈ rows, IntOk r.1 ∧ IntOk r.2 ∧ kind r.2 = some .dest) →
    (rows.map (·.1)).Nodup → (rows.map (·.2)).Nodup → (∀ r ∈ rows, s.org r.1 = none) →
    ∃ s', Res.foldlM (destRow kind) s (rows.map fun d => lineOf [toStr d.1, toStr d.2]) = .ok s' ∧
      (∀ r ∈ rows, s'.at' r.2 = some (some r.1) ∧ s'.org r.1 = some ⟨r.2, 0, 0⟩) ∧
      (∀ k, (∀ r ∈ rows, r.1 ≠ k) → s'.org k = s.org k) ∧ ∀ k, (∀ r ∈ rows, r.2 ≠ k) → s'.at' k = s.at' k := by
  intro rows
  induction rows with
  | nil => intro s _ _ _ _; exact ⟨s, rfl, by simp, by simp, by simp⟩
  | cons r rows ih =>
    intro s hok h1 h2 hnew
    rw [List.map_cons, List.nodup_cons] at h1 h2
    obtain ⟨a, b, c⟩ := hok r (by simp)
    have e := destRow_eq (kind := kind) a b s
    rw [add_eq (s := s) (o := ⟨r.2, 0, 0⟩) c (hnew r (by simp))] at e
    have ne1 : ∀ x ∈ rows, x.1 ≠ r.1 := fun x hx e => h1.1 (e ▸ List.mem_map.2 ⟨x, hx, rfl⟩)
    have ne2 : ∀ x ∈ rows, x.2 ≠ r.2 := fun x hx e => h2.1 (e ▸ List.mem_map.2 ⟨x, hx, rfl⟩)
    obtain ⟨s', f1, f2, f3, f4⟩ := ih ⟨upd s.org r.1 (some ⟨r.2, 0, 0⟩), upd s.at' r.2 (some (some r.1)), s.draws⟩
      (fun x hx => hok x (by simp [hx])) h1.2 h2.2 (fun x hx => by
        show upd s.org r.1 _ x.1 = none
        rw [upd_other _ _ _ _ (ne1 x hx)]
        exact hnew x (by simp [hx]))
    refine ⟨s', ?_, ?_, ?_, ?_⟩
    · rw [List.map_cons, Res.foldlM_cons, e, Res.ok_bind]
      exact f1
    · intro x hx
      rcases List.mem_cons.1 hx with rfl | hx
      · refine ⟨?_, ?_⟩
        · rw [f4 _ ne2]; exact upd_same _ _ _
        · rw [f3 _ ne1]; exact upd_same _ _ _
      · exact f2 x hx
    · intro k hk
      rw [f3 k fun x hx => hk x (by simp [hx])]
      exact upd_other _ _ _ _ (Ne.symm (hk r (by simp)))
    · intro k hk
      rw [f4 k fun x hx => hk x (by simp [hx])]
      exact upd_other _ _ _ _ (Ne.symm (hk r (by simp)))

theorem linesOf_cat {h : Str} (hh : '\n' ∉ h) (t : Str) : linesOf (h ++ '\n' :: t) = h :: linesOf t := by
  unfold linesOf
  rw [List.splitOn_append_cons_self_of_not_mem hh]

theorem linesOf_rows : ∀ (rows : List (List Str)) (t : Str), (∀ ws ∈ rows, RowOk ws) →
    linesOf (textOf rows ++ t) = rows.map lineOf ++ linesOf t := by
  intro rows
  induction rows with
  | nil => intro t _; rfl
  | cons ws rows ih =>
    intro t h
    have e : textOf (ws :: rows) ++ t = lineOf ws ++ '\n' :: (textOf rows ++ t) := by simp [textOf]
    rw [e, linesOf_cat (line_no_newline (h ws (by simp)).1), ih t fun x hx => h x (by simp [hx])]
    rfl

end Verif.PlF
