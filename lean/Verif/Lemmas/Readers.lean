import Verif.Spec.Readers
import Verif.Lemmas.IoRows
import Verif.Lemmas.BusPath
import Mathlib.Data.List.Induction

namespace Verif.Rd
open Text Io

variable {σ : Type}

/-! ## Loops over lines -/

theorem countLoop_eq {body : σ → Str → Res σ} : ∀ (n : ℕ) (ps : List Str) (i : In) (s : σ), Has i ps →
    (countLoop body n i s).bind (fun r => .ok r.1) =
      Res.foldlM body s ((List.range n).map fun k => ps.getD k ((i.line :: ps).getLast (by simp)))
  | 0, ps, i, s, _ => by simp [countLoop, Res.bind_ok']
  | n + 1, [], i, s, h => by
    have e := getline_done h
    rw [countLoop, e, List.range_succ_eq_map, List.map_cons, Res.foldlM_cons]
    simp only [List.getD_nil, List.getLast_singleton, List.map_map]
    cases hb : body s i.line with
    | ok s' =>
      rw [Res.bind_ok', Res.ok_bind]
      have := countLoop_eq (body := body) n [] i s' h
      rw [this]
      congr 1
    | throw m => rfl
    | ub => rfl
    | diverge => rfl
  | n + 1, p :: ps, i, s, h => by
    obtain ⟨h1, h2⟩ := getline_spec h (getline i).line
    rw [countLoop, h1, List.range_succ_eq_map, List.map_cons, Res.foldlM_cons]
    simp only [List.getD_cons_zero, List.map_map]
    cases hb : body s p with
    | ok s' =>
      rw [Res.bind_ok', Res.ok_bind]
      have := countLoop_eq (body := body) n ps (getline i) s' h2
      rw [this, h1]
      congr 1
    | throw m => rfl
    | ub => rfl
    | diverge => rfl

/-- After the first line, the lines from number 1 on. -/
theorem countLoop_file {body : σ → Str → Res σ} (n : ℕ) (content : Str) (s : σ) :
    (countLoop body n (getline (In.open content)) s).bind (fun r => .ok r.1) =
      Res.foldlM body s ((List.range n).map fun k => lineAt content (k + 1)) := by
  obtain ⟨p, ps, hp⟩ : ∃ p ps, linesOf content = p :: ps :=
    List.exists_cons_of_ne_nil (List.splitOn_ne_nil '\n' content)
  have h := has_open content
  rw [hp] at h
  obtain ⟨h1, h2⟩ := getline_spec h (getline (In.open content)).line
  rw [countLoop_eq n ps _ s h2]
  congr 1
  apply List.map_congr_left
  intro k _
  unfold lineAt
  rw [hp, List.getD_cons_succ]
  have h1' : (getline (In.open content)).line = p := h1
  simp only [h1']
  cases ps <;> simp [List.getLastD]

theorem trimLast_cons (p : Str) (ps : List Str) (h : ps ≠ []) :
    (if (p :: ps).getLast? = some [] then (p :: ps).dropLast else p :: ps) =
      p :: (if ps.getLast? = some [] then ps.dropLast else ps) := by
  rw [List.getLast?_cons_of_ne_nil h, List.dropLast_cons_of_ne_nil h]
  split <;> rfl

theorem whileLoop_eq {body : σ → Str → Res σ} : ∀ (fuel : ℕ) (ps : List Str) (i : In) (s : σ), Has i ps →
    ps.length < fuel →
    whileLoop body fuel i s = Res.foldlM body s (if ps.getLast? = some [] then ps.dropLast else ps)
  | 0, ps, _, _, _, hf => by omega
  | fuel + 1, [], i, s, h, _ => by
    have hg : i.good = false := by
      rcases h with ⟨_, h⟩ | ⟨_, h⟩
      · exact h
      · exact absurd h (List.splitOn_ne_nil _ _)
    simp [whileLoop, getlineOk, hg]
  | fuel + 1, p :: ps, i, s, h, hf => by
    obtain ⟨h1, h2⟩ := getline_spec h (getline i).line
    have hg : i.good = true := by
      rcases h with ⟨h, _⟩ | ⟨h, _⟩
      · cases h
      · exact h
    have hl : linesOf i.rest = p :: ps := by
      rcases h with ⟨h, _⟩ | ⟨_, h⟩
      · cases h
      · exact h
    rw [whileLoop]
    by_cases hr : i.rest = []
    · rw [hr] at hl
      have : linesOf [] = [[]] := by decide
      rw [this] at hl
      simp only [List.cons.injEq] at hl
      obtain ⟨rfl, rfl⟩ := hl
      simp [getlineOk, hr]
    · have hok : getlineOk i = true := by
        unfold getlineOk
        rw [hg]
        cases h : i.rest with
        | nil => exact absurd h hr
        | cons a r => rfl
      have e : (if (p :: ps).getLast? = some [] then (p :: ps).dropLast else p :: ps) =
          p :: (if ps.getLast? = some [] then ps.dropLast else ps) := by
        by_cases hp : ps = []
        · subst hp
          have hne : p ≠ [] := by
            rintro rfl
            have : ([[]] : List Str) = linesOf [] := by decide
            rw [this] at hl
            have := congrArg (List.intercalate ['\n']) hl
            unfold linesOf at this
            rw [List.intercalate_splitOn, List.intercalate_splitOn] at this
            exact hr this
          simp [hne]
        · exact trimLast_cons p ps hp
      rw [if_pos hok, e, Res.foldlM_cons, h1]
      cases hb : body s p with
      | ok s' =>
        rw [Res.bind_ok', Res.ok_bind]
        exact whileLoop_eq fuel ps _ s' h2 (by simp at hf; omega)
      | throw m => rfl
      | ub => rfl
      | diverge => rfl

/-- A table is read line by line, without its first line. -/
theorem readAll_file {body : σ → Str → Res σ} (fuel : ℕ) (content : Str) (s : σ)
    (hf : (linesOf content).length ≤ fuel) :
    readAll body fuel s (some content) = Res.foldlM body s (fileLines content).tail := by
  obtain ⟨p, ps, hp⟩ : ∃ p ps, linesOf content = p :: ps :=
    List.exists_cons_of_ne_nil (List.splitOn_ne_nil '\n' content)
  have h := has_open content
  rw [hp] at h
  obtain ⟨h1, h2⟩ := getline_spec h (getline (In.open content)).line
  show whileLoop body fuel _ s = _
  rw [whileLoop_eq fuel ps _ s h2 (by rw [hp] at hf; simp at hf; omega)]
  unfold fileLines
  rw [hp]
  by_cases hps : ps = []
  · subst hps
    by_cases hp0 : p = [] <;> simp [hp0]
  · rw [trimLast_cons p ps hps]
    rfl

/-! ## Lines of files that are written -/

theorem linesOf_fileOf {head : Str} {rows : List (List Str)} (hh : '\n' ∉ head) (h : ∀ ws ∈ rows, RowOk ws) :
    linesOf (fileOf head rows) = head :: (rows.map lineOf ++ [[]]) := by
  unfold linesOf fileOf
  rw [List.splitOn_append_cons_self_of_not_mem hh]
  exact congrArg _ (linesOf_text h)

theorem fileLines_fileOf {head : Str} {rows : List (List Str)} (hh : '\n' ∉ head) (h : ∀ ws ∈ rows, RowOk ws) :
    (fileLines (fileOf head rows)).tail = rows.map lineOf := by
  unfold fileLines
  rw [linesOf_fileOf hh h, ← List.cons_append, List.getLast?_concat, if_pos rfl, List.dropLast_concat]
  rfl

theorem lineAt_fileOf {head : Str} {rows : List (List Str)} (hh : '\n' ∉ head) (h : ∀ ws ∈ rows, RowOk ws) :
    (List.range rows.length).map (fun k => lineAt (fileOf head rows) (k + 1)) = rows.map lineOf := by
  apply List.ext_getElem
  · simp
  · intro k h1 h2
    simp only [List.length_map, List.length_range] at h1
    simp only [List.getElem_map, List.getElem_range]
    unfold lineAt
    rw [linesOf_fileOf hh h, List.getD_cons_succ, List.getD_eq_getElem?_getD,
      List.getElem?_append_left (by simpa using h1)]
    simp [h1]

theorem linesOf_bareOf : ∀ {rows : List (List Str)}, rows ≠ [] → (∀ ws ∈ rows, RowOk ws) →
    linesOf (bareOf rows) = rows.map lineOf
  | [], h, _ => absurd rfl h
  | [ws], _, h => by
    have : bareOf [ws] = lineOf ws := by simp [bareOf, textOf]
    rw [this]
    unfold linesOf
    rw [List.splitOn_eq_singleton (line_no_newline (h ws (by simp)).1)]
    rfl
  | ws :: ws' :: rows, _, h => by
    have hne : textOf (ws' :: rows) ≠ [] := by simp [textOf]
    have : bareOf (ws :: ws' :: rows) = lineOf ws ++ '\n' :: bareOf (ws' :: rows) := by
      have e : textOf (ws :: ws' :: rows) = lineOf ws ++ '\n' :: textOf (ws' :: rows) := by simp [textOf]
      unfold bareOf
      rw [e, List.dropLast_append_of_ne_nil (by simp), List.dropLast_cons_of_ne_nil hne]
    rw [this]
    unfold linesOf
    rw [List.splitOn_append_cons_self_of_not_mem (line_no_newline (h ws (by simp)).1)]
    have := linesOf_bareOf (rows := ws' :: rows) (by simp) fun x hx => h x (by simp [hx])
    unfold linesOf at this
    rw [this]
    rfl

/-! ## Steps that are carried out or not -/

/-- One step that never succeeds makes the loop fail. -/
theorem foldlM_notOk {α β : Type} {f : β → α → Res β} : ∀ (as : List α) (b : β) (x : α), x ∈ as →
    (∀ c c', f c x ≠ .ok c') → ∀ b', Res.foldlM f b as ≠ .ok b'
  | [], _, _, h, _, _ => by simp at h
  | a :: as, b, x, h, hx, b' => by
    rw [Res.foldlM_cons]
    intro e
    obtain ⟨c, h1, h2⟩ := Res.bind_eq_ok.1 e
    rcases List.mem_cons.1 h with rfl | h
    · exact hx _ _ h1
    · exact foldlM_notOk as c x h hx b' h2

theorem foldl_upd_lastOf {α β : Type} (key : α → ℤ) (val : α → β) : ∀ (rows : List α) (t : ℤ → β) (l : ℤ),
    rows.foldl (fun t r => upd t (key r) (val r)) t l = lastOf key val rows (t l) l := by
  intro rows
  induction rows using List.reverseRecOn with
  | nil => intro t l; rfl
  | append_singleton rows r ih =>
    intro t l
    rw [List.foldl_append, List.foldl_cons, List.foldl_nil]
    unfold lastOf
    rw [List.reverse_append, List.reverse_singleton, List.singleton_append, List.find?_cons]
    by_cases h : key r = l
    · subst h
      simp [upd_same]
    · rw [upd_other _ _ _ _ (Ne.symm h), ih]
      simp [h, lastOf]

theorem trim_word {w : Str} (h : WordOk w) : trim w = w := by
  rw [trim_eq]
  have := strip_line (ws := [w]) (by simpa using h)
  rwa [lineOf_single] at this

theorem rowOk_cons {n : ℤ} {ws : List Str} (h : ∀ w ∈ ws, WordOk w) : RowOk (toStr n :: ws) := by
  refine ⟨?_, _, _, rfl, (toStr_word n).2⟩
  intro w hw
  rcases List.mem_cons.1 hw with rfl | hw
  · exact (toStr_word n).1
  · exact h w hw

theorem stods_eq {ws : List Str} {q : Str → ℚ} (h : ∀ w ∈ ws, stod w = .ok (q w)) : stods ws = .ok (ws.map q) := by
  have key : ∀ (ws : List Str) (acc : List ℚ), (∀ w ∈ ws, stod w = .ok (q w)) →
      Res.foldlM (fun acc w => (stod w).bind fun x => .ok (acc ++ [x])) acc ws = .ok (acc ++ ws.map q) := by
    intro ws
    induction ws with
    | nil => intro acc _; simp
    | cons w ws ih =>
      intro acc h
      rw [Res.foldlM_cons, h w (by simp)]
      show Res.foldlM _ (acc ++ [q w]) ws = _
      rw [ih _ fun x hx => h x (by simp [hx])]
      simp
  exact (key ws [] h).trans (by simp)

theorem foldlM_map {α β γ : Type} {f : β → α → Res β} (g : γ → α) : ∀ (as : List γ) (b : β),
    Res.foldlM f b (as.map g) = Res.foldlM (fun b a => f b (g a)) b as
  | [], _ => rfl
  | a :: as, b => by
    rw [List.map_cons, Res.foldlM_cons, Res.foldlM_cons]
    cases f b (g a) with
    | ok s => exact foldlM_map g as s
    | throw m => rfl
    | ub => rfl
    | diverge => rfl

/-- Reading all rows of a file that has been written, by number. -/
theorem count_rows {ρ : Type} {body : σ → Str → Res σ} {g : σ → ρ → σ} (head : Str) (words : ρ → List Str) (rows : List ρ)
    (s : σ) (hh : '\n' ∉ head) (hrow : ∀ r ∈ rows, RowOk (words r))
    (step : ∀ r ∈ rows, ∀ s, body s (lineOf (words r)) = .ok (g s r)) :
    Res.foldlM body s ((List.range rows.length).map fun k => lineAt (fileOf head (rows.map words)) (k + 1)) =
      .ok (rows.foldl g s) := by
  have e := lineAt_fileOf (rows := rows.map words) hh (by
    intro ws hw
    obtain ⟨r, hr, rfl⟩ := List.mem_map.1 hw
    exact hrow r hr)
  rw [List.length_map] at e
  rw [e, List.map_map, foldlM_map]
  exact BusP.foldlM_okMem rows s step

/-- Reading all rows of a file that has been written, up to its end. -/
theorem all_rows {ρ : Type} {body : σ → Str → Res σ} {g : σ → ρ → σ} (head : Str) (words : ρ → List Str) (rows : List ρ)
    (s : σ) (hh : '\n' ∉ head) (hrow : ∀ r ∈ rows, RowOk (words r))
    (step : ∀ r ∈ rows, ∀ s, body s (lineOf (words r)) = .ok (g s r)) (fuel : ℕ) (hf : rows.length + 2 ≤ fuel) :
    readAll body fuel s (some (fileOf head (rows.map words))) = .ok (rows.foldl g s) := by
  have hr : ∀ ws ∈ rows.map words, RowOk ws := by
    intro ws hw
    obtain ⟨r, hr, rfl⟩ := List.mem_map.1 hw
    exact hrow r hr
  rw [readAll_file fuel _ s (by rw [linesOf_fileOf hh hr]; simp; omega), fileLines_fileOf hh hr, List.map_map, foldlM_map]
  exact BusP.foldlM_okMem rows s step

theorem buildToll_pos {num : ℕ} (h : 0 < num) (links : List ℤ) (t : ℤ → ℚ) (content : Str) :
    buildToll num links t (some content) =
      Res.foldlM (tollRow links) t ((List.range num).map fun k => lineAt content (k + 1)) := by
  show (if (num : ℤ) ≤ 0 then _ else (countLoop (tollRow links) (num : ℤ).toNat _ t).bind _) = _
  rw [if_neg (by omega), Int.toNat_natCast, countLoop_file]

theorem buildToll2_pos {num : ℕ} (h : 0 < num) (links : List ℤ) (t : ℤ → Toll) (content : Str) :
    buildToll2 num links t (some content) =
      Res.foldlM (tollRow2 links) t ((List.range num).map fun k => lineAt content (k + 1)) := by
  show (if (num : ℤ) ≤ 0 then _ else (countLoop (tollRow2 links) (num : ℤ).toNat _ t).bind _) = _
  rw [if_neg (by omega), Int.toNat_natCast, countLoop_file]

theorem readLabels_pos {k : ℕ} (num : ℕ) (h : 0 < k) (origins : List ℤ) (s : ℤ → List ℚ) (content : Str) :
    readLabels num k origins s (some content) =
      Res.foldlM (labelRow k origins) s ((List.range num).map fun k => lineAt content (k + 1)) := by
  show (if (k : ℤ) ≤ 0 then _ else (countLoop (labelRow (k : ℤ).toNat origins) (num : ℤ).toNat _ s).bind _) = _
  rw [if_neg (by omega), Int.toNat_natCast, Int.toNat_natCast, countLoop_file]

end Verif.Rd
