import Verif.Model.Tdsp
import Verif.Props.ShortestPath
import Verif.Lemmas.Io
import Mathlib.Data.List.Induction

/-! # C146–C148: the class `Tdsp`: tables, extracted paths, turn costs -/

namespace Verif
open Graph Sp Text

/-! ## C146: tables of costs and travel times -/

/-- The value in the last row with the key `k`, if there is one. -/
def lastVal {κ α : Type} [DecidableEq κ] (rows : List (κ × α)) (k : κ) : Option α :=
  ((rows.filter fun r => r.1 = k).getLast?).map (·.2)

theorem lastVal_append {κ α : Type} [DecidableEq κ] (rows : List (κ × α)) (r : κ × α) (k : κ) :
    lastVal (rows ++ [r]) k = if r.1 = k then some r.2 else lastVal rows k := by
  unfold lastVal
  rw [List.filter_append]
  by_cases h : r.1 = k
  · rw [if_pos h]; simp [List.filter_cons, h]
  · rw [if_neg h]; simp [List.filter_cons, h]

theorem fold_rows {ρ κ α : Type} [DecidableEq κ] (step : Tdsp.Table κ α → ρ → Res (Tdsp.Table κ α))
    (key : ρ → κ) (val : ρ → ℕ → α) (rows : List ρ)
    (h : ∀ s, ∀ r ∈ rows, step s r = .ok (upd s (key r) (some (val r)))) (old : Tdsp.Table κ α) :
    ∃ s, Res.foldlM step old rows = .ok s ∧
      ∀ k, s k = (lastVal (rows.map fun r => (key r, val r)) k).or (old k) := by
  induction rows using List.reverseRecOn with
  | nil => exact ⟨old, rfl, fun k => by simp [lastVal]⟩
  | append_singleton rows r ih =>
    obtain ⟨s, hs, hk⟩ := ih fun s x hx => h s x (by simp [hx])
    refine ⟨upd s (key r) (some (val r)), ?_, fun k => ?_⟩
    · rw [Res.foldlM_append, hs]
      change Res.foldlM step s [r] = _
      rw [Res.foldlM_cons, h s r (by simp)]
      rfl
    · rw [List.map_append, List.map_cons, List.map_nil, lastVal_append]
      by_cases hkr : key r = k
      · subst hkr; rw [upd_same, if_pos rfl]; rfl
      · rw [upd_other _ _ _ _ (fun e => hkr e.symm), if_neg hkr, hk]

/-- The number, as an `int`. -/
def KeyOk (x : ℚ) : Prop := Io.IntOk (Ults.trunc x)

theorem toInt_ok {x : ℚ} (h : KeyOk x) : Ults.toInt x = .ok (Ults.trunc x) := by
  unfold KeyOk Io.IntOk at h
  exact if_pos h

/-- **C146.**  Tables given as arrays: an array of the wrong shape is rejected; otherwise every link (or
pair of links) named in a row has the values of the last row that names it, and all others keep what
they had. -/
theorem C146_arrays {α : Type} (n M : ℕ) (a : Tdsp.Arr α) :
    (∀ old, (a.ndim ≠ 2 ∨ a.rows ≠ n ∨ a.cols ≠ M + 1) → (Tdsp.readLinks n M old a).isOk = false) ∧
    (∀ old, a.ndim = 2 → a.rows = n → a.cols = M + 1 → (∀ i < n, KeyOk (a.key i 0)) →
      ∃ s, Tdsp.readLinks n M old a = .ok s ∧ ∀ l, s l =
        (lastVal ((List.range n).map fun i => (Ults.trunc (a.key i 0), a.val i)) l).or (old l)) ∧
    (∀ old, (a.ndim ≠ 2 ∨ a.rows ≠ n ∨ a.cols ≠ M + 3) → (Tdsp.readTurns n M old a).isOk = false) ∧
    (∀ old, a.ndim = 2 → a.rows = n → a.cols = M + 3 →
      (∀ i < n, KeyOk (a.key i 1) ∧ KeyOk (a.key i 2)) →
      ∃ s, Tdsp.readTurns n M old a = .ok s ∧ ∀ p, s p =
        (lastVal ((List.range n).map fun i => ((Ults.trunc (a.key i 1), Ults.trunc (a.key i 2)), a.val i))
          p).or (old p)) := by
  refine ⟨fun old h => ?_, fun old h1 h2 h3 h4 => ?_, fun old h => ?_, fun old h1 h2 h3 h4 => ?_⟩
  · unfold Tdsp.readLinks
    by_cases h1 : a.ndim ≠ 2
    · rw [if_pos h1]; rfl
    · rw [if_neg h1, if_pos (h.resolve_left h1)]; rfl
  · unfold Tdsp.readLinks
    rw [if_neg (not_not.2 h1), if_neg (by push Not; exact ⟨h2, h3⟩)]
    refine fold_rows (Tdsp.linkRow a) (fun i => Ults.trunc (a.key i 0)) a.val _ ?_ old
    intro s i hi
    unfold Tdsp.linkRow
    rw [toInt_ok (h4 i (by simpa using hi)), Res.bind_ok']
  · unfold Tdsp.readTurns
    by_cases h1 : a.ndim ≠ 2
    · rw [if_pos h1]; rfl
    · rw [if_neg h1, if_pos (h.resolve_left h1)]; rfl
  · unfold Tdsp.readTurns
    rw [if_neg (not_not.2 h1), if_neg (by push Not; exact ⟨h2, h3⟩)]
    refine fold_rows (Tdsp.turnRow a) (fun i => (Ults.trunc (a.key i 1), Ults.trunc (a.key i 2))) a.val _ ?_ old
    intro s i hi
    have := h4 i (by simpa using hi)
    unfold Tdsp.turnRow
    rw [toInt_ok this.1, Res.bind_ok', toInt_ok this.2, Res.bind_ok']

/-- Rows for links 10, 11 and 10 again, two intervals. -/
def exArr : Tdsp.Arr ℚ := ⟨2, 3, 3, fun i _ => if i = 1 then 11 else 10, fun i j => i + j / 10⟩

example : exArr.rows = 3 ∧ exArr.cols = (2 : ℕ) + 1 ∧ (∀ i < 3, KeyOk (exArr.key i 0)) ∧
    (match Tdsp.readLinks 3 2 (fun l => if l = 12 then some fun _ => 7 else none) exArr with
      | .ok s => [(s 10).map fun v => (v 0, v 1), (s 11).map fun v => (v 0, v 1),
          (s 12).map fun v => (v 0, v 1), (s 13).map fun v => (v 0, v 1)]
      | _ => []) = [some (2, 2 + 1 / 10), some (1, 1 + 1 / 10), some (7, 7), none] := by
  refine ⟨rfl, rfl, fun i _ => ?_, by decide +kernel⟩
  unfold KeyOk Io.IntOk
  by_cases h : i = 1
  · subst h; decide +kernel
  · simp only [exArr, if_neg h]; decide +kernel

/-! ### Text files -/

theorem lineLoop_spec {σ : Type} (row : σ → Str → Res σ) : ∀ (n : ℕ) (i : In) (ps : List Str) (s : σ),
    Has i ps → Tdsp.lineLoop row n i s =
      Res.foldlM row s (ps.take n ++ List.replicate (n - ps.length) (ps.getLastD i.line)) := by
  intro n
  induction n with
  | zero => intro i ps s _; simp [Tdsp.lineLoop]
  | succ n ih =>
    intro i ps s h
    unfold Tdsp.lineLoop
    cases ps with
    | nil =>
      rw [getline_done h]
      simp only [List.take_nil, List.length_nil, Nat.sub_zero, List.getLastD_nil, List.nil_append,
        List.replicate_succ, Res.foldlM_cons]
      change Res.bind _ _ = Res.bind _ _
      congr 1
      funext s'
      rw [ih i [] s' h]
      simp
    | cons p ps =>
      obtain ⟨h1, h2⟩ := getline_spec h (getline i).line
      rw [h1]
      simp only [List.take_succ_cons, List.cons_append, Res.foldlM_cons, List.length_cons,
        Nat.add_sub_add_right]
      change Res.bind _ _ = Res.bind _ _
      congr 1
      funext s'
      rw [ih (getline i) ps s' h2, h1, List.getLastD_cons]

/-- The line is a row of the file of links: a number and `M` decimal numbers. -/
structure LinkLine (M : ℕ) (line : Str) (l : ℤ) (xs : List ℚ) : Prop where
  range : Io.IntOk l
  len : xs.length = M
  words : ∃ ws, wordsOf line = toStr l :: ws ∧ List.Forall₂ (fun w x => stod (strip w) = .ok x) ws xs

/-- The line is a row of the file of turns: any word, two numbers and `M` decimal numbers. -/
structure TurnLine (M : ℕ) (line : Str) (p : ℤ × ℤ) (xs : List ℚ) : Prop where
  range : Io.IntOk p.1 ∧ Io.IntOk p.2
  len : xs.length = M
  words : ∃ w0 ws, wordsOf line = w0 :: toStr p.1 :: toStr p.2 :: ws ∧
    List.Forall₂ (fun w x => stod (strip w) = .ok x) ws xs

theorem trim_toStr (n : ℤ) : trim (toStr n) = toStr n := by
  rw [trim_eq]
  have := Io.strip_line (ws := [toStr n]) (by simpa using (Io.toStr_word n).1)
  rwa [Io.lineOf_single] at this

theorem rowNums_eq {ws : List Str} {xs : List ℚ} (h : List.Forall₂ (fun w x => stod (strip w) = .ok x) ws xs) :
    Tdsp.rowNums ws = .ok xs := by
  have key : ∀ (ws : List Str) (xs acc : List ℚ), List.Forall₂ (fun w x => stod (strip w) = .ok x) ws xs →
      Res.foldlM (fun acc w => (stod (trim w)).bind fun x => .ok (acc ++ [x])) acc ws = .ok (acc ++ xs) := by
    intro ws xs acc h
    induction h generalizing acc with
    | nil => simp
    | cons h _ ih =>
      rw [Res.foldlM_cons, trim_eq, h, Res.bind_ok']
      change Res.foldlM _ _ _ = _
      rw [ih]
      simp
  unfold Tdsp.rowNums
  rw [key ws xs [] h]
  rfl

theorem linkLine_eq {M : ℕ} {line : Str} {l : ℤ} {xs : List ℚ} (h : LinkLine M line l xs)
    (s : Tdsp.Table ℤ ℚ) : Tdsp.linkLine M s line = .ok (upd s l (some fun j => xs.getD j 0)) := by
  obtain ⟨ws, h1, h2⟩ := h.words
  unfold Tdsp.linkLine
  rw [split_eq, h1]
  have hl : ws.length = M := h2.length_eq.trans h.len
  simp only [hl, if_true, trim_toStr, stoi_toStr l h.range, Res.bind_ok', rowNums_eq h2]

theorem turnLine_eq {M : ℕ} {line : Str} {p : ℤ × ℤ} {xs : List ℚ} (h : TurnLine M line p xs)
    (s : Tdsp.Table (ℤ × ℤ) ℚ) : Tdsp.turnLine M s line = .ok (upd s p (some fun j => xs.getD j 0)) := by
  obtain ⟨w0, ws, h1, h2⟩ := h.words
  unfold Tdsp.turnLine
  rw [split_eq, h1]
  have hl : ws.length = M := h2.length_eq.trans h.len
  simp only [hl, if_true, trim_toStr, stoi_toStr _ h.range.1, stoi_toStr _ h.range.2, Res.bind_ok', rowNums_eq h2]

theorem foldlM_throw {α β : Type} {f : β → α → Res β} {a : α} (h : ∀ b, (f b a).isOk = false) :
    ∀ (as : List α) (b : β), a ∈ as → (Res.foldlM f b as).isOk = false := by
  intro as
  induction as with
  | nil => intro b hm; simp at hm
  | cons x xs ih =>
    intro b hm
    rw [Res.foldlM_cons]
    rcases List.mem_cons.1 hm with rfl | hm
    · have := h b
      cases e : f b a with
      | ok y => rw [e] at this; cases this
      | _ => rfl
    · cases e : f b x with
      | ok y => exact ih y hm
      | _ => rfl

/-- What follows for either kind of file. -/
theorem text_spec {κ : Type} [DecidableEq κ] (row : Tdsp.Table κ ℚ → Str → Res (Tdsp.Table κ ℚ))
    (Fits : Str → κ → List ℚ → Prop)
    (hrow : ∀ line k xs, Fits line k xs → ∀ s, row s line = .ok (upd s k (some fun j => xs.getD j 0)))
    (hbad : ∀ s, (row s []).isOk = false)
    (content header : Str) (rows : List (Str × κ × List ℚ)) (more : List Str) (old : Tdsp.Table κ ℚ)
    (hfit : ∀ r ∈ rows, Fits r.1 r.2.1 r.2.2) (hlines : linesOf content = header :: rows.map (·.1) ++ more) :
    (∃ s, Tdsp.readText row rows.length old (some content) = .ok s ∧ ∀ k, s k =
      (lastVal (rows.map fun r => (r.2.1, fun j => r.2.2.getD j 0)) k).or ((old k).map fun _ _ => 0)) ∧
    (more = [] → rows ≠ [] → ∀ n, rows.length ≤ n → Tdsp.readText row n old (some content) =
      Tdsp.readText row rows.length old (some content)) ∧
    (more = [[]] → ∀ n, rows.length < n → (Tdsp.readText row n old (some content)).isOk = false) := by
  obtain ⟨g1, g2⟩ := getline_spec (p := header) (ps := rows.map (·.1) ++ more)
    (by rw [← List.cons_append, ← hlines]; exact has_open content) (getline (In.open content)).line
  have hread : ∀ n, Tdsp.readText row n old (some content) = Res.foldlM row (Tdsp.zeroed old)
      ((rows.map (·.1) ++ more).take n ++ List.replicate (n - (rows.map (·.1) ++ more).length)
        ((rows.map (·.1) ++ more).getLastD header)) := by
    intro n
    have := lineLoop_spec row n (getline (In.open content)) (rows.map (·.1) ++ more) (Tdsp.zeroed old) g2
    rw [g1] at this
    exact this
  have hbase : Tdsp.readText row rows.length old (some content) =
      Res.foldlM row (Tdsp.zeroed old) (rows.map (·.1)) := by
    rw [hread]
    congr 1
    rw [List.length_append, List.length_map, Nat.sub_eq_zero_of_le (by omega), List.replicate_zero,
      List.append_nil, List.take_append_of_le_length (by simp)]
    exact List.take_of_length_le (by simp)
  have hfold : Res.foldlM row (Tdsp.zeroed old) (rows.map (·.1)) =
      Res.foldlM (fun s r => row s r.1) (Tdsp.zeroed old) rows := by
    generalize Tdsp.zeroed old = z
    clear hbase hread g1 g2 hlines hfit
    induction rows generalizing z with
    | nil => rfl
    | cons r rs ih =>
      rw [List.map_cons, Res.foldlM_cons, Res.foldlM_cons]
      change Res.bind _ _ = Res.bind _ _
      congr 1
      funext s'
      exact ih s'
  obtain ⟨s, hs, hk⟩ := fold_rows (fun s (r : Str × κ × List ℚ) => row s r.1) (fun r => r.2.1)
    (fun r j => r.2.2.getD j 0) rows (fun s r hr => hrow _ _ _ (hfit r hr) s) (Tdsp.zeroed old)
  refine ⟨⟨s, by rw [hbase, hfold, hs], hk⟩, fun hm hne n hn => ?_, fun hm n hn => ?_⟩
  · subst hm
    rw [hread, hbase, List.append_nil, List.take_of_length_le (by simpa using hn), Res.foldlM_append,
      hfold, hs]
    change Res.foldlM row s _ = _
    -- repeating the last row changes nothing
    obtain ⟨init, r, rfl⟩ := (List.eq_nil_or_concat rows).resolve_left hne
    rw [List.concat_eq_append] at hs hfit ⊢
    have hrep : ∀ m, Res.foldlM row s (List.replicate m r.1) = .ok s := by
      have hstep : row s r.1 = .ok s := by
        rw [hrow _ _ _ (hfit r (by simp))]
        congr 1
        funext k
        by_cases hkr : k = r.2.1
        · subst hkr
          rw [upd_same, hk]
          rw [List.concat_eq_append, List.map_append, List.map_cons, List.map_nil, lastVal_append, if_pos rfl]
          rfl
        · rw [upd_other _ _ _ _ hkr]
      intro m
      induction m with
      | zero => rfl
      | succ m ih =>
        rw [List.replicate_succ, Res.foldlM_cons, hstep]
        exact ih
    simp only [List.map_append, List.map_cons, List.map_nil]
    rw [show (List.map (fun x => x.1) init ++ [r.1]).getLastD header = r.1 by simp [List.getLastD_eq_getLast?]]
    exact hrep _
  · subst hm
    rw [hread]
    refine foldlM_throw (a := []) hbad _ _ ?_
    refine List.mem_append_left _ ?_
    rw [List.take_of_length_le (by simp; omega)]
    simp

/-- **C146.**  Tables given as text files, with a header and rows for `M` intervals: every link named in
a row has the numbers of the last row that names it; all other links in memory are set to zero.  A file
with fewer rows than announced is rejected if it ends with a newline, and read as if the number of rows
were right if it does not. -/
theorem C146_link_files (M : ℕ) (content header : Str) (rows : List (Str × ℤ × List ℚ)) (more : List Str)
    (old : Tdsp.Table ℤ ℚ) (hfit : ∀ r ∈ rows, LinkLine M r.1 r.2.1 r.2.2)
    (hlines : linesOf content = header :: rows.map (·.1) ++ more) :
    (∃ s, Tdsp.readText (Tdsp.linkLine M) rows.length old (some content) = .ok s ∧ ∀ l, s l =
      (lastVal (rows.map fun r => (r.2.1, fun j => r.2.2.getD j 0)) l).or ((old l).map fun _ _ => 0)) ∧
    (more = [] → rows ≠ [] → ∀ n, rows.length ≤ n →
      Tdsp.readText (Tdsp.linkLine M) n old (some content) =
        Tdsp.readText (Tdsp.linkLine M) rows.length old (some content)) ∧
    (more = [[]] → ∀ n, rows.length < n →
      (Tdsp.readText (Tdsp.linkLine M) n old (some content)).isOk = false) ∧
    Tdsp.readText (Tdsp.linkLine M) rows.length old none = .throw "failed to open file" := by
  obtain ⟨a, b, c⟩ := text_spec (Tdsp.linkLine M) (LinkLine M) (fun _ _ _ h s => linkLine_eq h s)
    (fun _ => rfl) content header rows more old hfit hlines
  exact ⟨a, b, c, rfl⟩

/-- **C146.**  The same for the files of turns. -/
theorem C146_turn_files (M : ℕ) (content header : Str) (rows : List (Str × (ℤ × ℤ) × List ℚ))
    (more : List Str) (old : Tdsp.Table (ℤ × ℤ) ℚ) (hfit : ∀ r ∈ rows, TurnLine M r.1 r.2.1 r.2.2)
    (hlines : linesOf content = header :: rows.map (·.1) ++ more) :
    (∃ s, Tdsp.readText (Tdsp.turnLine M) rows.length old (some content) = .ok s ∧ ∀ p, s p =
      (lastVal (rows.map fun r => (r.2.1, fun j => r.2.2.getD j 0)) p).or ((old p).map fun _ _ => 0)) ∧
    (more = [] → rows ≠ [] → ∀ n, rows.length ≤ n →
      Tdsp.readText (Tdsp.turnLine M) n old (some content) =
        Tdsp.readText (Tdsp.turnLine M) rows.length old (some content)) ∧
    (more = [[]] → ∀ n, rows.length < n →
      (Tdsp.readText (Tdsp.turnLine M) n old (some content)).isOk = false) ∧
    Tdsp.readText (Tdsp.turnLine M) rows.length old none = .throw "failed to open file" := by
  obtain ⟨a, b, c⟩ := text_spec (Tdsp.turnLine M) (TurnLine M) (fun _ _ _ h s => turnLine_eq h s)
    (fun _ => rfl) content header rows more old hfit hlines
  exact ⟨a, b, c, rfl⟩

/-- A line with a wrong number of words is an error. -/
theorem C146_wrong_row (M : ℕ) (line : Str) (s : Tdsp.Table ℤ ℚ) (h : (wordsOf line).length ≠ M + 1) :
    (Tdsp.linkLine M s line).isOk = false := by
  unfold Tdsp.linkLine
  rw [split_eq]
  cases e : wordsOf line with
  | nil => rfl
  | cons w ws =>
    rw [e] at h
    simp only [List.length_cons, ne_eq, add_left_inj] at h
    simp only [if_neg h]
    rfl

example : linesOf "id t0 t1\n10 1.5 2\n11 3 4".toList =
      "id t0 t1".toList :: [("10 1.5 2".toList, (10 : ℤ), [(3 / 2 : ℚ), 2]),
        ("11 3 4".toList, 11, [3, 4])].map (·.1) ++ [] ∧
    LinkLine 2 "10 1.5 2".toList 10 [3 / 2, 2] ∧ LinkLine 2 "11 3 4".toList 11 [3, 4] ∧
    TurnLine 2 "7 10 11 0.5 1".toList (10, 11) [1 / 2, 1] := by
  refine ⟨by decide +kernel, ⟨by unfold Io.IntOk; decide, rfl, ["1.5".toList, "2".toList], by decide +kernel, ?_⟩,
    ⟨by unfold Io.IntOk; decide, rfl, ["3".toList, "4".toList], by decide +kernel, ?_⟩,
    ⟨by unfold Io.IntOk; decide, rfl, "7".toList, ["0.5".toList, "1".toList], by decide +kernel, ?_⟩⟩
  all_goals
    refine .cons (by decide +kernel) (.cons (by decide +kernel) .nil)

/-! ## C147: extracted paths -/

theorem walkNodes_length (g : G) : ∀ (ls : List ℤ) (u v : ℤ), Walk g u ls v →
    (walkNodes g u ls).length = ls.length + 1 := by
  intro ls
  induction ls with
  | nil => intro u v _; rfl
  | cons l ls ih =>
    intro u v h
    obtain ⟨t, e1, e2⟩ := h
    simp only [walkNodes, e1, List.length_cons, ih t v e2]

theorem restRows_spec : ∀ (ls vs : List ℤ), vs.length = ls.length + 1 →
    (Tdsp.restRows vs ls).map (·.node) = vs ∧ (Tdsp.restRows vs ls).map (·.link) = ls ++ [-1] ∧
    (Tdsp.restRows vs ls).map (·.cost) = List.replicate (ls.length + 1) ((-1 : ℚ) : Cost) ∧
    (Tdsp.restRows vs ls).map (·.tt) = List.replicate (ls.length + 1) (-1) := by
  intro ls
  induction ls with
  | nil =>
    intro vs h
    match vs, h with
    | [v], _ => exact ⟨rfl, rfl, rfl, rfl⟩
  | cons l ls ih =>
    intro vs h
    match vs, h with
    | v :: vs, h =>
      obtain ⟨a, b, c, d⟩ := ih vs (by simpa using h)
      simp only [Tdsp.restRows, List.map_cons, a, b, c, d, List.length_cons, List.cons_append,
        List.replicate_succ, and_self]

theorem mkRows_spec (c : Cost) (x : ℚ) (ls vs : List ℤ) (h : vs.length = ls.length + 1) :
    (Tdsp.mkRows c x vs ls).map (·.node) = vs ∧ (Tdsp.mkRows c x vs ls).map (·.link) = ls ++ [-1] ∧
    (Tdsp.mkRows c x vs ls).map (·.cost) = c :: List.replicate ls.length ((-1 : ℚ) : Cost) ∧
    (Tdsp.mkRows c x vs ls).map (·.tt) = x :: List.replicate ls.length (-1) := by
  match ls, vs, h with
  | [], [v], _ => exact ⟨rfl, rfl, rfl, rfl⟩
  | l :: ls, v :: vs, h =>
    obtain ⟨a, b, c, d⟩ := restRows_spec ls vs (by simpa using h)
    simp only [Tdsp.mkRows, List.map_cons, a, b, c, d, List.length_cons, List.cons_append,
      List.replicate_succ, and_self]

/-- The rows of an array, as link and values. -/
def arrRows {α : Type} (n : ℕ) (a : Tdsp.Arr α) : List (ℤ × (ℕ → α)) :=
  (List.range n).map fun i => (Ults.trunc (a.key i 0), a.val i)

/-- The array has the right shape and its first column holds numbers of type `int`. -/
structure ArrOk {α : Type} (n M : ℕ) (a : Tdsp.Arr α) : Prop where
  ndim : a.ndim = 2
  rows : a.rows = n
  cols : a.cols = M + 1
  keys : ∀ i < n, KeyOk (a.key i 0)

/-- **C147.**  An object for `M` intervals without turn costs, whatever it read or built before.  After
reading arrays that have a row for every link and building the tree, the path extracted for a node and
a departure time (times past the horizon count as the last interval) is a walk to the destination of
least cost: the table lists its nodes, with the link taken at each node and -1 at the end, and the
first row has the cost and the travel time of the walk.  If the destination cannot be reached at finite
cost the table has a single row with an infinite cost. -/
theorem C147_extracted_table (ops : List Op) (dest : ℤ) (hd : dest ∈ nodeIds (run empty ops)) (M n : ℕ)
    (hM : 0 < M) (hM' : M ≤ 2147483647) (w : ℤ → ℕ → Cost) (τ : ℤ → ℕ → ℚ) (links : List ℤ)
    (hl : links.Perm (linkIds (run empty ops))) (o : Tdsp.Obj) (ho : o.g = run empty ops) (hoM : o.M = M)
    (hon : o.nLink = n) (hot : o.nTurn = -1) (att : Tdsp.Arr ℚ) (acost : Tdsp.Arr Cost)
    (att' : Tdsp.Arr ℚ) (acost' : Tdsp.Arr Cost) (htt : ArrOk n M att) (hcost : ArrOk n M acost)
    (hτ : ∀ l ∈ linkIds (run empty ops), lastVal (arrRows n att) l = some (τ l))
    (hw : ∀ l ∈ linkIds (run empty ops), lastVal (arrRows n acost) l = some (w l))
    (hnn : ∀ l ∈ linkIds (run empty ops), ∀ t < M, 0 ≤ w l t)
    (hr : ∀ l ∈ linkIds (run empty ops), ∀ t < M, τ l t + M ≤ 2147483646)
    (hno : -1 ∉ linkIds (run empty ops)) :
    ∃ o1 o2 n0, Tdsp.readPy o att acost att' acost' = .ok o1 ∧
      (∀ fuel, n0 ≤ fuel → Tdsp.build fuel links o1 dest = .ok o2) ∧
      ∀ v ∈ nodeIds (run empty ops), ∀ time : ℕ, ∃ n1 rows,
        (∀ fuel, n1 ≤ fuel → Tdsp.extract fuel o2 v time = .ok rows) ∧
        ((∃ ls, Walk (run empty ops) v ls dest ∧ tdCost M w τ (min time (M - 1)) ls ≠ ⊤) →
          ∃ ls, Walk (run empty ops) v ls dest ∧
            (∀ ls', Walk (run empty ops) v ls' dest →
              tdCost M w τ (min time (M - 1)) ls ≤ tdCost M w τ (min time (M - 1)) ls') ∧
            rows.map (·.node) = walkNodes (run empty ops) v ls ∧ rows.map (·.link) = ls ++ [-1] ∧
            rows.map (·.cost) =
              tdCost M w τ (min time (M - 1)) ls :: List.replicate ls.length ((-1 : ℚ) : Cost) ∧
            rows.map (·.tt) = tdTime M τ (min time (M - 1)) ls :: List.replicate ls.length (-1)) ∧
        ((∀ ls, Walk (run empty ops) v ls dest → tdCost M w τ (min time (M - 1)) ls = ⊤) →
          rows = [⟨v, -1, ⊤, -1⟩]) := by
  obtain ⟨tt, e1, k1⟩ := (C146_arrays n M att).2.1 o.tt htt.ndim htt.rows htt.cols htt.keys
  obtain ⟨cost, e2, k2⟩ := (C146_arrays n M acost).2.1 o.cost hcost.ndim hcost.rows hcost.cols hcost.keys
  have hT : Tables (run empty ops) M cost tt w τ := by
    refine ⟨fun l hl => ?_, fun l hl => ?_, hnn, hr, hno⟩
    · rw [k2 l]
      change (lastVal (arrRows n acost) l).or _ = _
      rw [hw l hl]; rfl
    · rw [k1 l]
      change (lastVal (arrRows n att) l).or _ = _
      rw [hτ l hl]; rfl
  obtain ⟨n0, s, hs, hopt⟩ := C40_tdsp_optimal ops dest hd M hM hM' cost tt w τ hT links hl
  refine ⟨{ o with tt := tt, cost := cost },
    { o with tt := tt, cost := cost, tree := some (dest, s) }, n0, ?_, ?_, ?_⟩
  · unfold Tdsp.readPy
    rw [hon, hoM, e1, Res.bind_ok', e2, Res.bind_ok', if_neg (not_not.2 hot)]
  · intro fuel hf
    unfold Tdsp.build
    simp only [hot, ho, hoM, ne_eq, not_true, if_false]
    rw [hs fuel hf, Res.bind_ok']
  · intro v hv time
    obtain ⟨m0, s', m1, hs', hreach, hnot⟩ :=
      C41_extracted_tdsp ops dest hd M hM hM' cost tt w τ hT links hl v hv time
    have hss : s' = s := by
      have a := hs (max n0 m0) (le_max_left _ _)
      have b := hs' (max n0 m0) (le_max_right _ _)
      rw [a] at b
      cases b; rfl
    subst hss
    obtain ⟨⟨hle, hatt⟩, -, -⟩ := hopt v hv (min time (M - 1)) (by omega)
    have hex : ∀ fuel, Tdsp.extract fuel { o with tt := tt, cost := cost, tree := some (dest, s') } v time =
        (getTdsp fuel M (run empty ops) dest s' tt v time).bind fun r =>
          .ok (Tdsp.mkRows (s'.dist v (min time (M - 1))) (r.2.2.getD (-1)) r.1 r.2.1) := by
      intro fuel
      unfold Tdsp.extract
      have h1 : ¬ (v ∉ nodeIds (run empty ops) ∨ (time : ℤ) < 0) := by
        push Not; exact ⟨hv, by omega⟩
      have h2 : (if (time : ℤ) < (M : ℤ) then (time : ℤ).toNat else M - 1) = min time (M - 1) := by
        split <;> omega
      simp only [hot, ho, hoM, h1, h2, if_false, ne_eq, not_true]
    by_cases htop : s'.dist v (min time (M - 1)) = ⊤
    · refine ⟨m1, [⟨v, -1, ⊤, -1⟩], fun fuel hf => ?_, fun ⟨ls, a, b⟩ => ?_, fun _ => rfl⟩
      · rw [hex, hnot htop fuel hf, Res.bind_ok', htop]
        rfl
      · exfalso
        have := hle ls a
        rw [htop, top_le_iff] at this
        exact b this
    · obtain ⟨ls, f1, f2, f3, f4⟩ := hreach htop
      refine ⟨m1, Tdsp.mkRows (tdCost M w τ (min time (M - 1)) ls) (tdTime M τ (min time (M - 1)) ls)
        (walkNodes (run empty ops) v ls) ls, fun fuel hf => ?_, fun _ => ⟨ls, f2, fun ls' h' => ?_, ?_⟩,
        fun h => ?_⟩
      · rw [hex, f1 fuel hf, Res.bind_ok', f4]
        rfl
      · rw [f4]; exact hle ls' h'
      · exact mkRows_spec _ _ _ _ (walkNodes_length _ _ _ _ f2)
      · exact absurd (f4.symm.trans (h ls f2)) htop

/-- The tables of the example in `Props/ShortestPath.lean`, as arrays. -/
def exTt : Tdsp.Arr ℚ := ⟨2, 4, 4, fun i _ => 10 + i, fun i => spTdTime (10 + i)⟩

/-- The same for the costs. -/
def exCost : Tdsp.Arr Cost := ⟨2, 4, 4, fun i _ => 10 + i, fun i => spTdCost (10 + i)⟩

example : linkIds (run empty spOps) = [10, 11, 12, 13] := by decide +kernel

example : ((Tdsp.readPy (Tdsp.create (run empty spOps) 3 4 (-1)) exTt exCost exTt exCost).bind fun o =>
    (Tdsp.build 9 (linkIds (run empty spOps)) o 3).bind fun o' =>
      (Tdsp.extract 9 o' 1 0).bind fun a => (Tdsp.extract 9 o' 4 77).bind fun b =>
        .ok (a.map (·.node), a.map (·.link), a.map (·.tt), b)) =
    .ok ([1, 2, 3], [10, 11, -1], [3, -1, -1], [⟨4, -1, ⊤, -1⟩]) := by
  decide +kernel

end Verif
