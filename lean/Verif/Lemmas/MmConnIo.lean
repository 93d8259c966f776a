import Verif.Spec.MmConn
import Verif.Lemmas.Io
import Mathlib.Data.List.Induction

namespace Verif.MmConn
open Text Io

/-! ## Writing -/

theorem flagText_some {f : Flags} {m : Mode} {b : Bool} (h : f m = some b) :
    flagText (f m) = .ok (toStr (if f m = some true then 1 else 0)) := by
  rw [h]
  cases b <;> simp [flagText]

theorem rowText_eq {o d : ℤ} {f : Flags} (h : Full f) :
    rowText o d f = .ok (lineOf (pairWords (o, d, f)) ++ ['\n']) := by
  obtain ⟨a, ha⟩ := h .driving
  obtain ⟨b, hb⟩ := h .transit
  obtain ⟨c, hc⟩ := h .pnr
  unfold rowText
  rw [flagText_some ha, flagText_some hb, flagText_some hc]
  simp only [Res.bind_ok', pairWords, List.map_cons, List.map_nil, List.cons_append, List.nil_append]
  rw [lineOf_cons _ _ (by simp), lineOf_cons _ _ (by simp), lineOf_cons _ _ (by simp), lineOf_cons _ _ (by simp),
    lineOf_single]
  simp

theorem pairs_cons (r : ℤ × List (ℤ × Flags)) (rows : Rows) :
    pairs (r :: rows) = (r.2.map fun e => (r.1, e.1, e.2)) ++ pairs rows := by simp [pairs]

theorem saveRow_eq (o : ℤ) : ∀ (es : List (ℤ × Flags)) (acc : Str), (∀ e ∈ es, Full e.2) →
    Res.foldlM (fun acc (e : ℤ × Flags) => (rowText o e.1 e.2).bind fun t => .ok (acc ++ t)) acc es =
      .ok (acc ++ textOf ((es.map fun e => (o, e.1, e.2)).map pairWords))
  | [], acc, _ => by simp [Res.foldlM_nil, textOf]
  | e :: es, acc, h => by
    rw [Res.foldlM_cons, rowText_eq (h e (by simp)), Res.bind_ok', Res.ok_bind,
      saveRow_eq o es _ fun x hx => h x (by simp [hx])]
    simp [textOf]

theorem textOf_append (a b : List (List Str)) : textOf (a ++ b) = textOf a ++ textOf b := by simp [textOf]

theorem saveFold_eq : ∀ (rows : Rows) (acc : Str), (∀ p ∈ pairs rows, Full p.2.2) →
    Res.foldlM (fun acc (r : ℤ × List (ℤ × Flags)) =>
      Res.foldlM (fun acc (e : ℤ × Flags) => (rowText r.1 e.1 e.2).bind fun t => .ok (acc ++ t)) acc r.2) acc rows =
      .ok (acc ++ textOf ((pairs rows).map pairWords))
  | [], acc, _ => by simp [Res.foldlM_nil, textOf, pairs]
  | r :: rows, acc, h => by
    rw [pairs_cons] at h
    rw [Res.foldlM_cons, saveRow_eq r.1 r.2 acc fun e he => h (r.1, e.1, e.2)
      (List.mem_append_left _ (List.mem_map.2 ⟨e, he, rfl⟩)), Res.ok_bind,
      saveFold_eq rows _ fun p hp => h p (List.mem_append_right _ hp), pairs_cons, List.map_append, textOf_append,
      List.append_assoc]

theorem save_eq' {rows : Rows} (h : ∀ p ∈ pairs rows, Full p.2.2) :
    save rows = .ok (header ++ textOf ((pairs rows).map pairWords)) := saveFold_eq rows header h

/-- A flag is missing. -/
theorem rowText_ub {o d : ℤ} {f : Flags} {m : Mode} (h : f m = none) : rowText o d f = .ub := by
  have key : ∀ m, (∃ t, flagText (f m) = .ok t) ∨ flagText (f m) = .ub := fun m => by
    cases hm : f m with
    | none => exact Or.inr rfl
    | some b => exact Or.inl ⟨_, rfl⟩
  unfold rowText
  rcases key .driving with ⟨a, ha⟩ | ha
  · rw [ha, Res.bind_ok']
    rcases key .transit with ⟨b, hb⟩ | hb
    · rw [hb, Res.bind_ok']
      rcases key .pnr with ⟨c, hc⟩ | hc
      · cases m
        · rw [h] at ha; cases ha
        · rw [h] at hb; cases hb
        · rw [h] at hc; cases hc
      · rw [hc]; rfl
    · rw [hb]; rfl
  · rw [ha]; rfl

theorem rowText_cases (o d : ℤ) (f : Flags) : (∃ t, rowText o d f = .ok t) ∨ rowText o d f = .ub := by
  by_cases h : Full f
  · exact Or.inl ⟨_, rowText_eq h⟩
  · obtain ⟨m, hm⟩ : ∃ m, f m = none := by
      by_contra hno
      refine h fun m => ?_
      cases hm : f m with
      | none => exact (hno ⟨m, hm⟩).elim
      | some b => exact ⟨b, rfl⟩
    exact Or.inr (rowText_ub hm)

/-- A fold whose steps give a value or are undefined is undefined if one step is undefined always. -/
theorem foldlM_ub {α β : Type} {f : β → α → Res β} (hf : ∀ b a, (∃ b', f b a = .ok b') ∨ f b a = .ub) :
    ∀ (as : List α) (b : β), (∃ b', Res.foldlM f b as = .ok b') ∨ Res.foldlM f b as = .ub
  | [], b => Or.inl ⟨b, Res.foldlM_nil _ _⟩
  | a :: as, b => by
    rw [Res.foldlM_cons]
    rcases hf b a with ⟨b', h⟩ | h
    · rw [h, Res.ok_bind]
      exact foldlM_ub hf as b'
    · rw [h]
      exact Or.inr rfl

theorem foldlM_ub_mem {α β : Type} {f : β → α → Res β} (hf : ∀ b a, (∃ b', f b a = .ok b') ∨ f b a = .ub) :
    ∀ (as : List α) (b : β), (∃ a ∈ as, ∀ b, f b a = .ub) → Res.foldlM f b as = .ub
  | [], b, h => by simp at h
  | a :: as, b, h => by
    rw [Res.foldlM_cons]
    rcases hf b a with ⟨b', h1⟩ | h1
    · rw [h1, Res.ok_bind]
      refine foldlM_ub_mem hf as b' ?_
      obtain ⟨x, hx, hb⟩ := h
      rcases List.mem_cons.1 hx with rfl | hx
      · rw [hb] at h1; cases h1
      · exact ⟨x, hx, hb⟩
    · rw [h1]
      rfl

/-- The two loops of `save`. -/
def saveRow (o : ℤ) (acc : Str) (e : ℤ × Flags) : Res Str := (rowText o e.1 e.2).bind fun t => .ok (acc ++ t)
def saveRows (acc : Str) (r : ℤ × List (ℤ × Flags)) : Res Str := Res.foldlM (saveRow r.1) acc r.2

theorem saveRow_cases (o : ℤ) (acc : Str) (e : ℤ × Flags) : (∃ t, saveRow o acc e = .ok t) ∨ saveRow o acc e = .ub := by
  unfold saveRow
  rcases rowText_cases o e.1 e.2 with ⟨t, h⟩ | h
  · rw [h]; exact Or.inl ⟨_, rfl⟩
  · rw [h]; exact Or.inr rfl

theorem saveRows_cases (acc : Str) (r : ℤ × List (ℤ × Flags)) :
    (∃ t, saveRows acc r = .ok t) ∨ saveRows acc r = .ub := foldlM_ub (saveRow_cases r.1) r.2 acc

theorem save_def (rows : Rows) : save rows = Res.foldlM saveRows header rows := rfl

theorem save_ub {rows : Rows} {p : ℤ × ℤ × Flags} (hp : p ∈ pairs rows) {m : Mode} (hm : p.2.2 m = none) :
    save rows = .ub := by
  obtain ⟨r, hr, hm'⟩ := List.mem_flatMap.1 hp
  obtain ⟨e, he, rfl⟩ := List.mem_map.1 hm'
  rw [save_def]
  refine foldlM_ub_mem saveRows_cases rows header ⟨r, hr, fun acc => ?_⟩
  refine foldlM_ub_mem (saveRow_cases r.1) r.2 acc ⟨e, he, fun acc => ?_⟩
  unfold saveRow
  rw [rowText_ub hm]
  rfl

/-! ## Reading -/

theorem pairWords_ok (p : ℤ × ℤ × Flags) : RowOk (pairWords p) := by
  refine ⟨fun w hw => ?_, _, _, rfl, (toStr_word _).2⟩
  simp only [pairWords, List.map_cons, List.map_nil, List.cons_append, List.nil_append, List.mem_cons,
    List.not_mem_nil, or_false] at hw
  rcases hw with rfl | rfl | rfl | rfl | rfl <;> exact (toStr_word _).1

theorem readFlag_eq {f : Flags} {m : Mode} {b : Bool} (h : f m = some false) :
    readFlag (toStr (if b then 1 else 0)) m f = .ok (upd f m (some b)) := by
  unfold readFlag
  rw [stoi_toStr _ (by cases b <;> decide), Res.bind_ok']
  cases b
  · rw [if_neg (by decide)]
    congr 1
    funext m'
    by_cases hm : m' = m
    · rw [hm, upd_same, h]
    · rw [upd_other _ _ _ _ hm]
  · rw [if_pos (by decide), h]

theorem readRow_eq {modes : List Mode} (hall : ∀ m, m ∈ modes) {c : Conn} {p : ℤ × ℤ × Flags} (hnew : c p.1 p.2.1 = none)
    (hf : Full p.2.2) (h1 : IntOk p.1) (h2 : IntOk p.2.1) :
    readRow modes c (lineOf (pairWords p)) = .ok (upd c p.1 (upd (c p.1) p.2.1 (some p.2.2))) := by
  obtain ⟨o, d, f⟩ := p
  obtain ⟨a, ha⟩ := hf .driving
  obtain ⟨b, hb⟩ := hf .transit
  obtain ⟨e, he⟩ := hf .pnr
  simp only at ha hb he h1 h2 hnew
  unfold readRow
  rw [trim_eq, strip_line (pairWords_ok _).1, split_line (pairWords_ok _)]
  simp only [pairWords, List.map_cons, List.map_nil, List.cons_append, List.nil_append, ha, hb, he]
  rw [stoi_toStr _ h1, Res.bind_ok', stoi_toStr _ h2, Res.bind_ok', hnew]
  have key : ∀ b : Bool, (if some b = some true then (1 : ℤ) else 0) = if b then 1 else 0 := by decide
  simp only [key]
  have h0 : ∀ m, setFlags modes (fun _ => false) none m = some false := fun m => by simp [setFlags, hall m]
  rw [readFlag_eq (h0 _), Res.bind_ok', readFlag_eq (by rw [upd_other _ _ _ _ (by decide)]; exact h0 _), Res.bind_ok',
    readFlag_eq (by rw [upd_other _ _ _ _ (by decide), upd_other _ _ _ _ (by decide)]; exact h0 _), Res.bind_ok']
  have : upd (upd (upd (setFlags modes (fun _ => false) none) .driving (some a)) .transit (some b)) .pnr (some e) = f := by
    funext m
    cases m
    · rw [upd_other _ _ _ _ (by decide), upd_other _ _ _ _ (by decide), upd_same, ha]
    · rw [upd_other _ _ _ _ (by decide), upd_same, hb]
    · rw [upd_same, he]
  rw [this]

/-- The map has the entries of a list. -/
def Holds (c : Conn) (l : List (ℤ × ℤ × Flags)) : Prop := ∀ o d f, (o, d, f) ∈ l ↔ c o d = some f

theorem Holds.eq {c c' : Conn} {l : List (ℤ × ℤ × Flags)} (h : Holds c l) (h' : Holds c' l) : c = c' := by
  funext o d
  cases hc : c o d with
  | none =>
    cases hc' : c' o d with
    | none => rfl
    | some f =>
      have := (h o d f).1 ((h' o d f).2 hc')
      rw [hc] at this
      cases this
  | some f => exact ((h' o d f).1 ((h o d f).2 hc)).symm

theorem readRows_eq {modes : List Mode} (hall : ∀ m, m ∈ modes) {rest : List Str} : ∀ (ps pre : List (ℤ × ℤ × Flags)) (i : In)
    (c : Conn), Has i (ps.map (fun p => lineOf (pairWords p)) ++ rest) → Holds c pre →
    ((pre ++ ps).map fun p => (p.1, p.2.1)).Nodup → (∀ p ∈ ps, Full p.2.2 ∧ IntOk p.1 ∧ IntOk p.2.1) →
    ∃ c' i', Holds c' (pre ++ ps) ∧ Has i' rest ∧ ∀ k, readRows modes (ps.length + k) i c = readRows modes k i' c'
  | [], pre, i, c, hi, hc, _, _ => ⟨c, i, by simpa using hc, by simpa using hi, fun k => by simp⟩
  | p :: ps, pre, i, c, hi, hc, hn, hf => by
    obtain ⟨e1, e2⟩ := getline_spec (by simpa using hi) (getline i).line
    have hnew : c p.1 p.2.1 = none := by
      cases hcp : c p.1 p.2.1 with
      | none => rfl
      | some f =>
        exfalso
        have hm := (hc _ _ _).2 hcp
        rw [List.map_append, List.nodup_append] at hn
        exact hn.2.2 _ (List.mem_map.2 ⟨_, hm, rfl⟩) (p.1, p.2.1) (by simp) rfl
    have hp := hf p (by simp)
    have hstep := readRow_eq hall hnew hp.1 hp.2.1 hp.2.2
    have hc' : Holds (upd c p.1 (upd (c p.1) p.2.1 (some p.2.2))) (pre ++ [p]) := by
      intro o d f
      rw [List.mem_append, List.mem_singleton, hc]
      by_cases ho : o = p.1
      · subst ho
        rw [upd_same]
        by_cases hd : d = p.2.1
        · subst hd
          rw [upd_same, hnew]
          constructor
          · rintro (h | h)
            · cases h
            · rw [← h]
          · intro h
            right
            rw [Option.some.injEq] at h
            rw [← h]
        · rw [upd_other _ _ _ _ hd]
          constructor
          · rintro (h | h)
            · exact h
            · exact (hd (by rw [← h])).elim
          · exact Or.inl
      · rw [upd_other _ _ _ _ ho]
        constructor
        · rintro (h | h)
          · exact h
          · exact (ho (by rw [← h])).elim
        · exact Or.inl
    obtain ⟨c', i', h1, h2, h3⟩ := readRows_eq hall (rest := rest) ps (pre ++ [p]) (getline i) _ e2 hc'
      (by simpa using hn) fun q hq => hf q (by simp [hq])
    refine ⟨c', i', by simpa using h1, h2, fun k => ?_⟩
    rw [List.length_cons, Nat.add_right_comm, readRows, e1, hstep, Res.bind_ok', h3 k]

theorem linesOf_header (t : Str) : linesOf (header ++ t) = header.dropLast :: linesOf t := by
  have h1 : header = header.dropLast ++ ['\n'] := by decide +kernel
  have h2 : '\n' ∉ header.dropLast := by decide +kernel
  unfold linesOf
  rw [h1, List.append_assoc, List.singleton_append, List.splitOn_append_cons_self_of_not_mem (by simpa using h2)]
  simp

/-- Reading what was written, with any number of rows. -/
theorem load_eq {modes : List Mode} (hall : ∀ m, m ∈ modes) {rows : Rows}
    (hf : ∀ p ∈ pairs rows, Full p.2.2 ∧ IntOk p.1 ∧ IntOk p.2.1) (hn : ((pairs rows).map fun p => (p.1, p.2.1)).Nodup)
    (n : ℕ) (hle : n ≤ (pairs rows).length) :
    ∃ c, load modes n (header ++ textOf ((pairs rows).map pairWords)) = .ok c ∧ Holds c ((pairs rows).take n) := by
  have hrows : ∀ ws ∈ (pairs rows).map pairWords, RowOk ws := by
    intro ws hw
    obtain ⟨p, -, rfl⟩ := List.mem_map.1 hw
    exact pairWords_ok p
  have hh := has_open (header ++ textOf ((pairs rows).map pairWords))
  rw [linesOf_header, linesOf_text hrows] at hh
  obtain ⟨-, e2⟩ := getline_spec hh (getline (In.open (header ++ textOf ((pairs rows).map pairWords)))).line
  rw [List.map_map] at e2
  have hsplit : (pairs rows).map (lineOf ∘ pairWords) = ((pairs rows).take n).map (fun p => lineOf (pairWords p)) ++
      ((pairs rows).drop n).map (fun p => lineOf (pairWords p)) := by
    rw [← List.map_append, List.take_append_drop]
    rfl
  rw [hsplit, List.append_assoc] at e2
  obtain ⟨c, i, h1, -, h3⟩ := readRows_eq hall ((pairs rows).take n) [] _ (fun _ _ => none) e2
    (by intro o d f; simp) (by simpa [← List.map_take] using hn.sublist (List.take_sublist n _))
    fun p hp => hf p (List.mem_of_mem_take hp)
  refine ⟨c, ?_, by simpa using h1⟩
  have := h3 0
  rw [List.length_take, Nat.min_eq_left hle, Nat.add_zero] at this
  unfold load
  rw [this]
  rfl

theorem load_more {modes : List Mode} (hall : ∀ m, m ∈ modes) {rows : Rows}
    (hf : ∀ p ∈ pairs rows, Full p.2.2 ∧ IntOk p.1 ∧ IntOk p.2.1) (hn : ((pairs rows).map fun p => (p.1, p.2.1)).Nodup)
    (n : ℕ) (hlt : (pairs rows).length < n) :
    load modes n (header ++ textOf ((pairs rows).map pairWords)) = .throw "number of modes is not correct" := by
  have hrows : ∀ ws ∈ (pairs rows).map pairWords, RowOk ws := by
    intro ws hw
    obtain ⟨p, -, rfl⟩ := List.mem_map.1 hw
    exact pairWords_ok p
  have hh := has_open (header ++ textOf ((pairs rows).map pairWords))
  rw [linesOf_header, linesOf_text hrows] at hh
  obtain ⟨-, e2⟩ := getline_spec hh (getline (In.open (header ++ textOf ((pairs rows).map pairWords)))).line
  rw [List.map_map] at e2
  obtain ⟨c, i, -, h2, h3⟩ := readRows_eq hall (pairs rows) [] _ (fun _ _ => none) e2
    (by intro o d f; simp) (by simpa using hn) hf
  obtain ⟨k, rfl⟩ : ∃ k, n = (pairs rows).length + (k + 1) := ⟨n - (pairs rows).length - 1, by omega⟩
  have := h3 (k + 1)
  unfold load
  rw [this, readRows, (getline_spec h2 []).1]
  rfl

/-! ## The table -/

theorem put_eq (pre l post : List (Option ℤ)) (i k : ℕ) (hi : i = pre.length) (hk : k < l.length) (v : ℤ) :
    put (pre ++ (l ++ post)) (i + k) v = .ok (pre ++ (l.set k (some v) ++ post)) := by
  subst hi
  unfold put
  rw [if_pos (by simp only [List.length_append]; omega), List.set_append_right _ _ (by omega), Nat.add_sub_cancel_left,
    List.set_append_left _ _ hk]

/-- A flag in the table. -/
def cell (f : Option Bool) : Option ℤ := f.map fun b => if b then 1 else 0

/-- A flag written into the table. -/
def putFlag (f : Flags) (i : ℕ) (a : List (Option ℤ)) (m : Mode × ℕ) : Res (List (Option ℤ)) :=
  match f m.1 with
  | none => .ok a
  | some b => put a (i * 5 + m.2) (if b then 1 else 0)

theorem putFlags_def (f : Flags) (i : ℕ) (a : List (Option ℤ)) :
    putFlags f i a = Res.foldlM (putFlag f i) a [(.driving, 2), (.transit, 3), (.pnr, 4)] := rfl

theorem putFlag_eq (pre l post : List (Option ℤ)) (i : ℕ) (hi : i * 5 = pre.length) (f : Flags) (m : Mode) (k : ℕ)
    (hk : k < l.length) (hnone : l[k] = none) :
    putFlag f i (pre ++ (l ++ post)) (m, k) = .ok (pre ++ (l.set k (cell (f m)) ++ post)) := by
  unfold putFlag
  simp only
  cases f m with
  | none =>
    simp only [cell, Option.map_none]
    rw [← hnone, List.set_getElem_self]
  | some b => exact put_eq _ _ _ _ _ hi hk _

theorem putFlags_eq (pre post : List (Option ℤ)) (i : ℕ) (hi : i * 5 = pre.length) (a b : Option ℤ) (f : Flags) :
    putFlags f i (pre ++ ([a, b, none, none, none] ++ post)) =
      .ok (pre ++ ([a, b, cell (f .driving), cell (f .transit), cell (f .pnr)] ++ post)) := by
  rw [putFlags_def, Res.foldlM_cons, putFlag_eq pre _ post i hi f .driving 2 (by simp) rfl, Res.ok_bind,
    Res.foldlM_cons, putFlag_eq pre _ post i hi f .transit 3 (by simp) rfl, Res.ok_bind,
    Res.foldlM_cons, putFlag_eq pre _ post i hi f .pnr 4 (by simp) rfl, Res.ok_bind, Res.foldlM_nil]
  rfl

/-- The row of a pair; `o` is what stands in the first column. -/
def cells (o : Option ℤ) (e : ℤ × Flags) : List (Option ℤ) :=
  [o, some e.1, cell (e.2 .driving), cell (e.2 .transit), cell (e.2 .pnr)]

theorem put_step (pre post : List (Option ℤ)) (i : ℕ) (hi : i * 5 = pre.length) (o : Option ℤ) (e : ℤ × Flags) :
    ((put (pre ++ (o :: List.replicate 4 none ++ post)) (i * 5 + 1) e.1).bind fun a => (putFlags e.2 i a).bind fun a =>
      Res.ok (i + 1, a)) = .ok (i + 1, pre ++ cells o e ++ post) := by
  rw [put_eq pre (o :: List.replicate 4 none) post _ 1 hi (by simp), Res.bind_ok']
  have : (o :: List.replicate 4 none).set 1 (some e.1) = [o, some e.1, none, none, none] := rfl
  rw [this, putFlags_eq pre post i hi, Res.bind_ok', List.append_assoc]
  rfl

theorem blank_split (k : ℕ) : List.replicate ((k + 1) * 5) (none : Option ℤ) =
    none :: List.replicate 4 none ++ List.replicate (k * 5) none := by
  rw [Nat.succ_mul, Nat.add_comm, List.replicate_add]
  rfl

theorem tableDests_eq : ∀ (es : List (ℤ × Flags)) (pre : List (Option ℤ)) (i k : ℕ), i * 5 = pre.length → es.length ≤ k →
    Res.foldlM (fun (s : ℕ × List (Option ℤ)) (e : ℤ × Flags) =>
        (put s.2 (s.1 * 5 + 1) e.1).bind fun a => (putFlags e.2 s.1 a).bind fun a => .ok (s.1 + 1, a))
      (i, pre ++ List.replicate (k * 5) none) es =
      .ok (i + es.length, pre ++ es.flatMap (cells none) ++ List.replicate ((k - es.length) * 5) none)
  | [], pre, i, k, _, _ => by simp [Res.foldlM_nil]
  | e :: es, pre, i, 0, _, hk => by simp at hk
  | e :: es, pre, i, k + 1, hi, hk => by
    rw [Res.foldlM_cons, blank_split]
    simp only
    rw [put_step pre _ i hi none e, Res.ok_bind, tableDests_eq es (pre ++ cells none e) (i + 1) k
      (by simp [cells]; omega) (by simpa using hk)]
    simp only [List.flatMap_cons, List.length_cons, List.append_assoc, Nat.add_sub_add_right]
    rw [Nat.add_assoc, Nat.add_comm 1]

/-- The rows of an origin: its number stands in the first of them only. -/
def block (r : ℤ × List (ℤ × Flags)) : List (Option ℤ) :=
  match r.2 with
  | [] => []
  | e :: es => cells (some r.1) e ++ es.flatMap (cells none)

theorem block_length (r : ℤ × List (ℤ × Flags)) : (block r).length = r.2.length * 5 := by
  have h : ∀ es : List (ℤ × Flags), (es.flatMap (cells none)).length = es.length * 5 := by
    intro es
    induction es with
    | nil => rfl
    | cons e es ih => simp [ih, cells]; omega
  unfold block
  cases r.2 with
  | nil => rfl
  | cons e es => simp [h, cells]; omega

theorem tableOrigin_eq (r : ℤ × List (ℤ × Flags)) (hr : r.2 ≠ []) (pre : List (Option ℤ)) (i k : ℕ) (hi : i * 5 = pre.length)
    (hk : r.2.length ≤ k) :
    ((put (pre ++ List.replicate (k * 5) none) (i * 5) r.1).bind fun a =>
      Res.foldlM (fun (s : ℕ × List (Option ℤ)) (e : ℤ × Flags) =>
        (put s.2 (s.1 * 5 + 1) e.1).bind fun a => (putFlags e.2 s.1 a).bind fun a => .ok (s.1 + 1, a)) (i, a) r.2) =
      .ok (i + r.2.length, pre ++ block r ++ List.replicate ((k - r.2.length) * 5) none) := by
  obtain ⟨o, es⟩ := r
  cases es with
  | nil => exact (hr rfl).elim
  | cons e es =>
    cases k with
    | zero => simp at hk
    | succ k =>
      rw [blank_split]
      have := put_eq pre (none :: List.replicate 4 none) (List.replicate (k * 5) none) (i * 5) 0 hi (by simp) o
      rw [Nat.add_zero] at this
      rw [this, Res.bind_ok', Res.foldlM_cons, List.set_cons_zero]
      simp only
      rw [put_step pre _ i hi (some o) e, Res.ok_bind, tableDests_eq es (pre ++ cells (some o) e) (i + 1) k
        (by simp [cells]; omega) (by simpa using hk)]
      simp only [block, List.length_cons, List.append_assoc, Nat.add_sub_add_right]
      rw [Nat.add_assoc, Nat.add_comm 1]

theorem pairs_length_cons (r : ℤ × List (ℤ × Flags)) (rows : Rows) :
    (pairs (r :: rows)).length = r.2.length + (pairs rows).length := by simp [pairs_cons]

theorem tableFold_eq : ∀ (rows : Rows) (pre : List (Option ℤ)) (i k : ℕ), (∀ r ∈ rows, r.2 ≠ []) → i * 5 = pre.length →
    (pairs rows).length ≤ k →
    Res.foldlM (fun (s : ℕ × List (Option ℤ)) (r : ℤ × List (ℤ × Flags)) =>
      (put s.2 (s.1 * 5) r.1).bind fun a =>
        Res.foldlM (fun (s : ℕ × List (Option ℤ)) (e : ℤ × Flags) =>
          (put s.2 (s.1 * 5 + 1) e.1).bind fun a => (putFlags e.2 s.1 a).bind fun a => .ok (s.1 + 1, a))
          (s.1, a) r.2) (i, pre ++ List.replicate (k * 5) none) rows =
      .ok (i + (pairs rows).length, pre ++ rows.flatMap block ++ List.replicate ((k - (pairs rows).length) * 5) none)
  | [], pre, i, k, _, _, _ => by simp [Res.foldlM_nil, pairs]
  | r :: rows, pre, i, k, hne, hi, hk => by
    rw [pairs_length_cons] at hk
    rw [Res.foldlM_cons]
    simp only
    rw [tableOrigin_eq r (hne r (by simp)) pre i k hi (by omega), Res.ok_bind,
      tableFold_eq rows (pre ++ block r) (i + r.2.length) (k - r.2.length) (fun q hq => hne q (by simp [hq]))
        (by rw [List.length_append, block_length]; omega) (by omega), pairs_length_cons]
    simp only [List.flatMap_cons, List.append_assoc]
    rw [Nat.add_assoc, Nat.sub_sub]

theorem table_eq {n : ℕ} {rows : Rows} (hne : ∀ r ∈ rows, r.2 ≠ []) (hn : (pairs rows).length ≤ n) :
    table n rows = .ok (rows.flatMap block ++ List.replicate ((n - (pairs rows).length) * 5) none) := by
  unfold table
  have := tableFold_eq rows [] 0 n hne rfl hn
  rw [List.nil_append] at this
  rw [this, Res.bind_ok', List.nil_append]

/-! ## Files of demand -/

theorem ones (n : ℕ) (a : Str) :
    (a ++ ' ' :: (List.replicate n ['1', ' ']).flatten).dropLast = lineOf (a :: List.replicate n ['1']) := by
  induction n generalizing a with
  | zero => simp [lineOf_single]
  | succ n ih =>
    rw [lineOf_cons _ _ (by simp), List.replicate_succ, List.flatten_cons, List.replicate_succ, ← ih]
    rw [show a ++ ' ' :: (['1', ' '] ++ (List.replicate n ['1', ' ']).flatten) =
      (a ++ [' ']) ++ (['1'] ++ ' ' :: (List.replicate n ['1', ' ']).flatten) by simp]
    rw [List.dropLast_append_of_ne_nil (by simp)]
    simp

theorem demandText_eq (o d : ℤ) (n : ℕ) :
    demandText o d n = lineOf (toStr o :: toStr d :: List.replicate n ['1']) ++ ['\n'] := by
  unfold demandText
  rw [lineOf_cons _ _ (by simp), ← ones]
  rw [show toStr o ++ ' ' :: (toStr d ++ ' ' :: (List.replicate n ['1', ' ']).flatten) =
    (toStr o ++ [' ']) ++ (toStr d ++ ' ' :: (List.replicate n ['1', ' ']).flatten) by simp]
  rw [List.dropLast_append_of_ne_nil (by simp)]
  simp

end Verif.MmConn
