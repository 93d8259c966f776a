import Verif.Spec.Text
import Mathlib.Tactic.IntervalCases
import Mathlib.Data.List.Basic

namespace Verif.Text

theorem mem_takeWhile_pos {α : Type} {p : α → Bool} {l : List α} {a : α} (h : a ∈ l.takeWhile p) : p a = true := by
  induction l with
  | nil => simp at h
  | cons b l ih =>
    by_cases hb : p b
    · rw [List.takeWhile_cons_of_pos hb, List.mem_cons] at h
      rcases h with rfl | h
      · exact hb
      · exact ih h
    · rw [List.takeWhile_cons_of_neg hb] at h; simp at h

theorem takeWhile_all {α : Type} {p : α → Bool} {l : List α} (h : ∀ a ∈ l, p a = true) : l.takeWhile p = l := by
  induction l with
  | nil => rfl
  | cons b l ih =>
    rw [List.takeWhile_cons_of_pos (h b (by simp)), ih fun a ha => h a (by simp [ha])]

theorem isSpace_iff (c : Char) : isSpace c = decide (c ∈ [' ', '\t', '\n', '\x0b', '\x0c', '\r']) := by
  rw [Bool.eq_iff_iff]
  simp [isSpace, or_assoc]

theorem isSpace_eq : isSpace = fun c => decide (c ∈ [' ', '\t', '\n', '\x0b', '\x0c', '\r']) :=
  funext isSpace_iff

theorem trim_eq (s : Str) : trim s = strip s := by
  unfold trim ltrim rtrim strip
  rw [isSpace_eq]

/-! ### Words -/

theorem splitOn_dropSep (sep : Char) (s : Str) :
    (s.splitOn sep).filter (· ≠ []) = ((s.dropWhile (· == sep)).splitOn sep).filter (· ≠ []) := by
  induction s with
  | nil => rfl
  | cons c s ih =>
    by_cases h : c == sep
    · rw [List.dropWhile_cons_of_pos (p := (· == sep)) h, ← ih, List.splitOn_cons_eq_if_modifyHead, if_pos h]
      simp
    · rw [List.dropWhile_cons_of_neg (p := (· == sep)) h]

theorem splitGo_eq (sep : Char) : ∀ (fuel : ℕ) (s : Str), s.length < fuel →
    splitGo sep fuel s = (s.splitOn sep).filter (· ≠ []) := by
  intro fuel
  induction fuel with
  | zero => intro s h; omega
  | succ fuel ih =>
    intro s h
    rw [splitOn_dropSep, splitGo]
    have hlen : (s.dropWhile (· == sep)).length ≤ s.length := (List.dropWhile_sublist _).length_le
    have hh : ∀ c r, s.dropWhile (· == sep) = c :: r → (c == sep) = false := by
      intro c r e
      have := List.head_dropWhile_not (p := (· == sep)) (l := s) (by rw [e]; simp)
      simpa [e] using this
    generalize s.dropWhile (· == sep) = t at hlen hh ⊢
    cases t with
    | nil => simp
    | cons c r =>
      have hc := hh c r rfl
      have hw : (c :: r).takeWhile (· != sep) ≠ [] := by
        rw [List.takeWhile_cons_of_pos (by simp only [bne, hc, Bool.not_false])]; simp
      have hsplit := List.takeWhile_append_dropWhile (p := (· != sep)) (l := c :: r)
      have hnot : sep ∉ (c :: r).takeWhile (· != sep) := by
        intro hm
        have := mem_takeWhile_pos hm
        simp at this
      simp only
      cases hd : (c :: r).dropWhile (· != sep) with
      | nil =>
        rw [hd, List.append_nil] at hsplit
        simp only
        rw [hsplit] at hnot ⊢
        rw [List.splitOn_eq_singleton hnot]
        simp
      | cons x r' =>
        simp only
        have hx : x = sep := by
          have := List.head_dropWhile_not (p := (· != sep)) (l := c :: r) (by rw [hd]; simp)
          simpa [hd] using this
        subst hx
        rw [hd] at hsplit
        have hl : r'.length < fuel := by
          have := congrArg List.length hsplit
          simp only [List.length_append, List.length_cons] at this
          simp only [List.length_cons] at hlen
          have hpos := List.length_pos_iff.2 hw
          omega
        rw [ih r' hl]
        generalize (c :: r).takeWhile (· != x) = w at *
        rw [← hsplit, List.splitOn_append_cons_self_of_not_mem hnot]
        simp [hw]

theorem split_eq (s : Str) : split s ' ' = wordsOf s := splitGo_eq ' ' _ s (by omega)

/-! ### Numbers -/

theorem digit_ok : ∀ d < 10, (Char.ofNat (48 + d)).isDigit = true ∧ (Char.ofNat (48 + d)).toNat - 48 = d := by
  decide

theorem decGo_spec : ∀ (fuel n : ℕ) (acc : Str), n < fuel → ∃ ds : Str, decGo fuel n acc = ds ++ acc ∧
    ds ≠ [] ∧ (∀ c ∈ ds, c.isDigit = true) ∧ digitsVal ds = n := by
  intro fuel
  induction fuel with
  | zero => intro n acc h; omega
  | succ fuel ih =>
    intro n acc h
    obtain ⟨h1, h2⟩ := digit_ok (n % 10) (Nat.mod_lt _ (by omega))
    simp only [decGo]
    by_cases hz : n / 10 = 0
    · rw [if_pos hz]
      refine ⟨[Char.ofNat (48 + n % 10)], rfl, by simp, by simpa using h1, ?_⟩
      simp only [digitsVal, List.foldl_cons, List.foldl_nil, h2]
      omega
    · rw [if_neg hz]
      obtain ⟨ds, e1, e2, e3, e4⟩ := ih (n / 10) (Char.ofNat (48 + n % 10) :: acc) (by omega)
      refine ⟨ds ++ [Char.ofNat (48 + n % 10)], by rw [e1]; simp, by simp, ?_, ?_⟩
      · intro c hc
        rcases List.mem_append.1 hc with hc | hc
        · exact e3 c hc
        · rw [List.mem_singleton.1 hc]; exact h1
      · unfold digitsVal at e4 ⊢
        rw [List.foldl_append, e4]
        simp only [List.foldl_cons, List.foldl_nil, h2]
        omega

theorem toStr_spec (n : ℤ) : ∃ ds : Str, ds ≠ [] ∧ (∀ c ∈ ds, c.isDigit = true) ∧
    digitsVal ds = n.natAbs ∧ toStr n = if n < 0 then '-' :: ds else ds := by
  obtain ⟨ds, e1, e2, e3, e4⟩ := decGo_spec (n.natAbs + 1) n.natAbs [] (by omega)
  refine ⟨ds, e2, e3, e4, ?_⟩
  rw [List.append_nil] at e1
  unfold toStr
  rw [e1]

theorem not_space_of_digit {c : Char} (h : c.isDigit = true) : isSpace c = false := by
  unfold Char.isDigit at h
  rw [isSpace_iff]
  simp only [decide_eq_false_iff_not, List.mem_cons, List.not_mem_nil, or_false]
  rintro (rfl | rfl | rfl | rfl | rfl | rfl) <;> simp at h

theorem sign_digit {ds : Str} (h : ∀ c ∈ ds, c.isDigit = true) : sign ds = (false, ds) := by
  unfold sign
  split
  · have := h '-' (by simp); simp at this
  · have := h '+' (by simp); simp at this
  · rfl

theorem takeWhile_digits {ds : Str} (h : ∀ c ∈ ds, c.isDigit = true) : ds.takeWhile Char.isDigit = ds :=
  takeWhile_all h

theorem stoi_toStr (n : ℤ) (h : -2147483648 ≤ n ∧ n ≤ 2147483647) : stoi (toStr n) = .ok n := by
  obtain ⟨ds, e1, e2, e3, e4⟩ := toStr_spec n
  obtain ⟨c, r, rfl⟩ := List.exists_cons_of_ne_nil e1
  unfold stoi
  by_cases hn : n < 0
  · rw [if_pos hn] at e4
    rw [e4, List.dropWhile_cons_of_neg (by decide)]
    simp only [sign, takeWhile_digits e2, List.cons_ne_nil, if_false, if_true, e3]
    rw [if_pos (by omega)]
    congr 1; omega
  · rw [if_neg hn] at e4
    rw [e4, List.dropWhile_cons_of_neg (by rw [not_space_of_digit (e2 c (by simp))]; simp), sign_digit e2]
    simp only [takeWhile_digits e2, List.cons_ne_nil, if_false, e3, Bool.false_eq_true]
    rw [if_pos (by omega)]
    congr 1; omega

theorem stoi_toStr_out (n : ℤ) (h : ¬ (-2147483648 ≤ n ∧ n ≤ 2147483647)) :
    stoi (toStr n) = .throw "out_of_range" := by
  obtain ⟨ds, e1, e2, e3, e4⟩ := toStr_spec n
  obtain ⟨c, r, rfl⟩ := List.exists_cons_of_ne_nil e1
  unfold stoi
  by_cases hn : n < 0
  · rw [if_pos hn] at e4
    rw [e4, List.dropWhile_cons_of_neg (by decide)]
    simp only [sign, takeWhile_digits e2, List.cons_ne_nil, if_false, if_true, e3]
    rw [if_neg (by omega)]
  · rw [if_neg hn] at e4
    rw [e4, List.dropWhile_cons_of_neg (by rw [not_space_of_digit (e2 c (by simp))]; simp), sign_digit e2]
    simp only [takeWhile_digits e2, List.cons_ne_nil, if_false, e3, Bool.false_eq_true]
    rw [if_neg (by omega)]

/-! ### Reading lines -/

/-- The stream still has these lines to give. -/
def Has (i : In) (ps : List Str) : Prop :=
  (ps = [] ∧ i.good = false) ∨ (i.good = true ∧ linesOf i.rest = ps)

theorem Has.ne_nil {i : In} {ps : List Str} (h : Has i ps) (hg : i.good = true) : ps ≠ [] := by
  rcases h with ⟨_, h⟩ | ⟨_, h⟩
  · rw [hg] at h; simp at h
  · rw [← h]; exact List.splitOn_ne_nil _ _

theorem has_open (content : Str) : Has (In.open content) (linesOf content) := Or.inr ⟨rfl, rfl⟩

theorem getline_spec {i : In} {p : Str} {ps : List Str} (h : Has i (p :: ps)) (l : Str) :
    (getline i).line = p ∧ Has { getline i with line := l } ps := by
  rcases h with ⟨h, _⟩ | ⟨hg, h⟩
  · simp at h
  · unfold getline
    rw [if_pos hg]
    have hsplit := List.takeWhile_append_dropWhile (p := (· != '\n')) (l := i.rest)
    have hnot : '\n' ∉ i.rest.takeWhile (· != '\n') := by
      intro hm
      have := mem_takeWhile_pos hm
      simp at this
    unfold linesOf at h
    simp only
    cases hd : i.rest.dropWhile (· != '\n') with
    | nil =>
      rw [hd, List.append_nil] at hsplit
      rw [hsplit] at hnot
      rw [List.splitOn_eq_singleton hnot] at h
      simp only [List.cons.injEq] at h
      exact ⟨by rw [hsplit]; exact h.1, Or.inl ⟨h.2.symm, rfl⟩⟩
    | cons x r' =>
      have hx : x = '\n' := by
        have := List.head_dropWhile_not (p := (· != '\n')) (l := i.rest) (by rw [hd]; simp)
        simpa [hd] using this
      subst hx
      rw [hd] at hsplit
      generalize i.rest.takeWhile (· != '\n') = w at *
      rw [← hsplit, List.splitOn_append_cons_self_of_not_mem hnot] at h
      simp only [List.cons.injEq] at h
      exact ⟨h.1, Or.inr ⟨rfl, h.2⟩⟩

theorem getline_done {i : In} (h : Has i []) : getline i = i := by
  rcases h with ⟨_, h⟩ | ⟨_, h⟩
  · unfold getline; rw [h]; simp
  · exact absurd h (List.splitOn_ne_nil _ _)

theorem notRow_iff (l : Str) : (l = [] ∨ l.head? = some '#') ↔ isRow l = false := by
  unfold isRow
  by_cases h : l = [] <;> simp [h]

theorem not_row {l : Str} (h : isRow l = false) : l = [] ∨ l.head? = some '#' := (notRow_iff l).2 h

theorem is_row {l : Str} (h : isRow l = true) : ¬(l = [] ∨ l.head? = some '#') := by
  rw [notRow_iff]; simp [h]

/-- Rows of a list of lines. -/
def rowsIn (ps : List Str) : List Str := (ps.map strip).filter isRow

variable {σ : Type} {body : σ → Str → Res σ}

theorem dropWhile_idem {α : Type} (p : α → Bool) (l : List α) :
    (l.dropWhile p).dropWhile p = l.dropWhile p := by
  induction l with
  | nil => rfl
  | cons a l ih =>
    by_cases h : p a
    · rw [List.dropWhile_cons_of_pos h, ih]
    · rw [List.dropWhile_cons_of_neg h, List.dropWhile_cons_of_neg h]

theorem dropWhile_eq_self_suffix {α : Type} {p : α → Bool} {l : List α} (h : l.dropWhile p = l) :
    ∀ a r, l = a :: r → p a = false := by
  rintro a r rfl
  by_contra hp
  rw [List.dropWhile_cons_of_pos (by simpa using hp)] at h
  have := (List.dropWhile_sublist p (l := r)).length_le
  rw [h] at this
  simp at this

theorem rdrop_dropWhile {α : Type} (p : α → Bool) (l : List α)
    (h : l.reverse.dropWhile p = l.reverse) :
    ((l.dropWhile p).reverse).dropWhile p = (l.dropWhile p).reverse := by
  have hs : (l.dropWhile p) <:+ l := List.dropWhile_suffix p
  have hp : (l.dropWhile p).reverse <+: l.reverse := List.reverse_prefix.2 hs
  cases hc : (l.dropWhile p).reverse with
  | nil => rfl
  | cons a r =>
    rw [hc] at hp
    obtain ⟨t, ht⟩ := hp
    have := dropWhile_eq_self_suffix h a (r ++ t) (by rw [← ht]; rfl)
    rw [List.dropWhile_cons_of_neg (by simpa using this)]

/-- Stripping twice is stripping once. -/
theorem strip_strip (s : Str) : strip (strip s) = strip s := by
  unfold strip
  generalize (fun c : Char => decide (c ∈ [' ', '\t', '\n', '\x0b', '\x0c', '\r'])) = p
  have h1 : (((s.reverse.dropWhile p).reverse).reverse).dropWhile p = ((s.reverse.dropWhile p).reverse).reverse := by
    rw [List.reverse_reverse]; exact dropWhile_idem p _
  rw [rdrop_dropWhile p _ h1, List.reverse_reverse, dropWhile_idem]

theorem readLoop_step {ps : List Str} {p : Str} {i : In} (h : Has i (p :: ps)) (fuel n : ℕ) (s : σ) :
    ∃ i', Has i' ps ∧ i'.line = strip p ∧
      readLoop body (fuel + 1) (n + 1) i s =
        if isRow (strip p) then (body s (strip p)).bind fun s' => readLoop body fuel n i' s'
        else readLoop body fuel (n + 1) i' s := by
  obtain ⟨h1, h2⟩ := getline_spec h (strip p)
  refine ⟨_, h2, rfl, ?_⟩
  rw [readLoop]
  simp only [h1, trim_eq]
  cases hr : isRow (strip p)
  · rw [if_pos (not_row hr)]; simp
  · rw [if_neg (is_row hr)]; simp

theorem readLoop_done {i : In} (h : Has i []) (hl : strip i.line = i.line) (fuel n : ℕ) (s : σ) :
    readLoop body (fuel + 1) (n + 1) i s =
      if isRow i.line then (body s i.line).bind fun s' => readLoop body fuel n i s'
      else readLoop body fuel (n + 1) i s := by
  have hg := getline_done h
  rw [readLoop]
  simp only [hg, trim_eq, hl]
  cases hr : isRow i.line
  · rw [if_pos (not_row hr)]; simp
  · rw [if_neg (is_row hr)]; simp

theorem fst_bind {α : Type} (x : Res α) (f : α → Res (σ × In)) :
    (x.bind f).bind (fun r => Res.ok r.1) = x.bind fun a => (f a).bind fun r => .ok r.1 := by
  cases x <;> rfl

theorem readLoop_enough : ∀ (ps : List Str) (n fuel : ℕ) (i : In) (s : σ), Has i ps →
    n ≤ (rowsIn ps).length → ps.length ≤ fuel →
    (readLoop body fuel n i s).bind (fun r => .ok r.1) = Res.foldlM body s ((rowsIn ps).take n) := by
  intro ps
  induction ps with
  | nil =>
    intro n fuel i s _ hn _
    have : n = 0 := by simpa [rowsIn] using hn
    subst this
    cases fuel <;> rfl
  | cons p ps ih =>
    intro n fuel i s h hn hf
    cases n with
    | zero => cases fuel <;> rfl
    | succ n =>
      obtain ⟨fuel, rfl⟩ : ∃ f, fuel = f + 1 := ⟨fuel - 1, by simp at hf; omega⟩
      obtain ⟨i', h1, _, h3⟩ := readLoop_step (body := body) h fuel n s
      rw [h3]
      simp only [List.length_cons] at hf
      simp only [rowsIn, List.map_cons] at hn ⊢
      cases hr : isRow (strip p)
      · rw [List.filter_cons_of_neg (by simp [hr])] at hn ⊢
        simp only [Bool.false_eq_true, if_false]
        exact ih (n + 1) fuel i' s h1 hn (by omega)
      · rw [List.filter_cons_of_pos hr] at hn ⊢
        simp only [if_true, List.take_succ_cons, List.length_cons] at hn ⊢
        rw [fst_bind, Res.foldlM]
        congr 1
        funext s'
        exact ih n fuel i' s' h1 (by unfold rowsIn; omega) (by omega)

/-- At the end of the file with a row in the line variable: the row is read again and again. -/
theorem readLoop_repeat : ∀ (n fuel : ℕ) (i : In) (s : σ), Has i [] → strip i.line = i.line →
    isRow i.line = true → n ≤ fuel →
    (readLoop body fuel n i s).bind (fun r => .ok r.1) = Res.foldlM body s (List.replicate n i.line) := by
  intro n
  induction n with
  | zero => intro fuel i s _ _ _ _; cases fuel <;> rfl
  | succ n ih =>
    intro fuel i s h hl hr hf
    obtain ⟨fuel, rfl⟩ : ∃ f, fuel = f + 1 := ⟨fuel - 1, by omega⟩
    rw [readLoop_done h hl, hr, if_pos rfl, fst_bind, List.replicate_succ, Res.foldlM]
    congr 1
    funext s'
    exact ih fuel i s' h hl hr (by omega)

/-- At the end of the file with something else in the line variable: the loop does not end. -/
theorem readLoop_hang : ∀ (fuel n : ℕ) (i : In) (s : σ), Has i [] → strip i.line = i.line →
    isRow i.line = false → readLoop body fuel (n + 1) i s = .diverge := by
  intro fuel
  induction fuel with
  | zero => intro n i s _ _ _; rfl
  | succ fuel ih =>
    intro n i s h hl hr
    rw [readLoop_done h hl, hr]
    simp only [Bool.false_eq_true, if_false]
    exact ih n i s h hl hr

theorem readLoop_short : ∀ (ps : List Str) (n fuel : ℕ) (i : In) (s : σ) (q : Str), Has i (q :: ps) →
    (rowsIn (q :: ps)).length < n → isRow (strip ((q :: ps).getLast (by simp))) = true →
    (q :: ps).length + n ≤ fuel →
    (readLoop body fuel n i s).bind (fun r => .ok r.1) = Res.foldlM body s
      (rowsIn (q :: ps) ++ List.replicate (n - (rowsIn (q :: ps)).length) (strip ((q :: ps).getLast (by simp)))) := by
  intro ps
  induction ps with
  | nil =>
    intro n fuel i s q h hn hl hf
    obtain ⟨n, rfl⟩ : ∃ k, n = k + 1 := ⟨n - 1, by omega⟩
    obtain ⟨fuel, rfl⟩ : ∃ f, fuel = f + 1 := ⟨fuel - 1, by simp at hf; omega⟩
    obtain ⟨i', h1, h2, h3⟩ := readLoop_step (body := body) h fuel n s
    simp only [List.getLast_singleton] at hl ⊢
    rw [h3, hl, if_pos rfl, fst_bind]
    simp only [rowsIn, List.map_cons, List.map_nil]
    rw [List.filter_cons_of_pos hl]
    simp only [List.filter_nil, List.length_cons, List.length_nil, List.cons_append, List.nil_append,
      Res.foldlM, Nat.add_sub_cancel, Nat.zero_add]
    congr 1
    funext s'
    rw [← h2]
    refine readLoop_repeat n fuel i' s' h1 (by rw [h2, strip_strip]) (by rw [h2]; exact hl) ?_
    simp only [List.length_cons, List.length_nil] at hf
    omega
  | cons p ps ih =>
    intro n fuel i s q h hn hl hf
    obtain ⟨n, rfl⟩ : ∃ k, n = k + 1 := ⟨n - 1, by omega⟩
    obtain ⟨fuel, rfl⟩ : ∃ f, fuel = f + 1 := ⟨fuel - 1, by simp at hf; omega⟩
    obtain ⟨i', h1, h2, h3⟩ := readLoop_step (body := body) h fuel n s
    have hlast : (q :: p :: ps).getLast (by simp) = (p :: ps).getLast (by simp) := by simp
    rw [h3]
    rw [hlast] at hl ⊢
    have hrow : rowsIn (q :: p :: ps) = if isRow (strip q) then strip q :: rowsIn (p :: ps) else rowsIn (p :: ps) := by
      unfold rowsIn
      rw [List.map_cons, List.filter_cons]
    rw [hrow] at hn ⊢
    simp only [List.length_cons] at hf ih
    cases hr : isRow (strip q)
    · rw [hr] at hn
      simp only [Bool.false_eq_true, if_false] at hn ⊢
      exact ih (n + 1) fuel i' s p h1 hn hl (by omega)
    · rw [hr] at hn
      simp only [if_true, List.length_cons, List.cons_append, Res.foldlM] at hn ⊢
      rw [fst_bind]
      congr 1
      funext s'
      rw [ih n fuel i' s' p h1 (by omega) hl (by omega)]
      congr 3
      omega

theorem readLoop_never : ∀ (ps : List Str) (n fuel : ℕ) (i : In) (s : σ) (q : Str), Has i (q :: ps) →
    (rowsIn (q :: ps)).length < n → isRow (strip ((q :: ps).getLast (by simp))) = false →
    ∀ s', Res.foldlM body s (rowsIn (q :: ps)) = .ok s' → readLoop body fuel n i s = .diverge := by
  intro ps
  induction ps with
  | nil =>
    intro n fuel i s q h hn hl s' _
    obtain ⟨n, rfl⟩ : ∃ k, n = k + 1 := ⟨n - 1, by omega⟩
    cases fuel with
    | zero => rfl
    | succ fuel =>
      obtain ⟨i', h1, h2, h3⟩ := readLoop_step (body := body) h fuel n s
      simp only [List.getLast_singleton] at hl
      rw [h3, hl]
      simp only [Bool.false_eq_true, if_false]
      exact readLoop_hang fuel n i' s h1 (by rw [h2, strip_strip]) (by rw [h2]; exact hl)
  | cons p ps ih =>
    intro n fuel i s q h hn hl s' he
    obtain ⟨n, rfl⟩ : ∃ k, n = k + 1 := ⟨n - 1, by omega⟩
    cases fuel with
    | zero => rfl
    | succ fuel =>
      obtain ⟨i', h1, h2, h3⟩ := readLoop_step (body := body) h fuel n s
      have hlast : (q :: p :: ps).getLast (by simp) = (p :: ps).getLast (by simp) := by simp
      rw [hlast] at hl
      have hrow : rowsIn (q :: p :: ps) = if isRow (strip q) then strip q :: rowsIn (p :: ps) else rowsIn (p :: ps) := by
        unfold rowsIn
        rw [List.map_cons, List.filter_cons]
      rw [hrow] at hn he
      rw [h3]
      cases hr : isRow (strip q)
      · rw [hr] at hn he
        simp only [Bool.false_eq_true, if_false] at hn he ⊢
        exact ih (n + 1) fuel i' s p h1 hn hl s' he
      · rw [hr] at hn he
        simp only [if_true, List.length_cons] at hn he ⊢
        rw [Res.foldlM_cons, Res.bind_eq_ok] at he
        obtain ⟨s1, e1, e2⟩ := he
        rw [e1]
        exact ih n fuel i' s1 p h1 (by omega) hl s' e2

/-- Short file whose last line is not a row: never a normal return. -/
theorem readLoop_noReturn : ∀ (ps : List Str) (n fuel : ℕ) (i : In) (s : σ) (q : Str), Has i (q :: ps) →
    (rowsIn (q :: ps)).length < n → isRow (strip ((q :: ps).getLast (by simp))) = false →
    ∀ r, readLoop body fuel n i s ≠ .ok r := by
  intro ps n fuel i s q h hn hl r
  by_cases hx : ∃ s', Res.foldlM body s (rowsIn (q :: ps)) = .ok s'
  · obtain ⟨s', hs'⟩ := hx
    rw [readLoop_never ps n fuel i s q h hn hl s' hs']
    simp
  · revert hx hl hn h
    induction ps generalizing n fuel i s q with
    | nil =>
      intro h hn hl _
      obtain ⟨n, rfl⟩ : ∃ k, n = k + 1 := ⟨n - 1, by omega⟩
      cases fuel with
      | zero => simp [readLoop]
      | succ fuel =>
        obtain ⟨i', h1, h2, h3⟩ := readLoop_step (body := body) h fuel n s
        simp only [List.getLast_singleton] at hl
        rw [h3, hl]
        simp only [Bool.false_eq_true, if_false]
        rw [readLoop_hang fuel n i' s h1 (by rw [h2, strip_strip]) (by rw [h2]; exact hl)]
        simp
    | cons p ps ih =>
      intro h hn hl hx
      obtain ⟨n, rfl⟩ : ∃ k, n = k + 1 := ⟨n - 1, by omega⟩
      cases fuel with
      | zero => simp [readLoop]
      | succ fuel =>
        obtain ⟨i', h1, h2, h3⟩ := readLoop_step (body := body) h fuel n s
        have hlast : (q :: p :: ps).getLast (by simp) = (p :: ps).getLast (by simp) := by simp
        rw [hlast] at hl
        have hrow : rowsIn (q :: p :: ps) = if isRow (strip q) then strip q :: rowsIn (p :: ps) else rowsIn (p :: ps) := by
          unfold rowsIn
          rw [List.map_cons, List.filter_cons]
        rw [hrow] at hn hx
        rw [h3]
        cases hr : isRow (strip q)
        · rw [hr] at hn hx
          simp only [Bool.false_eq_true, if_false] at hn hx ⊢
          exact ih (n + 1) fuel i' s p h1 hn hl hx
        · rw [hr] at hn hx
          simp only [if_true, List.length_cons] at hn hx ⊢
          cases hb : body s (strip q) with
          | ok s1 =>
            simp only [Res.bind_ok']
            refine ih n fuel i' s1 p h1 (by omega) hl ?_
            rintro ⟨s', e⟩
            exact hx ⟨s', by rw [Res.foldlM_cons, hb]; exact e⟩
          | throw m => simp
          | ub => simp
          | diverge => simp

/-- A malformed row ends the reading with its exception. -/
theorem readLoop_throw : ∀ (ps : List Str) (n fuel : ℕ) (i : In) (s : σ) (m : String), Has i ps →
    (rowsIn ps).length ≤ n → ps.length ≤ fuel → Res.foldlM body s (rowsIn ps) = .throw m →
    readLoop body fuel n i s = .throw m := by
  intro ps
  induction ps with
  | nil => intro n fuel i s m _ _ _ h; simp [rowsIn] at h
  | cons p ps ih =>
    intro n fuel i s m h hn hf he
    have hrow : rowsIn (p :: ps) = if isRow (strip p) then strip p :: rowsIn ps else rowsIn ps := by
      unfold rowsIn
      rw [List.map_cons, List.filter_cons]
    have hn0 : n ≠ 0 := by
      rintro rfl
      have : rowsIn (p :: ps) = [] := List.length_eq_zero_iff.1 (by omega)
      rw [this] at he; simp at he
    obtain ⟨n, rfl⟩ : ∃ k, n = k + 1 := ⟨n - 1, by omega⟩
    simp only [List.length_cons] at hf
    obtain ⟨fuel, rfl⟩ : ∃ f, fuel = f + 1 := ⟨fuel - 1, by omega⟩
    obtain ⟨i', h1, _, h3⟩ := readLoop_step (body := body) h fuel n s
    rw [h3]
    rw [hrow] at hn he
    cases hr : isRow (strip p)
    · rw [hr] at hn he
      simp only [Bool.false_eq_true, if_false] at hn he ⊢
      exact ih (n + 1) fuel i' s m h1 hn (by omega) he
    · rw [hr] at hn he
      simp only [if_true, List.length_cons, Res.foldlM] at hn he ⊢
      cases hb : body s (strip p) with
      | ok s1 =>
        rw [hb] at he
        exact ih n fuel i' s1 m h1 (by omega) (by omega) he
      | throw m' => rw [hb] at he; simpa using he
      | ub => rw [hb] at he; simp at he
      | diverge => rw [hb] at he; simp at he

/-- Normal return or exception. -/
def Fine {α : Type} (r : Res α) : Prop := (∃ a, r = .ok a) ∨ ∃ m, r = .throw m

theorem Fine.ok {α : Type} (a : α) : Fine (.ok a) := Or.inl ⟨a, rfl⟩
theorem Fine.throw {α : Type} (m : String) : Fine (.throw m : Res α) := Or.inr ⟨m, rfl⟩

theorem Fine.bind {α β : Type} {x : Res α} {f : α → Res β} (h : Fine x) (hf : ∀ a, Fine (f a)) : Fine (x.bind f) := by
  rcases h with ⟨a, rfl⟩ | ⟨m, rfl⟩
  · exact hf a
  · exact Fine.throw m

theorem Fine.foldlM {α β : Type} {f : β → α → Res β} (h : ∀ b a, Fine (f b a)) : ∀ (as : List α) (b : β),
    Fine (Res.foldlM f b as) := by
  intro as
  induction as with
  | nil => intro b; exact Fine.ok b
  | cons a as ih => intro b; exact (h b a).bind ih

theorem Fine.ne {α : Type} {x : Res α} (h : Fine x) : x ≠ .diverge := by
  rcases h with ⟨a, rfl⟩ | ⟨m, rfl⟩ <;> simp

theorem stoi_fine (s : Str) : Fine (stoi s) := by
  unfold stoi
  simp only
  split
  · exact Fine.throw _
  · split <;> split <;> first | exact Fine.ok _ | exact Fine.throw _

theorem stod_fine (s : Str) : Fine (stod s) := by
  unfold stod
  split
  · exact Fine.throw _
  · exact Fine.ok _

end Verif.Text
