import Verif.Spec.Io
import Verif.Lemmas.Text
import Verif.Props.Graph

namespace Verif.Io
open Text Graph

theorem isSpace_strip (c : Char) : decide (c ∈ [' ', '\t', '\n', '\x0b', '\x0c', '\r']) = isSpace c := (isSpace_iff c).symm

/-- A text that neither starts nor ends with a blank is left alone by `strip`. -/
theorem strip_self {s : Str} (h1 : ∀ c r, s = c :: r → isSpace c = false)
    (h2 : ∀ c r, s = r ++ [c] → isSpace c = false) : strip s = s := by
  unfold strip
  have e : (fun c : Char => decide (c ∈ [' ', '\t', '\n', '\x0b', '\x0c', '\r'])) = isSpace := isSpace_eq.symm
  rw [e]
  have e1 : s.reverse.dropWhile isSpace = s.reverse := by
    cases hs : s.reverse with
    | nil => rfl
    | cons c r =>
      have : s = r.reverse ++ [c] := by
        rw [← List.reverse_reverse s, hs]; simp
      rw [List.dropWhile_cons_of_neg]
      rw [h2 c _ this]; simp
  rw [e1, List.reverse_reverse]
  cases s with
  | nil => rfl
  | cons c r =>
    rw [List.dropWhile_cons_of_neg]
    rw [h1 c r rfl]; simp

theorem lineOf_cons (w : Str) (ws : List Str) (h : ws ≠ []) : lineOf (w :: ws) = w ++ ' ' :: lineOf ws := by
  unfold lineOf
  rw [List.intercalate_cons_of_ne_nil h]
  simp

theorem lineOf_single (w : Str) : lineOf [w] = w := by simp [lineOf]

theorem lineOf_head {ws : List Str} (h : ∀ w ∈ ws, WordOk w) :
    ∀ c r, lineOf ws = c :: r → ∃ w ∈ ws, w.head? = some c ∧ ws.head? = some w := by
  cases ws with
  | nil => intro c r e; simp [lineOf] at e
  | cons w ws =>
    intro c r e
    have hw := (h w (by simp)).1
    refine ⟨w, by simp, ?_, rfl⟩
    obtain ⟨a, b, rfl⟩ := List.exists_cons_of_ne_nil hw
    by_cases hn : ws = []
    · subst hn
      rw [lineOf_single] at e
      rw [e]; rfl
    · rw [lineOf_cons _ _ hn] at e
      simp only [List.cons_append, List.cons.injEq] at e
      rw [e.1]; rfl

theorem lineOf_last : ∀ {ws : List Str}, (∀ w ∈ ws, WordOk w) →
    ∀ c r, lineOf ws = r ++ [c] → isSpace c = false := by
  intro ws
  induction ws with
  | nil => intro _ c r e; simp [lineOf] at e
  | cons w ws ih =>
    intro h c r e
    by_cases hn : ws = []
    · subst hn
      rw [lineOf_single] at e
      exact (h w (by simp)).2 c (by rw [e]; simp)
    · rw [lineOf_cons _ _ hn] at e
      have hne : lineOf ws ≠ [] := by
        obtain ⟨w', ws', rfl⟩ := List.exists_cons_of_ne_nil hn
        have hw' := (h w' (by simp)).1
        by_cases hn' : ws' = []
        · subst hn'; rw [lineOf_single]; exact hw'
        · rw [lineOf_cons _ _ hn']; simp
      rcases List.eq_nil_or_concat (lineOf ws) with h0 | ⟨d, b, hd⟩
      · exact absurd h0 hne
      · rw [List.concat_eq_append] at hd
        have : (w ++ ' ' :: d) ++ [b] = r ++ [c] := by
          rw [← e, hd]; simp
        have hb := (List.append_inj' this rfl).2
        simp only [List.cons.injEq, and_true] at hb
        exact ih (fun x hx => h x (by simp [hx])) c d (by rw [hd, hb])

theorem strip_line {ws : List Str} (h : ∀ w ∈ ws, WordOk w) : strip (lineOf ws) = lineOf ws := by
  apply strip_self
  · intro c r e
    obtain ⟨w, hw, hc, _⟩ := lineOf_head h c r e
    obtain ⟨a, b, rfl⟩ := List.exists_cons_of_ne_nil (h w hw).1
    simp only [List.head?_cons, Option.some.injEq] at hc
    exact (h _ hw).2 c (by rw [hc]; simp)
  · exact fun c r e => lineOf_last h c r e

theorem isRow_line {ws : List Str} (h : RowOk ws) : isRow (lineOf ws) = true := by
  obtain ⟨h1, w, r, rfl, h3⟩ := h
  cases hc : lineOf (w :: r) with
  | nil =>
    exfalso
    have hw := (h1 w (by simp)).1
    by_cases hn : r = []
    · subst hn; rw [lineOf_single] at hc; exact hw hc
    · rw [lineOf_cons _ _ hn] at hc; simp at hc
  | cons c s =>
    obtain ⟨w', _, e1, e2⟩ := lineOf_head h1 c s hc
    simp only [List.head?_cons, Option.some.injEq] at e2
    subst e2
    unfold isRow
    refine decide_eq_true ⟨by simp, fun e => h3 ?_⟩
    rw [e1, ← e]; rfl

theorem wordsOf_line {ws : List Str} (h : ∀ w ∈ ws, WordOk w) (hne : ws ≠ []) : wordsOf (lineOf ws) = ws := by
  unfold wordsOf lineOf
  rw [List.splitOn_intercalate _ _ hne]
  · rw [List.filter_eq_self]
    intro w hw
    simpa using (h w hw).1
  · intro w hw hm
    have := (h w hw).2 ' ' hm
    simp [isSpace] at this

theorem line_no_newline : ∀ {ws : List Str}, (∀ w ∈ ws, WordOk w) → '\n' ∉ lineOf ws := by
  intro ws
  induction ws with
  | nil => intro _; simp [lineOf]
  | cons w ws ih =>
    intro h hm
    have hw : '\n' ∉ w := fun hm => by
      have := (h w (by simp)).2 _ hm
      simp [isSpace] at this
    by_cases hn : ws = []
    · subst hn
      rw [lineOf_single] at hm; exact hw hm
    · rw [lineOf_cons _ _ hn] at hm
      simp only [List.mem_append, List.mem_cons] at hm
      rcases hm with hm | hm | hm
      · exact hw hm
      · exact absurd hm (by decide)
      · exact ih (fun x hx => h x (by simp [hx])) hm

theorem linesOf_text : ∀ {rows : List (List Str)}, (∀ ws ∈ rows, RowOk ws) →
    linesOf (textOf rows) = rows.map lineOf ++ [[]] := by
  intro rows
  induction rows with
  | nil => intro _; rfl
  | cons ws rows ih =>
    intro h
    have : textOf (ws :: rows) = lineOf ws ++ '\n' :: textOf rows := by
      simp [textOf]
    unfold linesOf at ih ⊢
    rw [this, List.splitOn_append_cons_self_of_not_mem (line_no_newline (h ws (by simp)).1),
      ih fun x hx => h x (by simp [hx])]
    rfl

theorem rowsOf_text {rows : List (List Str)} (h : ∀ ws ∈ rows, RowOk ws) :
    rowsOf (textOf rows) = rows.map lineOf := by
  unfold rowsOf
  rw [linesOf_text h, List.map_append, List.filter_append, List.map_map]
  have : ([[]] : List Str).map strip = [[]] := rfl
  rw [this]
  have : ([[]] : List Str).filter isRow = [] := rfl
  rw [this, List.append_nil]
  have e : rows.map (strip ∘ lineOf) = rows.map lineOf :=
    List.map_congr_left fun ws hws => strip_line (h ws hws).1
  rw [e, List.filter_eq_self]
  intro l hl
  obtain ⟨ws, hws, rfl⟩ := List.mem_map.1 hl
  exact isRow_line (h ws hws)

theorem split_line {ws : List Str} (h : RowOk ws) : split (lineOf ws) ' ' = ws := by
  rw [split_eq]
  obtain ⟨h1, w, r, rfl, _⟩ := h
  exact wordsOf_line h1 (by simp)

/-- Reading a file of rows. -/
theorem readLoop_text {σ : Type} {body : σ → Str → Res σ} {rows : List (List Str)}
    (h : ∀ ws ∈ rows, RowOk ws) (fuel : ℕ) (hf : rows.length < fuel) (s : σ) :
    (readLoop body fuel rows.length (In.open (textOf rows)) s).bind (fun r => .ok r.1) =
      Res.foldlM body s (rows.map lineOf) := by
  have e := rowsOf_text h
  have := readLoop_enough (body := body) (linesOf (textOf rows)) rows.length fuel _ s (has_open _)
    (by show _ ≤ (rowsOf (textOf rows)).length; rw [e]; simp)
    (by rw [linesOf_text h]; simp; omega)
  rw [this]
  congr 1
  show (rowsOf (textOf rows)).take _ = _
  rw [e, List.take_of_length_le (by simp)]

theorem toStr_word (n : ℤ) : WordOk (toStr n) ∧ (toStr n).head? ≠ some '#' := by
  obtain ⟨ds, e1, e2, _, e4⟩ := toStr_spec n
  obtain ⟨c, r, rfl⟩ := List.exists_cons_of_ne_nil e1
  rw [e4]
  split
  · refine ⟨⟨by simp, ?_⟩, by simp⟩
    intro x hx
    rcases List.mem_cons.1 hx with rfl | hx
    · rfl
    · exact not_space_of_digit (e2 x hx)
  · refine ⟨⟨by simp, fun x hx => not_space_of_digit (e2 x hx)⟩, ?_⟩
    simp only [List.head?_cons, ne_eq, Option.some.injEq]
    rintro rfl
    have := e2 '#' (by simp)
    simp at this

/-! ### Path tables -/

theorem nodeVecToString_eq {ns : List ℤ} (h : ns ≠ []) :
    nodeVecToString ns = .ok (lineOf (ns.map toStr) ++ ['\n']) := by
  have key : ∀ ns : List ℤ, ns ≠ [] → ns.flatMap (fun n => toStr n ++ [' ']) = lineOf (ns.map toStr) ++ [' '] := by
    intro ns
    induction ns with
    | nil => intro h; exact absurd rfl h
    | cons n ns ih =>
      intro _
      by_cases hn : ns = []
      · subst hn; simp [lineOf_single]
      · rw [List.flatMap_cons, ih hn, List.map_cons, lineOf_cons _ _ (by simpa using hn)]
        simp
  unfold nodeVecToString
  rw [key ns h]
  cases hc : lineOf (ns.map toStr) ++ [' '] with
  | nil => simp at hc
  | cons c s =>
    simp only
    rw [← hc, List.dropLast_concat]

theorem save_eq (ps : List PathRec) (acc : Str) (h : ∀ p ∈ ps, p.nodes ≠ []) :
    Res.foldlM (fun acc (p : PathRec) => (nodeVecToString p.nodes).bind fun s => .ok (acc ++ s)) acc ps =
      .ok (acc ++ textOf (ps.map fun p => p.nodes.map toStr)) := by
  induction ps generalizing acc with
  | nil => simp [textOf]
  | cons p ps ih =>
    rw [Res.foldlM_cons, nodeVecToString_eq (h p (by simp))]
    simp only [Res.bind_ok', Res.ok_bind]
    rw [ih _ fun q hq => h q (by simp [hq])]
    simp [textOf]

theorem stois_toStr (ns : List ℤ) (h : ∀ n ∈ ns, IntOk n) : stois (ns.map toStr) = .ok ns := by
  have key : ∀ (ns acc : List ℤ), (∀ n ∈ ns, IntOk n) →
      Res.foldlM (fun acc w => (stoi w).bind fun n => .ok (acc ++ [n])) acc (ns.map toStr) = .ok (acc ++ ns) := by
    intro ns
    induction ns with
    | nil => intro acc _; simp
    | cons n ns ih =>
      intro acc h
      rw [List.map_cons, Res.foldlM_cons, stoi_toStr n (h n (by simp))]
      simp only [Res.bind_ok', Res.ok_bind]
      rw [ih _ fun m hm => h m (by simp [hm])]
      simp
  exact key ns [] h

theorem findLink_eq (ops : List Op) (fuel : ℕ) (hf : sizeLinks (run empty ops) < fuel) (old : Option ℤ)
    (l u v : ℤ) (h : getEndpoints (run empty ops) l = .ok (u, v))
    (hs : ∀ l', getEndpoints (run empty ops) l' = getEndpoints (run empty ops) l → l' = l) :
    findLink fuel (run empty ops) old u v = .ok (some l) := by
  have hl : l ∈ linkIds (run empty ops) := by
    by_contra hn
    rw [(C05_endpoints_unknown ops l).1 hn] at h; simp at h
  obtain ⟨f, t, e, _, hu, _⟩ := (C05_endpoints_unknown ops l).2 hl
  rw [h] at e; cases e
  obtain ⟨cs, h1, _, _, h4⟩ := (C02_directed_connections ops u .out fuel hf).1 hu
  unfold findLink
  rw [h1]
  simp only [Res.bind_ok']
  have hmem : l ∈ cs := (h4 l).2 ⟨u, v, h, rfl⟩
  cases hfind : cs.find? fun c => match getEndpoints (run empty ops) c with | .ok e => e.2 == v | _ => false with
  | none =>
    rw [List.find?_eq_none] at hfind
    have := hfind l hmem
    rw [h] at this
    simp at this
  | some c =>
    have hc := List.mem_of_find?_eq_some hfind
    have hp := List.find?_some hfind
    obtain ⟨f, t, e1, e2⟩ := (h4 c).1 hc
    rw [e1] at hp
    simp only at hp e2
    have ht : t = v := by simpa using hp
    have : c = l := hs c (by rw [e1, h, e2, ht])
    simp only [this]

theorem walkNodes_head (g : G) (u : ℤ) (ls : List ℤ) : ∃ r, Sp.walkNodes g u ls = u :: r := by
  cases ls <;> exact ⟨_, rfl⟩

theorem findLinks_eq (ops : List Op) (fuel : ℕ) (hf : sizeLinks (run empty ops) < fuel) :
    ∀ (ls : List ℤ) (u v : ℤ) (old : Option ℤ), Sp.Walk (run empty ops) u ls v →
      (∀ l ∈ ls, ∀ l', getEndpoints (run empty ops) l' = getEndpoints (run empty ops) l → l' = l) →
      ∃ old', findLinks fuel (run empty ops) old (Sp.walkNodes (run empty ops) u ls) = .ok (ls, old') := by
  intro ls
  induction ls with
  | nil => intro u v old _ _; exact ⟨old, rfl⟩
  | cons l ls ih =>
    intro u v old hw hs
    obtain ⟨t, e1, e2⟩ := hw
    obtain ⟨old', h'⟩ := ih t v (some l) e2 fun x hx => hs x (by simp [hx])
    refine ⟨old', ?_⟩
    obtain ⟨r, hr⟩ := walkNodes_head (run empty ops) t ls
    simp only [Sp.walkNodes, e1]
    rw [hr] at h' ⊢
    rw [findLinks, findLink_eq ops fuel hf old l u t e1 (hs l (by simp))]
    simp only [Res.bind_ok', h']

theorem walkNodes_last (g : G) : ∀ (ls : List ℤ) (u v : ℤ), Sp.Walk g u ls v →
    ∃ r, Sp.walkNodes g u ls = r ++ [v] := by
  intro ls
  induction ls with
  | nil => intro u v h; exact ⟨[], by rw [show u = v from h]; rfl⟩
  | cons l ls ih =>
    intro u v h
    obtain ⟨t, e1, e2⟩ := h
    obtain ⟨r, hr⟩ := ih t v e2
    exact ⟨u :: r, by simp only [Sp.walkNodes, e1, hr, List.cons_append]⟩

theorem pathRow_eq (ops : List Op) (fuel : ℕ) (hf : sizeLinks (run empty ops) < fuel) {o d : ℤ} {p : PathRec}
    (h : PathOk (run empty ops) o d p) (s : LoadSt) : ∃ last,
      pathRow fuel (run empty ops) s (lineOf (p.nodes.map toStr)) =
        .ok ⟨fun o' d' => if o' = o ∧ d' = d then
              some ((s.table o d).getD [] ++ [⟨s.counter, p.nodes, p.links⟩]) else s.table o' d',
            s.counter + 1, last⟩ := by
  obtain ⟨last, hl⟩ := findLinks_eq ops fuel hf p.links o d s.last h.walk h.single
  refine ⟨last, ?_⟩
  obtain ⟨r, hr⟩ := walkNodes_last _ _ _ _ h.walk
  obtain ⟨l, ls, hls⟩ := List.exists_cons_of_ne_nil h.long
  obtain ⟨t, e1, e2⟩ : ∃ t, getEndpoints (run empty ops) l = .ok (o, t) ∧ Sp.Walk (run empty ops) t ls d := by
    have := h.walk; rw [hls] at this; exact this
  obtain ⟨r2, hr2⟩ := walkNodes_head (run empty ops) t ls
  have hn : p.nodes = o :: t :: r2 := by
    rw [h.nodes, hls]; simp only [Sp.walkNodes, e1, hr2]
  have hrow : RowOk (p.nodes.map toStr) := by
    refine ⟨?_, toStr o, (t :: r2).map toStr, by rw [hn]; rfl, (toStr_word o).2⟩
    intro w hw
    obtain ⟨n, _, rfl⟩ := List.mem_map.1 hw
    exact (toStr_word n).1
  have hst : stois (p.nodes.map toStr) = .ok p.nodes := stois_toStr _ h.range
  have hfl : findLinks fuel (run empty ops) s.last p.nodes = .ok (p.links, last) := by
    rw [h.nodes]; exact hl
  have hlast : p.nodes.getLast? = some d := by rw [h.nodes, hr]; simp
  have hod : stoi (toStr d) = .ok d := stoi_toStr d (h.range d (List.mem_of_getLast? hlast))
  have hoo : stoi (toStr o) = .ok o := stoi_toStr o (h.range o (by rw [hn]; simp))
  have hgl : (toStr t :: r2.map toStr).getLast (by simp) = toStr d := by
    have e : (p.nodes.map toStr).getLast? = some (toStr d) := by
      rw [List.getLast?_map, hlast]; rfl
    rw [hn, List.map_cons, List.map_cons, List.getLast?_cons_cons, List.getLast?_eq_some_getLast (by simp)] at e
    simpa using e
  unfold pathRow
  rw [split_line hrow]
  have hmap : p.nodes.map toStr = toStr o :: toStr t :: r2.map toStr := by rw [hn]; rfl
  rw [hmap] at hst ⊢
  simp only [hoo, hgl, hod, hst, hfl, Res.bind_ok']

/-- The paths of `ps` (with their ends) that go from `o` to `d`, numbered by position from `k` on. -/
def picks (o d : ℤ) : ℕ → List (ℤ × ℤ × PathRec) → List PathRec
  | _, [] => []
  | k, (o', d', p) :: ps =>
    if o = o' ∧ d = d' then ⟨k, p.nodes, p.links⟩ :: picks o d (k + 1) ps else picks o d (k + 1) ps

theorem load_fold (ops : List Op) (fuel : ℕ) (hf : sizeLinks (run empty ops) < fuel) :
    ∀ (ps : List (ℤ × ℤ × PathRec)) (s : LoadSt), (∀ q ∈ ps, PathOk (run empty ops) q.1 q.2.1 q.2.2) →
      ∃ s', Res.foldlM (pathRow fuel (run empty ops)) s (ps.map fun q => lineOf (q.2.2.nodes.map toStr)) = .ok s' ∧
        ∀ o d, s'.table o d = if picks o d s.counter ps = [] then s.table o d
          else some ((s.table o d).getD [] ++ picks o d s.counter ps) := by
  intro ps
  induction ps with
  | nil => intro s _; exact ⟨s, rfl, fun o d => by simp [picks]⟩
  | cons q ps ih =>
    intro s h
    obtain ⟨o, d, p⟩ := q
    obtain ⟨last, hl⟩ := pathRow_eq ops fuel hf (h (o, d, p) (by simp)) s
    obtain ⟨s', e1, e2⟩ := ih _ fun q hq => h q (by simp [hq])
    refine ⟨s', ?_, ?_⟩
    · rw [List.map_cons, Res.foldlM_cons, hl]
      exact e1
    · intro o' d'
      rw [e2 o' d']
      simp only [picks]
      by_cases hod : o' = o ∧ d' = d
      · obtain ⟨rfl, rfl⟩ := hod
        simp only [and_self, if_true, Option.getD_some, reduceCtorEq, if_false]
        by_cases hp : picks o' d' (s.counter + 1) ps = []
        · simp [hp]
        · simp [hp]
      · simp only [if_neg hod]

theorem mem_picks {o d : ℤ} : ∀ {ps : List (ℤ × ℤ × PathRec)} {k : ℕ} {p : PathRec}, p ∈ picks o d k ps →
    k ≤ p.id ∧ p.id < k + ps.length := by
  intro ps
  induction ps with
  | nil => intro k p h; simp [picks] at h
  | cons q ps ih =>
    intro k p h
    obtain ⟨o', d', q⟩ := q
    simp only [picks] at h
    split at h
    · rcases List.mem_cons.1 h with rfl | h
      · simp
      · have := ih h; simp only [List.length_cons]; omega
    · have := ih h; simp only [List.length_cons]; omega

theorem picks_ids {o d : ℤ} : ∀ (ps : List (ℤ × ℤ × PathRec)) (k : ℕ),
    ((picks o d k ps).map (·.id)).Pairwise (· < ·) := by
  intro ps
  induction ps with
  | nil => intro k; simp [picks]
  | cons q ps ih =>
    intro k
    obtain ⟨o', d', q⟩ := q
    simp only [picks]
    split
    · rw [List.map_cons, List.pairwise_cons]
      refine ⟨?_, ih _⟩
      intro a ha
      obtain ⟨p, hp, rfl⟩ := List.mem_map.1 ha
      have := (mem_picks hp).1
      simp only at this ⊢
      omega
    · exact ih _

theorem picks_eq {o d : ℤ} : ∀ (ps : List (ℤ × ℤ × PathRec)) (k : ℕ),
    (picks o d k ps).map (fun p => (p.nodes, p.links)) =
      (ps.filter fun q => decide (q.1 = o ∧ q.2.1 = d)).map fun q => (q.2.2.nodes, q.2.2.links) := by
  intro ps
  induction ps with
  | nil => intro k; rfl
  | cons q ps ih =>
    intro k
    obtain ⟨o', d', q⟩ := q
    simp only [picks]
    by_cases h : o = o' ∧ d = d'
    · rw [if_pos h, List.filter_cons_of_pos (by simp [h.1, h.2]), List.map_cons, List.map_cons, ih]
    · rw [if_neg h, List.filter_cons_of_neg (by
        simp only [decide_eq_true_eq]; rintro ⟨h1, h2⟩; exact h ⟨h1.symm, h2.symm⟩), ih]

/-- The paths of a table with their ends. -/
def tagged (t : PTable) : List (ℤ × ℤ × PathRec) :=
  t.flatMap fun o => o.2.flatMap fun d => d.2.map fun p => (o.1, d.1, p)

theorem tagged_paths (t : PTable) : (tagged t).map (·.2.2) = t.paths := by
  unfold tagged PTable.paths
  simp [List.map_flatMap, Function.comp_def]

theorem mem_tagged {t : PTable} {q : ℤ × ℤ × PathRec} (h : q ∈ tagged t) :
    ∃ o ∈ t, ∃ d ∈ o.2, ∃ p ∈ d.2, q = (o.1, d.1, p) := by
  unfold tagged at h
  simp only [List.mem_flatMap, List.mem_map] at h
  obtain ⟨o, ho, d, hd, p, hp, rfl⟩ := h
  exact ⟨o, ho, d, hd, p, hp, rfl⟩

theorem filter_flatMap_eq {α β : Type} (l : List α) (f : α → List β) (p : β → Bool) (c : α → Bool)
    (h : ∀ a ∈ l, c a = false → (f a).filter p = []) :
    (l.flatMap f).filter p = (l.filter c).flatMap fun a => (f a).filter p := by
  induction l with
  | nil => rfl
  | cons a l ih =>
    rw [List.flatMap_cons, List.filter_append, ih fun b hb => h b (by simp [hb])]
    cases hc : c a
    · rw [h a (by simp) hc, List.filter_cons_of_neg (by simp [hc])]; rfl
    · rw [List.filter_cons_of_pos hc, List.flatMap_cons]

theorem tagged_filter (t : PTable) (o d : ℤ) :
    ((tagged t).filter fun q => decide (q.1 = o ∧ q.2.1 = d)).map (fun q => (q.2.2.nodes, q.2.2.links)) =
      (t.pathsFor o d).map fun p => (p.nodes, p.links) := by
  unfold tagged PTable.pathsFor
  rw [filter_flatMap_eq t _ _ (fun e => decide (e.1 = o))]
  · rw [List.map_flatMap, List.map_flatMap]
    apply List.flatMap_congr
    intro e he
    have heo : e.1 = o := by simpa using (List.mem_filter.1 he).2
    rw [filter_flatMap_eq _ _ _ (fun f => decide (f.1 = d))]
    · rw [List.map_flatMap, List.map_flatMap]
      apply List.flatMap_congr
      intro f hf
      have hfd : f.1 = d := by simpa using (List.mem_filter.1 hf).2
      rw [List.filter_eq_self.2]
      · simp [Function.comp_def]
      · intro q hq
        obtain ⟨p, _, rfl⟩ := List.mem_map.1 hq
        simp [heo, hfd]
    · intro f _ hfd
      rw [List.filter_eq_nil_iff]
      intro q hq
      obtain ⟨p, _, rfl⟩ := List.mem_map.1 hq
      simp only [decide_eq_false_iff_not] at hfd
      simp [hfd]
  · intro e _ heo
    rw [List.filter_eq_nil_iff]
    intro q hq
    simp only [List.mem_flatMap, List.mem_map] at hq
    obtain ⟨f, _, p, _, rfl⟩ := hq
    simp only [decide_eq_false_iff_not] at heo
    simp [heo]

end Verif.Io
