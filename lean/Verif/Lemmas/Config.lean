import Verif.Spec.Config
import Verif.Lemmas.Text
import Mathlib.Tactic.Ring
import Mathlib.Tactic.FieldSimp

namespace Verif.Text

theorem isDelim_iff (c : Char) : isDelim c = true ↔ c ∈ [' ', '\t', '\r', '\n'] := by
  simp [isDelim]; tauto

theorem dropWhile_blank {p : Str} (hp : Blank p) (w : Str) : (p ++ w).dropWhile isDelim = w.dropWhile isDelim := by
  induction p with
  | nil => rfl
  | cons c p ih =>
    have hc : isDelim c = true := (isDelim_iff c).2 (hp c (by simp))
    rw [List.cons_append, List.dropWhile_cons_of_pos hc]
    exact ih fun x hx => hp x (by simp [hx])

theorem dropWhile_clean {w : Str} (h : ∀ c, w.head? = some c → c ∉ [' ', '\t', '\r', '\n']) (r : Str) (hw : w ≠ []) :
    (w ++ r).dropWhile isDelim = w ++ r := by
  cases w with
  | nil => exact absurd rfl hw
  | cons c w =>
    have hc : ¬isDelim c = true := fun hc => h c rfl ((isDelim_iff c).1 hc)
    rw [List.cons_append, List.dropWhile_cons_of_neg hc]

theorem blank_reverse {p : Str} (h : Blank p) : Blank p.reverse := fun c hc => h c (by simpa using hc)

theorem blank_append {p q : Str} (h : Blank p) (h' : Blank q) : Blank (p ++ q) := by
  intro c hc
  rcases List.mem_append.1 hc with hc | hc
  · exact h c hc
  · exact h' c hc

theorem dropWhile_blank_nil {p : Str} (hp : Blank p) : p.dropWhile isDelim = [] := by
  have := dropWhile_blank hp []
  simpa using this

theorem ctrim_blank {p : Str} (hp : Blank p) : ctrim p = [] := by
  unfold ctrim
  rw [dropWhile_blank_nil (blank_reverse hp)]
  rfl

/-- Trimming a text between blanks, when the text starts and ends with something else. -/
theorem ctrim_pad {p w q : Str} (hp : Blank p) (hq : Blank q) (hw : Clean w) : ctrim (p ++ w ++ q) = w := by
  by_cases h0 : w = []
  · subst h0
    exact ctrim_blank (blank_append (by simpa using hp) hq)
  · unfold ctrim
    rw [List.reverse_append, List.reverse_append, dropWhile_blank (blank_reverse hq),
      dropWhile_clean (by simpa using hw.2) _ (by simpa using h0), ← List.reverse_append, List.reverse_reverse,
      dropWhile_blank hp]
    have := dropWhile_clean hw.1 [] h0
    simpa using this

theorem ctrim_clean {w : Str} (hw : Clean w) : ctrim w = w := by
  have := ctrim_pad (p := []) (q := []) (by simp [Blank]) (by simp [Blank]) hw
  simpa using this

theorem takeWhile_stop {s r : Str} {c : Char} (h : c ∉ s) : (s ++ c :: r).takeWhile (· != c) = s := by
  induction s with
  | nil => simp
  | cons a s ih =>
    simp only [List.mem_cons, not_or] at h
    rw [List.cons_append, List.takeWhile_cons_of_pos (by simpa using fun e => h.1 e.symm), ih h.2]

theorem dropWhile_stop {s r : Str} {c : Char} (h : c ∉ s) : (s ++ c :: r).dropWhile (· != c) = c :: r := by
  induction s with
  | nil => simp
  | cons a s ih =>
    simp only [List.mem_cons, not_or] at h
    rw [List.cons_append, List.dropWhile_cons_of_pos (by simpa using fun e => h.1 e.symm), ih h.2]

theorem takeWhile_none {s : Str} {c : Char} (h : c ∉ s) : s.takeWhile (· != c) = s :=
  takeWhile_all fun a ha => by
    simp only [bne_iff_ne, ne_eq]
    exact fun e => h (e ▸ ha)

theorem dropWhile_none {s : Str} {c : Char} (h : c ∉ s) : s.dropWhile (· != c) = [] := by
  induction s with
  | nil => rfl
  | cons a s ih =>
    simp only [List.mem_cons, not_or] at h
    rw [List.dropWhile_cons_of_pos (by simpa using fun e => h.1 e.symm), ih h.2]

theorem not_mem_blank {p : Str} {c : Char} (hp : Blank p) (hc : c ∉ [' ', '\t', '\r', '\n']) : c ∉ p :=
  fun h => hc (hp c h)

theorem ctrim_mid {p r : Str} {c : Char} (hp : Blank p) (hc : c ∉ [' ', '\t', '\r', '\n']) :
    ∃ r', ctrim (p ++ c :: r) = c :: r' ∧ ∃ q, Blank q ∧ r = r' ++ q := by
  -- the trailing blanks of r
  have key : ∀ r : Str, ∃ r' q, r = r' ++ q ∧ Blank q ∧ Clean (c :: r') := by
    intro r
    obtain ⟨r, rfl⟩ : ∃ r0 : Str, r = r0.reverse := ⟨r.reverse, by simp⟩
    induction r with
    | nil => exact ⟨[], [], rfl, by simp [Blank], by simpa [Clean] using hc⟩
    | cons a r ih =>
      rw [List.reverse_cons]
      by_cases ha : a ∈ [' ', '\t', '\r', '\n']
      · obtain ⟨r', q, e, hq, hcl⟩ := ih
        exact ⟨r', q ++ [a], by rw [e, List.append_assoc], blank_append hq (by simpa [Blank] using ha), hcl⟩
      · refine ⟨r.reverse ++ [a], [], by simp, by simp [Blank], ?_, ?_⟩
        · intro x hx
          simp only [List.head?_cons, Option.some.injEq] at hx
          rw [← hx]; exact hc
        · intro x hx
          rw [← List.cons_append, List.getLast?_append] at hx
          simp only [List.getLast?_singleton, Option.some_or, Option.some.injEq] at hx
          rw [← hx]; exact ha
  obtain ⟨r', q, e, hq, hcl⟩ := key r
  refine ⟨r', ?_, q, hq, e⟩
  have := ctrim_pad hp hq hcl
  rw [e]
  simpa using this

theorem ctrim_rblank {r q : Str} (hq : Blank q) : ctrim (r ++ q) = ctrim r := by
  unfold ctrim
  rw [List.reverse_append, dropWhile_blank (blank_reverse hq)]

/-- The value of a line. -/
def confVal (s : Str) : Str :=
  match s.dropWhile (· != '=') with
  | [] => ctrim s
  | _ :: v => ctrim v

theorem confLine_cons (c : Conf) {raw : Str} {h : Char} {r : Str} (e : ctrim raw = h :: r) :
    confLine c raw = if h == '#' || h == ';' then c
      else if h == '[' then { c with sec := ctrim (r.takeWhile (· != ']')) }
      else { c with content := c.content.set (c.sec ++ '/' :: ctrim ((h :: r).takeWhile (· != '='))) (confVal (h :: r)) } := by
  unfold confLine
  rw [e]
  rfl

/-- The blanks cut off at the end lie behind a character that is not blank. -/
theorem cut_blank {x q w r : Str} {c : Char} (hq : Blank q) (hc : c ∉ [' ', '\t', '\r', '\n'])
    (e : x ++ q = w ++ c :: r) : ∃ r', x = w ++ c :: r' ∧ r = r' ++ q := by
  rcases List.append_eq_append_iff.1 e with ⟨a, h1, h2⟩ | ⟨a, h1, h2⟩
  · exfalso
    have : c ∈ q := by rw [h2]; simp
    exact not_mem_blank hq hc this
  · cases a with
    | nil =>
      exfalso
      simp only [List.nil_append] at h2
      exact not_mem_blank hq hc (by rw [← h2]; simp)
    | cons b a =>
      simp only [List.cons_append, List.cons.injEq] at h2
      exact ⟨a, by rw [h1, h2.1], h2.2⟩

/-- The effect of an item. -/
def Item.apply (c : Conf) : Item → Conf
  | .skip => c
  | .section n => { c with sec := n }
  | .entry k v => { c with content := c.content.set (c.sec ++ '/' :: k) v }

theorem confLine_entry (c : Conf) {p w rest key value : Str} (hp : Blank p)
    (hw : ∀ x, (w ++ '=' :: rest).head? = some x → x ∉ [' ', '\t', '\r', '\n'])
    (hh : w.head? ∉ [some '#', some ';', some '[']) (he : '=' ∉ w) (hk : ctrim w = key)
    (hv : ctrim rest = value) : confLine c (p ++ (w ++ '=' :: rest)) = (Item.entry key value).apply c := by
  obtain ⟨h, m, hm⟩ : ∃ h m, w ++ '=' :: rest = h :: m := by
    cases w with
    | nil => exact ⟨_, _, rfl⟩
    | cons a w => exact ⟨_, _, rfl⟩
  rw [hm] at hw ⊢
  obtain ⟨r', e, q, hq, e2⟩ := ctrim_mid (r := m) hp (hw h rfl)
  rw [confLine_cons c e]
  have hx : (h :: r') ++ q = w ++ '=' :: rest := by rw [hm, e2]; rfl
  obtain ⟨rest', e3, e4⟩ := cut_blank hq (by decide) hx
  have hne : h ≠ '#' ∧ h ≠ ';' ∧ h ≠ '[' := by
    cases w with
    | nil =>
      simp only [List.nil_append, List.cons.injEq] at e3
      rw [e3.1]; decide
    | cons a w =>
      simp only [List.cons_append, List.cons.injEq] at e3
      rw [e3.1]
      simpa using hh
  rw [if_neg (by simp [hne.1, hne.2.1]), if_neg (by simp [hne.2.2]), e3, takeWhile_stop he, confVal, dropWhile_stop he, hk]
  simp only
  rw [← ctrim_rblank hq, ← e4, hv]
  rfl

theorem confLine_says {line : Str} {item : Item} (h : Says line item) (c : Conf) :
    confLine c line = item.apply c := by
  cases h with
  | blank _ hp => simp only [confLine, ctrim_blank hp]; rfl
  | comment p r x hp hx =>
    obtain ⟨r', e, _⟩ := ctrim_mid (r := r) (c := x) hp (by rcases hx with rfl | rfl <;> decide)
    rw [confLine_cons c e, if_pos (by rcases hx with rfl | rfl <;> decide)]
    rfl
  | «section» p p1 p2 name r hp hp1 hp2 hn hb =>
    obtain ⟨r', e, q, hq, e2⟩ := ctrim_mid (r := p1 ++ name ++ p2 ++ ']' :: r) (c := '[') hp (by decide)
    rw [confLine_cons c e, if_neg (by decide), if_pos (by decide)]
    have hnb : ']' ∉ p1 ++ name ++ p2 := by
      simp only [List.mem_append, not_or]
      exact ⟨⟨not_mem_blank hp1 (by decide), hb⟩, not_mem_blank hp2 (by decide)⟩
    obtain ⟨r1, e3, _⟩ := cut_blank hq (by decide) e2.symm
    rw [e3, takeWhile_stop hnb, ctrim_pad hp1 hp2 hn]
    rfl
  | sectionOpen p p1 p2 name hp hp1 hp2 hn hb =>
    obtain ⟨r', e, q, hq, e2⟩ := ctrim_mid (r := p1 ++ name ++ p2) (c := '[') hp (by decide)
    rw [confLine_cons c e, if_neg (by decide), if_pos (by decide)]
    have hnb : ']' ∉ r' := by
      intro hm
      have : ']' ∈ p1 ++ name ++ p2 := by rw [e2]; simp [hm]
      simp only [List.mem_append] at this
      rcases this with (h | h) | h
      · exact not_mem_blank hp1 (by decide) h
      · exact hb h
      · exact not_mem_blank hp2 (by decide) h
    rw [takeWhile_none hnb, ← ctrim_rblank hq, ← e2, ctrim_pad hp1 hp2 hn]
    rfl
  | entry p p1 p2 p3 key value hp hp1 hp2 hp3 hk hv he hh =>
    by_cases hk0 : key = []
    · subst hk0
      have := confLine_entry c (p := p ++ p1) (w := []) (rest := p2 ++ value ++ p3) (key := []) (value := value)
        (blank_append hp hp1) (by simp) (by simp) (by simp) rfl (ctrim_pad hp2 hp3 hv)
      rw [← this]
      simp
    · have := confLine_entry c (p := p) (w := key ++ p1) (rest := p2 ++ value ++ p3) (key := key) (value := value)
        hp (by
          intro x hx
          cases key with
          | nil => exact absurd rfl hk0
          | cons a key => exact hk.1 x (by simpa using hx))
        (by
          cases key with
          | nil => exact absurd rfl hk0
          | cons a key => simpa using hh)
        (by
          simp only [List.mem_append, not_or]
          exact ⟨he, not_mem_blank hp1 (by decide)⟩)
        (by have := ctrim_pad (p := []) (by simp [Blank]) hp1 hk; simpa using this) (ctrim_pad hp2 hp3 hv)
      rw [← this]
      simp
  | bare p p1 text hp hp1 ht h0 he hh =>
    have e : ctrim (p ++ text ++ p1) = text := ctrim_pad hp hp1 ht
    cases text with
    | nil => exact absurd rfl h0
    | cons a text =>
      simp only [List.head?_cons, List.mem_cons, Option.some.injEq, List.not_mem_nil, or_false, not_or] at hh
      rw [confLine_cons c e, if_neg (by simp [hh.1, hh.2.1]), if_neg (by simpa using hh.2.2), takeWhile_none he,
        confVal, dropWhile_none he, ctrim_clean ht]
      simp only [ctrim_clean ht]
      rfl

/-- Every line can be written as blanks, a clean text and blanks. -/
theorem exists_pad (s : Str) : ∃ p w q, s = p ++ w ++ q ∧ Blank p ∧ Blank q ∧ Clean w := by
  induction s with
  | nil => exact ⟨[], [], [], rfl, by simp [Blank], by simp [Blank], by simp [Clean]⟩
  | cons c s ih =>
    by_cases hc : c ∈ [' ', '\t', '\r', '\n']
    · obtain ⟨p, w, q, e, h1, h2, h3⟩ := ih
      refine ⟨c :: p, w, q, by rw [e]; simp, ?_, h2, h3⟩
      intro x hx
      rcases List.mem_cons.1 hx with rfl | hx
      · exact hc
      · exact h1 x hx
    · obtain ⟨p, w, q, e, h1, h2, h3⟩ := ih
      by_cases hw : w = []
      · subst hw
        refine ⟨[], [c], p ++ q, by rw [e]; simp, by simp [Blank], blank_append h1 h2, ?_, ?_⟩
        · simpa using hc
        · simpa using hc
      · refine ⟨[], c :: (p ++ w), q, by rw [e]; simp, by simp [Blank], h2, ?_, ?_⟩
        · simpa using hc
        · intro x hx
          refine h3.2 x ?_
          rw [← List.cons_append, List.getLast?_append_of_ne_nil _ hw] at hx
          exact hx

theorem exists_says (line : Str) : ∃ item, Says line item := by
  obtain ⟨p, w, q, rfl, hp, hq, hw⟩ := exists_pad line
  cases w with
  | nil => exact ⟨_, .blank _ (blank_append (by simpa using hp) hq)⟩
  | cons a w =>
    by_cases h1 : a = '#' ∨ a = ';'
    · exact ⟨_, by simpa using Says.comment p (w ++ q) a hp h1⟩
    by_cases h2 : a = '['
    · subst h2
      by_cases hb : ']' ∈ w
      · obtain ⟨x, y, e, hx⟩ := List.eq_append_cons_of_mem hb
        obtain ⟨p1, n, p2, rfl, b1, b2, hn⟩ := exists_pad x
        have hnn : ']' ∉ n := fun h => hx (by simp [h])
        have := Says.section p p1 p2 n (y ++ q) hp b1 b2 hn hnn
        rw [e]
        exact ⟨_, by simpa using this⟩
      · obtain ⟨p1, n, p2, e, b1, b2, hn⟩ := exists_pad (w ++ q)
        have hnn : ']' ∉ n := by
          intro h
          have : ']' ∈ w ++ q := by rw [e]; simp [h]
          rcases List.mem_append.1 this with h | h
          · exact hb h
          · exact not_mem_blank hq (by decide) h
        have := Says.sectionOpen p p1 p2 n hp b1 b2 hn hnn
        rw [← e] at this
        exact ⟨_, by simpa using this⟩
    have hh : (a :: w).head? ∉ [some '#', some ';', some '['] := by simp; tauto
    by_cases he : '=' ∈ a :: w
    · obtain ⟨x, y, e, hx⟩ := List.eq_append_cons_of_mem he
      obtain ⟨b0, k, b1, e1, hb0, hb1, hk⟩ := exists_pad x
      obtain ⟨b2, v, b3, e2, hb2, hb3, hv⟩ := exists_pad (y ++ q)
      -- the key starts where the line starts
      have hcase : b0 = [] ∨ k = [] := by
        cases b0 with
        | nil => exact Or.inl rfl
        | cons z b0 =>
          exfalso
          rw [e1] at e
          simp only [List.cons_append, List.cons.injEq] at e
          exact hw.1 a rfl (by rw [e.1]; exact hb0 z (by simp))
      have hke : '=' ∉ k := fun h => hx (by rw [e1]; simp [h])
      have hkh : k.head? ∉ [some '#', some ';', some '['] := by
        cases k with
        | nil => simp
        | cons z k =>
          have : b0 = [] := by
            rcases hcase with h | h
            · exact h
            · cases h
          subst this
          rw [e1] at e
          simp only [List.nil_append, List.cons_append, List.cons.injEq] at e
          rw [List.head?_cons, ← e.1]
          simpa using hh
      have := Says.entry (p ++ b0) b1 b2 b3 k v (blank_append hp hb0) hb1 hb2 hb3 hk hv hke hkh
      rw [e]
      have e3 : p ++ (x ++ '=' :: y) ++ q = p ++ b0 ++ (k ++ (b1 ++ '=' :: (b2 ++ v ++ b3))) := by
        rw [← e2, e1]; simp
      rw [e3]
      exact ⟨_, this⟩
    · exact ⟨_, .bare p q _ hp hq hw (by simp) he hh⟩

/-! ### The loop over the lines -/

theorem confLoop_eq : ∀ (ps : List Str) (items : List Item), List.Forall₂ Says ps items →
    ∀ (fuel : ℕ) (i : In) (c : Conf), Has i ps → ps.length < fuel →
      confLoop fuel i c = .ok (items.foldl Item.apply c) := by
  intro ps items h
  induction h with
  | nil =>
    intro fuel i c hi hf
    obtain ⟨fuel, rfl⟩ : ∃ k, fuel = k + 1 := ⟨fuel - 1, by omega⟩
    have hg : i.good = false := by
      rcases hi with ⟨_, h⟩ | ⟨_, h⟩
      · exact h
      · exact absurd h (List.splitOn_ne_nil _ _)
    simp [confLoop, getlineOk, hg]
  | @cons p item ps items hs _ ih =>
    intro fuel i c hi hf
    obtain ⟨fuel, rfl⟩ : ∃ k, fuel = k + 1 := ⟨fuel - 1, by omega⟩
    rw [confLoop]
    obtain ⟨h1, h2⟩ := getline_spec hi (getline i).line
    have hg : i.good = true := by
      rcases hi with ⟨h, _⟩ | ⟨h, _⟩
      · cases h
      · exact h
    by_cases hr : i.rest = []
    · -- the empty line at the end
      have hl : linesOf i.rest = p :: ps := by
        rcases hi with ⟨h, _⟩ | ⟨_, h⟩
        · cases h
        · exact h
      rw [hr] at hl
      have hl' : p = [] ∧ ps = [] := by
        have : linesOf [] = [[]] := by decide
        rw [this] at hl
        simp only [List.cons.injEq] at hl
        exact ⟨hl.1.symm, hl.2.symm⟩
      obtain ⟨rfl, rfl⟩ := hl'
      have hi0 : items = [] := by
        rename_i hfa
        cases hfa; rfl
      subst hi0
      have ha : item.apply c = c := by
        rw [← confLine_says hs]
        rfl
      simp [getlineOk, hr, ha]
    · have hok : getlineOk i = true := by
        unfold getlineOk
        rw [hg]
        cases h : i.rest with
        | nil => exact absurd h hr
        | cons a r => rfl
      rw [if_pos hok, h1, confLine_says hs, ih fuel (getline i) _ h2 (by simp at hf; omega)]
      rfl

theorem parseConf_eq {content : Str} {items : List Item} (h : List.Forall₂ Says (linesOf content) items)
    (fuel : ℕ) (hf : (linesOf content).length < fuel) :
    parseConf fuel content = .ok (items.foldl Item.apply ⟨[], []⟩).content := by
  unfold parseConf
  rw [confLoop_eq _ _ h fuel _ _ (has_open content) hf]
  rfl

/-! ### Looking keys up -/

theorem get_set {κ v : Type} [DecidableEq κ] (s : Store κ v) (k k' : κ) (x : v) :
    (s.set k x).get k' = if k = k' then some x else s.get k' := by
  unfold Store.set Store.has
  by_cases h : (s.get k).isSome = true
  · rw [if_pos h, Store.get_modify]
    by_cases hk : k = k'
    · subst hk
      obtain ⟨y, hy⟩ := Option.isSome_iff_exists.1 h
      simp [hy]
    · simp [hk, Ne.symm hk]
  · rw [if_neg h, Store.get_append, Store.get_cons]
    by_cases hk : k = k'
    · subst hk
      simp only [Bool.not_eq_true, Option.isSome_eq_false_iff, Option.isNone_iff_eq_none] at h
      simp [h]
    · simp [hk]

theorem key_inj {s s' k k' : Str} (h : '/' ∉ s) (h' : '/' ∉ s') (e : s ++ '/' :: k = s' ++ '/' :: k') :
    s = s' ∧ k = k' := by
  have e1 := congrArg (List.takeWhile (· != '/')) e
  have e2 := congrArg (List.dropWhile (· != '/')) e
  rw [takeWhile_stop h, takeWhile_stop h'] at e1
  rw [dropWhile_stop h, dropWhile_stop h'] at e2
  exact ⟨e1, by simpa using e2⟩

theorem fold_get : ∀ (items : List Item) (c : Conf), '/' ∉ c.sec →
    (∀ n, .section n ∈ items → '/' ∉ n) → ∀ (sec key : Str), '/' ∉ sec →
    (items.foldl Item.apply c).content.get (sec ++ '/' :: key) =
      (((assigned c.sec items).reverse.find? fun a => a.1 = sec ∧ a.2.1 = key).map fun a => a.2.2).or
        (c.content.get (sec ++ '/' :: key)) := by
  intro items
  induction items with
  | nil => intro c _ _ sec key _; simp [assigned]
  | cons it items ih =>
    intro c hc hs sec key hk
    have hs' : ∀ n, .section n ∈ items → '/' ∉ n := fun n hn => hs n (by simp [hn])
    rw [List.foldl_cons]
    cases it with
    | skip => exact ih c hc hs' sec key hk
    | «section» n =>
      have := ih { c with sec := n } (hs n (by simp)) hs' sec key hk
      exact this
    | entry k v =>
      have := ih { c with content := c.content.set (c.sec ++ '/' :: k) v } hc hs' sec key hk
      show (items.foldl Item.apply { c with content := c.content.set (c.sec ++ '/' :: k) v }).content.get _ = _
      rw [this]
      simp only [assigned, List.reverse_cons, List.find?_append, get_set]
      by_cases he : c.sec = sec ∧ k = key
      · obtain ⟨rfl, rfl⟩ := he
        cases hf : List.find? (fun a => decide (a.1 = c.sec ∧ a.2.1 = k)) (assigned c.sec items).reverse <;> simp
      · have hne : ¬ (c.sec ++ '/' :: k = sec ++ '/' :: key) := fun e => he (key_inj hc hk e)
        have hd : decide (c.sec = sec ∧ k = key) = false := decide_eq_false he
        rw [if_neg hne]
        simp only [List.find?_singleton, hd, Bool.false_eq_true, if_false, Option.or_none]

/-! ### Numbers -/

theorem dropWhile_digits {ds : Str} (h : ∀ c ∈ ds, c.isDigit = true) (r : Str) (hr : ∀ c, r.head? = some c → c.isDigit = false) :
    (ds ++ r).dropWhile Char.isDigit = r ∧ (ds ++ r).takeWhile Char.isDigit = ds := by
  induction ds with
  | nil =>
    cases r with
    | nil => exact ⟨rfl, rfl⟩
    | cons c r => simp [hr c rfl]
  | cons d ds ih =>
    have hd := h d (by simp)
    obtain ⟨i1, i2⟩ := ih fun c hc => h c (by simp [hc])
    simp [hd, i1, i2]

theorem digitsVal_append (a b : Str) : digitsVal (a ++ b) = digitsVal a * 10 ^ b.length + digitsVal b := by
  unfold digitsVal
  rw [List.foldl_append]
  generalize List.foldl (fun a c => 10 * a + (c.toNat - 48)) 0 a = x
  have : ∀ (b : Str) (x : ℕ), List.foldl (fun a c => 10 * a + (c.toNat - 48)) x b =
      x * 10 ^ b.length + List.foldl (fun a c => 10 * a + (c.toNat - 48)) 0 b := by
    intro b
    induction b with
    | nil => intro x; simp
    | cons c b ih =>
      intro x
      rw [List.foldl_cons, List.foldl_cons, ih, ih (10 * 0 + _)]
      simp only [List.length_cons, Nat.mul_zero, Nat.zero_add]
      ring
  exact this b x

theorem atof_toStr (n : ℤ) : atof (toStr n) = n := by
  obtain ⟨ds, e1, e2, e3, e4⟩ := toStr_spec n
  obtain ⟨c, r, rfl⟩ := List.exists_cons_of_ne_nil e1
  obtain ⟨d1, d2⟩ := dropWhile_digits e2 [] (by simp)
  rw [List.append_nil] at d1 d2
  unfold atof strtod
  by_cases hn : n < 0
  · rw [if_pos hn] at e4
    rw [e4, List.dropWhile_cons_of_neg (by decide)]
    simp only [sign, d1, d2, expPart, List.cons_ne_nil, false_and, if_false, List.append_nil, e3, List.length_nil,
      if_true, Option.getD_some, zpow_zero, pow_zero, div_one, mul_one]
    have : (n : ℚ) = -(n.natAbs : ℚ) := by
      have : n = -(n.natAbs : ℤ) := by omega
      generalize n.natAbs = k at this
      subst this
      push_cast; rfl
    rw [this]
  · rw [if_neg hn] at e4
    rw [e4, List.dropWhile_cons_of_neg (by rw [not_space_of_digit (e2 c (by simp))]; simp), sign_digit e2]
    simp only [d1, d2, expPart, List.cons_ne_nil, false_and, if_false, List.append_nil, e3, List.length_nil,
      Bool.false_eq_true, Option.getD_some, zpow_zero, pow_zero, div_one, mul_one]
    have : (n : ℚ) = (n.natAbs : ℚ) := by
      have : n = (n.natAbs : ℤ) := by omega
      generalize n.natAbs = k at this
      subst this
      push_cast; rfl
    rw [this]

theorem atof_decimal (n : ℕ) (fp : Str) (hf : ∀ c ∈ fp, c.isDigit = true) :
    atof (toStr n ++ '.' :: fp) = n + (digitsVal fp : ℚ) / 10 ^ fp.length := by
  obtain ⟨ds, e1, e2, e3, e4⟩ := toStr_spec n
  rw [if_neg (by omega)] at e4
  obtain ⟨d1, d2⟩ := dropWhile_digits e2 ('.' :: fp) (by simp)
  obtain ⟨f1, f2⟩ := dropWhile_digits hf [] (by simp)
  rw [List.append_nil] at f1 f2
  obtain ⟨c, r, rfl⟩ := List.exists_cons_of_ne_nil e1
  have hs : sign (c :: r ++ '.' :: fp) = (false, c :: r ++ '.' :: fp) := by
    have hc := e2 c (by simp)
    unfold sign
    split
    · rename_i h; simp only [List.cons_append, List.cons.injEq] at h; rw [h.1] at hc; simp at hc
    · rename_i h; simp only [List.cons_append, List.cons.injEq] at h; rw [h.1] at hc; simp at hc
    · rfl
  unfold atof strtod
  have hdw : (c :: r ++ '.' :: fp).dropWhile isSpace = c :: r ++ '.' :: fp := by
    rw [List.cons_append, List.dropWhile_cons_of_neg (by rw [not_space_of_digit (e2 c (by simp))]; simp)]
  rw [e4, hdw, hs]
  simp only [d1, d2, f1, f2, expPart, List.cons_ne_nil, false_and, if_false, e3, Bool.false_eq_true,
    Option.getD_some, zpow_zero, mul_one, digitsVal_append, Int.natAbs_natCast]
  push_cast
  field_simp

end Verif.Text
