import Verif.Lemmas.Readers
import Verif.Spec.FlowFiles

/-!
# Decimals, and the flows of paths
-/

namespace Verif.FlowF
open Text Io Rd Graph

theorem near_spec {y : ℚ} (h : 0 ≤ y) : |(near y : ℚ) - y| ≤ 1 / 2 := by
  have h0 : 0 ≤ ⌊y⌋ := Int.floor_nonneg.2 h
  have e : ((⌊y⌋.toNat : ℕ) : ℚ) = (⌊y⌋ : ℚ) := by exact_mod_cast Int.toNat_of_nonneg h0
  have a := Int.floor_le y
  have b := Int.lt_floor_add_one y
  unfold near
  simp only
  split
  · rename_i h1
    rw [abs_le]; constructor <;> linarith
  · rename_i h1
    split
    · rename_i h2
      rw [abs_le]; push_cast; constructor <;> linarith
    · rename_i h2
      split
      · rw [abs_le]; constructor <;> linarith
      · rw [abs_le]; push_cast; constructor <;> linarith

theorem near_nat (n : ℕ) : near (n : ℚ) = n := by
  have h := near_spec (y := (n : ℚ)) (by positivity)
  rw [abs_le] at h
  have a : (near (n : ℚ) : ℚ) < n + 1 := by linarith [h.2]
  have b : (n : ℚ) < near (n : ℚ) + 1 := by linarith [h.1]
  have a' : near (n : ℚ) < n + 1 := by exact_mod_cast a
  have b' : n < near (n : ℚ) + 1 := by exact_mod_cast b
  omega

theorem fix_spec : ∀ (k r : ℕ), (fix k r).length = k ∧ (∀ c ∈ fix k r, c.isDigit = true) ∧
    ∀ a : ℕ, (fix k r).foldl (fun a c => 10 * a + (c.toNat - 48)) a = a * 10 ^ k + r % 10 ^ k := by
  intro k
  induction k with
  | zero => intro r; simp [fix, Nat.mod_one]
  | succ k ih =>
    intro r
    obtain ⟨e1, e2, e3⟩ := ih (r / 10)
    obtain ⟨h1, h2⟩ := digit_ok (r % 10) (Nat.mod_lt _ (by omega))
    refine ⟨by simp [fix, e1], ?_, ?_⟩
    · intro c hc
      rcases List.mem_append.1 hc with hc | hc
      · exact e2 c hc
      · rw [List.mem_singleton.1 hc]; exact h1
    · intro a
      simp only [fix, List.foldl_append, List.foldl_cons, List.foldl_nil, h2, e3]
      have := Nat.mod_mul (a := r) (b := 10) (x := 10 ^ k)
      rw [pow_succ, Nat.mul_comm (10 ^ k) 10]
      rw [Nat.mod_mul]
      ring

/-- The number that is read. -/
def decVal (x : ℚ) : ℚ := (if x < 0 then -1 else 1) * ((near (|x| * 1000000) : ℚ) / 1000000)

theorem strtod_dec {ip fp : Str} (h1 : ip ≠ []) (h2 : ∀ c ∈ ip, c.isDigit = true) (h3 : ∀ c ∈ fp, c.isDigit = true)
    (neg : Bool) : strtod ((if neg then ['-'] else []) ++ (ip ++ '.' :: fp)) =
      some (if neg then -((digitsVal (ip ++ fp) : ℚ) / 10 ^ fp.length) else (digitsVal (ip ++ fp) : ℚ) / 10 ^ fp.length) := by
  have t1 : (ip ++ '.' :: fp).takeWhile Char.isDigit = ip := by
    rw [List.takeWhile_append_of_pos h2, List.takeWhile_cons_of_neg (by decide), List.append_nil]
  have t2 : (ip ++ '.' :: fp).dropWhile Char.isDigit = '.' :: fp := by
    rw [List.dropWhile_append_of_pos h2, List.dropWhile_cons_of_neg (by decide)]
  have t3 : fp.takeWhile Char.isDigit = fp := takeWhile_all h3
  have t4 : fp.dropWhile Char.isDigit = [] := by
    have := List.takeWhile_append_dropWhile (p := Char.isDigit) (l := fp)
    rw [t3] at this
    exact List.append_right_eq_self.1 this
  obtain ⟨c, r, rfl⟩ := List.exists_cons_of_ne_nil h1
  have hc := h2 c (by simp)
  have hs : sign (c :: r ++ '.' :: fp) = (false, c :: r ++ '.' :: fp) := by
    rw [List.cons_append]
    unfold sign
    split
    · rename_i e; simp only [List.cons.injEq] at e; rw [e.1] at hc; simp at hc
    · rename_i e; simp only [List.cons.injEq] at e; rw [e.1] at hc; simp at hc
    · rfl
  unfold strtod
  cases neg
  · simp only [Bool.false_eq_true, if_false, List.nil_append]
    rw [List.cons_append, List.dropWhile_cons_of_neg (by rw [not_space_of_digit hc]; simp), ← List.cons_append, hs]
    simp only [t1, t2, t3, t4, expPart]
    simp
  · simp only [if_true, List.cons_append, List.nil_append]
    rw [List.dropWhile_cons_of_neg (by decide)]
    simp only [sign]
    rw [← List.cons_append]
    simp only [t1, t2, t3, t4, expPart]
    simp

theorem stod_dec (x : ℚ) : stod (dec x) = .ok (decVal x) := by
  obtain ⟨ip, e1, e2, e3, e4⟩ := decGo_spec (near (|x| * 1000000) / 1000000 + 1) (near (|x| * 1000000) / 1000000) [] (by omega)
  obtain ⟨f1, f2, f3⟩ := fix_spec 6 (near (|x| * 1000000) % 1000000)
  rw [List.append_nil] at e1
  have hd : digitsVal (ip ++ fix 6 (near (|x| * 1000000) % 1000000)) = near (|x| * 1000000) := by
    unfold digitsVal at e4 ⊢
    rw [List.foldl_append, e4, f3]
    norm_num
    omega
  have h := strtod_dec e2 e3 f2 (decide (x < 0))
  unfold stod dec
  simp only
  rw [e1]
  simp only [decide_eq_true_eq] at h
  rw [h, hd, f1]
  simp only [decVal]
  split <;> norm_num

theorem dec_word (x : ℚ) : WordOk (dec x) ∧ (dec x).head? ≠ some '#' := by
  obtain ⟨ip, e1, e2, e3, e4⟩ := decGo_spec (near (|x| * 1000000) / 1000000 + 1) (near (|x| * 1000000) / 1000000) [] (by omega)
  obtain ⟨f1, f2, f3⟩ := fix_spec 6 (near (|x| * 1000000) % 1000000)
  rw [List.append_nil] at e1
  obtain ⟨c, r, rfl⟩ := List.exists_cons_of_ne_nil e2
  unfold dec
  simp only
  rw [e1]
  refine ⟨⟨by simp, ?_⟩, ?_⟩
  · intro a ha
    rcases List.mem_append.1 ha with ha | ha
    · split at ha
      · rw [List.mem_singleton.1 ha]; decide
      · simp at ha
    · rcases List.mem_append.1 ha with ha | ha
      · exact not_space_of_digit (e3 a ha)
      · rcases List.mem_cons.1 ha with rfl | ha
        · decide
        · exact not_space_of_digit (f2 a ha)
  · split
    · simp
    · have := e3 c (by simp)
      simp only [List.nil_append, List.cons_append, List.head?_cons, ne_eq, Option.some.injEq]
      rintro rfl
      simp at this

theorem close_dec (x : ℚ) : Close x (decVal x) := by
  have h0 : (0 : ℚ) ≤ |x| * 1000000 := by positivity
  have h := near_spec h0
  rw [abs_le] at h
  constructor
  · unfold decVal
    split
    · rename_i hx
      rw [abs_of_neg hx] at h ⊢
      rw [abs_le]
      constructor <;> linarith [h.1, h.2]
    · rename_i hx
      rw [abs_of_nonneg (not_lt.1 hx)] at h ⊢
      rw [abs_le]
      constructor <;> linarith [h.1, h.2]
  · intro n hn
    have e : |x| * 1000000 = ((n.natAbs : ℕ) : ℚ) := by
      rw [hn, abs_div, Nat.cast_natAbs, Int.cast_abs]
      norm_num
    unfold decVal
    rw [e, near_nat, ← e]
    split
    · rename_i hx
      rw [abs_of_neg hx]; ring
    · rename_i hx
      rw [abs_of_nonneg (not_lt.1 hx)]; ring

/-! ### The file of buffers -/

theorem flat_dec : ∀ (b : List ℚ), b ≠ [] → b.flatMap (fun x => dec x ++ [' ']) = lineOf (b.map dec) ++ [' '] := by
  intro b
  induction b with
  | nil => intro h; exact absurd rfl h
  | cons x b ih =>
    intro _
    rcases b with _ | ⟨y, b⟩
    · simp [lineOf]
    · rw [List.flatMap_cons, ih (by simp)]
      simp [lineOf, List.intercalate]

theorem bufferToString_eq (b : List ℚ) : bufferToString b = lineOf (b.map dec) ++ ['\n'] := by
  unfold bufferToString
  by_cases h : b = []
  · subst h; simp [lineOf, List.intercalate]
  · rw [if_neg h, flat_dec b h, List.dropLast_concat]

theorem linesOf_buffers : ∀ bs : List (List ℚ), linesOf (saveBuffers bs) = bs.map (fun b => lineOf (b.map dec)) ++ [[]] := by
  intro bs
  induction bs with
  | nil => rfl
  | cons b bs ih =>
    have e : saveBuffers (b :: bs) = lineOf (b.map dec) ++ '\n' :: saveBuffers bs := by
      unfold saveBuffers
      rw [List.flatMap_cons, bufferToString_eq]
      simp
    have hn : '\n' ∉ lineOf (b.map dec) := line_no_newline fun w hw => by
      obtain ⟨x, _, rfl⟩ := List.mem_map.1 hw
      exact (dec_word x).1
    unfold linesOf at ih ⊢
    rw [e, List.splitOn_append_cons_self_of_not_mem hn, ih]
    rfl

theorem buffer_line (b : List ℚ) : split (trim (lineOf (b.map dec))) ' ' = b.map dec := by
  have hw : ∀ w ∈ b.map dec, WordOk w := fun w hw => by
    obtain ⟨x, _, rfl⟩ := List.mem_map.1 hw
    exact (dec_word x).1
  rw [trim_eq, strip_line hw]
  rcases b with _ | ⟨x, b⟩
  · decide
  · exact split_line ⟨hw, _, _, rfl, (dec_word x).2⟩

theorem stods_dec (b : List ℚ) : stods (b.map dec) = .ok (b.map decVal) := by
  have key : ∀ (b acc : List ℚ), Res.foldlM (fun acc w => (stod w).bind fun x => .ok (acc ++ [x])) acc (b.map dec) =
      .ok (acc ++ b.map decVal) := by
    intro b
    induction b with
    | nil => intro acc; simp
    | cons x b ih =>
      intro acc
      rw [List.map_cons, Res.foldlM_cons, stod_dec, Res.bind_ok', Res.ok_bind, ih]
      simp
  exact key b []

theorem pathRow_counter {fuel : ℕ} {g : G} {s s' : LoadSt} {l : Str} {a b : Str} {c : List Str} (h : split l ' ' = a :: b :: c)
    (e : pathRow fuel g s l = .ok s') : s'.counter = s.counter + 1 := by
  unfold pathRow at e
  rw [h] at e
  simp only at e
  obtain ⟨_, _, e⟩ := Res.bind_eq_ok'.1 e
  obtain ⟨_, _, e⟩ := Res.bind_eq_ok'.1 e
  obtain ⟨_, _, e⟩ := Res.bind_eq_ok'.1 e
  obtain ⟨_, _, e⟩ := Res.bind_eq_ok'.1 e
  simp only [Res.ok.injEq] at e
  rw [← e]

theorem flow_fold {fuel : ℕ} {g : G} (rest : List Str) : ∀ (rows : List Str) (bs : List (List ℚ)) (base base' : LoadSt) (j : In)
    (fl : ℕ → List ℚ), rows.length = bs.length → (∀ l ∈ rows, ∃ a b c, split l ' ' = a :: b :: c) →
    Has j (bs.map (fun b => lineOf (b.map dec)) ++ rest) → (∀ k, base.counter ≤ k → fl k = []) →
    Res.foldlM (pathRow fuel g) base rows = .ok base' →
    ∃ j' fl', Res.foldlM (flowRow fuel g) ⟨base, j, fl⟩ rows = .ok ⟨base', j', fl'⟩ ∧ (∀ k < base.counter, fl' k = fl k) ∧
      ∀ i, fl' (base.counter + i) = (bs.getD i []).map decVal := by
  intro rows
  induction rows with
  | nil =>
    intro bs base base' j fl hlen _ _ hfl e
    obtain rfl : bs = [] := List.length_eq_zero_iff.1 hlen.symm
    simp only [Res.foldlM_nil, Res.ok.injEq] at e
    subst e
    exact ⟨j, fl, rfl, fun _ _ => rfl, fun i => by rw [hfl _ (by omega)]; rfl⟩
  | cons l rows ih =>
    intro bs base base' j fl hlen hw hj hfl e
    rcases bs with _ | ⟨b, bs⟩
    · simp at hlen
    · rw [Res.foldlM_cons] at e
      obtain ⟨t, e1, e2⟩ := Res.bind_eq_ok.1 e
      obtain ⟨x, y, z, hs⟩ := hw l (by simp)
      have hc := pathRow_counter hs e1
      obtain ⟨g1, g2⟩ := getline_spec hj (trim (lineOf (b.map dec)))
      have step : flowRow fuel g ⟨base, j, fl⟩ l = .ok ⟨t, { getline j with line := trim (lineOf (b.map dec)) },
          if b = [] then fl else upd fl base.counter (b.map decVal)⟩ := by
        unfold flowRow
        simp only
        rw [hs, g1]
        simp only
        rw [e1, Res.bind_ok', buffer_line, stods_dec, Res.bind_ok']
        simp
      have fl1 : ∀ k, (if b = [] then fl else upd fl base.counter (b.map decVal)) k =
          if k = base.counter then b.map decVal else fl k := by
        intro k
        by_cases hb : b = []
        · rw [if_pos hb]
          split
          · rename_i hk
            rw [hk, hfl _ (le_refl _), hb]; rfl
          · rfl
        · rw [if_neg hb]
          rfl
      obtain ⟨j', fl', f1, f2, f3⟩ := ih bs t base' _ (if b = [] then fl else upd fl base.counter (b.map decVal)) (by simpa using hlen) (fun l hl => hw l (by simp [hl])) g2
        (fun k hk => by rw [fl1, if_neg (by omega)]; exact hfl k (by omega)) e2
      refine ⟨j', fl', ?_, ?_, ?_⟩
      · rw [Res.foldlM_cons, step, Res.ok_bind]
        exact f1
      · intro k hk
        rw [f2 k (by omega), fl1, if_neg (by omega)]
      · intro i
        rcases i with _ | i
        · rw [Nat.add_zero, f2 _ (by omega), fl1, if_pos rfl]
          rfl
        · rw [show base.counter + (i + 1) = t.counter + i by omega, f3]
          rfl

/-! ### Without a file of buffers -/

theorem flowRow_dead (fuel : ℕ) (g : G) (b : LoadSt) (fl : ℕ → List ℚ) (l : Str) :
    flowRow fuel g ⟨b, ⟨[], false, []⟩, fl⟩ l = (pathRow fuel g b l).bind fun b' => .ok ⟨b', ⟨[], false, []⟩, fl⟩ := by
  have e1 : getline ⟨[], false, []⟩ = ⟨[], false, []⟩ := rfl
  have e2 : trim ([] : Str) = [] := by decide
  have e3 : split ([] : Str) ' ' = [] := by decide
  have e4 : stods [] = .ok [] := rfl
  unfold flowRow
  simp only [e1, e2, e3, e4, Res.bind_ok', if_true]
  split
  · rfl
  · rename_i h
    unfold pathRow
    split
    · rename_i hs
      exact absurd hs (h _ _ _)
    · rfl

theorem readLoop_dead (fuel' : ℕ) (g : G) (fl : ℕ → List ℚ) : ∀ (fuel n : ℕ) (i : In) (b : LoadSt),
    readLoop (flowRow fuel' g) fuel n i ⟨b, ⟨[], false, []⟩, fl⟩ =
      (readLoop (pathRow fuel' g) fuel n i b).bind fun r => .ok (⟨r.1, ⟨[], false, []⟩, fl⟩, r.2) := by
  intro fuel
  induction fuel with
  | zero =>
    intro n i b
    cases n <;> rfl
  | succ fuel ih =>
    intro n i b
    cases n with
    | zero => rfl
    | succ n =>
      rw [readLoop, readLoop]
      split
      · exact ih _ _ _
      · rw [flowRow_dead]
        cases pathRow fuel' g b (trim (getline i).line) with
        | ok t => rw [Res.bind_ok', Res.bind_ok', Res.bind_ok', ih]
        | _ => rfl

theorem mem_picks_path {o d : ℤ} : ∀ {ps : List (ℤ × ℤ × PathRec)} {k : ℕ} {p : PathRec}, p ∈ picks o d k ps →
    ∃ q, ps[p.id - k]? = some (o, d, q) ∧ p.nodes = q.nodes ∧ p.links = q.links := by
  intro ps
  induction ps with
  | nil => intro k p h; simp [picks] at h
  | cons q ps ih =>
    intro k p h
    obtain ⟨o', d', q⟩ := q
    simp only [picks] at h
    have tail : p ∈ picks o d (k + 1) ps →
        ∃ q', ((o', d', q) :: ps)[p.id - k]? = some (o, d, q') ∧ p.nodes = q'.nodes ∧ p.links = q'.links := by
      intro h
      have hk := (mem_picks h).1
      obtain ⟨q', e, e'⟩ := ih h
      refine ⟨q', ?_, e'⟩
      rw [show p.id - k = (p.id - (k + 1)) + 1 by omega]
      simpa using e
    split at h
    · rename_i hod
      rcases List.mem_cons.1 h with rfl | h
      · exact ⟨q, by simp [hod.1, hod.2], rfl, rfl⟩
      · exact tail h
    · exact tail h

end Verif.FlowF
