import Verif.Spec.MmLink
import Mathlib.Data.List.Nodup
import Mathlib.Data.List.Induction

/-! The invariant of stops and buses, and the steps that keep it. -/

namespace Verif.MmLnk

variable {V : Type} [DecidableEq V]

/-- The vehicles of each kind at each position, nearest to the exit first. -/
abbrev Pos (V : Type) := Cls → ℕ → List V

/-- Positions `n - 1` down to `0`. -/
def trav (f : ℕ → List V) : ℕ → List V
  | 0 => []
  | n + 1 => f n ++ trav f n

theorem mem_trav {f : ℕ → List V} {n : ℕ} {v : V} : v ∈ trav f n ↔ ∃ p, p < n ∧ v ∈ f p := by
  induction n with
  | zero => simp [trav]
  | succ n ih =>
    simp only [trav, List.mem_append, ih]
    constructor
    · rintro (h | ⟨p, hp, h⟩)
      · exact ⟨n, by omega, h⟩
      · exact ⟨p, by omega, h⟩
    · rintro ⟨p, hp, h⟩
      rcases Nat.lt_succ_iff_lt_or_eq.mp hp with h1 | rfl
      · exact .inr ⟨p, h1, h⟩
      · exact .inl h

theorem trav_congr {f g : ℕ → List V} {n : ℕ} (h : ∀ p, p < n → f p = g p) : trav f n = trav g n := by
  induction n with
  | zero => rfl
  | succ n ih => simp only [trav]; rw [h n (by omega), ih fun p hp => h p (by omega)]

theorem nodup_at {f : ℕ → List V} {n p : ℕ} (h : (trav f n).Nodup) (hp : p < n) : (f p).Nodup := by
  induction n with
  | zero => omega
  | succ n ih =>
    simp only [trav] at h
    rw [List.nodup_append] at h
    rcases Nat.lt_succ_iff_lt_or_eq.mp hp with h1 | rfl
    · exact ih h.2.1 h1
    · exact h.1

theorem nodup_pos {f : ℕ → List V} {n p q : ℕ} {v : V} (h : (trav f n).Nodup) (hp : p < n) (hq : q < n)
    (h1 : v ∈ f p) (h2 : v ∈ f q) : p = q := by
  induction n with
  | zero => omega
  | succ n ih =>
    simp only [trav] at h
    rw [List.nodup_append] at h
    rcases Nat.lt_succ_iff_lt_or_eq.mp hp with hp | rfl <;>
      rcases Nat.lt_succ_iff_lt_or_eq.mp hq with hq | rfl
    · exact ih h.2.1 hp hq
    · exact absurd rfl (h.2.2 v h2 v (mem_trav.2 ⟨p, hp, h1⟩))
    · exact absurd rfl (h.2.2 v h1 v (mem_trav.2 ⟨q, hq, h2⟩))
    · rfl

/-- The vehicle in front goes one position on (or off, behind the last one). -/
def mv (A : Pos V) (c : Cls) (p : ℕ) (v : V) (n : ℕ) : Pos V := fun c' p' =>
  if c' = c ∧ p' = p then (A c p).tail
  else if c' = c ∧ p' = p + 1 ∧ p + 1 < n then A c (p + 1) ++ [v]
  else A c' p'

/-- A vehicle enters. -/
def add (A : Pos V) (v : V) (c : Cls) : Pos V := fun c' p' =>
  if c' = c ∧ p' = 0 then A c 0 ++ [v] else A c' p'

theorem trav_mv {A : Pos V} {c : Cls} {p n : ℕ} {v : V} {q : List V} (h : A c p = v :: q)
    (hp : p + 1 < n) : trav (mv A c p v n c) n = trav (A c) n := by
  have key : ∀ m, p + 1 < m → m ≤ n → trav (mv A c p v n c) m = trav (A c) m := by
    intro m
    induction m with
    | zero => intro h; omega
    | succ m ih =>
      intro hm hn
      rcases Nat.lt_succ_iff_lt_or_eq.mp hm with h1 | h1
      · simp only [trav]
        rw [ih h1 (by omega)]
        congr 1
        simp only [mv]
        rw [if_neg (by omega), if_neg (by omega)]
      · subst h1
        simp only [trav]
        have e1 : mv A c p v n c (p + 1) = A c (p + 1) ++ [v] := by
          simp only [mv]; rw [if_neg (by omega), if_pos (by simp [hp])]
        have e2 : mv A c p v n c p = q := by
          simp only [mv]; rw [if_pos (by simp), h]; rfl
        rw [e1, e2, h, trav_congr (g := A c)]
        · simp
        · intro p' hp'
          simp only [mv]
          rw [if_neg (by omega), if_neg (by omega)]
  exact key n hp le_rfl

theorem trav_mv_last {A : Pos V} {c : Cls} {p : ℕ} {v : V} {q : List V} (h : A c p = v :: q) :
    trav (A c) (p + 1) = v :: trav (mv A c p v (p + 1) c) (p + 1) := by
  simp only [trav]
  have e2 : mv A c p v (p + 1) c p = q := by
    simp only [mv]; rw [if_pos (by simp), h]; rfl
  rw [e2, h, trav_congr (f := mv A c p v (p + 1) c) (g := A c)]
  · simp
  · intro p' hp'
    simp only [mv]
    rw [if_neg (by omega), if_neg (by omega)]

theorem trav_add {A : Pos V} {c : Cls} {n : ℕ} {v : V} (hn : 0 < n) :
    trav (add A v c c) n = trav (A c) n ++ [v] := by
  induction n with
  | zero => omega
  | succ n ih =>
    simp only [trav]
    rcases Nat.eq_zero_or_pos n with rfl | h
    · simp [trav, add]
    · rw [ih h]
      have : add A v c c n = A c n := by simp only [add]; rw [if_neg (by omega)]
      rw [this, List.append_assoc]

theorem trav_mv_ne {A : Pos V} {c c' : Cls} {p n m : ℕ} {v : V} (h : c' ≠ c) :
    trav (mv A c p v n c') m = trav (A c') m := by
  apply trav_congr
  intro p' _
  simp only [mv]
  rw [if_neg (by tauto), if_neg (by tauto)]

theorem trav_add_ne {A : Pos V} {c c' : Cls} {m : ℕ} {v : V} (h : c' ≠ c) :
    trav (add A v c c') m = trav (A c') m := by
  apply trav_congr
  intro p' _
  simp only [add]
  rw [if_neg (by tauto)]

/-! ## Stops -/

theorem stopAt_some {stops : List Stop} {r : ℤ} {p i : ℕ} (h : stopAt stops r p = some i) :
    stops[i]? = some ⟨r, p⟩ := by
  unfold stopAt at h
  rw [List.findIdx?_eq_some_iff_getElem] at h
  obtain ⟨hi, h1, _⟩ := h
  rw [List.getElem?_eq_getElem hi]
  simp only [decide_eq_true_eq] at h1
  have : stops[i] = ⟨r, p⟩ := by
    cases hs : stops[i] with
    | mk a b => rw [hs] at h1; simp only at h1; rw [h1.1, h1.2]
  rw [this]

theorem stopAt_of {stops : List Stop} {r : ℤ} {p i : ℕ} (hw : stops.Nodup)
    (h : stops[i]? = some ⟨r, p⟩) : stopAt stops r p = some i := by
  cases hs : stopAt stops r p with
  | none =>
    unfold stopAt at hs
    rw [List.findIdx?_eq_none_iff] at hs
    have := hs _ (List.mem_of_getElem? h)
    simp at this
  | some j =>
    have := stopAt_some hs
    rw [List.getElem?_eq_some_iff] at h this
    obtain ⟨h1, h2⟩ := h
    obtain ⟨h3, h4⟩ := this
    rw [(List.Nodup.getElem_inj_iff hw (hi := h3) (hj := h1)).1 (h4.trans h2.symm)]

theorem stop_inj {stops : List Stop} {s : Stop} {i j : ℕ} (hw : stops.Nodup)
    (h : stops[i]? = some s) (h' : stops[j]? = some s) : i = j := by
  obtain ⟨r, p⟩ := s
  have h1 := stopAt_of hw h
  have h2 := stopAt_of hw h'
  rw [h1] at h2
  exact Option.some.inj h2

theorem here_eq {stops : List Stop} (hw : stops.Nodup) (r : ℤ) (p : ℕ) :
    here stops r p = (stopAt stops r p).toList := by
  cases hs : stopAt stops r p with
  | none =>
    rw [Option.toList_none, here, List.filter_eq_nil_iff]
    intro i _ h
    simp only [decide_eq_true_eq] at h
    rw [stopAt_of hw h] at hs
    exact absurd hs (by simp)
  | some i =>
    have hi := stopAt_some hs
    have hlt : i < stops.length := by
      rw [List.getElem?_eq_some_iff] at hi; exact hi.1
    rw [Option.toList_some, here]
    have hcongr : ∀ j ∈ List.range stops.length,
        decide (stops[j]? = some ⟨r, p⟩) = decide (j = i) := by
      intro j _
      by_cases hj : stops[j]? = some ⟨r, p⟩
      · have := stop_inj hw hj hi
        simp [this, hi]
      · have : j ≠ i := by rintro rfl; exact hj hi
        simp [hj, this]
    rw [List.filter_congr hcongr]
    have hn : ((List.range stops.length).filter fun j => decide (j = i)).Nodup :=
      List.Nodup.filter _ List.nodup_range
    have hm : ∀ x, x ∈ ((List.range stops.length).filter fun j => decide (j = i)) ↔ x ∈ [i] := by
      intro x
      simp only [List.mem_filter, List.mem_range, decide_eq_true_eq, List.mem_singleton]
      constructor
      · exact fun h => h.2
      · rintro rfl; exact ⟨hlt, rfl⟩
    exact List.perm_singleton.1 ((List.perm_ext_iff_of_nodup hn (by simp)).2 hm)

theorem served_succ {stops : List Stop} (hw : stops.Nodup) (r : ℤ) (v : V) (p : ℕ) :
    served stops r v (p + 1) = served stops r v p ++ (here stops r p).map (fun i => .receive i v)
      ++ (here stops r p).map (fun i => .release i v) := by
  simp only [served, List.range_succ, List.flatMap_append]
  simp only [here_eq hw]
  cases h : stopAt stops r p <;> simp [h]

theorem sofar_succ {stops : List Stop} (hw : stops.Nodup) (r : ℤ) (v : V) (p : ℕ) :
    sofar stops r v (p + 1) = sofar stops r v p ++ (here stops r p).map (fun i => .release i v)
      ++ (here stops r (p + 1)).map (fun i => .receive i v) := by
  simp only [sofar, served_succ hw]
  simp

theorem trip_sofar {stops : List Stop} (hw : stops.Nodup) (r : ℤ) (v : V) (p : ℕ) :
    trip stops r v (p + 1) = sofar stops r v p ++ (here stops r p).map (fun i => .release i v)
      ++ [.leave v] := by
  simp only [trip, sofar, served_succ hw]
  simp

theorem sofar_zero {stops : List Stop} (r : ℤ) (v : V) :
    sofar stops r v 0 = .enter v :: (here stops r 0).map fun i => .receive i v := by
  simp [sofar, served]

/-! ## The log -/

theorem entered_append (l l' : List (ℕ × Ev V)) : entered (l ++ l') = entered l ++ entered l' := by
  simp [entered, List.filterMap_append]

theorem exit_append (l l' : List (ℕ × Ev V)) :
    reachedExit (l ++ l') = reachedExit l ++ reachedExit l' := by
  simp [reachedExit, List.filterMap_append]

theorem story_append (v : V) (l l' : List (ℕ × Ev V)) : story v (l ++ l') = story v l ++ story v l' := by
  simp [story]

theorem cls_bus {K : Kinds V} {v : V} {r : ℤ} : K.cls v = .bus r ↔ K.bus v = some r := by
  unfold Kinds.cls
  cases h : K.bus v with
  | none => simp only; split <;> simp
  | some r' => simp

/-! ## The invariant -/

/-- Positions, stops, buses and log fit together.  `k` buses make a group of which one stops, the
link has `n` positions. -/
structure Inv (K : Kinds V) (stops : List Stop) (k : ℤ) (n : ℕ) (A : Pos V) (b : Bay V) : Prop where
  out : ∀ c p, n ≤ p → A c p = []
  cls : ∀ c p v, v ∈ A c p → K.cls v = c
  nodup : ∀ c, (trav (A c) n).Nodup
  queue : ∀ (i : ℕ) (r : ℤ) (p : ℕ), stops[i]? = some ⟨r, p⟩ → b.queue i = A (.bus r) p
  low : ∀ (i : ℕ) (r : ℤ) (p : ℕ), stops[i]? = some ⟨r, p⟩ → b.counter i ≤ k
  tail : ∀ (i : ℕ) (r : ℤ) (p : ℕ) (v : V), stops[i]? = some ⟨r, p⟩ → v ∈ (A (.bus r) p).tail → b.stopped v = 0
  head : ∀ (i : ℕ) (r : ℤ) (p : ℕ), stops[i]? = some ⟨r, p⟩ →
    (b.counter i = k ↔ ∃ v q, A (.bus r) p = v :: q ∧ 0 < b.stopped v)
  nonneg : ∀ v, 0 ≤ b.stopped v
  idle : ∀ v, b.stopped v ≠ 0 → ∃ (i : ℕ) (r : ℤ) (p : ℕ), stops[i]? = some ⟨r, p⟩ ∧ v ∈ A (.bus r) p
  fifo : ∀ c, K.only c (entered b.log) = K.only c (reachedExit b.log) ++ trav (A c) n
  told : ∀ v r, K.bus v = some r → ∃ m cur,
    story v b.log = (List.replicate m (trip stops r v n)).flatten ++ cur ∧
    (∀ p, v ∈ A (.bus r) p → cur = sofar stops r v p) ∧ ((∀ p, v ∉ A (.bus r) p) → cur = [])

namespace Inv

variable {K : Kinds V} {stops : List Stop} {k : ℤ} {n : ℕ} {A : Pos V} {b : Bay V}

theorem lt (h : Inv K stops k n A b) {c : Cls} {p : ℕ} {v : V} (hv : v ∈ A c p) : p < n := by
  by_contra hp
  rw [h.out c p (by omega)] at hv
  exact absurd hv (by simp)

/-- A vehicle is at one position. -/
theorem unique (h : Inv K stops k n A b) {c c' : Cls} {p p' : ℕ} {v : V} (h1 : v ∈ A c p)
    (h2 : v ∈ A c' p') : c = c' ∧ p = p' := by
  have e : c = c' := (h.cls c p v h1).symm.trans (h.cls c' p' v h2)
  subst e
  exact ⟨rfl, nodup_pos (h.nodup c) (h.lt h1) (h.lt h2) h1 h2⟩

/-- Notes that do not concern the moves of vehicles. -/
theorem note (h : Inv K stops k n A b) {t : ℕ} {e : Ev V} (h1 : entered [(t, e)] = [])
    (h2 : reachedExit [(t, e)] = []) (h3 : ∀ v, story v [(t, e)] = []) :
    Inv K stops k n A (b.note t e) := by
  refine ⟨h.out, h.cls, h.nodup, h.queue, h.low, h.tail, h.head, h.nonneg, h.idle, ?_, ?_⟩
  · intro c
    simp only [Bay.note]
    rw [entered_append, exit_append, h1, h2, List.append_nil, List.append_nil]
    exact h.fifo c
  · intro v r hr
    simp only [Bay.note]
    rw [story_append, h3 v, List.append_nil]
    exact h.told v r hr

theorem note_hold (h : Inv K stops k n A b) (t i : ℕ) (v : V) :
    Inv K stops k n A (b.note t (.hold i v)) :=
  h.note rfl rfl fun _ => by simp [story, Ev.moves]

theorem note_board (h : Inv K stops k n A b) (t i : ℕ) (v : V) :
    Inv K stops k n A (b.note t (.board i v)) :=
  h.note rfl rfl fun _ => by simp [story, Ev.moves]

end Inv

/-- Nothing has happened. -/
theorem Inv.init {K : Kinds V} {stops : List Stop} {k : ℤ} {n : ℕ} (hk : 1 ≤ k) :
    Inv K stops k n (fun _ _ => []) Bay.empty := by
  have ht : trav (fun _ => ([] : List V)) n = [] := by
    induction n with
    | zero => rfl
    | succ n ih => simp [trav, ih]
  refine ⟨fun _ _ _ => rfl, by simp, ?_, fun _ _ _ _ => rfl, ?_, by simp, ?_, fun _ => le_rfl, ?_, ?_, ?_⟩
  · intro c; rw [ht]; exact List.nodup_nil
  · intro i r p _; simp only [Bay.empty]; omega
  · intro i r p _
    simp only [Bay.empty]
    constructor
    · intro h; omega
    · rintro ⟨v, q, h, _⟩; exact absurd h (by simp)
  · intro v h; exact absurd rfl h
  · intro c; rw [ht]; rfl
  · intro v r _
    exact ⟨0, [], rfl, fun p h => absurd h (by simp), fun _ => rfl⟩

end Verif.MmLnk
