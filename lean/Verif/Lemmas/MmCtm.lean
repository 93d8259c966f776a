import Verif.Lemmas.MmStep
import Verif.Lemmas.MLink

/-! The cell transmission link with stops keeps the invariant. -/

namespace Verif.MmLnk
open MLnk

variable {V : Type} [DecidableEq V]
variable {K : Kinds V} {stops : List Stop} {k : ℤ} {n : ℕ}

theorem only_append (c : Cls) (l l' : List V) : K.only c (l ++ l') = K.only c l ++ K.only c l' := by
  simp [Kinds.only]

theorem only_cons_same {c : Cls} {v : V} (h : K.cls v = c) (l : List V) :
    K.only c (v :: l) = v :: K.only c l := by
  simp [Kinds.only, h]

theorem only_cons_ne {c : Cls} {v : V} (h : K.cls v ≠ c) (l : List V) :
    K.only c (v :: l) = K.only c l := by
  simp [Kinds.only, h]

theorem only_nil (c : Cls) : K.only c ([] : List V) = [] := rfl

theorem mem_only {c : Cls} {v : V} {l : List V} : v ∈ K.only c l ↔ v ∈ l ∧ K.cls v = c := by
  simp [Kinds.only]

theorem only_all {c : Cls} {l : List V} (h : ∀ v ∈ l, K.cls v = c) : K.only c l = l := by
  rw [Kinds.only, List.filter_eq_self]
  intro v hv; simp [h v hv]

theorem only_none {c : Cls} {l : List V} (h : ∀ v ∈ l, K.cls v ≠ c) : K.only c l = [] := by
  rw [Kinds.only, List.filter_eq_nil_iff]
  intro v hv; simp [h v hv]

theorem comeTo_counter (t p : ℕ) (v : V) (b : Bay V) : (comeTo K stops t p v b).counter = b.counter := by
  simp only [comeTo]
  split <;> rfl

/-- The vehicle whose turn it is, behind held vehicles `h`. -/
theorem turn {A : Pos V} {b : Bay V} {p : ℕ} {h : List V} {v : V} {q : List V}
    (hA : A (K.cls v) p = K.only (K.cls v) (h ++ v :: q)) (hh : ∀ w ∈ h, Held K stops k b p w) :
    v ∈ A (K.cls v) p ∧ ((∃ q, A (K.cls v) p = v :: q) ∨ Blocked K stops k A b p v) := by
  have hv : v ∈ A (K.cls v) p := by rw [hA, mem_only]; simp
  refine ⟨hv, ?_⟩
  rw [only_append, only_cons_same rfl] at hA
  cases ho : K.only (K.cls v) h with
  | nil => rw [ho] at hA; exact .inl ⟨_, hA⟩
  | cons w l =>
    right
    have hw : w ∈ K.only (K.cls v) h := by rw [ho]; exact List.mem_cons_self
    rw [mem_only] at hw
    obtain ⟨r, i, h1, h2, h3⟩ := hh w hw.1
    have hc : K.cls v = .bus r := by rw [← hw.2]; exact cls_bus.2 h1
    refine ⟨r, i, cls_bus.1 hc, h2, h3, ?_⟩
    rw [← hc, hA, ho]
    simp

/-- If the vehicle is in front of its kind, no vehicle of its kind is held. -/
theorem turn_first {A : Pos V} {b : Bay V} {p : ℕ} {h : List V} {v : V} {q q' : List V}
    (hI : Inv K stops k n A b) (hA : A (K.cls v) p = K.only (K.cls v) (h ++ v :: q))
    (hf : A (K.cls v) p = v :: q') : K.only (K.cls v) h = [] ∧ q' = K.only (K.cls v) q := by
  have hv : v ∈ A (K.cls v) p := by rw [hf]; exact List.mem_cons_self
  have hnd := nodup_at (hI.nodup (K.cls v)) (hI.lt hv)
  rw [only_append, only_cons_same rfl] at hA
  have hnd' := hnd
  rw [hA] at hnd'
  rw [hA] at hf
  cases ho : K.only (K.cls v) h with
  | nil =>
    rw [ho] at hf
    simp only [List.nil_append, List.cons.injEq, true_and] at hf
    exact ⟨rfl, hf.symm⟩
  | cons w l =>
    exfalso
    rw [ho] at hf hnd'
    simp only [List.cons_append, List.cons.injEq] at hf
    rw [hf.1] at hnd'
    simp only [List.cons_append, List.nodup_cons] at hnd'
    exact hnd'.1 (by simp)

/-- Held vehicles stay held when a vehicle of another kind goes on. -/
theorem held_go {b b' : Bay V} {p : ℕ} {h : List V} {v : V} (hh : ∀ w ∈ h, Held K stops k b p w)
    (ho : K.only (K.cls v) h = [])
    (hc : ∀ j, (∀ r, K.bus v = some r → stopAt stops r p ≠ some j) → b'.counter j = b.counter j) :
    ∀ w ∈ h, Held K stops k b' p w := by
  intro w hw
  obtain ⟨r, i, h1, h2, h3⟩ := hh w hw
  refine ⟨r, i, h1, h2, ?_⟩
  rw [hc i, h3]
  intro r' hr' hs
  have e : r' = r := by
    have h4 := stopAt_some hs
    rw [stopAt_some h2] at h4
    simp only [Option.some.injEq, Stop.mk.injEq, and_true] at h4
    exact h4.symm
  subst e
  have : w ∈ K.only (K.cls v) h := by
    rw [mem_only]
    exact ⟨hw, by rw [cls_bus.2 h1, cls_bus.2 hr']⟩
  rw [ho] at this
  exact absurd this (by simp)

theorem moveCell_inv {orc : ℕ → ℤ × Bool} {t p : ℕ} (hk : 1 ≤ k) (hw : StopsWf stops n)
    (hp : p + 1 < n) (M : Cls → Prop) :
    ∀ (q : List V) (m : ℕ) (h : List V) (A : Pos V) (b : Bay V), Inv K stops k n A b →
      (∀ v ∈ q, M (K.cls v)) → (∀ c, M c → A c p = K.only c (h ++ q)) →
      (∀ w ∈ h, Held K stops k b p w) →
      ∃ st mo b' A', moveCell K stops k orc t p m q b = .ok (st, mo, b') ∧ Inv K stops k n A' b' ∧
        (∀ c, M c → A' c p = K.only c (h ++ st) ∧ A' c (p + 1) = A c (p + 1) ++ K.only c mo) ∧
        (∀ c p', (¬ M c ∨ (p' ≠ p ∧ p' ≠ p + 1)) → A' c p' = A c p') ∧
        (∀ v ∈ st, v ∈ q) ∧ (∀ v ∈ mo, v ∈ q) ∧ (st ++ mo).Perm q ∧
        reachedExit b'.log = reachedExit b.log ∧ entered b'.log = entered b.log := by
  intro q
  induction q with
  | nil =>
    intro m h A b hI hM hA hh
    refine ⟨[], [], b, A, by cases m <;> rfl, hI, ?_, fun _ _ _ => rfl, by simp, by simp, by simp, rfl, rfl⟩
    intro c hc
    rw [hA c hc]; simp [Kinds.only]
  | cons v q ih =>
    intro m h A b hI hM hA hh
    cases m with
    | zero =>
      refine ⟨v :: q, [], b, A, rfl, hI, ?_, fun _ _ _ => rfl, by simp, by simp, by simp, rfl, rfl⟩
      intro c hc
      rw [hA c hc]; simp [Kinds.only]
    | succ m =>
      have hMv := hM v List.mem_cons_self
      have hAv := hA _ hMv
      obtain ⟨hmem, hpos⟩ := turn hAv hh
      obtain ⟨b1, held, hvis, hheld, hgo⟩ := hI.visit (orc := orc) (t := t) hk hw hmem hpos
      have hlog1 := visit_log hvis
      cases held with
      | true =>
        obtain ⟨hI1, hH1, hk1⟩ := hheld rfl
        obtain ⟨st, mo, b', A', e1, e2, e3, e4, e5, e6, e7, e8, e9⟩ := ih (m + 1) (h ++ [v]) A b1 hI1
          (fun w hw' => hM w (List.mem_cons_of_mem _ hw'))
          (fun c hc => by rw [hA c hc, List.append_assoc]; rfl)
          (by
            intro w hw'
            rw [List.mem_append, List.mem_singleton] at hw'
            rcases hw' with hw' | rfl
            · obtain ⟨r, i, h1, h2, h3⟩ := hh w hw'
              exact ⟨r, i, h1, h2, hk1 i h3⟩
            · exact hH1)
        refine ⟨v :: st, mo, b', A', ?_, e2, ?_, e4, ?_, ?_, ?_, ?_, ?_⟩
        · simp only [moveCell, hvis, Res.bind_ok', if_true, e1]
        · intro c hc
          refine ⟨?_, (e3 c hc).2⟩
          rw [(e3 c hc).1, List.append_assoc]; rfl
        · intro w hw'
          rcases List.mem_cons.1 hw' with rfl | hw'
          · exact List.mem_cons_self
          · exact List.mem_cons_of_mem _ (e5 w hw')
        · intro w hw'; exact List.mem_cons_of_mem _ (e6 w hw')
        · rw [List.cons_append]; exact e7.cons v
        · rw [e8, hlog1.1]
        · rw [e9, hlog1.2]
      | false =>
        obtain ⟨q', b2, hf, hgoOn, hcnt, hstep, _⟩ := hgo rfl
        obtain ⟨ho, hq'⟩ := turn_first hI hAv hf
        have hI2 := hstep hp
        have hlog2 : reachedExit (comeTo K stops t (p + 1) v b2).log = reachedExit b1.log ∧
            entered (comeTo K stops t (p + 1) v b2).log = entered b1.log := by
          have h1 := goOn_log hgoOn
          have h2 := comeTo_log (K := K) (stops := stops) t (p + 1) v b2
          exact ⟨h2.1.trans h1.1, h2.2.trans h1.2⟩
        have hA1p : ∀ c, mv A (K.cls v) p v n c p = if c = K.cls v then q' else A c p := by
          intro c
          simp only [mv]
          by_cases e : c = K.cls v
          · rw [if_pos (by simp [e]), if_pos e, hf]; rfl
          · rw [if_neg (by tauto), if_neg (by tauto), if_neg e]
        have hA1n : ∀ c, mv A (K.cls v) p v n c (p + 1) = A c (p + 1) ++ K.only c [v] := by
          intro c
          simp only [mv]
          rw [if_neg (by omega)]
          by_cases e : c = K.cls v
          · rw [if_pos (by simp [e, hp]), e, only_cons_same rfl, only_nil]
          · rw [if_neg (by tauto), only_cons_ne (Ne.symm e), only_nil, List.append_nil]
        obtain ⟨st, mo, b', A', e1, e2, e3, e4, e5, e6, e7, e8, e9⟩ := ih m h _ _ hI2
          (fun w hw' => hM w (List.mem_cons_of_mem _ hw'))
          (by
            intro c hc
            rw [hA1p]
            by_cases e : c = K.cls v
            · rw [if_pos e, hq', e, only_append, ho, List.nil_append]
            · rw [if_neg e, hA c hc, only_append, only_append, only_cons_ne (Ne.symm e)])
          (by
            have := held_go (b' := comeTo K stops t (p + 1) v b2) hh ho (by
              intro j hj; rw [comeTo_counter]; exact hcnt j hj)
            exact this)
        refine ⟨st, v :: mo, b', A', ?_, e2, ?_, ?_, ?_, ?_, ?_, ?_, ?_⟩
        · simp only [moveCell, hvis, Res.bind_ok']
          simp only [Bool.false_eq_true, if_false, hgoOn, Res.bind_ok', e1]
        · intro c hc
          refine ⟨(e3 c hc).1, ?_⟩
          rw [(e3 c hc).2, hA1n, List.append_assoc, ← only_append]; rfl
        · intro c p' hc
          rw [e4 c p' hc]
          simp only [mv]
          rw [if_neg, if_neg]
          · rintro ⟨e1', e2', _⟩
            rcases hc with hc | hc
            · exact hc (e1' ▸ hMv)
            · omega
          · rintro ⟨e1', e2'⟩
            rcases hc with hc | hc
            · exact hc (e1' ▸ hMv)
            · omega
        · intro w hw'; exact List.mem_cons_of_mem _ (e5 w hw')
        · intro w hw'
          rcases List.mem_cons.1 hw' with rfl | hw'
          · exact List.mem_cons_self
          · exact List.mem_cons_of_mem _ (e6 w hw')
        · exact (List.perm_middle).trans (e7.cons v)
        · rw [e8, hlog2.1, hlog1.1]
        · rw [e9, hlog2.2, hlog1.2]

/-! ## Cells -/

/-- Cars and trucks are in their deques. -/
def CellOk (K : Kinds V) (c : MLnk.Cell V) : Prop :=
  (∀ v ∈ c.queueCar, K.cls v = .car) ∧ ∀ v ∈ c.queueTruck, K.cls v ≠ .car

/-- The vehicles of a kind in a cell. -/
def inCell (K : Kinds V) (x : Cls) (c : MLnk.Cell V) : List V := K.only x (c.queueCar ++ c.queueTruck)

theorem inCell_car {c : MLnk.Cell V} (h : CellOk K c) : inCell K .car c = c.queueCar := by
  rw [inCell, only_append, only_all h.1, only_none h.2, List.append_nil]

theorem inCell_ne {c : MLnk.Cell V} {x : Cls} (h : CellOk K c) (hx : x ≠ .car) :
    inCell K x c = K.only x c.queueTruck := by
  rw [inCell, only_append, only_none (l := c.queueCar), List.nil_append]
  intro v hv; rw [h.1 v hv]; exact Ne.symm hx

/-- The deque of cars has as many cars as may move on. -/
def Enough (cs : List (MLnk.Cell V)) : Prop :=
  ∀ e, cs.getLast? = some e → e.outCar.toNat ≤ e.queueCar.length

theorem moveFrom_inv {orc : ℕ → ℤ × Bool} {t : ℕ} (hk : 1 ≤ k) (hw : StopsWf stops n) :
    ∀ (rest : List (MLnk.Cell V)) (c : MLnk.Cell V) (p : ℕ) (A : Pos V) (b : Bay V),
      n = p + 1 + rest.length → Inv K stops k n A b → (∀ d ∈ c :: rest, CellOk K d) →
      (∀ (x : Cls) (j : ℕ) (d : MLnk.Cell V), (c :: rest)[j]? = some d → A x (p + j) = inCell K x d) →
      Enough (c :: rest) →
      ∃ cs b' A', moveFrom K stops k orc t p c rest b = .ok (cs, b') ∧ Inv K stops k n A' b' ∧
        cs.length = rest.length + 1 ∧ (∀ d ∈ cs, CellOk K d) ∧
        (∀ (x : Cls) (j : ℕ) (d : MLnk.Cell V), cs[j]? = some d → A' x (p + j) = inCell K x d) ∧
        (∀ x p', p' < p → A' x p' = A x p') ∧ Enough cs ∧
        reachedExit b'.log = reachedExit b.log ∧ entered b'.log = entered b.log := by
  intro rest
  induction rest with
  | nil =>
    intro c p A b hn hI hok hA he
    exact ⟨[c], b, A, rfl, hI, rfl, hok, hA, fun _ _ _ => rfl, he, rfl, rfl⟩
  | cons d rest ih =>
    intro c p A b hn hI hok hA he
    simp only [List.length_cons] at hn
    have hc := hok c List.mem_cons_self
    have hd := hok d (by simp)
    have hAp : ∀ x, A x p = inCell K x c := fun x => hA x 0 c rfl
    have hAd : ∀ x, A x (p + 1) = inCell K x d := fun x => hA x 1 d rfl
    -- cars
    obtain ⟨st, mo, b1, A1, e1, e2, e3, e4, e5, e6, _, e8, e9⟩ := moveCell_inv (orc := orc) (t := t) (p := p) hk hw
      (by omega) (fun x => x = .car) c.queueCar c.outCar.toNat [] A b hI hc.1
      (by rintro x rfl; rw [hAp, inCell_car hc, List.nil_append, only_all hc.1]) (by simp)
    -- trucks
    obtain ⟨st2, mo2, b2, A2, f1, f2, f3, f4, f5, f6, _, f8, f9⟩ := moveCell_inv (orc := orc) (t := t) (p := p) hk hw
      (by omega) (fun x => x ≠ .car) c.queueTruck c.outTruck.toNat [] A1 b1 e2 hc.2
      (by intro x hx; rw [e4 x p (.inl hx), hAp, inCell_ne hc hx, List.nil_append]) (by simp)
    set c' : MLnk.Cell V := { c with queueCar := st, queueTruck := st2 } with hc'
    set d' : MLnk.Cell V := { d with queueCar := d.queueCar ++ mo, queueTruck := d.queueTruck ++ mo2 }
      with hd'
    have okc : CellOk K c' := ⟨fun v hv => hc.1 v (e5 v hv), fun v hv => hc.2 v (f5 v hv)⟩
    have okd : CellOk K d' := by
      constructor
      · intro v hv
        rcases List.mem_append.1 hv with hv | hv
        · exact hd.1 v hv
        · exact hc.1 v (e6 v hv)
      · intro v hv
        rcases List.mem_append.1 hv with hv | hv
        · exact hd.2 v hv
        · exact hc.2 v (f6 v hv)
    have hA2p : ∀ x, A2 x p = inCell K x c' := by
      intro x
      by_cases hx : x = .car
      · subst hx
        rw [f4 .car p (.inl (by simp)), (e3 .car rfl).1, inCell_car okc, List.nil_append]
        exact only_all okc.1
      · rw [(f3 x hx).1, inCell_ne okc hx, List.nil_append]
    have hA2d : ∀ x, A2 x (p + 1) = inCell K x d' := by
      intro x
      by_cases hx : x = .car
      · subst hx
        rw [f4 .car (p + 1) (.inl (by simp)), (e3 .car rfl).2, inCell_car okd, hAd, inCell_car hd]
        congr 1
        exact only_all fun v hv => hc.1 v (e6 v hv)
      · rw [(f3 x hx).2, inCell_ne okd hx, e4 x (p + 1) (.inl hx), hAd, inCell_ne hd hx, ← only_append]
    obtain ⟨cs, b', A', g1, g2, g3, g4, g5, g6, g7, g8, g9⟩ := ih d' (p + 1) A2 b2 (by omega) f2
      (by
        intro y hy
        rcases List.mem_cons.1 hy with rfl | hy
        · exact okd
        · exact hok y (by simp [hy]))
      (by
        intro x j y hj
        cases j with
        | zero =>
          simp only [List.getElem?_cons_zero, Option.some.injEq] at hj
          rw [← hj]; exact hA2d x
        | succ j =>
          simp only [List.getElem?_cons_succ] at hj
          rw [f4 x _ (.inr (by omega)), e4 x _ (.inr (by omega))]
          have := hA x (j + 2) y (by simpa using hj)
          rw [← this]
          congr 1; omega)
      (by
        intro e hl
        cases rest with
        | nil =>
          simp only [List.getLast?_singleton, Option.some.injEq] at hl
          rw [← hl]
          have := he d (by simp)
          simp only [hd', List.length_append]; omega
        | cons y ys =>
          apply he e
          simpa using hl)
    refine ⟨c' :: cs, b', A', ?_, g2, by simp [g3], ?_, ?_, ?_, ?_, ?_, ?_⟩
    · simp only [moveFrom, e1, Res.bind_ok', f1]
      rw [g1, Res.bind_ok']
    · intro y hy
      rcases List.mem_cons.1 hy with rfl | hy
      · exact okc
      · exact g4 y hy
    · intro x j y hj
      cases j with
      | zero =>
        simp only [List.getElem?_cons_zero, Option.some.injEq] at hj
        rw [← hj, Nat.add_zero, g6 x p (by omega)]; exact hA2p x
      | succ j =>
        simp only [List.getElem?_cons_succ] at hj
        rw [← g5 x j y hj]; congr 1; omega
    · intro x p' hp'
      rw [g6 x p' (by omega), f4 x p' (.inr (by omega)), e4 x p' (.inr (by omega))]
    · intro e hl
      apply g7 e
      cases cs with
      | nil => simp at g3
      | cons y ys => simpa using hl
    · rw [g8, f8, e8]
    · rw [g9, f9, e9]

/-! ## The last cell -/

theorem lastLoop_inv {orc : ℕ → ℤ × Bool} {t p : ℕ} {ps : ℚ} (hk : 1 ≤ k) (hw : StopsWf stops n)
    (hn : n = p + 1) :
    ∀ (ds : List ℚ) (nc nt : ℕ) (qc qt fin : List V) (h : List V) (A : Pos V) (b : Bay V),
      Inv K stops k n A b → (∀ v ∈ qc, K.cls v = .car) → (∀ v ∈ qt, K.cls v ≠ .car) →
      A .car p = qc → (∀ x, x ≠ .car → A x p = K.only x (h ++ qt)) →
      (∀ w ∈ h, Held K stops k b p w) → nc ≤ qc.length →
      lastLoop K stops k orc t p ps ds nc nt qc qt fin b = .diverge ∨
      (∃ e, lastLoop K stops k orc t p ps ds nc nt qc qt fin b = .throw e ∧
        ∃ v ∈ qc ++ qt, K.hasNext v = false) ∨
      ∃ r A' out, lastLoop K stops k orc t p ps ds nc nt qc qt fin b = .ok r ∧
        Inv K stops k n A' r.bay ∧ A' .car p = r.cars ∧
        (∀ x, x ≠ .car → A' x p = K.only x (h ++ r.trucks)) ∧
        (∀ x p', p' ≠ p → A' x p' = A x p') ∧ (∀ v ∈ r.cars, v ∈ qc) ∧ (∀ v ∈ r.trucks, v ∈ qt) ∧
        r.fin = fin ++ out ∧ reachedExit r.bay.log = reachedExit b.log ++ out ∧
        entered r.bay.log = entered b.log := by
  intro ds
  induction ds with
  | nil =>
    intro nc nt qc qt fin h A b hI hqc hqt hA1 hA2 hh hnc
    simp only [lastLoop]
    split
    · exact .inr (.inr ⟨_, A, [], rfl, hI, hA1, hA2, fun _ _ _ => rfl, by simp, by simp, by simp, by simp,
        rfl⟩)
    · exact .inl rfl
  | cons d ds ih =>
    intro nc nt qc qt fin h A b hI hqc hqt hA1 hA2 hh hnc
    rw [lastLoop.eq_def]
    dsimp only
    split
    · exact .inr (.inr ⟨_, A, [], rfl, hI, hA1, hA2, fun _ _ _ => rfl, by simp, by simp, by simp, by simp,
        rfl⟩)
    · rename_i hgoing
      by_cases hcar : (if d < ps then decide (nc > 0) else !decide (nt > 0)) = true
      · -- a car
        simp only [hcar, if_true]
        have hpos : 0 < nc := by
          by_contra h0
          have h0' : nc = 0 := by omega
          subst h0'
          split at hcar
          · simp at hcar
          · simp only [Bool.not_eq_true', decide_eq_false_iff_not] at hcar
            exact hgoing ⟨rfl, .inl (by omega)⟩
        cases qc with
        | nil => simp at hnc; omega
        | cons v qc =>
          dsimp only
          cases hnx : K.hasNext v with
          | false =>
            right; left
            exact ⟨_, if_neg (by simp), v, by simp, hnx⟩
          | true =>
            rw [if_pos rfl]
            have hcv := hqc v List.mem_cons_self
            have hbus : K.bus v = none := by
              cases hb : K.bus v with
              | none => rfl
              | some r => rw [cls_bus.2 hb] at hcv; exact absurd hcv (by simp)
            have hAv : A (K.cls v) p = v :: qc := by rw [hcv, hA1]
            have hin : v ∈ A (K.cls v) p := by rw [hAv]; exact List.mem_cons_self
            have hs : b.stopped v = 0 := by
              by_contra hne
              obtain ⟨i, r, p', _, hm⟩ := hI.idle v hne
              have := (hI.unique hin hm).1
              rw [hcv] at this
              exact absurd this (by simp)
            obtain ⟨b'', g1, g2, _, g4⟩ := hI.go (t := t) (b' := b) hw hAv rfl rfl rfl (by
              intro i r p' _
              rw [if_neg]
              rw [hbus]; simp)
            obtain ⟨_, hI1⟩ := g4 hn
            have hb'' : b'' = b := by
              simp only [goOn, hbus, Option.bind_none, Res.ok.injEq] at g1
              rw [← g1]
              have : upd b.stopped v 0 = b.stopped := by
                funext w
                by_cases e : w = v
                · rw [e, upd_same, hs]
                · rw [upd_other _ _ _ _ e]
              rw [this]
            rw [hb''] at hI1
            have hmv : ∀ x p', x ≠ .car ∨ p' ≠ p → mv A (K.cls v) p v n x p' = A x p' := by
              intro x p' hx
              simp only [mv]
              rw [if_neg, if_neg]
              · omega
              · rintro ⟨e1, e2⟩
                rcases hx with hx | hx
                · exact hx (e1.trans hcv)
                · exact hx e2
            rcases ih (nc - 1) nt qc qt (fin ++ [v]) h _ _ hI1 (fun w hw' => hqc w (List.mem_cons_of_mem _ hw'))
              hqt (by simp only [mv]; rw [if_pos (by simp [hcv]), hAv]; rfl)
              (fun x hx => by rw [hmv x p (.inl hx)]; exact hA2 x hx)
              (by
                intro w hw'
                obtain ⟨r, i, h1, h2, h3⟩ := hh w hw'
                exact ⟨r, i, h1, h2, h3⟩)
              (by simp at hnc; omega) with e | ⟨e, e1, w, e2, e3⟩ | ⟨r, A', out, e1, e2, e3, e4, e5, e6, e7, e8, e9, e10⟩
            · exact .inl e
            · refine .inr (.inl ⟨e, e1, w, ?_, e3⟩)
              simp only [List.cons_append]; exact List.mem_cons_of_mem _ e2
            · refine .inr (.inr ⟨r, A', v :: out, e1, e2, e3, e4, ?_, ?_, e7, ?_, ?_, ?_⟩)
              · intro x p' hp'; rw [e5 x p' hp', hmv x p' (.inr hp')]
              · intro w hw'; exact List.mem_cons_of_mem _ (e6 w hw')
              · rw [e8, List.append_assoc]; rfl
              · rw [e9]
                simp only [Bay.note, exit_append]
                simp [reachedExit]
              · rw [e10]
                simp only [Bay.note, entered_append]
                simp [entered]
      · -- a truck
        simp only [hcar, Bool.false_eq_true, if_false]
        cases qt with
        | nil =>
          exact ih nc nt qc [] fin h A b hI hqc hqt hA1 hA2 hh hnc
        | cons v qt =>
          dsimp only
          have hcv := hqt v List.mem_cons_self
          have hAv := hA2 _ hcv
          obtain ⟨hmem, hpos⟩ := turn hAv hh
          obtain ⟨b1, held, hvis, hheld, hgo⟩ := hI.visit (orc := orc) (t := t) hk hw hmem hpos
          have hlog1 := visit_log hvis
          rw [hvis, Res.bind_ok']
          cases held with
          | true =>
            obtain ⟨hI1, hH1, hk1⟩ := hheld rfl
            simp only [if_true]
            rcases ih nc nt qc qt fin (h ++ [v]) A b1 hI1 hqc
              (fun w hw' => hqt w (List.mem_cons_of_mem _ hw')) hA1
              (fun x hx => by rw [hA2 x hx, List.append_assoc]; rfl)
              (by
                intro w hw'
                rw [List.mem_append, List.mem_singleton] at hw'
                rcases hw' with hw' | rfl
                · obtain ⟨r, i, h1, h2, h3⟩ := hh w hw'
                  exact ⟨r, i, h1, h2, hk1 i h3⟩
                · exact hH1) hnc with e | ⟨e, e1, w, e2, e3⟩ | ⟨r, A', out, e1, e2, e3, e4, e5, e6, e7, e8, e9, e10⟩
            · left; rw [e]; rfl
            · right; left
              refine ⟨e, by rw [e1]; rfl, w, ?_, e3⟩
              rcases List.mem_append.1 e2 with e2 | e2
              · exact List.mem_append_left _ e2
              · exact List.mem_append_right _ (List.mem_cons_of_mem _ e2)
            · right; right
              refine ⟨{ r with trucks := v :: r.trucks }, A', out, by rw [e1]; rfl, e2, e3, ?_, e5, e6, ?_, e8, ?_, ?_⟩
              · intro x hx; rw [e4 x hx, List.append_assoc]; rfl
              · intro w hw'
                rcases List.mem_cons.1 hw' with rfl | hw'
                · exact List.mem_cons_self
                · exact List.mem_cons_of_mem _ (e7 w hw')
              · rw [← hlog1.1]; exact e9
              · rw [← hlog1.2]; exact e10
          | false =>
            simp only [Bool.false_eq_true, if_false]
            cases hnx : K.hasNext v with
            | false =>
              right; left
              exact ⟨_, if_neg (by simp), v, by simp, hnx⟩
            | true =>
              rw [if_pos rfl]
              obtain ⟨q', b2, hf, hgoOn, hcnt, _, hstep⟩ := hgo rfl
              obtain ⟨_, hI2⟩ := hstep hn
              obtain ⟨ho, hq'⟩ := turn_first hI hAv hf
              have hlog2 := goOn_log hgoOn
              rw [hgoOn, Res.bind_ok']
              have hmv : ∀ x p', x ≠ K.cls v ∨ p' ≠ p → mv A (K.cls v) p v n x p' = A x p' := by
                intro x p' hx
                simp only [mv]
                rw [if_neg, if_neg]
                · omega
                · rintro ⟨e1, e2⟩
                  rcases hx with hx | hx
                  · exact hx e1
                  · exact hx e2
              rcases ih nc (nt - 1) qc qt (fin ++ [v]) h _ _ hI2 hqc
                (fun w hw' => hqt w (List.mem_cons_of_mem _ hw'))
                (by rw [hmv .car p (.inl (Ne.symm hcv))]; exact hA1)
                (by
                  intro x hx
                  by_cases e : x = K.cls v
                  · subst e
                    simp only [mv]
                    rw [if_pos (by simp), hf, List.tail_cons, hq', only_append, ho, List.nil_append]
                  · rw [hmv x p (.inl e), hA2 x hx, only_append, only_append, only_cons_ne (Ne.symm e)])
                (held_go (b' := b2.note t (.leave v)) hh ho fun j hj => hcnt j hj)
                hnc with e | ⟨e, e1, w, e2, e3⟩ | ⟨r, A', out, e1, e2, e3, e4, e5, e6, e7, e8, e9, e10⟩
              · exact .inl e
              · refine .inr (.inl ⟨e, e1, w, ?_, e3⟩)
                rcases List.mem_append.1 e2 with e2 | e2
                · exact List.mem_append_left _ e2
                · exact List.mem_append_right _ (List.mem_cons_of_mem _ e2)
              · refine .inr (.inr ⟨r, A', v :: out, e1, e2, e3, e4, ?_, e6, ?_, ?_, ?_, ?_⟩)
                · intro x p' hp'; rw [e5 x p' hp', hmv x p' (.inr hp')]
                · intro w hw'; exact List.mem_cons_of_mem _ (e7 w hw')
                · rw [e8, List.append_assoc]; rfl
                · rw [e9]
                  simp only [Bay.note, exit_append]
                  rw [hlog2.1, hlog1.1]
                  simp [reachedExit]
                · rw [e10]
                  simp only [Bay.note, entered_append]
                  rw [hlog2.2, hlog1.2]
                  simp [entered]

end Verif.MmLnk
