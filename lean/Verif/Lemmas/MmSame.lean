import Verif.Lemmas.MmPlain
import Verif.Lemmas.Link

/-! Without buses a link with stops behaves as the two-class link. -/

namespace Verif.MmLnk
open MLnk

variable {V : Type} [DecidableEq V]
variable {K : Kinds V} {stops : List Stop} {k : ℤ} {n : ℕ}

theorem moveFrom_same {orc : ℕ → ℤ × Bool} {t : ℕ} (hK : ∀ v, K.bus v = none) :
    ∀ (rest : List (MLnk.Cell V)) (p : ℕ) (c : MLnk.Cell V) (b : Bay V),
    (c.outCar.toNat ≤ c.queueCar.length ∧ c.outTruck.toNat ≤ c.queueTruck.length) →
    (∀ d ∈ rest, d.outCar.toNat ≤ d.queueCar.length ∧ d.outTruck.toNat ≤ d.queueTruck.length) →
    ∃ cs b', moveFrom K stops k orc t p c rest b = .ok (cs, b') ∧ MLnk.Ctm.moveFrom c rest = .ok cs ∧
      (∀ e, (c :: rest).getLast? = some e → ∃ e', cs.getLast? = some e' ∧
        e'.outCar = e.outCar ∧ e'.outTruck = e.outTruck ∧
        e.queueCar.length ≤ e'.queueCar.length ∧ e.queueTruck.length ≤ e'.queueTruck.length)
  | [], p, c, b, _, _ => ⟨[c], b, rfl, rfl, by
      intro e he
      exact ⟨e, he, rfl, rfl, le_rfl, le_rfl⟩⟩
  | d :: rest, p, c, b, h1, h2 => by
    obtain ⟨b1, e1⟩ := moveCell_plain (K := K) (k := k) (stops := stops) (orc := orc) (t := t) (p := p)
      c.outCar.toNat c.queueCar b (fun v _ => hK v)
    obtain ⟨b2, e2⟩ := moveCell_plain (K := K) (k := k) (stops := stops) (orc := orc) (t := t) (p := p)
      c.outTruck.toNat c.queueTruck b1 (fun v _ => hK v)
    have hd := h2 d List.mem_cons_self
    obtain ⟨cs, b', f1, f2, f3⟩ := moveFrom_same (t := t) (orc := orc) hK rest (p + 1)
      { d with queueCar := d.queueCar ++ c.queueCar.take c.outCar.toNat
               queueTruck := d.queueTruck ++ c.queueTruck.take c.outTruck.toNat } b2
      (by simp only [List.length_append]; omega) (fun e he => h2 e (List.mem_cons_of_mem _ he))
    refine ⟨_, b', by simp only [moveFrom, e1, e2, Res.bind_ok', f1]; rfl, ?_, ?_⟩
    · simp only [MLnk.Ctm.moveFrom, Lnk.moveQueue_ok _ _ _ h1.1, Lnk.moveQueue_ok _ _ _ h1.2, Res.bind_ok', f2]
    · intro e he
      rw [List.getLast?_cons_cons] at he
      have hne : cs ≠ [] := by
        rintro rfl
        cases rest with
        | nil => simp [moveFrom] at f1
        | cons x xs =>
          simp only [moveFrom] at f1
          rw [Res.bind_eq_ok'] at f1
          obtain ⟨_, _, f1⟩ := f1
          rw [Res.bind_eq_ok'] at f1
          obtain ⟨_, _, f1⟩ := f1
          rw [Res.bind_eq_ok'] at f1
          obtain ⟨_, _, f1⟩ := f1
          simp at f1
      obtain ⟨y, ys, rfl⟩ := List.exists_cons_of_ne_nil hne
      rw [List.getLast?_cons_cons]
      cases rest with
      | nil =>
        simp only [List.getLast?_singleton, Option.some.injEq] at he
        obtain ⟨e', g1, g2, g3, g4, g5⟩ := f3 _ rfl
        subst he
        exact ⟨e', g1, g2, g3, le_trans (by simp) g4, le_trans (by simp) g5⟩
      | cons x xs =>
        rw [List.getLast?_cons_cons] at he
        exact f3 e (by rw [List.getLast?_cons_cons]; exact he)

/-- The two loops at the exit. -/
theorem lastLoop_same {orc : ℕ → ℤ × Bool} {t p : ℕ} {ps : ℚ} (hK : ∀ v, K.bus v = none) (pick : ℕ → ℚ) :
    ∀ (ds : List ℚ) (m nc nt : ℕ) (qc qt fin : List V) (b : Bay V), m = nc + nt → nc ≤ qc.length →
      nt ≤ qt.length → m ≤ ds.length → (∀ j, j < m → ds[m - 1 - j]? = some (pick j)) →
      (∃ x b', mergeOut K.hasNext ps pick m nc nt qc qt fin = .ok x ∧
        lastLoop K stops k orc t p ps ds nc nt qc qt fin b = .ok ⟨x.1, x.2.1, x.2.2, b'⟩) ∨
      ((mergeOut K.hasNext ps pick m nc nt qc qt fin).isOk = false ∧
        (lastLoop K stops k orc t p ps ds nc nt qc qt fin b).isOk = false)
  | ds, 0, nc, nt, qc, qt, fin, b, hm, _, _, _, _ => by
    obtain ⟨rfl, rfl⟩ : nc = 0 ∧ nt = 0 := by omega
    left
    refine ⟨(qc, qt, fin), b, rfl, ?_⟩
    rw [lastLoop.eq_def]
    simp
  | [], m + 1, nc, nt, qc, qt, fin, b, hm, h1, h2, h3, h4 => by simp at h3
  | d :: ds, m + 1, nc, nt, qc, qt, fin, b, hm, h1, h2, h3, h4 => by
    have hd : d = pick m := by
      have := h4 m (by omega)
      simpa using this
    have hds : ∀ j, j < m → ds[m - 1 - j]? = some (pick j) := by
      intro j hj
      have := h4 j (by omega)
      have e : m + 1 - 1 - j = (m - 1 - j) + 1 := by omega
      rw [e, List.getElem?_cons_succ] at this
      exact this
    have hlen : m ≤ ds.length := by simpa using h3
    rw [lastLoop.eq_def]
    dsimp only
    have hstop : ¬(nc = 0 ∧ (nt = 0 ∨ qt = [])) := by
      rintro ⟨e1, e2 | e2⟩
      · omega
      · rw [e2] at h2
        simp at h2
        omega
    rw [if_neg hstop]
    simp only [mergeOut]
    rw [← hd]
    by_cases hcar : (if d < ps then decide (nc > 0) else !decide (nt > 0)) = true
    · have hnc : 0 < nc := by
        split at hcar
        · simpa using hcar
        · have hnt : nt = 0 := by simpa using hcar
          omega
      simp only [hcar, if_true]
      cases qc with
      | nil => simp at h1; omega
      | cons v qc =>
        simp only [popOut]
        by_cases hv : K.hasNext v = true
        · simp only [hv, if_true, Res.bind_ok']
          exact lastLoop_same hK pick ds m (nc - 1) nt qc qt (fin ++ [v]) _ (by omega)
            (by simp at h1; omega) h2 hlen hds
        · right
          simp only [hv]
          exact ⟨rfl, rfl⟩
    · have hnt : 0 < nt := by
        by_contra hc
        apply hcar
        have h0 : nt = 0 := by omega
        have h0' : 0 < nc := by omega
        split <;> simp [h0, h0']
      rw [if_neg hcar, if_neg hcar]
      cases qt with
      | nil => simp at h2; omega
      | cons v qt =>
        simp only [visit_plain (hK v), Res.bind_ok', goOn_plain (hK v), popOut]
        by_cases hv : K.hasNext v = true
        · simp only [hv, if_true, Res.bind_ok']
          exact lastLoop_same hK pick ds m nc (nt - 1) qc qt (fin ++ [v]) _ (by omega)
            h1 (by simp at h2; omega) hlen hds
        · right
          simp only [hv]
          exact ⟨rfl, rfl⟩

theorem moveLast_same {orc : ℕ → ℤ × Bool} {t : ℕ} {ds : List ℚ} (hK : ∀ v, K.bus v = none)
    (pick : ℕ → ℚ) (scalar : ℚ) (e : MLnk.Cell V) : ∀ (cs : List (MLnk.Cell V)) (p : ℕ) (fin : List V)
      (b : Bay V), cs.getLast? = some e → e.outCar.toNat ≤ e.queueCar.length →
      e.outTruck.toNat ≤ e.queueTruck.length → e.outCar.toNat + e.outTruck.toNat ≤ ds.length →
      (∀ j, j < e.outCar.toNat + e.outTruck.toNat →
        ds[e.outCar.toNat + e.outTruck.toNat - 1 - j]? = some (pick j)) →
      (∃ cs' fin' b', moveLast K stops k orc t ds p cs fin b = .ok (cs', fin', b') ∧
        MLnk.Ctm.moveLast K.truck K.hasNext scalar pick cs fin = .ok (volumes K.truck scalar fin' cs', fin') ∧
        cs' ≠ []) ∨
      ((moveLast K stops k orc t ds p cs fin b).isOk = false ∧
        (MLnk.Ctm.moveLast K.truck K.hasNext scalar pick cs fin).isOk = false)
  | [], p, fin, b, h, _, _, _, _ => by simp at h
  | [c], p, fin, b, h, h1, h2, h3, h4 => by
    simp only [List.getLast?_singleton, Option.some.injEq] at h
    subst h
    rcases lastLoop_same (stops := stops) (k := k) (orc := orc) (t := t) (p := p)
      (ps := (c.outCar : ℚ) / (c.outCar + c.outTruck)) hK pick ds _ _ _ c.queueCar c.queueTruck fin b
      rfl h1 h2 h3 h4 with ⟨x, b', e1, e2⟩ | ⟨e1, e2⟩
    · left
      refine ⟨_, _, _, by simp only [moveLast, e2, Res.bind_ok']; rfl, ?_⟩
      refine ⟨?_, by simp⟩
      simp only [MLnk.Ctm.moveLast, e1, Res.bind_ok', volumes]
    · right
      simp only [moveLast, MLnk.Ctm.moveLast]
      constructor
      · cases hx : lastLoop K stops k orc t p ((c.outCar : ℚ) / (c.outCar + c.outTruck)) ds c.outCar.toNat
          c.outTruck.toNat c.queueCar c.queueTruck fin b with
        | ok y => rw [hx] at e2; simp [Res.isOk] at e2
        | _ => rfl
      · cases hx : mergeOut K.hasNext ((c.outCar : ℚ) / (c.outCar + c.outTruck)) pick
          (c.outCar.toNat + c.outTruck.toNat) c.outCar.toNat c.outTruck.toNat c.queueCar c.queueTruck fin with
        | ok y => rw [hx] at e1; simp [Res.isOk] at e1
        | _ => rfl
  | c :: d :: rest, p, fin, b, h, h1, h2, h3, h4 => by
    rw [List.getLast?_cons_cons] at h
    rcases moveLast_same (orc := orc) (t := t) (ds := ds) hK pick scalar e (d :: rest) (p + 1) fin b h h1 h2 h3 h4 with
      ⟨cs', fin', b', e1, e2, e3⟩ | ⟨e1, e2⟩
    · left
      refine ⟨c :: cs', fin', b', by simp only [moveLast, e1, Res.bind_ok'], ?_, by simp⟩
      obtain ⟨y, ys, rfl⟩ := List.exists_cons_of_ne_nil e3
      simp only [MLnk.Ctm.moveLast, e2, Res.bind_ok', volumes]
    · right
      simp only [moveLast, MLnk.Ctm.moveLast]
      constructor
      · cases hx : moveLast K stops k orc t ds (p + 1) (d :: rest) fin b with
        | ok y => rw [hx] at e1; simp [Res.isOk] at e1
        | _ => rfl
      · cases hx : MLnk.Ctm.moveLast K.truck K.hasNext scalar pick (d :: rest) fin with
        | ok y => rw [hx] at e2; simp [Res.isOk] at e2
        | _ => rfl

theorem updateOut_end {scalar unit : ℚ} {u : ℕ → ℚ} : ∀ {i : ℕ} {cs cs' : List (MLnk.Cell V)}
    {c : MLnk.Cell V}, MLnk.Ctm.updateOut scalar unit u i cs = .ok cs' → cs.getLast? = some c →
      ∃ c', cs'.getLast? = some c' ∧ c'.outCar = c.queueCar.length ∧ c'.outTruck = c.queueTruck.length ∧
        c'.queueCar = c.queueCar ∧ c'.queueTruck = c.queueTruck
  | _, [], _, _, h, _ => by simp [MLnk.Ctm.updateOut] at h
  | _, [c0], cs', c, h, hc => by
    simp [MLnk.Ctm.updateOut] at h
    subst h
    simp only [List.getLast?_singleton, Option.some.injEq] at hc
    subst hc
    exact ⟨_, rfl, rfl, rfl, rfl, rfl⟩
  | i, c0 :: d :: rest, cs', c, h, hc => by
    simp only [MLnk.Ctm.updateOut] at h
    rw [Res.bind_eq_ok'] at h
    obtain ⟨rc, _, h⟩ := h
    rw [Res.bind_eq_ok'] at h
    obtain ⟨rt, _, h⟩ := h
    rw [Res.bind_eq_ok'] at h
    obtain ⟨rest', hr, h⟩ := h
    simp only [Res.ok.injEq] at h
    subst h
    rw [List.getLast?_cons_cons] at hc
    obtain ⟨c', g1, g2⟩ := updateOut_end hr hc
    refine ⟨c', ?_, g2⟩
    cases rest' with
    | nil => simp at g1
    | cons y ys => rw [List.getLast?_cons_cons]; exact g1

/-- An interval without buses is an interval of the two-class link. -/
theorem ctm_evolve_same {t : ℕ} {rnd : ℕ → ℚ} {ds : List ℚ} {orc : ℕ → ℤ × Bool} (l : Ctm V)
    (hK : ∀ v, K.bus v = none) (c : MLnk.Cell V) (hc : l.base.cells.getLast? = some c)
    (hd : c.queueCar.length + c.queueTruck.length ≤ ds.length) (pick : ℕ → ℚ)
    (hp : ∀ j, j < c.queueCar.length + c.queueTruck.length →
      ds[c.queueCar.length + c.queueTruck.length - 1 - j]? = some (pick j)) :
    (∃ l', l.evolve K t rnd ds orc = .ok l' ∧
      MLnk.Ctm.evolve K.truck K.hasNext ⟨rnd, pick⟩ l.base = .ok l'.base) ∨
    ((l.evolve K t rnd ds orc).isOk = false ∧
      (MLnk.Ctm.evolve K.truck K.hasNext ⟨rnd, pick⟩ l.base).isOk = false) := by
  rcases updateOut_not_throw (scalar := l.base.args.scalar) (unit := l.base.args.unit) (u := rnd)
    (i := 0) (cs := l.base.cells) with hu | ⟨cs, hu⟩
  · right
    simp only [Ctm.evolve, MLnk.Ctm.evolve, hu]
    exact ⟨rfl, rfl⟩
  · obtain ⟨c1, g1, g2, g3, g4, g5⟩ := updateOut_end hu hc
    have hle := updateOut_le hu
    cases cs with
    | nil => simp at g1
    | cons c0 rest =>
      obtain ⟨cs1, b1, e1, e2, e3⟩ := moveFrom_same (stops := l.stops)
        (k := Ults.trunc l.base.args.scalar) (orc := orc) (t := t) hK rest 0 c0 l.bay (hle c0 List.mem_cons_self)
        (fun d hd => hle d (List.mem_cons_of_mem _ hd))
      obtain ⟨e', f1, f2, f3, f4, f5⟩ := e3 c1 g1
      rw [g4] at f4
      rw [g5] at f5
      have n1 : e'.outCar.toNat = c.queueCar.length := by rw [f2, g2]; simp
      have n2 : e'.outTruck.toNat = c.queueTruck.length := by rw [f3, g3]; simp
      rcases moveLast_same (stops := l.stops) (k := Ults.trunc l.base.args.scalar) (orc := orc) (t := t)
        (ds := ds) hK pick l.base.args.scalar e' cs1 0 l.base.com.finished b1 f1 (by omega) (by omega)
        (by omega) (by rw [n1, n2]; exact hp) with ⟨cs', fin', b', h1, h2, _⟩ | ⟨h1, h2⟩
      · left
        refine ⟨_, by simp only [Ctm.evolve, hu, Res.bind_ok', e1, h1]; rfl, ?_⟩
        simp only [MLnk.Ctm.evolve, hu, Res.bind_ok', MLnk.Ctm.movePrev, e2, h2]
      · right
        simp only [Ctm.evolve, MLnk.Ctm.evolve, hu, Res.bind_ok', MLnk.Ctm.movePrev, e1, e2]
        constructor
        · cases hx : moveLast K l.stops (Ults.trunc l.base.args.scalar) orc t ds 0 cs1 l.base.com.finished b1 with
          | ok y => rw [hx] at h1; simp [Res.isOk] at h1
          | _ => rfl
        · cases hx : MLnk.Ctm.moveLast K.truck K.hasNext l.base.args.scalar pick cs1 l.base.com.finished with
          | ok y => rw [hx] at h2; simp [Res.isOk] at h2
          | _ => rfl

theorem comeIns_plain {t : ℕ} (hK : ∀ v, K.bus v = none) : ∀ (vs : List V) (b : Bay V),
    ∃ b', Res.foldlM (fun b v => comeIn K stops t v b) b vs = .ok b' := by
  intro vs
  induction vs with
  | nil => intro b; exact ⟨b, rfl⟩
  | cons v vs ih =>
    intro b
    obtain ⟨b', h⟩ := ih (b.note t (.enter v))
    refine ⟨b', ?_⟩
    rw [Res.foldlM_cons, Res.bind_eq_ok]
    exact ⟨_, comeIn_plain (hK v), h⟩

theorem ctm_clear_same {t : ℕ} (l : Ctm V) (hK : ∀ v, K.bus v = none) :
    (∃ l', l.clear K t = .ok l' ∧ MLnk.Ctm.clear K.truck l.base = .ok l'.base) ∨
    (l.clear K t = .ub ∧ MLnk.Ctm.clear K.truck l.base = .ub) := by
  obtain ⟨b', hb⟩ := comeIns_plain (stops := l.stops) (t := t) hK l.base.com.incoming l.bay
  simp only [Ctm.clear, MLnk.Ctm.clear]
  cases l.base.cells with
  | nil => exact .inr ⟨rfl, rfl⟩
  | cons c rest =>
    left
    simp only [hb, Res.bind_ok']
    exact ⟨_, rfl, rfl⟩

/-! ### Point queue -/

theorem scan_same {orc : ℕ → ℤ × Bool} {t : ℕ} {ms : ℤ} (hK : ∀ v, K.bus v = none) :
    ∀ (q : List (V × ℕ)) (fin : List V) (b : Bay V), ∃ q' b',
      scan K stops k orc t ms q fin b =
        .ok (q', fin ++ (Lnk.Pq.scan ms (q.map fun e => (e.1, (e.2 : ℤ)))).1, b') ∧
      (q'.map fun e => (e.1, (e.2 : ℤ))) = (Lnk.Pq.scan ms (q.map fun e => (e.1, (e.2 : ℤ)))).2
  | [], fin, b => ⟨[], b, by simp [scan, Lnk.Pq.scan], rfl⟩
  | e :: q, fin, b => by
    by_cases h : (e.2 : ℤ) ≥ max 0 (ms - 1)
    · obtain ⟨q', b', h1, h2⟩ := scan_same (orc := orc) (t := t) (ms := ms) hK q (fin ++ [e.1])
        (Bay.note t (.leave e.1) { b with stopped := upd b.stopped e.1 0 })
      refine ⟨q', b', ?_, ?_⟩
      · simp only [scan, visit_plain (hK e.1), goOn_plain (hK e.1), comeTo_plain (hK e.1), Res.bind_ok']
        simp only [Bool.false_eq_true, if_false]
        rw [if_pos h, h1]
        simp only [List.map_cons, Lnk.Pq.scan]
        rw [if_pos h]
        simp
      · simp only [List.map_cons, Lnk.Pq.scan]
        rw [if_pos h]; exact h2
    · obtain ⟨q', b', h1, h2⟩ := scan_same (orc := orc) (t := t) (ms := ms) hK q fin
        { b with stopped := upd b.stopped e.1 0 }
      refine ⟨(e.1, e.2 + 1) :: q', b', ?_, ?_⟩
      · simp only [scan, visit_plain (hK e.1), goOn_plain (hK e.1), comeTo_plain (hK e.1), Res.bind_ok']
        simp only [Bool.false_eq_true, if_false]
        rw [if_neg h, h1]
        simp only [List.map_cons, Lnk.Pq.scan]
        rw [if_neg h]
        rfl
      · simp only [List.map_cons, Lnk.Pq.scan]
        rw [if_neg h]
        simp [h2]

theorem letIn_same {t : ℕ} (hK : ∀ v, K.bus v = none) : ∀ (vs : List V) (x : ℚ) (w : V → ℤ) (b : Bay V),
    ∃ b', letIn K stops t false x vs w b =
      .ok ⟨(MLnk.Pq.letIn x vs).1, (MLnk.Pq.letIn x vs).2, w, b'⟩
  | [], x, w, b => ⟨b, rfl⟩
  | v :: vs, x, w, b => by
    by_cases h : x > 0
    · obtain ⟨b', h1⟩ := letIn_same (t := t) hK vs (x - 1) w (b.note t (.enter v))
      refine ⟨b', ?_⟩
      simp only [letIn, MLnk.Pq.letIn, h, if_true, Bool.false_eq_true, false_and, if_false,
        comeIn_plain (hK v), Res.bind_ok', h1]
    · refine ⟨b, ?_⟩
      simp only [letIn, MLnk.Pq.letIn, h, if_false]

end Verif.MmLnk
