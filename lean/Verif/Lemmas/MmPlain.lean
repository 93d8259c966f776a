import Verif.Lemmas.MmLog

/-! Vehicles that are not buses move as on the two-class links. -/

namespace Verif.MmLnk
open MLnk

variable {V : Type} [DecidableEq V]
variable {K : Kinds V} {stops : List Stop} {k : ℤ} {n : ℕ}

theorem visit_plain {orc : ℕ → ℤ × Bool} {t p : ℕ} {v : V} {b : Bay V} (hv : K.bus v = none) :
    visit K stops k orc t p v b = .ok (b, false) := by
  simp only [visit, hv, Option.bind_none]

theorem goOn_plain {t p : ℕ} {v : V} {b : Bay V} (hv : K.bus v = none) :
    goOn K stops t p v b = .ok { b with stopped := upd b.stopped v 0 } := by
  simp only [goOn, hv, Option.bind_none]

theorem comeTo_plain {t p : ℕ} {v : V} {b : Bay V} (hv : K.bus v = none) :
    comeTo K stops t p v b = b := by
  simp only [comeTo, hv, Option.bind_none]

theorem comeIn_plain {t : ℕ} {v : V} {b : Bay V} (hv : K.bus v = none) :
    comeIn K stops t v b = .ok (b.note t (.enter v)) := by
  simp only [comeIn, hv, Option.bind_none]

theorem moveCell_plain {orc : ℕ → ℤ × Bool} {t p : ℕ} : ∀ (m : ℕ) (q : List V) (b : Bay V),
    (∀ v ∈ q, K.bus v = none) →
    ∃ b', moveCell K stops k orc t p m q b = .ok (q.drop m, q.take m, b')
  | m, [], b, _ => ⟨b, by simp [moveCell]⟩
  | 0, v :: q, b, _ => ⟨b, by simp [moveCell]⟩
  | m + 1, v :: q, b, hv => by
    obtain ⟨b', h⟩ := moveCell_plain m q { b with stopped := upd b.stopped v 0 }
      (fun w hw => hv w (List.mem_cons_of_mem _ hw))
    refine ⟨b', ?_⟩
    have h0 := hv v List.mem_cons_self
    simp only [moveCell, visit_plain h0, Res.bind_ok', goOn_plain h0, comeTo_plain h0]
    rw [h]
    rfl

/-! ### Cars -/

/-- The cars after the moves between cells: `pre` came into the first cell. -/
def shifted : List V → List (MLnk.Cell V) → List (List V)
  | _, [] => []
  | pre, [c] => [c.queueCar ++ pre]
  | pre, c :: d :: rest =>
    (c.queueCar.drop c.outCar.toNat ++ pre) :: shifted (c.queueCar.take c.outCar.toNat) (d :: rest)

theorem moveFrom_cars {orc : ℕ → ℤ × Bool} {t : ℕ} : ∀ (rest : List (MLnk.Cell V)) (p : ℕ)
    (c c' : MLnk.Cell V) (pre : List V) (b : Bay V) (r : List (MLnk.Cell V) × Bay V),
    moveFrom K stops k orc t p c' rest b = .ok r → c'.queueCar = c.queueCar ++ pre →
    c'.outCar = c.outCar → (∀ d ∈ c :: rest, d.outCar.toNat ≤ d.queueCar.length) →
    (∀ v ∈ pre, K.bus v = none) → (∀ d ∈ c :: rest, ∀ v ∈ d.queueCar, K.bus v = none) →
    r.1.map (fun d => d.queueCar) = shifted pre (c :: rest) ∧
    r.1.map (fun d => d.outCar) = (c :: rest).map fun d => d.outCar
  | [], p, c, c', pre, b, r, h, h1, h2, h3, h4, h5 => by
    simp only [moveFrom, Res.ok.injEq] at h
    subst h
    simp [shifted, h1, h2]
  | d :: rest, p, c, c', pre, b, r, h, h1, h2, h3, h4, h5 => by
    simp only [moveFrom] at h
    have hq : ∀ v ∈ c'.queueCar, K.bus v = none := by
      rw [h1]
      intro v hv
      rcases List.mem_append.1 hv with hv | hv
      · exact h5 c List.mem_cons_self v hv
      · exact h4 v hv
    have hle := h3 c List.mem_cons_self
    obtain ⟨b1, e1⟩ := moveCell_plain (k := k) (stops := stops) (orc := orc) (t := t) (p := p)
      c'.outCar.toNat c'.queueCar b hq
    rw [e1, Res.bind_ok', Res.bind_eq_ok'] at h
    obtain ⟨y, _, h⟩ := h
    rw [Res.bind_eq_ok'] at h
    obtain ⟨z, hz, h⟩ := h
    simp only [Res.ok.injEq] at h
    subst h
    have hd : c'.queueCar.drop c'.outCar.toNat = c.queueCar.drop c.outCar.toNat ++ pre := by
      rw [h1, h2, List.drop_append_of_le_length hle]
    have ht : c'.queueCar.take c'.outCar.toNat = c.queueCar.take c.outCar.toNat := by
      rw [h1, h2, List.take_append_of_le_length hle]
    obtain ⟨g1, g2⟩ := moveFrom_cars rest (p + 1) d _ (c.queueCar.take c.outCar.toNat) _ z hz
      (by simp only [ht]) rfl (fun e he => h3 e (List.mem_cons_of_mem _ he))
      (fun v hv => h5 c List.mem_cons_self v (List.mem_of_mem_take hv))
      (fun e he => h5 e (List.mem_cons_of_mem _ he))
    refine ⟨?_, ?_⟩
    · simp only [List.map_cons, g1, shifted, hd]
    · simp only [List.map_cons] at g2 ⊢
      rw [g2, h2]

theorem lastLoop_cars {orc : ℕ → ℤ × Bool} {t p : ℕ} {ps : ℚ} : ∀ (ds : List ℚ) (nc nt : ℕ)
    (qc qt fin : List V) (b : Bay V) (r : Tail V),
      lastLoop K stops k orc t p ps ds nc nt qc qt fin b = .ok r →
      ∃ i ≤ nc, r.cars = qc.drop i ∧ (∀ v ∈ qc.take i, v ∈ r.fin) ∧ ∀ v ∈ fin, v ∈ r.fin
  | [], nc, nt, qc, qt, fin, b, r, h => by
    rw [lastLoop.eq_def] at h
    dsimp only at h
    split at h
    · simp only [Res.ok.injEq] at h; rw [← h]; exact ⟨0, by omega, by simp, by simp, fun _ h => h⟩
    · exact absurd h (by simp)
  | d :: ds, nc, nt, qc, qt, fin, b, r, h => by
    rw [lastLoop.eq_def] at h
    dsimp only at h
    split at h
    · simp only [Res.ok.injEq] at h; rw [← h]; exact ⟨0, by omega, by simp, by simp, fun _ h => h⟩
    · rename_i hgo
      by_cases hcar : (if d < ps then decide (nc > 0) else !decide (nt > 0)) = true
      · simp only [hcar, if_true] at h
        have hnc : 0 < nc := by
          split at hcar
          · simpa using hcar
          · have hnt : nt = 0 := by simpa using hcar
            by_contra hc
            exact hgo ⟨by omega, .inl hnt⟩
        split at h
        · exact absurd h (by simp)
        · split at h
          · obtain ⟨i, h1, h2, h3, h4⟩ := lastLoop_cars ds _ _ _ _ _ _ _ h
            refine ⟨i + 1, by omega, by simpa using h2, ?_, fun w hw => h4 w (List.mem_append_left _ hw)⟩
            intro w hw
            rw [List.take_succ_cons] at hw
            rcases List.mem_cons.1 hw with rfl | hw
            · exact h4 _ (by simp)
            · exact h3 w hw
          · exact absurd h (by simp)
      · rw [if_neg hcar] at h
        split at h
        · exact lastLoop_cars ds _ _ _ _ _ _ _ h
        · rw [Res.bind_eq_ok'] at h
          obtain ⟨x, h1, h⟩ := h
          split at h
          · rw [Res.bind_eq_ok'] at h
            obtain ⟨y, h2, h⟩ := h
            simp only [Res.ok.injEq] at h
            rw [← h]; exact lastLoop_cars ds _ _ _ _ _ _ y h2
          · split at h
            · rw [Res.bind_eq_ok'] at h
              obtain ⟨b2, h2, h⟩ := h
              obtain ⟨i, h1, h2, h3, h4⟩ := lastLoop_cars ds _ _ _ _ _ _ _ h
              exact ⟨i, h1, h2, h3, fun w hw => h4 w (List.mem_append_left _ hw)⟩
            · exact absurd h (by simp)

/-- The cars after the exit: all cells but the last as before. -/
theorem moveLast_cars {orc : ℕ → ℤ × Bool} {t : ℕ} {ds : List ℚ} : ∀ (cs : List (MLnk.Cell V)) (p : ℕ)
    (fin : List V) (b : Bay V) (r : List (MLnk.Cell V) × List V × Bay V) (j : ℕ) (c : MLnk.Cell V),
      moveLast K stops k orc t ds p cs fin b = .ok r → cs[j]? = some c →
      ∃ c', r.1[j]? = some c' ∧ ((j + 1 < cs.length ∧ c'.queueCar = c.queueCar) ∨
        (j + 1 = cs.length ∧ ∃ i ≤ c.outCar.toNat, c'.queueCar = c.queueCar.drop i ∧
          ∀ v ∈ c.queueCar.take i, v ∈ r.2.1))
  | [], p, fin, b, r, j, c, h, hj => by simp at hj
  | [c0], p, fin, b, r, j, c, h, hj => by
    simp only [moveLast] at h
    rw [Res.bind_eq_ok'] at h
    obtain ⟨y, h2, h⟩ := h
    simp only [Res.ok.injEq] at h
    subst h
    obtain rfl : j = 0 := by
      have := (List.getElem?_eq_some_iff.1 hj).1
      simpa using this
    simp only [List.getElem?_cons_zero, Option.some.injEq] at hj
    subst hj
    obtain ⟨i, g1, g2, g3, _⟩ := lastLoop_cars _ _ _ _ _ _ _ _ h2
    exact ⟨_, rfl, .inr ⟨rfl, i, g1, g2, g3⟩⟩
  | c0 :: d :: rest, p, fin, b, r, j, c, h, hj => by
    simp only [moveLast] at h
    rw [Res.bind_eq_ok'] at h
    obtain ⟨y, h2, h⟩ := h
    simp only [Res.ok.injEq] at h
    subst h
    cases j with
    | zero =>
      simp only [List.getElem?_cons_zero, Option.some.injEq] at hj
      subst hj
      exact ⟨_, rfl, .inl ⟨by simp, rfl⟩⟩
    | succ j =>
      obtain ⟨c', g1, g2⟩ := moveLast_cars (d :: rest) (p + 1) fin b y j c h2 (by simpa using hj)
      refine ⟨c', by simpa using g1, ?_⟩
      rcases g2 with ⟨g2, g3⟩ | ⟨g2, g3⟩
      · exact .inl ⟨by simpa using g2, g3⟩
      · exact .inr ⟨by simpa using g2, g3⟩

/-- After the moves between cells a car is in its cell or in the next. -/
theorem shifted_mem : ∀ (cs : List (MLnk.Cell V)) (pre : List V) (j : ℕ) (c : MLnk.Cell V) (v : V),
    cs[j]? = some c → v ∈ c.queueCar →
    (∃ q, (shifted pre cs)[j]? = some q ∧ v ∈ q ∧ (j + 1 < cs.length → v ∈ c.queueCar.drop c.outCar.toNat)) ∨
    ∃ q, (shifted pre cs)[j + 1]? = some q ∧ v ∈ q ∧
      ∀ d, cs[j + 1]? = some d → j + 2 = cs.length → ∃ pre', q = d.queueCar ++ pre' ∧ v ∈ pre'
  | [], pre, j, c, v, h, _ => by simp at h
  | [c0], pre, j, c, v, h, hv => by
    obtain rfl : j = 0 := by
      have := (List.getElem?_eq_some_iff.1 h).1
      simpa using this
    simp only [List.getElem?_cons_zero, Option.some.injEq] at h
    subst h
    exact .inl ⟨_, rfl, List.mem_append_left _ hv, by simp⟩
  | c0 :: d :: rest, pre, j, c, v, h, hv => by
    cases j with
    | zero =>
      simp only [List.getElem?_cons_zero, Option.some.injEq] at h
      subst h
      rw [← List.take_append_drop c0.outCar.toNat c0.queueCar] at hv
      rcases List.mem_append.1 hv with hv | hv
      · right
        have hn : ∃ q, (shifted (c0.queueCar.take c0.outCar.toNat) (d :: rest))[0]? = some q ∧ v ∈ q ∧
            (rest = [] → ∃ pre', q = d.queueCar ++ pre' ∧ v ∈ pre') := by
          cases rest with
          | nil => exact ⟨_, rfl, List.mem_append_right _ hv, fun _ => ⟨_, rfl, hv⟩⟩
          | cons e rest => exact ⟨_, rfl, List.mem_append_right _ hv, by simp⟩
        obtain ⟨q, h1, h2, h3⟩ := hn
        refine ⟨q, by simpa [shifted] using h1, h2, ?_⟩
        intro d' hd hl
        simp only [List.getElem?_cons_succ, List.getElem?_cons_zero, Option.some.injEq] at hd
        subst hd
        exact h3 (by simpa using hl)
      · exact .inl ⟨_, rfl, List.mem_append_left _ hv, fun _ => hv⟩
    | succ j =>
      rcases shifted_mem (d :: rest) (c0.queueCar.take c0.outCar.toNat) j c v (by simpa using h) hv with
        ⟨q, h1, h2, h3⟩ | ⟨q, h1, h2, h3⟩
      · exact .inl ⟨q, by simpa [shifted] using h1, h2, fun hl => h3 (by simpa using hl)⟩
      · refine .inr ⟨q, by simpa [shifted] using h1, h2, ?_⟩
        intro d' hd hl
        exact h3 d' (by simpa using hd) (by simpa using hl)

theorem updateOut_le {scalar unit : ℚ} {u : ℕ → ℚ} : ∀ {i : ℕ} {cs cs' : List (MLnk.Cell V)},
    MLnk.Ctm.updateOut scalar unit u i cs = .ok cs' →
      ∀ c ∈ cs', c.outCar.toNat ≤ c.queueCar.length ∧ c.outTruck.toNat ≤ c.queueTruck.length
  | _, [], _, h => by simp [MLnk.Ctm.updateOut] at h
  | _, [c], _, h => by
    simp [MLnk.Ctm.updateOut] at h
    subst h
    simp
  | i, c :: d :: rest, cs', h => by
    simp only [MLnk.Ctm.updateOut] at h
    rw [Res.bind_eq_ok'] at h
    obtain ⟨rc, _, h⟩ := h
    rw [Res.bind_eq_ok'] at h
    obtain ⟨rt, _, h⟩ := h
    rw [Res.bind_eq_ok'] at h
    obtain ⟨rest', hr, h⟩ := h
    simp only [Res.ok.injEq] at h
    subst h
    intro e he
    rcases List.mem_cons.1 he with rfl | he
    · simp only
      omega
    · exact updateOut_le hr e he

/-- One interval: a car stays, goes to the next cell, or leaves from the last one. -/
theorem ctm_car_step {t : ℕ} {rnd : ℕ → ℚ} {ds : List ℚ} {orc : ℕ → ℤ × Bool} {l l' : Ctm V}
    (h : CtmInv K l) (he : l.evolve K t rnd ds orc = .ok l') {v : V} {p : ℕ}
    (hc : K.cls v = .car) (hv : v ∈ Link.at_ p (.ctm l)) :
    v ∈ Link.at_ p (.ctm l') ∨ v ∈ Link.at_ (p + 1) (.ctm l') ∨
      (p + 1 = l.base.cells.length ∧ v ∈ l'.base.com.finished) := by
  simp only [Ctm.evolve] at he
  rw [Res.bind_eq_ok'] at he
  obtain ⟨cs, hu, he⟩ := he
  obtain ⟨s1, s2, s3⟩ := updateOut_same hu
  have hle := updateOut_le hu
  cases cs with
  | nil => exact absurd rfl s3
  | cons c0 rest =>
    simp only at he
    rw [Res.bind_eq_ok'] at he
    obtain ⟨m, hm, he⟩ := he
    rw [Res.bind_eq_ok'] at he
    obtain ⟨r, hr, he⟩ := he
    simp only [Res.ok.injEq] at he
    subst he
    have hlen := s1.length
    -- the car in its cell
    simp only [Link.at_] at hv
    split at hv
    · exact absurd hv (by simp)
    rename_i c hcell
    have hok := h.ok c (List.mem_of_getElem? hcell)
    have hvc : v ∈ c.queueCar := by
      rcases List.mem_append.1 hv with hv | hv
      · exact hv
      · exact absurd hc (hok.2 v hv)
    have hget := s1.get p
    rw [hcell] at hget
    have hplt : p < (c0 :: rest).length := by
      rw [hlen]; exact (List.getElem?_eq_some_iff.1 hcell).1
    obtain ⟨d, hd⟩ : ∃ d, (c0 :: rest)[p]? = some d := ⟨_, List.getElem?_eq_getElem hplt⟩
    rw [hd] at hget
    have hdq : d.queueCar = c.queueCar := by
      simp at hget
      exact hget.1
    have hokc := s1.ok h.ok
    have hnb : ∀ e ∈ c0 :: rest, ∀ w ∈ e.queueCar, K.bus w = none := by
      intro e he w hw
      have := (hokc e he).1 w hw
      simp only [Kinds.cls] at this
      split at this
      · exact absurd this (by simp)
      · assumption
    obtain ⟨g1, g2⟩ := moveFrom_cars rest 0 c0 c0 [] l.bay m hm (by simp) rfl
      (fun e he => (hle e he).1) (by simp) hnb
    have hml : m.1.length = (c0 :: rest).length := by
      have := congrArg List.length g2
      simpa using this
    have hvol := volumes_same K.truck l.base.args.scalar r.2.1 r.1
    have hat : ∀ j e, r.1[j]? = some e → v ∈ e.queueCar →
        v ∈ Link.at_ j (.ctm { l with
            base := { l.base with
              cells := volumes K.truck l.base.args.scalar r.2.1 r.1
              com := { Common.addWait K.truck l.base.args.scalar l.base.args.unit
                  { l.base.com with finished := r.2.1 } with
                spill := (Common.addWait K.truck l.base.args.scalar l.base.args.unit
                  { l.base.com with finished := r.2.1 }).spill || decide
                    ((spillCount l.base.args.factor (volumes K.truck l.base.args.scalar r.2.1 r.1) 0 : ℚ)
                      / l.base.args.scalar / l.base.args.length > l.base.args.holdCar * l.base.args.lanes) } }
            bay := r.2.2 }) := by
      intro j e hj hve
      have hg := hvol.get j
      rw [hj] at hg
      simp only [Link.at_]
      cases hx : (volumes K.truck l.base.args.scalar r.2.1 r.1)[j]? with
      | none => rw [hx] at hg; simp at hg
      | some x =>
        rw [hx] at hg
        simp at hg
        simp only [List.mem_append]
        left; rw [hg.1]; exact hve
    have hmq : ∀ (j : ℕ) (q : List V), (shifted [] (c0 :: rest))[j]? = some q →
        ∃ e : MLnk.Cell V, m.1[j]? = some e ∧ e.queueCar = q := by
      intro j q hq
      rw [← g1, List.getElem?_map, Option.map_eq_some_iff] at hq
      exact hq
    have hout : ∀ (j : ℕ) (e f : MLnk.Cell V), m.1[j]? = some e → (c0 :: rest)[j]? = some f → e.outCar = f.outCar := by
      intro j e f he hf
      have := congrArg (fun x => x[j]?) g2
      simp only [List.getElem?_map, he, hf, Option.map_some, Option.some.injEq] at this
      exact this
    have hvd : v ∈ d.queueCar := by rw [hdq]; exact hvc
    rcases shifted_mem (c0 :: rest) [] p d v hd hvd with ⟨q, q1, q2, q3⟩ | ⟨q, q1, q2, q3⟩
    · -- still in its cell, before the exit
      obtain ⟨e, e1, e2⟩ := hmq p q q1
      obtain ⟨c', f1, f2⟩ := moveLast_cars m.1 0 _ _ r p e hr e1
      rcases f2 with ⟨f2, f3⟩ | ⟨f2, i, f3, f4, f5⟩
      · left
        exact hat p c' f1 (by rw [f3, e2]; exact q2)
      · rw [← e2, ← List.take_append_drop i e.queueCar] at q2
        rcases List.mem_append.1 q2 with q2 | q2
        · right; right
          refine ⟨by rw [f2, hml, hlen], ?_⟩
          simp only [Common.addWait]
          exact f5 v q2
        · left
          exact hat p c' f1 (by rw [f4]; exact q2)
    · obtain ⟨e, e1, e2⟩ := hmq (p + 1) q q1
      obtain ⟨c', f1, f2⟩ := moveLast_cars m.1 0 _ _ r (p + 1) e hr e1
      rcases f2 with ⟨f2, f3⟩ | ⟨f2, i, f3, f4, f5⟩
      · right; left
        exact hat (p + 1) c' f1 (by rw [f3, e2]; exact q2)
      · right; left
        have hlt : p + 1 < (c0 :: rest).length := by rw [← hml]; omega
        obtain ⟨x, hx⟩ : ∃ x, (c0 :: rest)[p + 1]? = some x := ⟨_, List.getElem?_eq_getElem hlt⟩
        obtain ⟨pre', z1, z2⟩ := q3 x hx (by rw [← hml]; omega)
        apply hat (p + 1) c' f1
        rw [f4, e2, z1, List.drop_append_of_le_length]
        · exact List.mem_append_right _ z2
        · have := (hle x (List.mem_of_getElem? hx)).1
          rw [hout _ _ _ e1 hx] at f3
          omega

end Verif.MmLnk
