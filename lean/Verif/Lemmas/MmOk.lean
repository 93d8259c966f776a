import Verif.Lemmas.MmRun
import Verif.Lemmas.MLinkOk

/-! When an interval of a driving link with stops goes through. -/

namespace Verif.MmLnk
open MLnk

variable {V : Type} [DecidableEq V]
variable {K : Kinds V} {stops : List Stop} {k : ℤ} {n : ℕ}

/-! ## The attributes of the cells stay -/

theorem moveFrom_attrs {orc : ℕ → ℤ × Bool} {t : ℕ} : ∀ {rest : List (MLnk.Cell V)} {c : MLnk.Cell V}
    {p : ℕ} {b : Bay V} {r : List (MLnk.Cell V) × Bay V},
    moveFrom K stops k orc t p c rest b = .ok r → r.1.map Cell.attrs = (c :: rest).map Cell.attrs
  | [], c, _, _, _, h => by simp only [moveFrom, Res.ok.injEq] at h; subst h; rfl
  | d :: rest, c, p, b, r, h => by
    simp only [moveFrom] at h
    rw [Res.bind_eq_ok'] at h
    obtain ⟨x, _, h⟩ := h
    rw [Res.bind_eq_ok'] at h
    obtain ⟨y, _, h⟩ := h
    rw [Res.bind_eq_ok'] at h
    obtain ⟨z, hz, h⟩ := h
    simp only [Res.ok.injEq] at h
    subst h
    rw [List.map_cons, moveFrom_attrs hz]; rfl

theorem moveLast_attrs {orc : ℕ → ℤ × Bool} {t : ℕ} {ds : List ℚ} : ∀ {cs : List (MLnk.Cell V)} {p : ℕ}
    {fin : List V} {b : Bay V} {r : List (MLnk.Cell V) × List V × Bay V},
    moveLast K stops k orc t ds p cs fin b = .ok r → r.1.map Cell.attrs = cs.map Cell.attrs
  | [], _, _, _, _, h => by simp [moveLast] at h
  | [c], _, _, _, _, h => by
    simp only [moveLast] at h
    rw [Res.bind_eq_ok'] at h
    obtain ⟨x, _, h⟩ := h
    simp only [Res.ok.injEq] at h
    subst h; rfl
  | c :: d :: rest, _, _, _, _, h => by
    simp only [moveLast] at h
    rw [Res.bind_eq_ok'] at h
    obtain ⟨x, hx, h⟩ := h
    simp only [Res.ok.injEq] at h
    subst h
    rw [List.map_cons, moveLast_attrs hx]; rfl

theorem volumes_attrs (truck : V → Bool) (scalar : ℚ) (fin : List V) : ∀ cs : List (MLnk.Cell V),
    (volumes truck scalar fin cs).map Cell.attrs = cs.map Cell.attrs ∧
      ∀ c ∈ volumes truck scalar fin cs, c.Fresh scalar
  | [] => ⟨rfl, by simp [volumes]⟩
  | [c] => ⟨rfl, by simp [volumes, Cell.Fresh, Cell.updatePer]⟩
  | c :: d :: rest => by
    obtain ⟨h1, h2⟩ := volumes_attrs truck scalar fin (d :: rest)
    refine ⟨by rw [volumes, List.map_cons, h1]; rfl, ?_⟩
    intro y hy
    rw [volumes] at hy
    rcases List.mem_cons.1 hy with rfl | hy
    · simp [Cell.Fresh, Cell.updatePer]
    · exact h2 y hy

/-- Built by the constructor. -/
def LBuilt : Link V → Prop
  | .ctm l => MLnk.Built (.ctm l.base)
  | .pq _ => True

theorem fresh_built {a : Args} {l : Link V} (hf : Fresh a stops l) : LBuilt l := by
  cases hf with
  | pq o w l h => trivial
  | ctm l h =>
    simp only [Ctm.mk'] at h
    rw [Res.bind_eq_ok'] at h
    obtain ⟨m, hm, h⟩ := h
    simp only [Res.ok.injEq] at h
    subst h
    have : (mkLink .ctm a : Res (MLnk.Link V)) = .ok (.ctm m) := by
      simp only [mkLink, hm, Res.bind_ok']
    exact mk_built this

theorem step_built {l : Link V} {op : Op V} {r : Link V × List V} (hb : LBuilt l)
    (h : l.step K op = .ok r) : LBuilt r.1 := by
  cases l with
  | pq l =>
    have : ∃ l', r.1 = .pq l' := by
      cases op with
      | arrive v => simp only [Link.step] at h; split at h <;> cases h; exact ⟨_, rfl⟩
      | depart p => simp only [Link.step] at h; split at h <;> cases h <;> exact ⟨_, rfl⟩
      | clear t =>
        simp only [Link.step] at h
        rw [Res.bind_eq_ok'] at h
        obtain ⟨x, _, h⟩ := h
        cases h; exact ⟨_, rfl⟩
      | evolve t rnd ds orc =>
        simp only [Link.step] at h
        rw [Res.bind_eq_ok'] at h
        obtain ⟨x, _, h⟩ := h
        cases h; exact ⟨_, rfl⟩
    obtain ⟨l', e⟩ := this
    rw [e]; trivial
  | ctm l =>
    cases op with
    | arrive v => simp only [Link.step] at h; split at h <;> cases h; exact hb
    | depart p => simp only [Link.step] at h; split at h <;> cases h <;> exact hb
    | clear t =>
      simp only [Link.step] at h
      rw [Res.bind_eq_ok'] at h
      obtain ⟨x, hx, h⟩ := h
      cases h
      obtain ⟨b1, b2, b3, b4⟩ := hb
      simp only [Ctm.clear] at hx
      cases hc : l.base.cells with
      | nil => exact absurd hc b3
      | cons c rest =>
        rw [hc] at hx b4
        simp only at hx
        rw [Res.bind_eq_ok'] at hx
        obtain ⟨b, _, hx⟩ := hx
        cases hx
        refine ⟨b1, b2, by simp, ?_⟩
        intro y hy
        rcases List.mem_cons.1 hy with rfl | hy
        · obtain ⟨g1, g2, _⟩ := b4 c (by simp)
          exact ⟨g1, g2, by simp [Cell.Fresh, Cell.updatePer]⟩
        · exact b4 y (by simp [hy])
    | evolve t rnd ds orc =>
      simp only [Link.step] at h
      rw [Res.bind_eq_ok'] at h
      obtain ⟨x, hx, h⟩ := h
      cases h
      obtain ⟨b1, b2, b3, b4⟩ := hb
      simp only [Ctm.evolve] at hx
      rw [Res.bind_eq_ok'] at hx
      obtain ⟨cs, h1, hx⟩ := hx
      cases cs with
      | nil => simp at hx
      | cons c rest =>
        simp only at hx
        rw [Res.bind_eq_ok'] at hx
        obtain ⟨m, h2, hx⟩ := hx
        rw [Res.bind_eq_ok'] at hx
        obtain ⟨y, h3, hx⟩ := hx
        cases hx
        obtain ⟨v1, v2⟩ := volumes_attrs K.truck l.base.args.scalar y.2.1 y.1
        have e := ((v1.trans (moveLast_attrs h3)).trans (moveFrom_attrs h2)).trans (updateOut_attrs h1)
        refine ⟨b1, b2, attrs_ne e b3, ?_⟩
        intro z hz
        obtain ⟨d, hd, l1, l2⟩ := attrs_mem e hz
        obtain ⟨g1, g2, _⟩ := b4 d hd
        exact ⟨l2 ▸ g1, l1 ▸ g2, v2 z hz⟩

theorem run_built : ∀ (ops : List (Op V)) {l : Link V} {r : Link V × List V}, LBuilt l →
    l.run K ops = .ok r → LBuilt r.1
  | [], l, r, hb, h => by simp only [Link.run, Res.ok.injEq] at h; subst h; exact hb
  | op :: ops, l, r, hb, h => by
    simp only [Link.run] at h
    rw [Res.bind_eq_ok'] at h
    obtain ⟨r1, h1, h⟩ := h
    rw [Res.bind_eq_ok'] at h
    obtain ⟨r2, h2, h⟩ := h
    simp only [Res.ok.injEq] at h
    subst h
    have := run_built ops (step_built hb h1) h2
    exact this

/-! ## The loop at the exit ends -/

theorem hold_not_div {ask : ℤ × Bool} {i : ℕ} {v : V} {b : Bay V} : hold k ask i v b ≠ .diverge := by
  unfold hold
  split_ifs <;> simp

theorem visit_not_div {orc : ℕ → ℤ × Bool} {t p : ℕ} {v : V} {b : Bay V} :
    visit K stops k orc t p v b ≠ .diverge := by
  unfold visit
  split
  · simp
  · rename_i i _
    cases h : hold k (orc b.log.length) i v b with
    | diverge => exact absurd h hold_not_div
    | ok x => simp only [Res.bind_ok']; split <;> simp
    | throw e => simp [Res.bind]
    | ub => simp [Res.bind]

theorem goOn_not_div {t p : ℕ} {v : V} {b : Bay V} : goOn K stops t p v b ≠ .diverge := by
  unfold goOn
  split
  · simp
  · unfold release; dsimp only; split <;> simp

theorem bind_not_div {α β : Type} {x : Res α} {f : α → Res β} (h1 : x ≠ .diverge)
    (h2 : ∀ a, x = .ok a → f a ≠ .diverge) : x.bind f ≠ .diverge := by
  cases x with
  | ok a => exact h2 a rfl
  | throw e => simp [Res.bind]
  | ub => simp [Res.bind]
  | diverge => exact absurd rfl h1

theorem lastLoop_ends {orc : ℕ → ℤ × Bool} {t p : ℕ} {ps : ℚ} (small : ℚ → Bool) :
    ∀ (ds : List ℚ) (nc nt : ℕ) (qc qt fin : List V) (b : Bay V),
      (0 < nc → ∀ d, small d = true → d < ps) → nc + qt.length ≤ ds.countP small →
      lastLoop K stops k orc t p ps ds nc nt qc qt fin b ≠ .diverge := by
  intro ds
  induction ds with
  | nil =>
    intro nc nt qc qt fin b hs hm
    simp only [List.countP_nil, Nat.le_zero] at hm
    have h1 : nc = 0 := by omega
    have h2 : qt = [] := List.length_eq_zero_iff.1 (by omega)
    rw [lastLoop.eq_def]
    dsimp only
    rw [if_pos ⟨h1, .inr h2⟩]
    simp
  | cons d ds ih =>
    intro nc nt qc qt fin b hs hm
    rw [List.countP_cons] at hm
    rw [lastLoop.eq_def]
    dsimp only
    split
    · simp
    · rename_i hgo
      by_cases hcar : (if d < ps then decide (nc > 0) else !decide (nt > 0)) = true
      · simp only [hcar, if_true]
        split
        · simp
        · split
          · rcases Nat.eq_zero_or_pos nc with h0 | h0
            · exfalso
              subst h0
              split at hcar
              · simp at hcar
              · simp only [gt_iff_lt, Bool.not_eq_true', decide_eq_false_iff_not, not_lt, Nat.le_zero] at hcar
                exact hgo ⟨rfl, .inl hcar⟩
            · refine ih _ _ _ _ _ _ (fun _ => hs h0) ?_
              split at hm <;> omega
          · simp
      · simp only [hcar, Bool.false_eq_true, if_false]
        have hsm : small d = true → nc = 0 := by
          intro h
          by_contra h0
          have h0' : 0 < nc := by omega
          rw [if_pos (hs h0' d h)] at hcar
          exact hcar (by simpa using h0')
        split
        · -- no trucks left
          have hnc : nc ≠ 0 := fun h => hgo ⟨h, .inr rfl⟩
          refine ih _ _ _ _ _ _ hs ?_
          have : small d = false := by
            cases h : small d
            · rfl
            · exact absurd (hsm h) hnc
          rw [this] at hm
          simpa using hm
        · rename_i v qt
          simp only [List.length_cons] at hm
          refine bind_not_div visit_not_div ?_
          intro x _
          split
          · refine bind_not_div ?_ (by simp)
            refine ih _ _ _ _ _ _ hs ?_
            split at hm <;> omega
          · split
            · refine bind_not_div goOn_not_div ?_
              intro b' _
              refine ih _ _ _ _ _ _ hs ?_
              split at hm <;> omega
            · simp

/-- The number of vehicles in the cells. -/
def total (cs : List (MLnk.Cell V)) : ℕ := (cs.map fun c => c.queueCar.length + c.queueTruck.length).sum

theorem moveCell_len {orc : ℕ → ℤ × Bool} {t p : ℕ} : ∀ (q : List V) (m : ℕ) (b : Bay V)
    (r : List V × List V × Bay V), moveCell K stops k orc t p m q b = .ok r →
    r.1.length + r.2.1.length = q.length
  | [], m, b, r, h => by
    cases m <;> · simp only [moveCell, Res.ok.injEq] at h; subst h; rfl
  | v :: q, 0, b, r, h => by simp only [moveCell, Res.ok.injEq] at h; subst h; rfl
  | v :: q, m + 1, b, r, h => by
    simp only [moveCell] at h
    rw [Res.bind_eq_ok'] at h
    obtain ⟨x, _, h⟩ := h
    split at h
    · rw [Res.bind_eq_ok'] at h
      obtain ⟨y, hy, h⟩ := h
      simp only [Res.ok.injEq] at h
      subst h
      have := moveCell_len q (m + 1) _ _ hy
      simp only [List.length_cons]; omega
    · rw [Res.bind_eq_ok'] at h
      obtain ⟨b', _, h⟩ := h
      rw [Res.bind_eq_ok'] at h
      obtain ⟨y, hy, h⟩ := h
      simp only [Res.ok.injEq] at h
      subst h
      have := moveCell_len q m _ _ hy
      simp only [List.length_cons]; omega

theorem moveFrom_len {orc : ℕ → ℤ × Bool} {t : ℕ} : ∀ {rest : List (MLnk.Cell V)} {c : MLnk.Cell V}
    {p : ℕ} {b : Bay V} {r : List (MLnk.Cell V) × Bay V},
    moveFrom K stops k orc t p c rest b = .ok r → total r.1 = total (c :: rest) ∧ r.1 ≠ [] ∧
      ∀ e, r.1.getLast? = some e → ∃ e', (c :: rest).getLast? = some e' ∧ e.outCar = e'.outCar ∧
        e.outTruck = e'.outTruck
  | [], c, _, _, _, h => by
    simp only [moveFrom, Res.ok.injEq] at h; subst h
    exact ⟨rfl, by simp, fun e he => ⟨e, he, rfl, rfl⟩⟩
  | d :: rest, c, p, b, r, h => by
    simp only [moveFrom] at h
    rw [Res.bind_eq_ok'] at h
    obtain ⟨x, hx, h⟩ := h
    rw [Res.bind_eq_ok'] at h
    obtain ⟨y, hy, h⟩ := h
    rw [Res.bind_eq_ok'] at h
    obtain ⟨z, hz, h⟩ := h
    simp only [Res.ok.injEq] at h
    subst h
    obtain ⟨h1, h2, h3⟩ := moveFrom_len hz
    have l1 := moveCell_len _ _ _ _ hx
    have l2 := moveCell_len _ _ _ _ hy
    refine ⟨?_, by simp, ?_⟩
    · simp only [total, List.map_cons, List.sum_cons, List.length_append] at h1 ⊢
      omega
    · intro e he
      cases hzz : z.1 with
      | nil => exact absurd hzz h2
      | cons z0 zs =>
        obtain ⟨e', e1, e2, e3⟩ := h3 e (by simp only [hzz] at he ⊢; simpa using he)
        cases rest with
        | nil =>
          simp only [List.getLast?_singleton, Option.some.injEq] at e1
          refine ⟨d, by simp, ?_, ?_⟩
          · rw [e2, ← e1]
          · rw [e3, ← e1]
        | cons f fs => exact ⟨e', by simpa using e1, e2, e3⟩

theorem updateOut_last {scalar unit : ℚ} {u : ℕ → ℚ} : ∀ {i : ℕ} {cs cs' : List (MLnk.Cell V)},
    MLnk.Ctm.updateOut scalar unit u i cs = .ok cs' → ∀ e, cs'.getLast? = some e →
      e.outCar = e.queueCar.length ∧ e.outTruck = e.queueTruck.length
  | _, [], _, h => by simp [MLnk.Ctm.updateOut] at h
  | _, [c], _, h => by
    simp [MLnk.Ctm.updateOut] at h
    subst h
    intro e he
    simp only [List.getLast?_singleton, Option.some.injEq] at he
    rw [← he]; exact ⟨rfl, rfl⟩
  | i, c :: d :: rest, cs', h => by
    simp only [MLnk.Ctm.updateOut] at h
    rw [Res.bind_eq_ok'] at h
    obtain ⟨rc, _, h⟩ := h
    rw [Res.bind_eq_ok'] at h
    obtain ⟨rt, _, h⟩ := h
    rw [Res.bind_eq_ok'] at h
    obtain ⟨rest', hr, h⟩ := h
    have h2 := updateOut_last hr
    have h3 := (updateOut_same hr).2.2
    simp only [Res.ok.injEq] at h
    subst h
    intro e he
    apply h2 e
    cases rest' with
    | nil => exact absurd rfl h3
    | cons y ys => simpa using he

theorem total_last {cs : List (MLnk.Cell V)} {e : MLnk.Cell V} (h : cs.getLast? = some e) :
    e.queueCar.length + e.queueTruck.length ≤ total cs := by
  have hm := List.mem_of_getLast? h
  unfold total
  exact List.single_le_sum (by simp) _ (List.mem_map.2 ⟨e, hm, rfl⟩)

theorem moveLast_ends {orc : ℕ → ℤ × Bool} {t : ℕ} {ds : List ℚ} (small : ℚ → Bool) :
    ∀ {cs : List (MLnk.Cell V)} {p : ℕ} {fin : List V} {b : Bay V},
      (∀ e, cs.getLast? = some e → (0 < e.outCar.toNat → ∀ d, small d = true →
        d < (e.outCar : ℚ) / (e.outCar + e.outTruck)) ∧
        e.outCar.toNat + e.queueTruck.length ≤ ds.countP small) →
      moveLast K stops k orc t ds p cs fin b ≠ .diverge
  | [], _, _, _, _ => by simp [moveLast]
  | [c], p, fin, b, h => by
    obtain ⟨h1, h2⟩ := h c (by simp)
    simp only [moveLast]
    exact bind_not_div (lastLoop_ends small _ _ _ _ _ _ _ h1 h2) (by simp)
  | c :: d :: rest, p, fin, b, h => by
    simp only [moveLast]
    refine bind_not_div (moveLast_ends small ?_) (by simp)
    intro e he
    exact h e (by simpa using he)

theorem total_travelling {l : Ctm V} : (Link.ctm l).travelling.length = total l.base.cells := by
  simp only [Link.travelling, total]
  rw [List.length_flatten, List.map_map, List.map_reverse, List.sum_reverse]
  congr 1
  apply List.map_congr_left
  intro c _
  simp

theorem ctm_evolve_ends {t : ℕ} {rnd : ℕ → ℚ} {ds : List ℚ} {orc : ℕ → ℤ × Bool} {l : Ctm V}
    (hi : CtmInv K l)
    (h : (Link.ctm l).travelling.length ≤
      ds.countP fun d => decide (d * ((Link.ctm l).travelling.length : ℚ) < 1)) :
    l.evolve K t rnd ds orc ≠ .diverge := by
  unfold Ctm.evolve
  dsimp only
  rcases updateOut_not_throw (scalar := l.base.args.scalar) (unit := l.base.args.unit) (u := rnd)
    (i := 0) (cs := l.base.cells) with hu | ⟨cs, hu⟩
  · rw [hu]; simp [Res.bind]
  · rw [hu, Res.bind_ok']
    obtain ⟨s1, s2, s3⟩ := updateOut_same hu
    have htot : total cs = total l.base.cells := by
      have := congrArg (fun l => (l.map fun x => x.1.length + x.2.length).sum) s1
      simpa [total, Function.comp_def] using this
    cases cs with
    | nil => simp
    | cons c rest =>
      dsimp only
      have hlen := s1.length
      have hI := hi.inv
      rw [← s1.posOf] at hI
      obtain ⟨cs1, b1, A1, e1, _, _, _, _, _, e7, _, _⟩ := moveFrom_inv (orc := orc) (t := t)
        hi.scalar hi.wf rest c 0 (posOf K (c :: rest)) l.bay (by rw [← hlen]; simp; omega) hI
        (s1.ok hi.ok) (by
          intro x j d hj
          simp only [posOf, Nat.zero_add, hj]) s2
      rw [e1, Res.bind_ok']
      obtain ⟨m1, m2, m3⟩ := moveFrom_len e1
      refine bind_not_div (moveLast_ends
        (fun d => decide (d * ((Link.ctm l).travelling.length : ℚ) < 1)) ?_) (by simp)
      intro e he
      obtain ⟨e', f1, f2, f3⟩ := m3 e he
      obtain ⟨g1, g2⟩ := updateOut_last hu e' f1
      have hle := total_last f1
      have hle1 := total_last he
      have he7 := e7 e he
      rw [total_travelling] at h ⊢
      dsimp only at m1
      constructor
      · intro hpos d hd
        simp only [decide_eq_true_eq] at hd
        rw [f2, f3, g1, g2]
        rw [f2, g1] at hpos
        have hc1 : 1 ≤ e'.queueCar.length := by
          have : 0 < e'.queueCar.length := by simpa using hpos
          omega
        have hN : ((e'.queueCar.length + e'.queueTruck.length : ℕ) : ℚ) ≤ (total l.base.cells : ℚ) := by
          rw [← htot]; exact_mod_cast hle
        have hp1 : (1 : ℚ) ≤ (e'.queueCar.length : ℚ) := by exact_mod_cast hc1
        have hp0 : (0 : ℚ) ≤ (e'.queueTruck.length : ℚ) := by positivity
        push_cast at hN ⊢
        rw [lt_div_iff₀ (by linarith)]
        rcases le_or_gt d 0 with hd0 | hd0
        · have : d * ((e'.queueCar.length : ℚ) + e'.queueTruck.length) ≤ 0 :=
            mul_nonpos_of_nonpos_of_nonneg hd0 (by linarith)
          linarith
        · have : d * ((e'.queueCar.length : ℚ) + e'.queueTruck.length) ≤ d * (total l.base.cells : ℚ) :=
            mul_le_mul_of_nonneg_left hN hd0.le
          linarith
      · refine le_trans ?_ h
        rw [← htot, ← m1]
        dsimp only at hle1 ⊢
        omega

/-- An interval goes through. -/
theorem ctm_evolve_ok {t : ℕ} {rnd : ℕ → ℚ} {ds : List ℚ} {orc : ℕ → ℤ × Bool} {l : Ctm V}
    (hi : CtmInv K l) (hb : MLnk.Built (.ctm l.base))
    (hj : ∀ c ∈ l.base.cells, c.BelowJam l.base.args.scalar)
    (hc : ∀ c ∈ l.base.cells, c.dia.capCar * l.base.args.unit * l.base.args.scalar < 2147483647 ∧
      c.dia.capTruck * l.base.args.unit * l.base.args.scalar < 2147483647)
    (hn : ∀ v ∈ (Link.ctm l).travelling, K.hasNext v = true)
    (h : (Link.ctm l).travelling.length ≤
      ds.countP fun d => decide (d * ((Link.ctm l).travelling.length : ℚ) < 1)) :
    ∃ l', l.evolve K t rnd ds orc = .ok l' := by
  rcases ctm_evolve_inv (t := t) (rnd := rnd) (ds := ds) (orc := orc) hi with
    e | e | ⟨_, e, v, hv, hv'⟩ | ⟨l', out, e1, _⟩
  · exfalso
    obtain ⟨b1, b2, b3, b4⟩ := hb
    obtain ⟨c1, h1, o1⟩ := updateOut_ok (u := rnd) b2 b1 l.base.cells 0 b3 (fun c hc' =>
      ⟨(b4 c hc').1, (b4 c hc').2.1, (b4 c hc').2.2, hj c hc', hc c hc'⟩)
    -- the rest is never undefined
    obtain ⟨s1, s2, s3⟩ := updateOut_same h1
    cases c1 with
    | nil => exact absurd rfl s3
    | cons c rest =>
      have hlen := s1.length
      have hI := hi.inv
      rw [← s1.posOf] at hI
      obtain ⟨cs1, b1', A1, e1, e2, e3, e4, e5, _, e7, _, _⟩ := moveFrom_inv (orc := orc) (t := t)
        hi.scalar hi.wf rest c 0 (posOf K (c :: rest)) l.bay (by rw [← hlen]; simp; omega) hI
        (s1.ok hi.ok) (by
          intro x j d hj
          simp only [posOf, Nat.zero_add, hj]) s2
      have hne : cs1 ≠ [] := by intro hh; rw [hh] at e3; simp at e3
      have hl1 : cs1.length = l.base.cells.length := by rw [e3, ← hlen]; simp
      simp only [Ctm.evolve, h1, Res.bind_ok', e1] at e
      rcases moveLast_inv (orc := orc) (t := t) (ds := ds) hi.scalar hi.wf cs1 0 l.base.com.finished A1 b1' hne
        (by rw [hl1]; omega) e2 e4 e5 e7 with
        f | ⟨f, f1, _⟩ | ⟨cs2, fin', b2, A2, out, f1, _⟩
      · rw [f] at e; simp [Res.bind] at e
      · rw [f1] at e; simp [Res.bind] at e
      · rw [f1] at e; simp [Res.bind] at e
  · exact absurd e (ctm_evolve_ends hi h)
  · rw [hn v hv] at hv'; exact absurd hv' (by simp)
  · exact ⟨l', e1⟩

end Verif.MmLnk
