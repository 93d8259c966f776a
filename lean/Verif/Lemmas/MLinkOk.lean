import Verif.Lemmas.MLinkPercept

namespace Verif.MLnk
open Ults Curve Lnk
variable {V : Type}

/-- What the operations of a cell leave alone. -/
def Cell.attrs (c : Cell V) : ℚ × Diagram := (c.length, c.dia)

/-- The perceived densities of a cell are up to date. -/
def Cell.Fresh (scalar : ℚ) (c : Cell V) : Prop :=
  c.per = perceive c.dia c.volCar c.volTruck ((c.volCar : ℚ) / scalar / c.length)
    ((c.volTruck : ℚ) / scalar / c.length)

theorem updateOut_attrs {scalar unit : ℚ} {u : ℕ → ℚ} : ∀ {i : ℕ} {cs cs' : List (Cell V)},
    Ctm.updateOut scalar unit u i cs = .ok cs' → cs'.map Cell.attrs = cs.map Cell.attrs
  | _, [], _, h => by simp [Ctm.updateOut] at h
  | _, [c], _, h => by simp [Ctm.updateOut] at h; subst h; rfl
  | i, c :: d :: rest, cs', h => by
    simp only [Ctm.updateOut] at h
    rw [Res.bind_eq_ok'] at h
    obtain ⟨rc, _, h⟩ := h
    rw [Res.bind_eq_ok'] at h
    obtain ⟨rt, _, h⟩ := h
    rw [Res.bind_eq_ok'] at h
    obtain ⟨rest', hr, h⟩ := h
    cases h
    rw [List.map_cons, updateOut_attrs hr, List.map_cons]; rfl

theorem moveFrom_attrs : ∀ {rest : List (Cell V)} {c : Cell V} {cs' : List (Cell V)},
    Ctm.moveFrom c rest = .ok cs' → cs'.map Cell.attrs = (c :: rest).map Cell.attrs
  | [], c, _, h => by simp [Ctm.moveFrom] at h; subst h; rfl
  | d :: rest, c, cs', h => by
    simp only [Ctm.moveFrom] at h
    rw [Res.bind_eq_ok'] at h
    obtain ⟨p, hp, h⟩ := h
    rw [Res.bind_eq_ok'] at h
    obtain ⟨q, hq, h⟩ := h
    rw [Res.bind_eq_ok'] at h
    obtain ⟨rest', hr, h⟩ := h
    cases h
    rw [List.map_cons, moveFrom_attrs hr]; rfl

theorem moveLast_attrs {truck hasNext : V → Bool} {scalar : ℚ} {pick : ℕ → ℚ} :
    ∀ {cs : List (Cell V)} {fin : List V} {p : List (Cell V) × List V},
    Ctm.moveLast truck hasNext scalar pick cs fin = .ok p →
    p.1.map Cell.attrs = cs.map Cell.attrs ∧ ∀ c ∈ p.1, c.Fresh scalar
  | [], _, _, h => by simp [Ctm.moveLast] at h
  | [c], fin, p, h => by
    simp only [Ctm.moveLast] at h
    rw [Res.bind_eq_ok'] at h
    obtain ⟨x, hx, h⟩ := h
    cases h
    exact ⟨rfl, by simp [Cell.Fresh, Cell.updatePer]⟩
  | c :: d :: rest, fin, p, h => by
    simp only [Ctm.moveLast] at h
    rw [Res.bind_eq_ok'] at h
    obtain ⟨x, hx, h⟩ := h
    cases h
    obtain ⟨e1, e2⟩ := moveLast_attrs hx
    refine ⟨by rw [List.map_cons, e1]; rfl, ?_⟩
    intro y hy
    rcases List.mem_cons.1 hy with rfl | hy
    · simp [Cell.Fresh, Cell.updatePer]
    · exact e2 y hy

/-- A link built by the constructor and never modified. -/
def Built : Link V → Prop
  | .ctm l => 0 < l.args.unit ∧ 0 < l.args.scalar ∧ l.cells ≠ [] ∧
      ∀ c ∈ l.cells, c.dia.Good ∧ 0 < c.length ∧ c.Fresh l.args.scalar
  | .lq l => 0 < l.args.unit ∧ 0 < l.args.scalar ∧ 0 < l.args.length ∧ 0 < l.args.factor ∧
      l.dia.Good ∧ l.bufCar = [] ∧ l.bufTruck = []
  | .pq _ => True

theorem attrs_mem {cs cs' : List (Cell V)} (h : cs'.map Cell.attrs = cs.map Cell.attrs)
    {c : Cell V} (hc : c ∈ cs') : ∃ d ∈ cs, d.length = c.length ∧ d.dia = c.dia := by
  have : c.attrs ∈ cs'.map Cell.attrs := List.mem_map_of_mem hc
  rw [h] at this
  obtain ⟨d, hd, he⟩ := List.mem_map.1 this
  exact ⟨d, hd, congrArg Prod.fst he, congrArg Prod.snd he⟩

theorem attrs_ne {cs cs' : List (Cell V)} (h : cs'.map Cell.attrs = cs.map Cell.attrs)
    (hne : cs ≠ []) : cs' ≠ [] := by
  rintro rfl
  cases cs with
  | nil => exact hne rfl
  | cons => simp at h

theorem mk_built {k : Kind} {a : Args} {l : Link V} (h : mkLink k a = .ok l) : Built l := by
  obtain ⟨_, _, hu, hs⟩ := mk_unit_scalar h
  cases k with
  | ctm =>
    simp only [mkLink] at h
    rw [Res.bind_eq_ok'] at h
    obtain ⟨x, hx, h⟩ := h
    cases h
    unfold Ctm.mk' at hx
    rw [Res.bind_eq_ok'] at hx
    obtain ⟨_, hb, hx⟩ := hx
    rw [Res.bind_eq_ok'] at hx
    obtain ⟨c, hc, hx⟩ := hx
    obtain ⟨c1, c2, c3⟩ := checkAttrs_keep hc
    obtain ⟨f1, f2, f3, f4, f5⟩ := checkAttrs_ffs hc
    split at hx
    · simp at hx
    split at hx
    · simp at hx
    split at hx
    · simp at hx
    rw [Res.bind_eq_ok'] at hx
    obtain ⟨r, hr, hx⟩ := hx
    cases hx
    have hbase : 0 ≤ a.lanes ∧ 0 ≤ a.length := by
      unfold checkBase at hb
      split at hb
      · simp at hb
      split at hb
      · simp at hb
      split at hb
      · simp at hb
      rename_i g1 g2
      exact ⟨by omega, by linarith⟩
    obtain ⟨g1, g2, g3, g4, g5⟩ := derive_good hr (by rw [c1]; exact hu) (by rw [c2]; exact hs)
      (by rw [f3]; exact hbase.1) (by rw [f4]; exact hbase.2) f1 f2
    obtain ⟨d1, d2, d3⟩ := derive_keep hr
    refine ⟨by rw [d1, c1]; exact hu, by rw [d2, c2]; exact hs, by simp, ?_⟩
    have fresh : ∀ len, (Cell.mk' len r.dia : Cell V).Fresh r.args.scalar := by
      intro len
      simp [Cell.Fresh, Cell.mk', perceive]
    intro y hy
    rcases List.mem_append.1 hy with hy | hy
    · rw [(List.mem_replicate.1 hy).2]
      exact ⟨g1, g2, fresh _⟩
    · simp at hy; subst hy
      exact ⟨g1, g3, fresh _⟩
  | lq =>
    simp only [mkLink] at h
    rw [Res.bind_eq_ok'] at h
    obtain ⟨x, hx, h⟩ := h
    cases h
    unfold Lq.mk' at hx
    rw [Res.bind_eq_ok'] at hx
    obtain ⟨_, _, hx⟩ := hx
    rw [Res.bind_eq_ok'] at hx
    obtain ⟨r, hr, hx⟩ := hx
    cases hx
    unfold lqDiagram at hr
    simp only at hr
    split at hr
    · simp at hr
    · rename_i hn
      push Not at hn
      obtain ⟨n1, n2, n3, n4, n5, n6, n7, n8⟩ := hn
      cases hr
      have p1 := liftCell_pos (c := a.capCar * a.lanes) n1 n2
      have p2 := liftCell_pos (c := a.capTruck * a.lanes) n1 n2
      exact ⟨n1, n2, n3, n6, ⟨div_pos p1 n4, div_pos p2 n5, n7, n8, p1, p2, n4, n5,
        div_pos p1 (sub_pos.2 n7), div_pos p2 (sub_pos.2 n8)⟩, rfl, rfl⟩
  | pq =>
    simp only [mkLink] at h
    rw [Res.bind_eq_ok'] at h
    obtain ⟨x, hx, h⟩ := h
    cases h
    trivial

theorem step_built {truck hasNext : V → Bool} {l : Link V} {op : Op V} {r : Link V × List V}
    (hb : Built l) (hm : ∀ a, op ≠ .modify a) (h : l.step truck hasNext op = .ok r) :
    Built r.1 := by
  cases op with
  | arrive v =>
    simp only [Link.step] at h
    cases h
    cases l <;> exact hb
  | depart p =>
    simp only [Link.step] at h
    cases hr : removeFirst p l.finished with
    | none => rw [hr] at h; simp only at h; cases h; exact hb
    | some z => rw [hr] at h; simp only at h; cases h; cases l <;> exact hb
  | modify a => exact absurd rfl (hm a)
  | clear =>
    simp only [Link.step] at h
    rw [Res.bind_eq_ok'] at h
    obtain ⟨z, hz, h⟩ := h
    cases h
    cases l with
    | ctm l =>
      simp only [Link.clear] at hz
      rw [Res.bind_eq_ok'] at hz
      obtain ⟨x, hx, hz⟩ := hz
      cases hz
      unfold Ctm.clear at hx
      obtain ⟨b1, b2, b3, b4⟩ := hb
      cases hc : l.cells with
      | nil => exact absurd hc b3
      | cons c rest =>
        rw [hc] at hx b4
        simp only at hx
        cases hx
        refine ⟨b1, b2, by simp, ?_⟩
        intro y hy
        rcases List.mem_cons.1 hy with rfl | hy
        · obtain ⟨g1, g2, _⟩ := b4 c (by simp)
          exact ⟨g1, g2, by simp [Cell.Fresh, Cell.updatePer]⟩
        · exact b4 y (by simp [hy])
    | lq l => simp only [Link.clear] at hz; cases hz; exact hb
    | pq l => simp only [Link.clear] at hz; cases hz; trivial
  | evolve u =>
    simp only [Link.step] at h
    rw [Res.bind_eq_ok'] at h
    obtain ⟨z, hz, h⟩ := h
    cases h
    cases l with
    | ctm l =>
      simp only [Link.evolve] at hz
      rw [Res.bind_eq_ok'] at hz
      obtain ⟨x, hx, hz⟩ := hz
      cases hz
      unfold Ctm.evolve at hx
      rw [Res.bind_eq_ok'] at hx
      obtain ⟨c1, h1, hx⟩ := hx
      rw [Res.bind_eq_ok'] at hx
      obtain ⟨c2, h2, hx⟩ := hx
      rw [Res.bind_eq_ok'] at hx
      obtain ⟨p, h3, hx⟩ := hx
      cases hx
      obtain ⟨b1, b2, b3, b4⟩ := hb
      have h2' : c2.map Cell.attrs = c1.map Cell.attrs := by
        cases c1 with
        | nil => simp [Ctm.movePrev] at h2
        | cons c rest => exact moveFrom_attrs h2
      obtain ⟨e1, e2⟩ := moveLast_attrs h3
      have e := (e1.trans h2').trans (updateOut_attrs h1)
      refine ⟨b1, b2, attrs_ne e b3, ?_⟩
      intro y hy
      obtain ⟨d, hd, l1, l2⟩ := attrs_mem e hy
      obtain ⟨g1, g2, _⟩ := b4 d hd
      exact ⟨l2 ▸ g1, l1 ▸ g2, e2 y hy⟩
    | lq l =>
      simp only [Link.evolve] at hz
      rw [Res.bind_eq_ok'] at hz
      obtain ⟨x, hx, hz⟩ := hz
      cases hz
      unfold Lq.evolve at hx
      simp only at hx
      rw [Res.bind_eq_ok'] at hx
      obtain ⟨rc, _, hx⟩ := hx
      rw [Res.bind_eq_ok'] at hx
      obtain ⟨rt, _, hx⟩ := hx
      rw [Res.bind_eq_ok'] at hx
      obtain ⟨pc, hpc, hx⟩ := hx
      rw [Res.bind_eq_ok'] at hx
      obtain ⟨pt, hpt, hx⟩ := hx
      rw [Res.bind_eq_ok'] at hx
      obtain ⟨r, hr, hx⟩ := hx
      split at hx
      · simp at hx
      rename_i hbuf
      push Not at hbuf
      cases hx
      obtain ⟨b1, b2, b3, b4, b5, _, _⟩ := hb
      exact ⟨b1, b2, b3, b4, b5, hbuf.1, hbuf.2⟩
    | pq l => simp only [Link.evolve] at hz; cases hz; trivial

theorem run_built {truck hasNext : V → Bool} : ∀ (ops : List (Op V)) (l : Link V)
    (r : Link V × List V), Built l → (∀ a, Op.modify a ∉ ops) →
    l.run truck hasNext ops = .ok r → Built r.1
  | [], l, r, hb, _, h => by simp [Link.run] at h; subst h; exact hb
  | op :: ops, l, r, hb, hm, h => by
    simp only [Link.run] at h
    rw [Res.bind_eq_ok'] at h
    obtain ⟨x, hx, h⟩ := h
    rw [Res.bind_eq_ok'] at h
    obtain ⟨y, hy, h⟩ := h
    cases h
    refine run_built ops x.1 y (step_built hb ?_ hx) ?_ hy
    · rintro a rfl; exact hm a (by simp)
    · intro a ha; exact hm a (by simp [ha])

/-! ### An interval goes through -/

theorem flow_bounds {frac cap ffs unit : ℚ} {p : Option ℚ} {x s : ℚ} (hx : 0 ≤ x)
    (hp : ∀ ρ, p = some ρ → frac * ρ = x) (hf : 0 ≤ frac) (hf1 : frac ≤ 1) (hu : 0 < unit)
    (hcap : 0 < cap) (hffs : 0 < ffs) (hs : 0 ≤ s) :
    0 ≤ frac * min (demandOf cap ffs unit p) s ∧
      frac * min (demandOf cap ffs unit p) s ≤ cap * unit := by
  have hd : demandOf cap ffs unit p ≤ cap * unit := by
    cases p with
    | none => exact le_rfl
    | some ρ => exact mul_le_mul_of_nonneg_right (min_le_left _ _) hu.le
  have hcu : 0 < cap * unit := mul_pos hcap hu
  rcases hf.lt_or_eq with h | h
  · have hd0 : 0 ≤ demandOf cap ffs unit p := by
      cases p with
      | none => exact hcu.le
      | some ρ =>
        have h2 := hp ρ rfl
        have : 0 ≤ ρ := by
          by_contra hn
          have := mul_neg_of_pos_of_neg h (not_le.1 hn)
          linarith
        simp only [demandOf]
        apply mul_nonneg _ hu.le
        exact le_min hcap.le (mul_nonneg hffs.le this)
    refine ⟨mul_nonneg hf (le_min hd0 hs), ?_⟩
    calc frac * min (demandOf cap ffs unit p) s ≤ 1 * (cap * unit) :=
          mul_le_mul hf1 ((min_le_left _ _).trans hd) (le_min hd0 hs) zero_le_one
      _ = cap * unit := one_mul _
  · rw [← h]; simp; exact hcu.le

theorem demand_bounds {frac cap ffs unit : ℚ} {p : Option ℚ} {x : ℚ} (hx : 0 ≤ x)
    (hp : ∀ ρ, p = some ρ → frac * ρ = x) (hf : 0 ≤ frac) (hf1 : frac ≤ 1) (hu : 0 < unit)
    (hcap : 0 < cap) (hffs : 0 < ffs) :
    0 ≤ frac * demandOf cap ffs unit p ∧ frac * demandOf cap ffs unit p ≤ cap * unit := by
  have hd : demandOf cap ffs unit p ≤ cap * unit := by
    cases p with
    | none => exact le_rfl
    | some ρ => exact mul_le_mul_of_nonneg_right (min_le_left _ _) hu.le
  have := flow_bounds (s := cap * unit) hx hp hf hf1 hu hcap hffs (mul_pos hcap hu).le
  rwa [min_eq_left hd] at this

theorem supplyOf_nonneg {cap wave hold unit : ℚ} {p : Option ℚ} (hu : 0 ≤ unit) :
    0 ≤ supplyOf cap wave hold unit p := by
  cases p with
  | none => exact le_rfl
  | some ρ => exact mul_nonneg (le_max_left _ _) hu

/-- A cell that holds at most its jam densities. -/
def Cell.BelowJam (scalar : ℚ) (c : Cell V) : Prop :=
  (c.volCar : ℚ) / scalar / c.length ≤ c.dia.holdCar ∧
    (c.volTruck : ℚ) / scalar / c.length ≤ c.dia.holdTruck

theorem cell_frac {scalar : ℚ} {c : Cell V} (hs : 0 < scalar) (hd : c.dia.Good)
    (hl : 0 < c.length) (hf : c.Fresh scalar) :
    c.per.fracCar + c.per.fracTruck = 1 ∧
    (c.BelowJam scalar → 0 ≤ c.per.fracCar ∧ 0 ≤ c.per.fracTruck) ∧
    (∀ ρ, c.per.densCar = some ρ → c.per.fracCar * ρ = (c.volCar : ℚ) / scalar / c.length) ∧
    (∀ ρ, c.per.densTruck = some ρ →
      c.per.fracTruck * ρ = (c.volTruck : ℚ) / scalar / c.length) := by
  have h1 : 0 ≤ (c.volCar : ℚ) / scalar / c.length := by positivity
  have h2 : 0 ≤ (c.volTruck : ℚ) / scalar / c.length := by positivity
  rw [hf]
  refine ⟨perceive_frac_sum hd h1 h2, fun hj => perceive_frac_nonneg hd h1 h2 hj.1 hj.2, ?_⟩
  exact perceive_product hd h1 h2 (fun h => by simp [h]) (fun h => by simp [h])

theorem updateOut_ok {scalar unit : ℚ} {u : ℕ → ℚ} (hs : 0 < scalar) (hu : 0 < unit) :
    ∀ (cs : List (Cell V)) (i : ℕ), cs ≠ [] →
    (∀ c ∈ cs, c.dia.Good ∧ 0 < c.length ∧ c.Fresh scalar ∧ c.BelowJam scalar ∧
      c.dia.capCar * unit * scalar < 2147483647 ∧ c.dia.capTruck * unit * scalar < 2147483647) →
    ∃ cs', Ctm.updateOut scalar unit u i cs = .ok cs' ∧
      ∀ c ∈ cs', c.outCar.toNat ≤ c.queueCar.length ∧ c.outTruck.toNat ≤ c.queueTruck.length
  | [], _, h, _ => absurd rfl h
  | [c], i, _, _ => ⟨_, rfl, by simp⟩
  | c :: d :: rest, i, _, h => by
    obtain ⟨cs', h1, h2⟩ := updateOut_ok (u := u) hs hu (d :: rest) (i + 1) (by simp)
      (fun x hx => h x (List.mem_cons_of_mem _ hx))
    obtain ⟨g, hl, hf, hj, b1, b2⟩ := h c (by simp)
    obtain ⟨e1, e2, e3, e4⟩ := cell_frac hs g hl hf
    obtain ⟨f1, f2⟩ := e2 hj
    have k1 := flow_bounds (s := supplyOf d.dia.capCar d.dia.waveCar d.dia.holdCar unit
      d.per.densCar) (by positivity) e3 f1 (by linarith) hu g.capCar g.ffsCar
      (supplyOf_nonneg hu.le)
    have k2 := flow_bounds (s := supplyOf d.dia.capTruck d.dia.waveTruck d.dia.holdTruck unit
      d.per.densTruck) (by positivity) e4 f2 (by linarith) hu g.capTruck g.ffsTruck
      (supplyOf_nonneg hu.le)
    obtain r1 := round_nonneg_ok (u := u (2 * i)) (mul_nonneg k1.1 hs.le)
      (lt_of_le_of_lt (mul_le_mul_of_nonneg_right k1.2 hs.le) b1)
    obtain r2 := round_nonneg_ok (u := u (2 * i + 1)) (mul_nonneg k2.1 hs.le)
      (lt_of_le_of_lt (mul_le_mul_of_nonneg_right k2.2 hs.le) b2)
    refine ⟨_, by
      simp only [Ctm.updateOut]
      rw [r1, Res.bind_ok', r2, Res.bind_ok', h1, Res.bind_ok'], ?_⟩
    intro x hx
    rcases List.mem_cons.1 hx with rfl | hx
    · constructor <;> dsimp only <;> omega
    · exact h2 x hx

theorem moveFrom_ok : ∀ (rest : List (Cell V)) (c : Cell V),
    (∀ x ∈ c :: rest, x.outCar.toNat ≤ x.queueCar.length ∧
      x.outTruck.toNat ≤ x.queueTruck.length) →
    ∃ cs', Ctm.moveFrom c rest = .ok cs' ∧
      ∃ init e, cs' = init ++ [e] ∧ e.outCar.toNat ≤ e.queueCar.length ∧
        e.outTruck.toNat ≤ e.queueTruck.length
  | [], c, h => ⟨[c], rfl, [], c, rfl, h c (by simp)⟩
  | d :: rest, c, h => by
    obtain ⟨h1, h2⟩ := h c (by simp)
    have m1 := moveQueue_ok c.outCar.toNat c.queueCar d.queueCar h1
    have m2 := moveQueue_ok c.outTruck.toNat c.queueTruck d.queueTruck h2
    obtain ⟨cs', e1, init, e, e2, e3⟩ := moveFrom_ok rest
      { d with queueCar := d.queueCar ++ c.queueCar.take c.outCar.toNat
               queueTruck := d.queueTruck ++ c.queueTruck.take c.outTruck.toNat } (by
        intro x hx
        rcases List.mem_cons.1 hx with rfl | hx
        · obtain ⟨h3, h4⟩ := h d (by simp)
          constructor <;> dsimp only <;> rw [List.length_append] <;> omega
        · exact h x (by simp [hx]))
    refine ⟨{ c with queueCar := c.queueCar.drop c.outCar.toNat
                     queueTruck := c.queueTruck.drop c.outTruck.toNat } :: cs',
      by simp only [Ctm.moveFrom, m1, m2, e1, Res.bind_ok'],
      { c with queueCar := c.queueCar.drop c.outCar.toNat
               queueTruck := c.queueTruck.drop c.outTruck.toNat } :: init, e, ?_, e3⟩
    rw [e2]; rfl

theorem moveLast_ok {truck hasNext : V → Bool} {scalar : ℚ} {pick : ℕ → ℚ} :
    ∀ (init : List (Cell V)) (e : Cell V) (fin : List V),
    e.outCar.toNat ≤ e.queueCar.length → e.outTruck.toNat ≤ e.queueTruck.length →
    (∀ v ∈ e.queueCar ++ e.queueTruck, hasNext v = true) →
    ∃ p, Ctm.moveLast truck hasNext scalar pick (init ++ [e]) fin = .ok p
  | [], e, fin, h1, h2, h3 => by
    obtain ⟨f, hf⟩ := mergeOut_total (hasNext := hasNext) (pick := pick)
      (p := e.outCar / (e.outCar + e.outTruck)) _ _ _ e.queueCar e.queueTruck fin rfl h1 h2
      (fun v hv => h3 v (by simp [List.mem_of_mem_take hv]))
      (fun v hv => h3 v (by simp [List.mem_of_mem_take hv]))
    exact ⟨_, by simp only [List.nil_append, Ctm.moveLast, hf, Res.bind_ok']; rfl⟩
  | [c], e, fin, h1, h2, h3 => by
    obtain ⟨p, hp⟩ := moveLast_ok (truck := truck) (scalar := scalar) (pick := pick) [] e fin h1 h2 h3
    simp only [List.nil_append] at hp
    exact ⟨_, by rw [List.cons_append, List.nil_append, Ctm.moveLast, hp, Res.bind_ok']⟩
  | c :: d :: init, e, fin, h1, h2, h3 => by
    obtain ⟨p, hp⟩ := moveLast_ok (truck := truck) (scalar := scalar) (pick := pick) (d :: init) e
      fin h1 h2 h3
    simp only [List.cons_append] at hp
    exact ⟨_, by simp only [List.cons_append, Ctm.moveLast, hp, Res.bind_ok']; rfl⟩

theorem round_any_ok {x u : ℚ} (h1 : -2147483648 < x) (h2 : x < 2147483647) :
    ∃ n, Ults.round x u = .ok n := by
  have key : -2147483648 ≤ trunc x ∧ trunc x < 2147483647 := by
    unfold trunc
    split
    · rename_i h
      constructor
      · have := Int.floor_nonneg.2 h; omega
      · rw [Int.floor_lt]; exact_mod_cast h2
    · rename_i h
      constructor
      · have : (-2147483648 : ℚ) < ⌈x⌉ := lt_of_lt_of_le h1 (Int.le_ceil x)
        have : (-2147483648 : ℤ) < ⌈x⌉ := by exact_mod_cast this
        omega
      · have : ⌈x⌉ ≤ 0 := by
          rw [Int.ceil_le]; push_cast; exact (not_le.1 h).le
        omega
  have e1 : toInt x = .ok (trunc x) := by
    unfold toInt; rw [if_pos ⟨key.1, by omega⟩]
  unfold Ults.round
  rw [e1]
  simp only [Res.bind_ok']
  split
  · refine ⟨trunc x + 1, ?_⟩
    rw [toInt_ok_iff]
    have : ((trunc x : ℚ) + 1) = ((trunc x + 1 : ℤ) : ℚ) := by push_cast; ring
    rw [this, trunc_int]
    omega
  · refine ⟨trunc x, ?_⟩
    rw [toInt_ok_iff, trunc_int]
    omega

theorem ctm_evolve_ok {truck hasNext : V → Bool} {u : Draws} {l : Ctm V}
    (hb : Built (.ctm l)) (hj : ∀ c ∈ l.cells, c.BelowJam l.args.scalar)
    (hc : ∀ c ∈ l.cells, c.dia.capCar * l.args.unit * l.args.scalar < 2147483647 ∧
      c.dia.capTruck * l.args.unit * l.args.scalar < 2147483647)
    (hn : ∀ b, ∀ v ∈ (Link.ctm l).travelling truck b, hasNext v = true) :
    ∃ l', l.evolve truck hasNext u = .ok l' := by
  obtain ⟨b1, b2, b3, b4⟩ := hb
  obtain ⟨c1, h1, o1⟩ := updateOut_ok (u := u.rnd) b2 b1 l.cells 0 b3 (fun c hc' =>
    ⟨(b4 c hc').1, (b4 c hc').2.1, (b4 c hc').2.2, hj c hc', hc c hc'⟩)
  have q1 := updateOut_q h1
  cases c1 with
  | nil =>
    exact absurd rfl (attrs_ne (updateOut_attrs h1) b3)
  | cons c rest =>
    obtain ⟨c2, h2, init, e, he, e1, e2⟩ := moveFrom_ok rest c o1
    have q2 : ∀ b, cellVehs b c2 = cellVehs b (c :: rest) :=
      (moveFrom_inv (truck := truck) h2).1
    have hmem : ∀ b, ∀ v ∈ e.q b, hasNext v = true := by
      intro b v hv
      apply hn b
      rw [travelling_ctm, ← cellVehs_of_map (q1 b), ← q2 b, he]
      unfold cellVehs
      simp [hv]
    subst he
    obtain ⟨p, hp⟩ := moveLast_ok (truck := truck) (hasNext := hasNext)
      (scalar := l.args.scalar) (pick := u.pick) init e l.com.finished e1 e2 (by
        intro v hv
        rcases List.mem_append.1 hv with hv | hv
        · exact hmem false v hv
        · exact hmem true v hv)
    exact ⟨_, by simp only [Ctm.evolve, h1, Res.bind_ok', Ctm.movePrev, h2, hp]; rfl⟩

theorem share_bounds {m a b D : ℚ} (ha : 0 ≤ a) (hb : 0 ≤ b) (hD : D = a + b) :
    |m * divide a D| ≤ |m| := by
  subst hD
  rw [abs_mul]
  have : 0 ≤ divide a (a + b) ∧ divide a (a + b) ≤ 1 := by
    unfold divide
    split
    · exact ⟨le_rfl, zero_le_one⟩
    · split
      · exact ⟨le_rfl, zero_le_one⟩
      · rename_i h1 h2
        have : 0 < a + b := lt_of_le_of_ne (add_nonneg ha hb) (Ne.symm h2)
        exact ⟨by positivity, by rw [div_le_one this]; linarith⟩
  rw [abs_of_nonneg this.1]
  calc |m| * divide a (a + b) ≤ |m| * 1 := mul_le_mul_of_nonneg_left this.2 (abs_nonneg _)
    _ = |m| := mul_one _

theorem lq_evolve_ok {truck hasNext : V → Bool} {u : Draws} {l : Lq V}
    (hb : Built (.lq l))
    (hj : ((l.queueCar.length + cars truck l.com.finished : ℕ) : ℚ) / l.args.scalar / l.args.length
        ≤ l.dia.holdCar ∧
      ((l.queueTruck.length + trucks truck l.com.finished : ℕ) : ℚ) / l.args.scalar / l.args.length
        ≤ l.dia.holdTruck)
    (hf : 1 ≤ l.args.factor)
    (hc : (l.dia.capCar + l.args.factor * l.dia.capTruck) * l.args.unit * l.args.scalar
      < 2147483647) (hfin : l.com.finished.length < 2147483647)
    (hn : ∀ b, ∀ v ∈ (Link.lq l).travelling truck b, hasNext v = true) :
    ∃ l', l.evolve truck hasNext u = .ok l' := by
  obtain ⟨b1, b2, b3, b4, g, b6, b7⟩ := hb
  unfold Lq.evolve
  simp only
  generalize hvc : l.queueCar.length + cars truck l.com.finished = vc at *
  generalize hvt : l.queueTruck.length + trucks truck l.com.finished = vt at *
  have d1 : 0 ≤ (vc : ℚ) / l.args.scalar / l.args.length := by positivity
  have d2 : 0 ≤ (vt : ℚ) / l.args.scalar / l.args.length := by positivity
  have s1 := perceive_frac_sum (nc := vc) (nt := vt) g d1 d2
  obtain ⟨n1, n2⟩ := perceive_frac_nonneg (nc := vc) (nt := vt) g d1 d2 hj.1 hj.2
  obtain ⟨p1, p2⟩ := perceive_product (nc := vc) (nt := vt) g d1 d2
    (fun h => by simp [h]) (fun h => by simp [h])
  generalize perceive l.dia vc vt ((vc : ℚ) / l.args.scalar / l.args.length)
    ((vt : ℚ) / l.args.scalar / l.args.length) = per at *
  have k1 := demand_bounds d1 p1 n1 (by linarith) b1 g.capCar g.ffsCar
  have k2 := demand_bounds d2 p2 n2 (by linarith) b1 g.capTruck g.ffsTruck
  generalize per.fracCar * demandOf l.dia.capCar l.dia.ffsCar l.args.unit per.densCar = dc at *
  generalize per.fracTruck * demandOf l.dia.capTruck l.dia.ffsTruck l.args.unit per.densTruck = dt
    at *
  have hft : 0 ≤ l.args.factor * dt := mul_nonneg b4.le k2.1
  have hm : |(dc + l.args.factor * dt) * l.args.scalar - (l.com.finished.length : ℚ)|
      < 2147483647 := by
    have h0 : 0 ≤ (dc + l.args.factor * dt) * l.args.scalar :=
      mul_nonneg (add_nonneg k1.1 hft) b2.le
    have h1 : (dc + l.args.factor * dt) * l.args.scalar
        ≤ (l.dia.capCar + l.args.factor * l.dia.capTruck) * l.args.unit * l.args.scalar := by
      apply mul_le_mul_of_nonneg_right _ b2.le
      have := mul_le_mul_of_nonneg_left k2.2 b4.le
      nlinarith [k1.2]
    have h2 : (0 : ℚ) ≤ l.com.finished.length := Nat.cast_nonneg _
    have h3 : (l.com.finished.length : ℚ) < 2147483647 := by exact_mod_cast hfin
    rw [abs_lt]
    constructor <;> linarith
  generalize (dc + l.args.factor * dt) * l.args.scalar - (l.com.finished.length : ℚ) = m at *
  have q1 := abs_lt.1 (lt_of_le_of_lt (share_bounds (m := m) k1.1 hft rfl) hm)
  have q2 : |m * divide (l.args.factor * dt) (dc + l.args.factor * dt) / l.args.factor|
      < 2147483647 := by
    rw [abs_div, abs_of_pos b4, div_lt_iff₀ b4]
    have := lt_of_le_of_lt (share_bounds (m := m) hft k1.1 (add_comm _ _)) hm
    nlinarith
  have q2 := abs_lt.1 q2
  obtain ⟨rc, r1⟩ := round_any_ok (u := u.rnd 0) (by linarith [q1.1]) q1.2
  obtain ⟨rt, r2⟩ := round_any_ok (u := u.rnd 1) (by linarith [q2.1]) q2.2
  rw [r1, Res.bind_ok', r2, Res.bind_ok', moveQueue_ok _ _ _ (by omega), Res.bind_ok',
    moveQueue_ok _ _ _ (by omega), Res.bind_ok', b6, b7]
  simp only [List.nil_append]
  obtain ⟨f, hf⟩ := mergeOut_total (hasNext := hasNext) (pick := u.pick)
    (p := ((l.queueCar.take (min rc l.queueCar.length).toNat).length : ℚ)
      / ((l.queueCar.take (min rc l.queueCar.length).toNat).length
        + (l.queueTruck.take (min rt l.queueTruck.length).toNat).length)) _ _ _
    (l.queueCar.take (min rc l.queueCar.length).toNat)
    (l.queueTruck.take (min rt l.queueTruck.length).toNat) l.com.finished rfl le_rfl le_rfl
    (fun v hv => hn false v (by
      show v ∈ l.bufCar ++ l.queueCar
      simp [List.mem_of_mem_take (List.mem_of_mem_take hv)]))
    (fun v hv => hn true v (by
      show v ∈ l.bufTruck ++ l.queueTruck
      simp [List.mem_of_mem_take (List.mem_of_mem_take hv)]))
  rw [hf, Res.bind_ok']
  simp

/-! ### Volumes after an interval -/

theorem run_two {truck hasNext : V → Bool} {ops : List (Op V)} {u : Draws} {l : Link V}
    {r : Link V × List V} (h : l.run truck hasNext (ops ++ [.clear, .evolve u]) = .ok r) :
    ∃ (s : Link V × List V) (m : Link V), l.run truck hasNext ops = .ok s ∧
      s.1.clear truck = .ok m ∧ m.evolve truck hasNext u = .ok r.1 := by
  rw [run_append, Res.bind_eq_ok'] at h
  obtain ⟨s, hs, h⟩ := h
  rw [Res.bind_eq_ok'] at h
  obtain ⟨t, ht, h⟩ := h
  cases h
  simp only [Link.run, Link.step] at ht
  rw [Res.bind_eq_ok'] at ht
  obtain ⟨x, hx, ht⟩ := ht
  rw [Res.bind_eq_ok'] at hx
  obtain ⟨m, hm, hx⟩ := hx
  cases hx
  rw [Res.bind_eq_ok'] at ht
  obtain ⟨y, hy, ht⟩ := ht
  cases ht
  rw [Res.bind_eq_ok'] at hy
  obtain ⟨z, hz, hy⟩ := hy
  rw [Res.bind_eq_ok'] at hz
  obtain ⟨w, hw, hz⟩ := hz
  cases hz
  cases hy
  exact ⟨s, m, hs, hm, hw⟩

/-- The kind of a link, and that a link queue has empty buffers between calls. -/
def Kept : Kind → Link V → Prop
  | .ctm, .ctm _ => True
  | .lq, .lq l => l.bufCar = [] ∧ l.bufTruck = []
  | .pq, .pq _ => True
  | _, _ => False

theorem mk_kept {k : Kind} {a : Args} {l : Link V} (h : mkLink k a = .ok l) : Kept k l := by
  cases k <;> simp only [mkLink] at h <;> rw [Res.bind_eq_ok'] at h <;> obtain ⟨x, hx, h⟩ := h <;>
    cases h
  · trivial
  · unfold Lq.mk' at hx
    rw [Res.bind_eq_ok'] at hx
    obtain ⟨_, _, hx⟩ := hx
    rw [Res.bind_eq_ok'] at hx
    obtain ⟨r, hr, hx⟩ := hx
    cases hx
    exact ⟨rfl, rfl⟩
  · trivial

theorem clear_kept {k : Kind} {truck : V → Bool} {l l' : Link V} (hk : Kept k l)
    (h : l.clear truck = .ok l') : Kept k l' := by
  cases l with
  | ctm l =>
    simp only [Link.clear] at h
    rw [Res.bind_eq_ok'] at h
    obtain ⟨x, hx, h⟩ := h
    cases h
    cases k <;> exact hk
  | lq l => simp only [Link.clear] at h; cases h; cases k <;> exact hk
  | pq l => simp only [Link.clear] at h; cases h; cases k <;> exact hk

theorem evolve_kept {k : Kind} {truck hasNext : V → Bool} {u : Draws} {l l' : Link V}
    (hk : Kept k l) (h : l.evolve truck hasNext u = .ok l') : Kept k l' := by
  cases l with
  | ctm l =>
    simp only [Link.evolve] at h
    rw [Res.bind_eq_ok'] at h
    obtain ⟨x, hx, h⟩ := h
    cases h
    cases k <;> exact hk
  | lq l =>
    simp only [Link.evolve] at h
    rw [Res.bind_eq_ok'] at h
    obtain ⟨x, hx, h⟩ := h
    cases h
    unfold Lq.evolve at hx
    simp only at hx
    rw [Res.bind_eq_ok'] at hx
    obtain ⟨rc, _, hx⟩ := hx
    rw [Res.bind_eq_ok'] at hx
    obtain ⟨rt, _, hx⟩ := hx
    rw [Res.bind_eq_ok'] at hx
    obtain ⟨pc, hpc, hx⟩ := hx
    rw [Res.bind_eq_ok'] at hx
    obtain ⟨pt, hpt, hx⟩ := hx
    rw [Res.bind_eq_ok'] at hx
    obtain ⟨r, hr, hx⟩ := hx
    split at hx
    · simp at hx
    rename_i hbuf
    push Not at hbuf
    cases hx
    cases k
    · exact hk
    · exact hbuf
    · exact hk
  | pq l => simp only [Link.evolve] at h; cases h; cases k <;> exact hk

theorem modify_kept {k : Kind} {a : Args} {l l' : Link V} (hk : Kept k l)
    (h : l.modify a = .ok l') : Kept k l' := by
  cases l with
  | ctm l =>
    simp only [Link.modify] at h
    rw [Res.bind_eq_ok'] at h
    obtain ⟨x, hx, h⟩ := h
    cases h
    cases k <;> exact hk
  | lq l =>
    simp only [Link.modify] at h
    rw [Res.bind_eq_ok'] at h
    obtain ⟨x, hx, h⟩ := h
    cases h
    unfold Lq.modify at hx
    rw [Res.bind_eq_ok'] at hx
    obtain ⟨d, _, hx⟩ := hx
    cases hx
    cases k <;> exact hk
  | pq l => simp only [Link.modify] at h; cases h; cases k <;> exact hk

theorem step_kept {k : Kind} {truck hasNext : V → Bool} {l : Link V} {op : Op V}
    {r : Link V × List V} (hk : Kept k l) (h : l.step truck hasNext op = .ok r) : Kept k r.1 := by
  cases op with
  | arrive v =>
    simp only [Link.step] at h
    cases h
    cases l <;> cases k <;> exact hk
  | depart p =>
    simp only [Link.step] at h
    cases hr : removeFirst p l.finished with
    | none => rw [hr] at h; simp only at h; cases h; exact hk
    | some z => rw [hr] at h; simp only at h; cases h; cases l <;> cases k <;> exact hk
  | modify a =>
    simp only [Link.step] at h
    rw [Res.bind_eq_ok'] at h
    obtain ⟨x, hx, h⟩ := h
    cases h
    exact modify_kept hk hx
  | clear =>
    simp only [Link.step] at h
    rw [Res.bind_eq_ok'] at h
    obtain ⟨x, hx, h⟩ := h
    cases h
    exact clear_kept hk hx
  | evolve u =>
    simp only [Link.step] at h
    rw [Res.bind_eq_ok'] at h
    obtain ⟨x, hx, h⟩ := h
    cases h
    exact evolve_kept hk hx

theorem run_kept {k : Kind} {truck hasNext : V → Bool} : ∀ (ops : List (Op V)) (l : Link V)
    (r : Link V × List V), Kept k l → l.run truck hasNext ops = .ok r → Kept k r.1
  | [], l, r, hb, h => by simp [Link.run] at h; subst h; exact hb
  | op :: ops, l, r, hb, h => by
    simp only [Link.run] at h
    rw [Res.bind_eq_ok'] at h
    obtain ⟨x, hx, h⟩ := h
    rw [Res.bind_eq_ok'] at h
    obtain ⟨y, hy, h⟩ := h
    cases h
    exact run_kept ops x.1 y (step_kept hb hx) hy

theorem ofCls_length (truck : V → Bool) (l : List V) :
    (ofCls truck false l).length = cars truck l ∧ (ofCls truck true l).length = trucks truck l := by
  rw [ofCls_false, ofCls_true]
  exact ⟨(List.countP_eq_length_filter ..).symm, (List.countP_eq_length_filter ..).symm⟩

theorem lq_volume {truck hasNext : V → Bool} {u : Draws} {l l' : Lq V} (hi : Inv truck (.lq l))
    (b6 : l.bufCar = []) (b7 : l.bufTruck = []) (h : l.evolve truck hasNext u = .ok l') :
    l'.volCar = ((Link.lq l').travellingCars truck).length + cars truck l'.com.finished ∧
      l'.volTruck = ((Link.lq l').travellingTrucks truck).length
        + trucks truck l'.com.finished := by
  have hev : (Link.lq l).evolve truck hasNext u = .ok (.lq l') := by
    simp [Link.evolve, h]
  obtain ⟨_, h2, h3, _⟩ := evolve_inv hi hev
  have v : l'.volCar = l.queueCar.length + cars truck l.com.finished ∧
      l'.volTruck = l.queueTruck.length + trucks truck l.com.finished := by
    unfold Lq.evolve at h
    simp only at h
    rw [Res.bind_eq_ok'] at h
    obtain ⟨rc, _, h⟩ := h
    rw [Res.bind_eq_ok'] at h
    obtain ⟨rt, _, h⟩ := h
    rw [Res.bind_eq_ok'] at h
    obtain ⟨pc, hpc, h⟩ := h
    rw [Res.bind_eq_ok'] at h
    obtain ⟨pt, hpt, h⟩ := h
    rw [Res.bind_eq_ok'] at h
    obtain ⟨r, hr, h⟩ := h
    split at h
    · simp at h
    cases h
    exact ⟨rfl, rfl⟩
  have e1 := congrArg List.length (h2 false)
  have e2 := congrArg List.length (h2 true)
  simp only [Link.lane, List.length_append, (ofCls_length truck _).1, (ofCls_length truck _).2, h3]
    at e1 e2
  simp only [Link.travelling, Bool.false_eq_true, if_false, if_true] at e1 e2
  have f1 : ((Link.lq l).travellingCars truck).length = l.queueCar.length := by
    simp [Link.travellingCars, b6]
  have f2 : ((Link.lq l).travellingTrucks truck).length = l.queueTruck.length := by
    simp [Link.travellingTrucks, b7]
  simp only [Link.finished, Link.com] at e1 e2
  rw [v.1, v.2]
  omega

theorem pq_volume {truck hasNext : V → Bool} {u : Draws} {l : Pq V} (hi : Inv truck (.pq l)) :
    let l' := ((l.clear truck).evolve truck)
    l'.volCar = ((Link.pq l').travellingCars truck).length + cars truck l'.com.finished ∧
      l'.volTruck = ((Link.pq l').travellingTrucks truck).length
        + trucks truck l'.com.finished := by
  intro l'
  have hc := clear_inv (l' := .pq (l.clear truck)) hi rfl
  obtain ⟨_, h2, h3, _⟩ := evolve_inv (hasNext := hasNext) (u := u) (l' := .pq l') hc.1 rfl
  have e1 := congrArg List.length (h2 false)
  have e2 := congrArg List.length (h2 true)
  simp only [Link.lane, List.length_append, (ofCls_length truck _).1, (ofCls_length truck _).2, h3]
    at e1 e2
  simp only [travelling_pq, (ofCls_length truck _).1, (ofCls_length truck _).2] at e1 e2
  have f1 : ((Link.pq l').travellingCars truck).length = cars truck (l'.pool.map Prod.fst) := by
    rw [← (ofCls_length truck _).1, ← travelling_pq]; rfl
  have f2 : ((Link.pq l').travellingTrucks truck).length = trucks truck (l'.pool.map Prod.fst) := by
    rw [← (ofCls_length truck _).2, ← travelling_pq]; rfl
  have v1 : l'.volCar = cars truck ((l.clear truck).pool.map Prod.fst)
      + cars truck (l.clear truck).com.finished := rfl
  have v2 : l'.volTruck = trucks truck ((l.clear truck).pool.map Prod.fst)
      + trucks truck (l.clear truck).com.finished := rfl
  simp only [Link.finished, Link.com] at e1 e2
  omega

theorem ctm_volume {truck hasNext : V → Bool} {u : Draws} {l l' : Ctm V}
    (h : l.evolve truck hasNext u = .ok l') :
    (l'.cells.map fun c => c.volCar).sum
        = ((Link.ctm l').travellingCars truck).length + cars truck l'.com.finished ∧
      (l'.cells.map fun c => c.volTruck).sum
        = ((Link.ctm l').travellingTrucks truck).length + trucks truck l'.com.finished := by
  unfold Ctm.evolve at h
  rw [Res.bind_eq_ok'] at h
  obtain ⟨c1, h1, h⟩ := h
  rw [Res.bind_eq_ok'] at h
  obtain ⟨c2, h2, h⟩ := h
  rw [Res.bind_eq_ok'] at h
  obtain ⟨p, h3, h⟩ := h
  cases h
  obtain ⟨e1, e2⟩ := ctm_volumes h3
  have f1 := travelling_ctm truck false { l with cells := p.1, com := l.com }
  have f2 := travelling_ctm truck true { l with cells := p.1, com := l.com }
  refine ⟨e1.trans ?_, e2.trans ?_⟩
  · rw [← f1]; rfl
  · rw [← f2]; rfl

end Verif.MLnk
