import Verif.Lemmas.MLink

namespace Verif.MLnk
open Ults Curve Lnk
variable {V : Type}

/-- The time unit of a link. -/
def Link.unit : Link V → ℚ
  | .ctm l => l.args.unit
  | .lq l => l.args.unit
  | .pq l => l.args.unit

theorem checkAttrs_keep {a a' : Args} (h : checkAttrs a = .ok a') :
    a'.unit = a.unit ∧ a'.scalar = a.scalar ∧ a'.factor = a.factor := by
  unfold checkAttrs at h
  split at h
  · simp at h
  split at h
  · simp at h
  split at h
  · simp at h
  cases h; exact ⟨rfl, rfl, rfl⟩

theorem derive_keep {a : Args} {r : Derived} (h : derive a = .ok r) :
    r.args.unit = a.unit ∧ r.args.scalar = a.scalar ∧ r.args.factor = a.factor := by
  unfold derive at h
  split at h
  · simp at h
  rw [Res.bind_eq_ok'] at h
  obtain ⟨n, _, h⟩ := h
  simp only at h
  split at h
  · simp at h
  split at h
  · simp at h
  cases h; exact ⟨rfl, rfl, rfl⟩

theorem mk_unit_scalar {k : Kind} {a : Args} {l : Link V} (h : mkLink k a = .ok l) :
    l.unit = a.unit ∧ l.scalar = a.scalar ∧ 0 < a.unit ∧ 0 < a.scalar := by
  cases k with
  | ctm =>
    simp only [mkLink] at h
    rw [Res.bind_eq_ok'] at h
    obtain ⟨x, hx, h⟩ := h
    cases h
    unfold Ctm.mk' at hx
    rw [Res.bind_eq_ok'] at hx
    obtain ⟨_, _, hx⟩ := hx
    rw [Res.bind_eq_ok'] at hx
    obtain ⟨c, hc, hx⟩ := hx
    obtain ⟨c1, c2, c3⟩ := checkAttrs_keep hc
    split at hx
    · simp at hx
    split at hx
    · simp at hx
    split at hx
    · simp at hx
    rw [Res.bind_eq_ok'] at hx
    obtain ⟨r, hr, hx⟩ := hx
    obtain ⟨d1, d2, d3⟩ := derive_keep hr
    cases hx
    rename_i h1 h2
    exact ⟨d1.trans c1, d2.trans c2, by linarith, by linarith⟩
  | lq =>
    simp only [mkLink] at h
    rw [Res.bind_eq_ok'] at h
    obtain ⟨x, hx, h⟩ := h
    cases h
    unfold Lq.mk' at hx
    rw [Res.bind_eq_ok'] at hx
    obtain ⟨_, _, hx⟩ := hx
    rw [Res.bind_eq_ok'] at hx
    obtain ⟨r, hr, hx⟩ := hx
    cases hx
    unfold lqDiagram at hr
    simp only at hr
    split at hr
    · simp at hr
    · rename_i hn
      push Not at hn
      exact ⟨rfl, rfl, hn.1, hn.2.1⟩
  | pq =>
    simp only [mkLink] at h
    rw [Res.bind_eq_ok'] at h
    obtain ⟨x, hx, h⟩ := h
    cases h
    unfold Pq.mk' at hx
    rw [Res.bind_eq_ok'] at hx
    obtain ⟨_, _, hx⟩ := hx
    split at hx
    · simp at hx
    · rename_i hn
      push Not at hn
      rw [Res.bind_eq_ok'] at hx
      obtain ⟨r, _, hx⟩ := hx
      cases hx
      exact ⟨rfl, rfl, hn.2.1, hn.1⟩

/-- `modify` keeps the time unit, the scalar and the members every link has. -/
theorem modify_keep {a : Args} {l l' : Link V} (h : l.modify a = .ok l') :
    l'.unit = l.unit ∧ l'.scalar = l.scalar ∧ l'.com = l.com := by
  cases l with
  | ctm l =>
    simp only [Link.modify] at h
    rw [Res.bind_eq_ok'] at h
    obtain ⟨x, hx, h⟩ := h
    cases h
    unfold Ctm.modify at hx
    rw [Res.bind_eq_ok'] at hx
    obtain ⟨c, hc, hx⟩ := hx
    rw [Res.bind_eq_ok'] at hx
    obtain ⟨r, hr, hx⟩ := hx
    obtain ⟨c1, c2, c3⟩ := checkAttrs_keep hc
    obtain ⟨d1, d2, d3⟩ := derive_keep hr
    split at hx
    · simp at hx
    split at hx
    · split at hx
      · split at hx
        · cases hx; exact ⟨d1.trans c1, d2.trans c2, rfl⟩
        · simp at hx
      · split at hx
        · cases hx; exact ⟨d1.trans c1, d2.trans c2, rfl⟩
        · simp at hx
    · simp at hx
  | lq l =>
    simp only [Link.modify] at h
    rw [Res.bind_eq_ok'] at h
    obtain ⟨x, hx, h⟩ := h
    cases h
    unfold Lq.modify at hx
    rw [Res.bind_eq_ok'] at hx
    obtain ⟨d, _, hx⟩ := hx
    cases hx
    exact ⟨rfl, rfl, rfl⟩
  | pq l =>
    simp only [Link.modify] at h
    cases h
    exact ⟨rfl, rfl, rfl⟩

theorem clear_keep {truck : V → Bool} {l l' : Link V} (h : l.clear truck = .ok l') :
    l'.unit = l.unit ∧ l'.scalar = l.scalar ∧ l'.com.wait = l.com.wait ∧
      l'.com.waitCar = l.com.waitCar ∧ l'.com.waitTruck = l.com.waitTruck := by
  cases l with
  | ctm l =>
    simp only [Link.clear] at h
    rw [Res.bind_eq_ok'] at h
    obtain ⟨x, hx, h⟩ := h
    cases h
    unfold Ctm.clear at hx
    split at hx
    · simp at hx
    · cases hx; exact ⟨rfl, rfl, rfl, rfl, rfl⟩
  | lq l => simp only [Link.clear] at h; cases h; exact ⟨rfl, rfl, rfl, rfl, rfl⟩
  | pq l => simp only [Link.clear] at h; cases h; exact ⟨rfl, rfl, rfl, rfl, rfl⟩

theorem evolve_keep {truck hasNext : V → Bool} {u : Draws} {l l' : Link V}
    (h : l.evolve truck hasNext u = .ok l') :
    l'.unit = l.unit ∧ l'.scalar = l.scalar ∧
      l'.com.wait = l.com.wait + (l'.finished.length : ℚ) / l.scalar * l.unit ∧
      l'.com.waitCar = l.com.waitCar + (cars truck l'.finished : ℚ) / l.scalar * l.unit ∧
      l'.com.waitTruck = l.com.waitTruck + (trucks truck l'.finished : ℚ) / l.scalar * l.unit := by
  cases l with
  | ctm l =>
    simp only [Link.evolve] at h
    rw [Res.bind_eq_ok'] at h
    obtain ⟨x, hx, h⟩ := h
    cases h
    unfold Ctm.evolve at hx
    rw [Res.bind_eq_ok'] at hx
    obtain ⟨c1, h1, hx⟩ := hx
    rw [Res.bind_eq_ok'] at hx
    obtain ⟨c2, h2, hx⟩ := hx
    rw [Res.bind_eq_ok'] at hx
    obtain ⟨p, h3, hx⟩ := hx
    cases hx
    exact ⟨rfl, rfl, rfl, rfl, rfl⟩
  | lq l =>
    simp only [Link.evolve] at h
    rw [Res.bind_eq_ok'] at h
    obtain ⟨x, hx, h⟩ := h
    cases h
    unfold Lq.evolve at hx
    simp only at hx
    rw [Res.bind_eq_ok'] at hx
    obtain ⟨rc, _, hx⟩ := hx
    rw [Res.bind_eq_ok'] at hx
    obtain ⟨rt, _, hx⟩ := hx
    rw [Res.bind_eq_ok'] at hx
    obtain ⟨pc, hpc, hx⟩ := hx
    rw [Res.bind_eq_ok'] at hx
    obtain ⟨pt, hpt, hx⟩ := hx
    rw [Res.bind_eq_ok'] at hx
    obtain ⟨r, hr, hx⟩ := hx
    split at hx
    · simp at hx
    cases hx
    exact ⟨rfl, rfl, rfl, rfl, rfl⟩
  | pq l =>
    simp only [Link.evolve] at h
    cases h
    exact ⟨rfl, rfl, rfl, rfl, rfl⟩

@[simp] theorem setCom_unit (l : Link V) (c : Common V) : (l.setCom c).unit = l.unit := by
  cases l <;> rfl
@[simp] theorem setCom_scalar (l : Link V) (c : Common V) : (l.setCom c).scalar = l.scalar := by
  cases l <;> rfl
@[simp] theorem setCom_com (l : Link V) (c : Common V) : (l.setCom c).com = c := by
  cases l <;> rfl

theorem run_wait {truck hasNext : V → Bool} : ∀ (ops : List (Op V)) (l : Link V)
    (r : Link V × List V), l.run truck hasNext ops = .ok r →
    r.1.unit = l.unit ∧ r.1.scalar = l.scalar ∧
    r.1.com.wait = l.com.wait
      + (waited (fun _ => true) truck hasNext l ops : ℚ) / l.scalar * l.unit ∧
    r.1.com.waitCar = l.com.waitCar
      + (waited (fun v => !truck v) truck hasNext l ops : ℚ) / l.scalar * l.unit ∧
    r.1.com.waitTruck = l.com.waitTruck
      + (waited truck truck hasNext l ops : ℚ) / l.scalar * l.unit
  | [], l, r, h => by simp [Link.run] at h; subst h; simp [waited]
  | op :: ops, l, r, h => by
    simp only [Link.run] at h
    rw [Res.bind_eq_ok'] at h
    obtain ⟨x, hx, h⟩ := h
    rw [Res.bind_eq_ok'] at h
    obtain ⟨y, hy, h⟩ := h
    cases h
    obtain ⟨e1, e2, e3, e4, e5⟩ := run_wait ops _ _ hy
    have key : x.1.unit = l.unit ∧ x.1.scalar = l.scalar ∧
        x.1.com.wait = l.com.wait + (((if op.isEvolve then x.1.finished.countP (fun _ => true) else 0 : ℕ)) : ℚ) / l.scalar * l.unit ∧
        x.1.com.waitCar = l.com.waitCar + (((if op.isEvolve then x.1.finished.countP (fun v => !truck v) else 0 : ℕ)) : ℚ)
            / l.scalar * l.unit ∧
        x.1.com.waitTruck = l.com.waitTruck + (((if op.isEvolve then x.1.finished.countP truck else 0 : ℕ)) : ℚ) / l.scalar * l.unit := by
      cases op with
      | arrive v =>
        simp only [Link.step] at hx
        cases hx
        simp [Link.setIncoming, Op.isEvolve]
      | depart p =>
        simp only [Link.step] at hx
        cases hr : removeFirst p l.finished with
        | none => rw [hr] at hx; simp only at hx; cases hx; simp [Op.isEvolve]
        | some z => rw [hr] at hx; simp only at hx; cases hx; simp [Link.setFinished, Op.isEvolve]
      | clear =>
        simp only [Link.step] at hx
        rw [Res.bind_eq_ok'] at hx
        obtain ⟨z, hz, hx⟩ := hx
        cases hx
        simpa [Op.isEvolve] using clear_keep hz
      | evolve u =>
        simp only [Link.step] at hx
        rw [Res.bind_eq_ok'] at hx
        obtain ⟨z, hz, hx⟩ := hx
        cases hx
        obtain ⟨f1, f2, f3, f4, f5⟩ := evolve_keep hz
        refine ⟨f1, f2, ?_, f4, f5⟩
        rw [f3]; simp [Op.isEvolve]
      | modify a =>
        simp only [Link.step] at hx
        rw [Res.bind_eq_ok'] at hx
        obtain ⟨z, hz, hx⟩ := hx
        cases hx
        obtain ⟨f1, f2, f3⟩ := modify_keep hz
        simp [f1, f2, f3, Op.isEvolve]
    obtain ⟨g1, g2, g3, g4, g5⟩ := key
    refine ⟨e1.trans g1, e2.trans g2, ?_, ?_, ?_⟩
    · simp only [waited, hx]; rw [e3, g3, g1, g2]; push_cast; ring
    · simp only [waited, hx]; rw [e4, g4, g1, g2]; push_cast; ring
    · simp only [waited, hx]; rw [e5, g5, g1, g2]; push_cast; ring

theorem waited_split {truck hasNext : V → Bool} : ∀ (ops : List (Op V)) (l : Link V),
    waited (fun _ => true) truck hasNext l ops
      = waited (fun v => !truck v) truck hasNext l ops + waited truck truck hasNext l ops
  | [], _ => rfl
  | op :: ops, l => by
    simp only [waited]
    cases h : l.step truck hasNext op with
    | ok r =>
      simp only
      rw [waited_split ops r.1]
      cases op with
      | evolve u =>
        have := cars_add_trucks truck r.1.finished
        unfold cars trucks at this
        simp only [Op.isEvolve, if_true, List.countP_true]
        omega
      | _ => simp [Op.isEvolve]
    | _ => rfl

/-! ### Volumes -/

theorem ctm_volumes {truck hasNext : V → Bool} {scalar : ℚ} {pick : ℕ → ℚ} :
    ∀ {cs : List (Cell V)} {fin : List V} {p : List (Cell V) × List V},
    Ctm.moveLast truck hasNext scalar pick cs fin = .ok p →
    (p.1.map fun c => c.volCar).sum = (cellVehs false p.1).length + cars truck p.2 ∧
      (p.1.map fun c => c.volTruck).sum = (cellVehs true p.1).length + trucks truck p.2
  | [], _, _, h => by simp [Ctm.moveLast] at h
  | [c], fin, p, h => by
    simp only [Ctm.moveLast] at h
    rw [Res.bind_eq_ok'] at h
    obtain ⟨x, hx, h⟩ := h
    cases h
    simp [Cell.updatePer, Cell.q]
  | c :: d :: rest, fin, p, h => by
    simp only [Ctm.moveLast] at h
    rw [Res.bind_eq_ok'] at h
    obtain ⟨x, hx, h⟩ := h
    cases h
    obtain ⟨e1, e2⟩ := ctm_volumes hx
    constructor
    · simp only [List.map_cons, List.sum_cons, e1, cellVehs_cons, List.length_append]
      simp [Cell.updatePer, Cell.q]; omega
    · simp only [List.map_cons, List.sum_cons, e2, cellVehs_cons, List.length_append]
      simp [Cell.updatePer, Cell.q]; omega

theorem run_append {truck hasNext : V → Bool} : ∀ (xs ys : List (Op V)) (l : Link V),
    l.run truck hasNext (xs ++ ys) = (l.run truck hasNext xs).bind fun r =>
      (r.1.run truck hasNext ys).bind fun r' => .ok (r'.1, r.2 ++ r'.2)
  | [], ys, l => by
    simp only [List.nil_append, Link.run, Res.bind_ok']
    cases l.run truck hasNext ys <;> rfl
  | x :: xs, ys, l => by
    simp only [List.cons_append, Link.run]
    cases h : l.step truck hasNext x with
    | ok r =>
      simp only [Res.bind_ok', run_append xs ys r.1]
      cases h1 : r.1.run truck hasNext xs with
      | ok s =>
        simp only [Res.bind_ok']
        cases h2 : s.1.run truck hasNext ys <;> simp [List.append_assoc]
      | _ => rfl
    | _ => rfl

end Verif.MLnk
