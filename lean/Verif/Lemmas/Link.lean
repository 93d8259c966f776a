import Verif.Spec.Link
import Verif.Lemmas.Curve
import Mathlib.Data.List.Basic

namespace Verif.Lnk
open Ults Curve
variable {V : Type}

theorem moveQueue_ok : ∀ (n : ℕ) (src dst : List V), n ≤ src.length →
    moveQueue n src dst = .ok (src.drop n, dst ++ src.take n)
  | 0, src, dst, _ => by simp [moveQueue]
  | n + 1, [], _, h => by simp at h
  | n + 1, v :: src, dst, h => by
    simp at h
    simp [moveQueue, moveQueue_ok n src (dst ++ [v]) h]

theorem moveQueue_inv {n : ℕ} {src dst : List V} {p : List V × List V}
    (h : moveQueue n src dst = .ok p) :
    n ≤ src.length ∧ p = (src.drop n, dst ++ src.take n) := by
  induction n generalizing src dst with
  | zero => simp [moveQueue] at h; subst h; simp
  | succ n ih =>
    cases src with
    | nil => simp [moveQueue] at h
    | cons v src =>
      simp only [moveQueue] at h
      obtain ⟨h1, h2⟩ := ih h
      exact ⟨by simpa using h1, by simpa using h2⟩

theorem pullBack_total : ∀ (n : ℕ) (fin q : List V), n ≤ fin.length → ∃ p, pullBack n fin q = .ok p
  | 0, fin, q, _ => ⟨_, rfl⟩
  | n + 1, fin, q, h => by
    have hne : fin ≠ [] := by rintro rfl; simp at h
    simp only [pullBack, List.getLast?_eq_getLast_of_ne_nil hne]
    exact pullBack_total n _ _ (by simp; omega)

theorem pullBack_inv {n : ℕ} {fin q : List V} {p : List V × List V}
    (h : pullBack n fin q = .ok p) : p.1 ++ p.2 = fin ++ q ∧ p.1.length + n = fin.length := by
  induction n generalizing fin q with
  | zero => simp [pullBack] at h; subst h; simp
  | succ n ih =>
    simp only [pullBack] at h
    cases hl : fin.getLast? with
    | none => rw [hl] at h; simp at h
    | some v =>
      rw [hl] at h
      obtain ⟨d, hd⟩ := List.getLast?_eq_some_iff.1 hl
      obtain ⟨h1, h2⟩ := ih h
      subst hd
      simp at h1 h2 ⊢
      exact ⟨h1, by omega⟩

theorem releaseOrPull_inv {scalar demand u : ℚ} {fin q : List V} {p : List V × List V}
    (h : releaseOrPull scalar demand u fin q = .ok p) : p.1 ++ p.2 = fin ++ q := by
  unfold releaseOrPull at h
  split at h
  · rw [Res.bind_eq_ok'] at h
    obtain ⟨d, _, h⟩ := h
    exact (pullBack_inv h).1
  · rw [Res.bind_eq_ok'] at h
    obtain ⟨r, _, h⟩ := h
    simp only at h
    rw [Res.bind_eq_ok'] at h
    obtain ⟨x, hx, h⟩ := h
    cases h
    obtain ⟨_, rfl⟩ := moveQueue_inv hx
    simp

/-! ### removeFirst -/

theorem removeFirst_some {p : V → Bool} {l : List V} {v : V} {r : List V}
    (h : removeFirst p l = some (v, r)) :
    ∃ a b, l = a ++ v :: b ∧ r = a ++ b ∧ p v = true ∧ ∀ x ∈ a, p x = false := by
  induction l generalizing r with
  | nil => simp [removeFirst] at h
  | cons x l ih =>
    unfold removeFirst at h
    split at h
    · rename_i hx
      simp at h
      obtain ⟨rfl, rfl⟩ := h
      exact ⟨[], l, by simp, by simp, hx, by simp⟩
    · rename_i hx
      cases hr : removeFirst p l with
      | none => simp [hr] at h
      | some y =>
        obtain ⟨y1, y2⟩ := y
        simp [hr] at h
        obtain ⟨rfl, rfl⟩ := h
        obtain ⟨a, b, h1, h2, h3, h4⟩ := ih hr
        refine ⟨x :: a, b, by simp [h1], by simp [h2], h3, ?_⟩
        intro z hz
        rcases List.mem_cons.1 hz with rfl | hz
        · simpa using hx
        · exact h4 z hz

/-! ### What each event does to the vehicles held -/

/-- Invariant of a point queue: ages do not increase from front to back and are
non-negative. -/
def PqInv (l : Pq V) : Prop :=
  l.queue.Pairwise (fun a b => b.2 ≤ a.2) ∧ ∀ a ∈ l.queue, 0 ≤ a.2

def Inv : Link V → Prop
  | .pq l => PqInv l
  | _ => True

theorem scan_mem {M : ℤ} {q : List (V × ℤ)} {b : V × ℤ} (h : b ∈ (Pq.scan M q).2) :
    ∃ a ∈ q, b = (a.1, a.2 + 1) := by
  induction q with
  | nil => simp [Pq.scan] at h
  | cons a q ih =>
    obtain ⟨v, k⟩ := a
    simp only [Pq.scan] at h
    split at h
    · obtain ⟨a, ha, hb⟩ := ih h; exact ⟨a, by simp [ha], hb⟩
    · rcases List.mem_cons.1 h with h | h
      · exact ⟨(v, k), by simp, h⟩
      · obtain ⟨a, ha, hb⟩ := ih h; exact ⟨a, by simp [ha], hb⟩

theorem scan_none {M : ℤ} {q : List (V × ℤ)} (h : ∀ a ∈ q, a.2 < max 0 (M - 1)) :
    (Pq.scan M q).1 = [] ∧ (Pq.scan M q).2 = q.map fun a => (a.1, a.2 + 1) := by
  induction q with
  | nil => simp [Pq.scan]
  | cons a q ih =>
    obtain ⟨v, k⟩ := a
    have hk := h (v, k) (by simp)
    obtain ⟨h1, h2⟩ := ih (fun a ha => h a (by simp [ha]))
    simp only [Pq.scan]
    rw [if_neg (by simpa using not_le.2 hk)]
    simp [h1, h2]

theorem scan_content {M : ℤ} {q : List (V × ℤ)} (h : q.Pairwise (fun a b => b.2 ≤ a.2)) :
    (Pq.scan M q).1 ++ (Pq.scan M q).2.map Prod.fst = q.map Prod.fst := by
  induction q with
  | nil => simp [Pq.scan]
  | cons a q ih =>
    obtain ⟨v, k⟩ := a
    obtain ⟨h1, h2⟩ := List.pairwise_cons.1 h
    simp only [Pq.scan]
    split
    · simp [ih h2]
    · rename_i hk
      have : ∀ a ∈ q, a.2 < max 0 (M - 1) := fun a ha =>
        lt_of_le_of_lt (h1 a ha) (not_le.1 hk)
      obtain ⟨e1, e2⟩ := scan_none this
      simp [e1, e2]

theorem scan_pairwise {M : ℤ} {q : List (V × ℤ)} (h : q.Pairwise (fun a b => b.2 ≤ a.2)) :
    (Pq.scan M q).2.Pairwise (fun a b => b.2 ≤ a.2) := by
  induction q with
  | nil => simp [Pq.scan]
  | cons a q ih =>
    obtain ⟨v, k⟩ := a
    obtain ⟨h1, h2⟩ := List.pairwise_cons.1 h
    simp only [Pq.scan]
    split
    · exact ih h2
    · refine List.pairwise_cons.2 ⟨?_, ih h2⟩
      intro b hb
      obtain ⟨a, ha, rfl⟩ := scan_mem hb
      have := h1 a ha
      simp; exact this

theorem pq_clear_inv {l l' : Pq V} (hi : PqInv l) (h : l.clear = .ok l') :
    PqInv l' ∧ l'.finished ++ l'.queue.map Prod.fst ++ l'.incoming
      = l.finished ++ l.queue.map Prod.fst ++ l.incoming := by
  unfold Pq.clear at h
  rw [Res.bind_eq_ok'] at h
  obtain ⟨s, _, h⟩ := h
  cases h
  refine ⟨⟨?_, ?_⟩, ?_⟩
  · refine List.pairwise_append.2 ⟨hi.1, ?_, ?_⟩
    · rw [List.pairwise_map]
      exact List.pairwise_of_forall (by simp)
    · intro a ha b hb
      obtain ⟨_, _, rfl⟩ := List.mem_map.1 hb
      exact hi.2 a ha
  · intro a ha
    rcases List.mem_append.1 ha with ha | ha
    · exact hi.2 a ha
    · obtain ⟨_, _, rfl⟩ := List.mem_map.1 ha
      simp
  · simp [Function.comp_def]

theorem pq_evolve_inv {l : Pq V} (hi : PqInv l) :
    PqInv l.evolve ∧ l.evolve.finished ++ l.evolve.queue.map Prod.fst
      = l.finished ++ l.queue.map Prod.fst := by
  refine ⟨⟨scan_pairwise hi.1, ?_⟩, ?_⟩
  · intro b hb
    obtain ⟨a, ha, rfl⟩ := scan_mem hb
    have := hi.2 a ha
    simp; omega
  · simp [Pq.evolve, scan_content hi.1]

/-- The vehicles in a row of cells, exit first. -/
def cellVehs (cs : List (Cell V)) : List V := (cs.reverse.map fun c => c.queue).flatten

@[simp] theorem cellVehs_nil : cellVehs ([] : List (Cell V)) = [] := rfl

@[simp] theorem cellVehs_cons (c : Cell V) (cs : List (Cell V)) :
    cellVehs (c :: cs) = cellVehs cs ++ c.queue := by simp [cellVehs]

theorem updateOut_inv {scalar : ℚ} {u : ℕ → ℚ} : ∀ {i : ℕ} {cs cs' : List (Cell V)},
    Ctm.updateOut scalar u i cs = .ok cs' → cellVehs cs' = cellVehs cs
  | _, [], _, h => by simp [Ctm.updateOut] at h
  | _, [c], _, h => by simp [Ctm.updateOut] at h; subst h; simp
  | i, c :: d :: rest, cs', h => by
    simp only [Ctm.updateOut] at h
    rw [Res.bind_eq_ok'] at h
    obtain ⟨r, _, h⟩ := h
    rw [Res.bind_eq_ok'] at h
    obtain ⟨rest', hr, h⟩ := h
    cases h
    have := updateOut_inv hr
    simp [this]

theorem moveFrom_inv : ∀ {rest : List (Cell V)} {c : Cell V} {cs' : List (Cell V)},
    Ctm.moveFrom c rest = .ok cs' → cellVehs cs' = cellVehs (c :: rest)
  | [], c, _, h => by simp [Ctm.moveFrom] at h; subst h; simp
  | d :: rest, c, cs', h => by
    simp only [Ctm.moveFrom] at h
    rw [Res.bind_eq_ok'] at h
    obtain ⟨p, hp, h⟩ := h
    rw [Res.bind_eq_ok'] at h
    obtain ⟨rest', hr, h⟩ := h
    cases h
    have := moveFrom_inv hr
    obtain ⟨_, rfl⟩ := moveQueue_inv hp
    simp [this]

theorem moveOut_inv {hasNext : V → Bool} : ∀ {n : ℕ} {q fin : List V} {p : List V × List V},
    Ctm.moveOut hasNext n q fin = .ok p → n ≤ q.length ∧ p = (q.drop n, fin ++ q.take n)
  | 0, q, fin, p, h => by simp [Ctm.moveOut] at h; subst h; simp
  | n + 1, [], fin, p, h => by simp [Ctm.moveOut] at h
  | n + 1, v :: q, fin, p, h => by
    simp only [Ctm.moveOut] at h
    split at h
    · obtain ⟨h1, h2⟩ := moveOut_inv h
      exact ⟨by simpa using h1, by simpa using h2⟩
    · simp at h

theorem moveLast_inv {hasNext : V → Bool} : ∀ {cs : List (Cell V)} {fin : List V}
    {p : List (Cell V) × List V}, Ctm.moveLast hasNext cs fin = .ok p →
    p.2 ++ cellVehs p.1 = fin ++ cellVehs cs
  | [], _, _, h => by simp [Ctm.moveLast] at h
  | [c], fin, p, h => by
    simp only [Ctm.moveLast] at h
    rw [Res.bind_eq_ok'] at h
    obtain ⟨x, hx, h⟩ := h
    cases h
    obtain ⟨_, rfl⟩ := moveOut_inv hx
    simp
  | c :: d :: rest, fin, p, h => by
    simp only [Ctm.moveLast] at h
    rw [Res.bind_eq_ok'] at h
    obtain ⟨x, hx, h⟩ := h
    cases h
    have := moveLast_inv hx
    simp only [cellVehs_cons] at this ⊢
    rw [← List.append_assoc, this]
    simp

theorem ctm_evolve_inv {hasNext : V → Bool} {u : ℕ → ℚ} {l l' : Ctm V}
    (h : l.evolve hasNext u = .ok l') :
    l'.finished ++ cellVehs l'.cells = l.finished ++ cellVehs l.cells ∧
      l'.incoming = l.incoming := by
  unfold Ctm.evolve at h
  rw [Res.bind_eq_ok'] at h
  obtain ⟨c1, h1, h⟩ := h
  rw [Res.bind_eq_ok'] at h
  obtain ⟨c2, h2, h⟩ := h
  rw [Res.bind_eq_ok'] at h
  obtain ⟨p, h3, h⟩ := h
  cases h
  refine ⟨?_, rfl⟩
  have e1 := updateOut_inv h1
  have e3 := moveLast_inv h3
  have e2 : cellVehs c2 = cellVehs c1 := by
    cases c1 with
    | nil => simp [Ctm.movePrev] at h2
    | cons c rest => exact moveFrom_inv h2
  show p.2 ++ cellVehs p.1 = _
  rw [e3, e2, e1]

theorem ctm_clear_inv {l l' : Ctm V} (h : l.clear = .ok l') :
    l'.finished = l.finished ∧
      cellVehs l'.cells ++ l'.incoming = cellVehs l.cells ++ l.incoming := by
  unfold Ctm.clear at h
  cases hc : l.cells with
  | nil => rw [hc] at h; simp at h
  | cons c rest =>
    rw [hc] at h
    simp only at h
    split at h
    · simp at h
    · rw [Res.bind_eq_ok'] at h
      obtain ⟨p, hp, h⟩ := h
      cases h
      obtain ⟨_, rfl⟩ := moveQueue_inv hp
      simp

theorem clear_inv {l l' : Link V} (hi : Inv l) (h : l.clear = .ok l') :
    Inv l' ∧ l'.holds = l.holds ∧ l'.finished = l.finished := by
  cases l with
  | pq l =>
    simp only [Link.clear] at h
    rw [Res.bind_eq_ok'] at h
    obtain ⟨x, hx, h⟩ := h
    cases h
    obtain ⟨h1, h2⟩ := pq_clear_inv hi hx
    refine ⟨h1, h2, ?_⟩
    unfold Pq.clear at hx
    rw [Res.bind_eq_ok'] at hx
    obtain ⟨s, _, hx⟩ := hx
    cases hx; rfl
  | ctm l =>
    simp only [Link.clear] at h
    rw [Res.bind_eq_ok'] at h
    obtain ⟨x, hx, h⟩ := h
    cases h
    obtain ⟨h1, h2⟩ := ctm_clear_inv hx
    refine ⟨trivial, ?_, h1⟩
    show x.finished ++ cellVehs x.cells ++ x.incoming = l.finished ++ cellVehs l.cells ++ l.incoming
    rw [h1, List.append_assoc, h2, List.append_assoc]
  | lq l =>
    simp only [Link.clear] at h
    rw [Res.bind_eq_ok'] at h
    obtain ⟨x, hx, h⟩ := h
    cases h
    unfold Lq.clear at hx
    rw [Res.bind_eq_ok'] at hx
    obtain ⟨s, _, hx⟩ := hx
    split at hx
    · simp at hx
    · rw [Res.bind_eq_ok'] at hx
      obtain ⟨p, hp, hx⟩ := hx
      cases hx
      obtain ⟨_, rfl⟩ := moveQueue_inv hp
      exact ⟨trivial, by simp [Link.holds, Link.finished, Link.travelling, Link.incoming], rfl⟩
  | ltm l =>
    simp only [Link.clear] at h
    rw [Res.bind_eq_ok'] at h
    obtain ⟨x, hx, h⟩ := h
    cases h
    unfold Ltm.clear at hx
    rw [Res.bind_eq_ok'] at hx
    obtain ⟨sup, _, hx⟩ := hx
    rw [Res.bind_eq_ok'] at hx
    obtain ⟨s, _, hx⟩ := hx
    split at hx
    · simp at hx
    · rw [Res.bind_eq_ok'] at hx
      obtain ⟨c, _, hx⟩ := hx
      rw [Res.bind_eq_ok'] at hx
      obtain ⟨p, hp, hx⟩ := hx
      cases hx
      obtain ⟨_, rfl⟩ := moveQueue_inv hp
      exact ⟨trivial, by simp [Link.holds, Link.finished, Link.travelling, Link.incoming], rfl⟩

theorem evolve_inv {hasNext : V → Bool} {u : ℕ → ℚ} {l l' : Link V} (hi : Inv l)
    (h : l.evolve hasNext u = .ok l') :
    Inv l' ∧ l'.finished ++ l'.travelling = l.finished ++ l.travelling ∧
      l'.incoming = l.incoming := by
  cases l with
  | pq l =>
    simp only [Link.evolve] at h
    cases h
    obtain ⟨h1, h2⟩ := pq_evolve_inv hi
    exact ⟨h1, h2, rfl⟩
  | ctm l =>
    simp only [Link.evolve] at h
    rw [Res.bind_eq_ok'] at h
    obtain ⟨x, hx, h⟩ := h
    cases h
    exact ⟨trivial, ctm_evolve_inv hx⟩
  | lq l =>
    simp only [Link.evolve] at h
    rw [Res.bind_eq_ok'] at h
    obtain ⟨x, hx, h⟩ := h
    cases h
    unfold Lq.evolve at hx
    rw [Res.bind_eq_ok'] at hx
    obtain ⟨p, hp, hx⟩ := hx
    cases hx
    exact ⟨trivial, releaseOrPull_inv hp, rfl⟩
  | ltm l =>
    simp only [Link.evolve] at h
    rw [Res.bind_eq_ok'] at h
    obtain ⟨x, hx, h⟩ := h
    cases h
    unfold Ltm.evolve at hx
    rw [Res.bind_eq_ok'] at hx
    obtain ⟨c1, _, hx⟩ := hx
    rw [Res.bind_eq_ok'] at hx
    obtain ⟨c2, _, hx⟩ := hx
    simp only at hx
    rw [Res.bind_eq_ok'] at hx
    obtain ⟨d, _, hx⟩ := hx
    rw [Res.bind_eq_ok'] at hx
    obtain ⟨p, hp, hx⟩ := hx
    cases hx
    exact ⟨trivial, releaseOrPull_inv hp, rfl⟩

theorem doMove_arrive_holds (l : Link V) (v : V) :
    (l.doMove (.arrive v)).1.holds = l.holds ++ [v] ∧ (l.doMove (.arrive v)).2 = [] := by
  cases l <;> simp [Link.doMove, Link.holds, Link.setIncoming, Link.incoming, Link.finished,
    Link.travelling]

theorem doMove_arrive_inv (l : Link V) (v : V) (hi : Inv l) :
    Inv (l.doMove (.arrive v)).1 := by
  cases l <;> exact hi

theorem setFinished_holds (l : Link V) (f : List V) :
    (l.setFinished f).holds = f ++ l.travelling ++ l.incoming := by
  cases l <;> simp [Link.holds, Link.setFinished, Link.incoming, Link.finished,
    Link.travelling]

theorem setFinished_inv (l : Link V) (f : List V) (hi : Inv l) : Inv (l.setFinished f) := by
  cases l <;> exact hi

theorem doMove_inv (l : Link V) (m : Move V) (hi : Inv l) : Inv (l.doMove m).1 := by
  cases m with
  | arrive v => exact doMove_arrive_inv l v hi
  | depart p =>
    simp only [Link.doMove]
    split
    · exact hi
    · exact setFinished_inv _ _ hi

theorem doMove_depart_holds (l : Link V) (p : V → Bool) :
    (l.doMove (.depart p)).2 = [] ∧ (l.doMove (.depart p)).1 = l ∨
    ∃ v a b, l.holds = a ++ v :: b ∧ (l.doMove (.depart p)).1.holds = a ++ b ∧
      (l.doMove (.depart p)).2 = [v] ∧ p v = true ∧ ∀ x ∈ a, p x = false := by
  simp only [Link.doMove]
  split
  · exact Or.inl ⟨rfl, rfl⟩
  · rename_i v rest h
    right
    obtain ⟨a, b, h1, h2, h3, h4⟩ := removeFirst_some h
    refine ⟨v, a, b ++ l.travelling ++ l.incoming, ?_, ?_, rfl, h3, h4⟩
    · simp [Link.holds, h1]
    · rw [setFinished_holds]; simp [h2]

theorem step_inv {hasNext : V → Bool} {l : Link V} {op : LinkOp V} {r : Link V × List V}
    (hi : Inv l) (h : l.step hasNext op = .ok r) : Inv r.1 := by
  cases op with
  | move m => simp only [Link.step] at h; cases h; exact doMove_inv l m hi
  | clear =>
    simp only [Link.step] at h
    rw [Res.bind_eq_ok'] at h
    obtain ⟨x, hx, h⟩ := h
    cases h
    exact (clear_inv hi hx).1
  | evolve u =>
    simp only [Link.step] at h
    rw [Res.bind_eq_ok'] at h
    obtain ⟨x, hx, h⟩ := h
    cases h
    exact (evolve_inv hi hx).1

theorem step_quiet {hasNext : V → Bool} {l : Link V} {op : LinkOp V} {r : Link V × List V}
    (hi : Inv l) (hop : ∀ m, op ≠ .move m) (h : l.step hasNext op = .ok r) :
    r.1.holds = l.holds ∧ r.2 = [] := by
  cases op with
  | move m => exact absurd rfl (hop m)
  | clear =>
    simp only [Link.step] at h
    rw [Res.bind_eq_ok'] at h
    obtain ⟨x, hx, h⟩ := h
    cases h
    exact ⟨(clear_inv hi hx).2.1, rfl⟩
  | evolve u =>
    simp only [Link.step] at h
    rw [Res.bind_eq_ok'] at h
    obtain ⟨x, hx, h⟩ := h
    cases h
    obtain ⟨_, h1, h2⟩ := evolve_inv hi hx
    exact ⟨by unfold Link.holds; rw [h1, h2], rfl⟩

theorem arrivals_cons (op : LinkOp V) (ops : List (LinkOp V)) :
    arrivals (op :: ops) = arrivals [op] ++ arrivals ops := by
  unfold arrivals
  rw [show op :: ops = [op] ++ ops from rfl, List.filterMap_append]

theorem arrivals_quiet {op : LinkOp V} (h : ∀ m, op ≠ .move m) : arrivals [op] = [] := by
  cases op with
  | move m => exact absurd rfl (h m)
  | clear => rfl
  | evolve u => rfl

/-- Conservation for histories of a link of any kind. -/
theorem run_perm {hasNext : V → Bool} : ∀ {ops : List (LinkOp V)} {l : Link V}
    {r : Link V × List V}, Inv l → l.run hasNext ops = .ok r →
    (r.2 ++ r.1.holds).Perm (l.holds ++ arrivals ops)
  | [], l, r, _, h => by simp [Link.run] at h; subst h; simp [arrivals]
  | op :: ops, l, r, hi, h => by
    simp only [Link.run] at h
    rw [Res.bind_eq_ok'] at h
    obtain ⟨x, hx, h⟩ := h
    rw [Res.bind_eq_ok'] at h
    obtain ⟨y, hy, h⟩ := h
    cases h
    have ih := run_perm (step_inv hi hx) hy
    rw [arrivals_cons]
    have key : (x.2 ++ x.1.holds).Perm (l.holds ++ arrivals [op]) := by
      by_cases hm : ∀ m, op ≠ .move m
      · obtain ⟨h1, h2⟩ := step_quiet hi hm hx
        rw [h1, h2, arrivals_quiet hm]; simp
      · push Not at hm
        obtain ⟨m, rfl⟩ := hm
        simp only [Link.step] at hx
        cases hx
        cases m with
        | arrive v =>
          obtain ⟨h1, h2⟩ := doMove_arrive_holds l v
          rw [h1, h2]; simp [arrivals]
        | depart p =>
          rcases doMove_depart_holds l p with ⟨h1, h2⟩ | ⟨v, a, b, h1, h2, h3, _, _⟩
          · rw [h1, h2]; simp [arrivals]
          · rw [h1, h2, h3]
            simp [arrivals]
            exact List.perm_middle.symm
    show (x.2 ++ y.2 ++ y.1.holds).Perm _
    calc (x.2 ++ y.2 ++ y.1.holds).Perm (x.2 ++ (x.1.holds ++ arrivals ops)) := by
          rw [List.append_assoc]; exact ih.append_left _
      _ = (x.2 ++ x.1.holds) ++ arrivals ops := by rw [List.append_assoc]
      List.Perm _ _ := by
          rw [← List.append_assoc]; exact key.append_right _

/-- Order for histories of a link of any kind: if the departures are always "first waiting
vehicle of class `k`", each class stays in order. -/
theorem run_fifo {hasNext : V → Bool} {κ : Type} [DecidableEq κ] (cls : V → κ) :
    ∀ {ops : List (LinkOp V)} {l : Link V} {r : Link V × List V}, Inv l →
    (∀ p, LinkOp.move (.depart p) ∈ ops → ∃ k, ∀ v, p v = decide (cls v = k)) →
    l.run hasNext ops = .ok r → ∀ k,
    (r.2 ++ r.1.holds).filter (fun v => decide (cls v = k))
      = (l.holds ++ arrivals ops).filter (fun v => decide (cls v = k))
  | [], l, r, _, _, h, k => by simp [Link.run] at h; subst h; simp [arrivals]
  | op :: ops, l, r, hi, hd, h, k => by
    simp only [Link.run] at h
    rw [Res.bind_eq_ok'] at h
    obtain ⟨x, hx, h⟩ := h
    rw [Res.bind_eq_ok'] at h
    obtain ⟨y, hy, h⟩ := h
    cases h
    have ih := run_fifo cls (step_inv hi hx) (fun p hp => hd p (by simp [hp])) hy k
    rw [arrivals_cons]
    have key : (x.2 ++ x.1.holds).filter (fun v => decide (cls v = k))
        = (l.holds ++ arrivals [op]).filter (fun v => decide (cls v = k)) := by
      by_cases hm : ∀ m, op ≠ .move m
      · obtain ⟨h1, h2⟩ := step_quiet hi hm hx
        rw [h1, h2, arrivals_quiet hm]; simp
      · push Not at hm
        obtain ⟨m, rfl⟩ := hm
        simp only [Link.step] at hx
        cases hx
        cases m with
        | arrive v =>
          obtain ⟨h1, h2⟩ := doMove_arrive_holds l v
          rw [h1, h2]; simp [arrivals]
        | depart p =>
          rcases doMove_depart_holds l p with ⟨h1, h2⟩ | ⟨v, a, b, h1, h2, h3, h4, h5⟩
          · rw [h1, h2]; simp [arrivals]
          · obtain ⟨k', hk'⟩ := hd p (by simp)
            rw [h1, h2, h3]
            have hv : cls v = k' := by simpa [hk'] using h4
            have ha : ∀ z ∈ a, cls z ≠ k' := fun z hz => by simpa [hk'] using h5 z hz
            by_cases hkk : k = k'
            · subst hkk
              have : a.filter (fun v => decide (cls v = k)) = [] := by
                rw [List.filter_eq_nil_iff]; intro z hz; simpa using ha z hz
              simp [arrivals, hv, this]
            · have : ¬ (cls v = k) := fun e => hkk (by rw [← e, hv])
              simp [arrivals, this]
    have e1 : (x.2 ++ y.2 ++ y.1.holds).filter (fun v => decide (cls v = k))
        = x.2.filter (fun v => decide (cls v = k))
          ++ (y.2 ++ y.1.holds).filter (fun v => decide (cls v = k)) := by
      simp [List.filter_append]
    show (x.2 ++ y.2 ++ y.1.holds).filter _ = _
    rw [e1, ih, List.filter_append, ← List.append_assoc, ← List.filter_append, key]
    simp [List.filter_append]

/-- Freshly made links are empty and satisfy the invariant. -/
theorem mkLink_empty {k : LinkKind} {a : LinkArgs} {l : Link V} (h : mkLink k a = .ok l) :
    Inv l ∧ l.holds = [] := by
  cases k with
  | pq =>
    simp only [mkLink] at h
    rw [Res.bind_eq_ok'] at h
    obtain ⟨x, hx, h⟩ := h
    cases h
    unfold Pq.mk' at hx
    rw [Res.bind_eq_ok'] at hx
    obtain ⟨_, _, hx⟩ := hx
    split at hx
    · simp at hx
    · rw [Res.bind_eq_ok'] at hx
      obtain ⟨m, _, hx⟩ := hx
      cases hx
      simp [Inv, PqInv, Link.holds, Link.finished, Link.travelling, Link.incoming]
  | ctm =>
    simp only [mkLink] at h
    rw [Res.bind_eq_ok'] at h
    obtain ⟨x, hx, h⟩ := h
    cases h
    refine ⟨trivial, ?_⟩
    unfold Ctm.mk' at hx
    rw [Res.bind_eq_ok'] at hx
    obtain ⟨_, _, hx⟩ := hx
    split at hx
    · simp at hx
    · split at hx
      · simp at hx
      · split at hx
        · simp at hx
        · rw [Res.bind_eq_ok'] at hx
          obtain ⟨m, _, hx⟩ := hx
          unfold Ctm.build at hx
          simp only at hx
          split at hx
          · simp at hx
          · split at hx
            · simp at hx
            · cases hx
              have e : ∀ cs : List (Cell V), (∀ c ∈ cs, c.queue = []) → cellVehs cs = [] := by
                intro cs hcs
                induction cs with
                | nil => rfl
                | cons c cs ih => simp [ih (fun x hx => hcs x (by simp [hx])), hcs c (by simp)]
              show [] ++ cellVehs _ ++ [] = []
              rw [e]; · rfl
              intro c hc
              rcases List.mem_append.1 hc with hc | hc
              · rw [(List.mem_replicate.1 hc).2]; rfl
              · split at hc
                · simp at hc; rw [hc]; rfl
                · simp at hc
  | lq =>
    simp only [mkLink] at h
    rw [Res.bind_eq_ok'] at h
    obtain ⟨x, hx, h⟩ := h
    cases h
    refine ⟨trivial, ?_⟩
    unfold Lq.mk' at hx
    rw [Res.bind_eq_ok'] at hx
    obtain ⟨_, _, hx⟩ := hx
    split at hx
    · simp at hx
    · simp only at hx
      generalize (if a.cap * a.lanes * a.unit * a.scalar < 1 then _ else a.cap : ℚ) = cap at hx
      split at hx
      · simp at hx
      · cases hx
        rfl
  | ltm =>
    simp only [mkLink] at h
    rw [Res.bind_eq_ok'] at h
    obtain ⟨x, hx, h⟩ := h
    cases h
    refine ⟨trivial, ?_⟩
    unfold Ltm.mk' at hx
    rw [Res.bind_eq_ok'] at hx
    obtain ⟨_, _, hx⟩ := hx
    split at hx
    · simp at hx
    · simp only at hx
      rw [Res.bind_eq_ok'] at hx
      obtain ⟨m, _, hx⟩ := hx
      cases hx
      rfl

end Verif.Lnk
