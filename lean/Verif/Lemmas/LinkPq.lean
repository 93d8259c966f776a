import Verif.Lemmas.Link

/-! Delay line of the point queue. -/

namespace Verif.Lnk
open Ults Curve
variable {V : Type}

/-- Batches in a queue, oldest first; the newest batch has age 0. -/
def line : List (List V) → List (V × ℤ)
  | [] => []
  | b :: D => b.map (fun v => (v, (D.length : ℤ))) ++ line D

theorem line_snoc (D : List (List V)) (a : List V) :
    line (D ++ [a]) = (line D).map (fun p => (p.1, p.2 + 1)) ++ a.map fun v => (v, 0) := by
  induction D with
  | nil => simp [line]
  | cons b D ih => simp [line, ih]

theorem line_lt (D : List (List V)) : ∀ p ∈ line D, p.2 < D.length := by
  induction D with
  | nil => simp [line]
  | cons b D ih =>
    intro p hp
    simp only [line, List.mem_append, List.mem_map] at hp
    simp only [List.length_cons]
    push_cast
    rcases hp with ⟨v, _, rfl⟩ | hp
    · simp
    · have := ih p hp; omega

theorem scan_append {M : ℤ} (q q' : List (V × ℤ)) :
    Pq.scan M (q ++ q') = ((Pq.scan M q).1 ++ (Pq.scan M q').1,
      (Pq.scan M q).2 ++ (Pq.scan M q').2) := by
  induction q with
  | nil => simp [Pq.scan]
  | cons a q ih =>
    obtain ⟨v, k⟩ := a
    simp only [List.cons_append, Pq.scan, ih]
    split <;> simp

theorem scan_all {M : ℤ} {k : ℤ} (b : List V) (h : max 0 (M - 1) ≤ k) :
    Pq.scan M (b.map fun v => (v, k)) = (b, []) := by
  induction b with
  | nil => rfl
  | cons v b ih => simp only [List.map_cons, Pq.scan, ih]; rw [if_pos h]

theorem scan_line {M : ℤ} (b : List V) (D : List (List V)) (h : (D.length : ℤ) = M - 1) :
    Pq.scan M (line (b :: D)) = (b, (line D).map fun p => (p.1, p.2 + 1)) := by
  have h0 : max 0 (M - 1) = M - 1 := by omega
  have h1 : Pq.scan M (line D) = ([], (line D).map fun p => (p.1, p.2 + 1)) := by
    have := scan_none (M := M) (q := line D)
      (fun p hp => by rw [h0, ← h]; exact line_lt D p hp)
    exact Prod.ext this.1 this.2
  simp only [line]
  rw [scan_append, scan_all b (by omega), h1]
  simp

theorem doMoves_pq (l : Pq V) (ms : List (Move V)) :
    ∃ l', ((Link.pq l).doMoves ms).1 = .pq l' ∧ l'.queue = l.queue ∧ l'.maxStamp = l.maxStamp := by
  induction ms generalizing l with
  | nil => exact ⟨l, rfl, rfl, rfl⟩
  | cons m ms ih =>
    have : ∃ l1, ((Link.pq l).doMove m).1 = .pq l1 ∧ l1.queue = l.queue ∧
        l1.maxStamp = l.maxStamp := by
      cases m with
      | arrive v => exact ⟨_, rfl, rfl, rfl⟩
      | depart p =>
        simp only [Link.doMove]
        split
        · exact ⟨_, rfl, rfl, rfl⟩
        · exact ⟨_, rfl, rfl, rfl⟩
    obtain ⟨l1, h1, h2, h3⟩ := this
    obtain ⟨l', e1, e2, e3⟩ := ih l1
    refine ⟨l', ?_, by rw [e2, h2], by rw [e3, h3]⟩
    simp only [Link.doMoves]
    rw [h1, e1]

/-- One interval of a point queue shifts the delay line by one. -/
theorem pq_interval {hasNext : V → Bool} {l : Pq V} {D : List (List V)} {i : Interval V}
    {r : Link V × IntervalLog V}
    (hM : (D.length : ℤ) = l.maxStamp - 1)
    (hq : l.queue = (line D).map fun p => (p.1, p.2 + 1))
    (h : (Link.pq l).interval hasNext i = .ok r) :
    ∃ l' D', r.1 = .pq l' ∧ l'.maxStamp = l.maxStamp ∧
      D ++ [r.2.admitted] = r.2.ready :: D' ∧
      l'.queue = (line D').map fun p => (p.1, p.2 + 1) := by
  unfold Link.interval at h
  obtain ⟨l1, e1, e2, e3⟩ := doMoves_pq l i.moves
  simp only [e1] at h
  rw [Res.bind_eq_ok'] at h
  obtain ⟨l2, hl2, h⟩ := h
  simp only [Link.clear] at hl2
  rw [Res.bind_eq_ok'] at hl2
  obtain ⟨l2', hc, hl2⟩ := hl2
  cases hl2
  rw [Res.bind_eq_ok'] at h
  obtain ⟨l3, hl3, h⟩ := h
  simp only [Link.evolve] at hl3
  cases hl3
  cases h
  unfold Pq.clear at hc
  rw [Res.bind_eq_ok'] at hc
  obtain ⟨s, _, hc⟩ := hc
  simp only at hc
  generalize hadm : l1.incoming.take (min (l1.incoming.length : ℤ) s).toNat = a at hc
  cases hc
  have hqa : l1.queue ++ (a.map fun v => (v, (0 : ℤ))) = line (D ++ [a]) := by
    rw [line_snoc, e2, hq]
  obtain ⟨b, D', hbD⟩ : ∃ b D', D ++ [a] = b :: D' := by
    cases D with
    | nil => exact ⟨a, [], rfl⟩
    | cons x D => exact ⟨x, D ++ [a], rfl⟩
  have hlen : (D'.length : ℤ) = l1.maxStamp - 1 := by
    rw [e3, ← hM]
    have := congrArg List.length hbD
    simp at this
    omega
  refine ⟨_, D', rfl, e3, ?_, ?_⟩
  · have ha : (List.drop (Link.pq l1).travelling.length
        ((l1.queue ++ a.map fun v => (v, (0 : ℤ))).map Prod.fst)) = a := by
      simp [Link.travelling, Function.comp_def]
    show D ++ [_] = _ :: D'
    have e : ∀ x y, x = a → y = b → D ++ [x] = y :: D' := by
      rintro x y rfl rfl; exact hbD
    apply e
    · exact ha
    · simp only [Link.finished, Pq.evolve]
      rw [hqa, hbD, scan_line b D' hlen]
      simp
  · simp only [Pq.evolve]
    rw [hqa, hbD, scan_line b D' hlen]

theorem pq_intervals {hasNext : V → Bool} : ∀ (is : List (Interval V)) {l : Pq V}
    {D : List (List V)} {r : Link V × List (IntervalLog V)},
    (D.length : ℤ) = l.maxStamp - 1 →
    l.queue = (line D).map (fun p => (p.1, p.2 + 1)) →
    (Link.pq l).intervals hasNext is = .ok r →
    ∃ D', D ++ r.2.map (·.admitted) = r.2.map (·.ready) ++ D' ∧ D'.length = D.length
  | [], l, D, r, _, _, h => by
    simp [Link.intervals] at h; subst h; exact ⟨D, by simp⟩
  | i :: is, l, D, r, hM, hq, h => by
    simp only [Link.intervals] at h
    rw [Res.bind_eq_ok'] at h
    obtain ⟨x, hx, h⟩ := h
    rw [Res.bind_eq_ok'] at h
    obtain ⟨y, hy, h⟩ := h
    cases h
    obtain ⟨l', D1, h1, h2, h3, h4⟩ := pq_interval hM hq hx
    rw [h1] at hy
    have hlen : D1.length = D.length := by
      have := congrArg List.length h3
      simp at this; omega
    obtain ⟨D', h5, h6⟩ := pq_intervals is (D := D1) (by rw [h2, ← hM, hlen]) h4 hy
    refine ⟨D', ?_, by omega⟩
    simp only [List.map_cons]
    rw [show D ++ x.2.admitted :: y.2.map (·.admitted) = (D ++ [x.2.admitted]) ++ y.2.map (·.admitted)
      by simp, h3]
    simp [h5]

end Verif.Lnk
