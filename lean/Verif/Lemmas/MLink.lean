import Verif.Spec.MLink
import Verif.Lemmas.Link

namespace Verif.MLnk
open Ults Curve Lnk
variable {V : Type}

/-- The vehicles of one class of a list (`true`: trucks). -/
def ofCls (truck : V → Bool) (b : Bool) (l : List V) : List V := l.filter fun v => truck v == b

@[simp] theorem ofCls_nil (truck : V → Bool) (b : Bool) : ofCls truck b [] = [] := rfl

@[simp] theorem ofCls_append (truck : V → Bool) (b : Bool) (l m : List V) :
    ofCls truck b (l ++ m) = ofCls truck b l ++ ofCls truck b m := by simp [ofCls]

theorem ofCls_self {truck : V → Bool} {b : Bool} {l : List V} (h : ∀ v ∈ l, truck v = b) :
    ofCls truck b l = l := by
  unfold ofCls
  rw [List.filter_eq_self]
  intro v hv; simp [h v hv]

theorem ofCls_other {truck : V → Bool} {b : Bool} {l : List V} (h : ∀ v ∈ l, truck v = !b) :
    ofCls truck b l = [] := by
  unfold ofCls
  rw [List.filter_eq_nil_iff]
  intro v hv; simp [h v hv]

theorem ofCls_true (truck : V → Bool) (l : List V) : ofCls truck true l = l.filter truck := by
  simp [ofCls]

theorem ofCls_false (truck : V → Bool) (l : List V) :
    ofCls truck false l = l.filter fun v => !truck v := by
  unfold ofCls
  congr 1; funext v; cases truck v <;> rfl

theorem mem_ofCls {truck : V → Bool} {b : Bool} {l : List V} {v : V} :
    v ∈ ofCls truck b l ↔ v ∈ l ∧ truck v = b := by simp [ofCls]

theorem cars_add_trucks (truck : V → Bool) (l : List V) :
    cars truck l + trucks truck l = l.length := by
  unfold cars trucks
  rw [add_comm, List.length_eq_countP_add_countP truck (l := l)]
  simp

/-- The travelling vehicles of one class, exit first. -/
def Link.travelling (truck : V → Bool) (b : Bool) (l : Link V) : List V :=
  if b then l.travellingTrucks truck else l.travellingCars truck

/-- All vehicles of one class on a link, exit first. -/
def Link.lane (truck : V → Bool) (b : Bool) (l : Link V) : List V :=
  ofCls truck b l.finished ++ l.travelling truck b ++ ofCls truck b l.incoming

/-- A deque of a cell. -/
def Cell.q (b : Bool) (c : Cell V) : List V := if b then c.queueTruck else c.queueCar

/-- The vehicles of one class in a row of cells, exit first. -/
def cellVehs (b : Bool) (cs : List (Cell V)) : List V := (cs.reverse.map (Cell.q b)).flatten

@[simp] theorem cellVehs_nil (b : Bool) : cellVehs b ([] : List (Cell V)) = [] := rfl

@[simp] theorem cellVehs_cons (b : Bool) (c : Cell V) (cs : List (Cell V)) :
    cellVehs b (c :: cs) = cellVehs b cs ++ c.q b := by simp [cellVehs]

theorem travelling_ctm (truck : V → Bool) (b : Bool) (l : Ctm V) :
    (Link.ctm l).travelling truck b = cellVehs b l.cells := by
  cases b <;> simp [Link.travelling, Link.travellingCars, Link.travellingTrucks, cellVehs] <;> rfl

@[simp] theorem updatePer_car (scalar : ℚ) (c : Cell V) :
    (c.updatePer scalar).queueCar = c.queueCar := rfl

@[simp] theorem updatePer_truck (scalar : ℚ) (c : Cell V) :
    (c.updatePer scalar).queueTruck = c.queueTruck := rfl

@[simp] theorem updatePer_q (b : Bool) (scalar : ℚ) (c : Cell V) :
    (c.updatePer scalar).q b = c.q b := by cases b <;> rfl

/-- Every cell keeps cars and trucks apart. -/
def Sorted (truck : V → Bool) (cs : List (Cell V)) : Prop :=
  ∀ c ∈ cs, ∀ b, ∀ v ∈ c.q b, truck v = b

theorem updateOut_q {scalar unit : ℚ} {u : ℕ → ℚ} : ∀ {i : ℕ} {cs cs' : List (Cell V)},
    Ctm.updateOut scalar unit u i cs = .ok cs' → ∀ b, cs'.map (Cell.q b) = cs.map (Cell.q b)
  | _, [], _, h, _ => by simp [Ctm.updateOut] at h
  | _, [c], _, h, b => by
    simp [Ctm.updateOut] at h; subst h; cases b <;> rfl
  | i, c :: d :: rest, cs', h, b => by
    simp only [Ctm.updateOut] at h
    rw [Res.bind_eq_ok'] at h
    obtain ⟨rc, _, h⟩ := h
    rw [Res.bind_eq_ok'] at h
    obtain ⟨rt, _, h⟩ := h
    rw [Res.bind_eq_ok'] at h
    obtain ⟨rest', hr, h⟩ := h
    cases h
    have := updateOut_q hr b
    rw [List.map_cons, this, List.map_cons]
    cases b <;> rfl

theorem sorted_of_map {truck : V → Bool} {cs cs' : List (Cell V)}
    (h : ∀ b, cs'.map (Cell.q b) = cs.map (Cell.q b)) (hs : Sorted truck cs) : Sorted truck cs' := by
  intro c hc b v hv
  have : c.q b ∈ cs'.map (Cell.q b) := List.mem_map_of_mem hc
  rw [h b] at this
  obtain ⟨d, hd, he⟩ := List.mem_map.1 this
  exact hs d hd b v (by rw [he]; exact hv)

theorem cellVehs_of_map {cs cs' : List (Cell V)} {b : Bool}
    (h : cs'.map (Cell.q b) = cs.map (Cell.q b)) : cellVehs b cs' = cellVehs b cs := by
  unfold cellVehs
  rw [List.map_reverse, List.map_reverse, h]

theorem moveFrom_inv {truck : V → Bool} : ∀ {rest : List (Cell V)} {c : Cell V}
    {cs' : List (Cell V)}, Ctm.moveFrom c rest = .ok cs' →
    (∀ b, cellVehs b cs' = cellVehs b (c :: rest)) ∧
      (Sorted truck (c :: rest) → Sorted truck cs')
  | [], c, _, h => by simp [Ctm.moveFrom] at h; subst h; exact ⟨fun _ => rfl, id⟩
  | d :: rest, c, cs', h => by
    simp only [Ctm.moveFrom] at h
    rw [Res.bind_eq_ok'] at h
    obtain ⟨p, hp, h⟩ := h
    rw [Res.bind_eq_ok'] at h
    obtain ⟨q, hq, h⟩ := h
    rw [Res.bind_eq_ok'] at h
    obtain ⟨rest', hr, h⟩ := h
    cases h
    obtain ⟨e1, e2⟩ := moveFrom_inv (truck := truck) hr
    obtain ⟨_, rfl⟩ := moveQueue_inv hp
    obtain ⟨_, rfl⟩ := moveQueue_inv hq
    constructor
    · intro b
      cases b <;> simp [e1, Cell.q]
    · intro hs x hx b v hv
      rcases List.mem_cons.1 hx with rfl | hx
      · refine hs c (by simp) b v ?_
        cases b
        · exact List.mem_of_mem_drop hv
        · exact List.mem_of_mem_drop hv
      · refine e2 ?_ x hx b v hv
        intro y hy b v hv
        rcases List.mem_cons.1 hy with rfl | hy
        · cases b <;> simp only [Cell.q, Bool.false_eq_true, if_false, if_true] at hv
          · rcases List.mem_append.1 hv with hv | hv
            · exact hs d (by simp) false v hv
            · exact hs c (by simp) false v (List.mem_of_mem_take hv)
          · rcases List.mem_append.1 hv with hv | hv
            · exact hs d (by simp) true v hv
            · exact hs c (by simp) true v (List.mem_of_mem_take hv)
        · exact hs y (by simp [hy]) b v hv

theorem popOut_inv {hasNext : V → Bool} {q fin : List V} {r : List V × List V}
    (h : popOut hasNext q fin = .ok r) : ∃ v, q = v :: r.1 ∧ r.2 = fin ++ [v] ∧ hasNext v = true := by
  unfold popOut at h
  split at h
  · simp at h
  · split at h
    · rename_i hv; cases h; exact ⟨_, rfl, rfl, hv⟩
    · simp at h

/-- Merging keeps the order within each class. -/
theorem mergeOut_inv {truck hasNext : V → Bool} {p : ℚ} {pick : ℕ → ℚ} :
    ∀ {k nc nt : ℕ} {qc qt fin : List V} {r : List V × List V × List V},
    mergeOut hasNext p pick k nc nt qc qt fin = .ok r →
    (∀ v ∈ qc, truck v = false) → (∀ v ∈ qt, truck v = true) →
    (∀ v ∈ r.1, truck v = false) ∧ (∀ v ∈ r.2.1, truck v = true) ∧
      ofCls truck false r.2.2 ++ r.1 = ofCls truck false fin ++ qc ∧
      ofCls truck true r.2.2 ++ r.2.1 = ofCls truck true fin ++ qt ∧
      r.2.2.length = fin.length + k ∧ fin <+: r.2.2
  | 0, _, _, qc, qt, fin, r, h, hc, ht => by
    simp [mergeOut] at h; subst h
    exact ⟨hc, ht, rfl, rfl, rfl, List.prefix_rfl⟩
  | k + 1, nc, nt, qc, qt, fin, r, h, hc, ht => by
    simp only [mergeOut] at h
    generalize (if pick k < p then decide (nc > 0) else !decide (nt > 0)) = car at h
    cases car with
    | true =>
      simp only [if_true] at h
      rw [Res.bind_eq_ok'] at h
      obtain ⟨x, hx, h⟩ := h
      obtain ⟨v, e1, e2, _⟩ := popOut_inv hx
      have hv : truck v = false := hc v (by rw [e1]; simp)
      obtain ⟨h1, h2, h3, h4, h5, h6⟩ := mergeOut_inv h
        (fun w hw => hc w (by rw [e1]; simp [hw])) ht
      rw [e2] at h3 h4 h5 h6
      refine ⟨h1, h2, ?_, ?_, ?_, (List.prefix_append _ _).trans h6⟩
      · rw [h3, e1]; simp [ofCls, hv]
      · rw [h4]; simp [ofCls, hv]
      · rw [h5]; simp; omega
    | false =>
      simp only [Bool.false_eq_true, if_false] at h
      rw [Res.bind_eq_ok'] at h
      obtain ⟨x, hx, h⟩ := h
      obtain ⟨v, e1, e2, _⟩ := popOut_inv hx
      have hv : truck v = true := ht v (by rw [e1]; simp)
      obtain ⟨h1, h2, h3, h4, h5, h6⟩ := mergeOut_inv h hc
        (fun w hw => ht w (by rw [e1]; simp [hw]))
      rw [e2] at h3 h4 h5 h6
      refine ⟨h1, h2, ?_, ?_, ?_, (List.prefix_append _ _).trans h6⟩
      · rw [h3]; simp [ofCls, hv]
      · rw [h4, e1]; simp [ofCls, hv]
      · rw [h5]; simp; omega

/-- Merging takes the requested numbers from the two deques and does not fail. -/
theorem mergeOut_total {hasNext : V → Bool} {p : ℚ} {pick : ℕ → ℚ} :
    ∀ (k nc nt : ℕ) (qc qt fin : List V), k = nc + nt → nc ≤ qc.length → nt ≤ qt.length →
    (∀ v ∈ qc.take nc, hasNext v = true) → (∀ v ∈ qt.take nt, hasNext v = true) →
    ∃ fin', mergeOut hasNext p pick k nc nt qc qt fin = .ok (qc.drop nc, qt.drop nt, fin')
  | 0, nc, nt, qc, qt, fin, hk, _, _, _, _ => by
    obtain ⟨rfl, rfl⟩ : nc = 0 ∧ nt = 0 := by omega
    exact ⟨fin, rfl⟩
  | k + 1, nc, nt, qc, qt, fin, hk, hc, ht, hn, hm => by
    simp only [mergeOut]
    have hcar : (if pick k < p then decide (nc > 0) else !decide (nt > 0)) = true → 0 < nc := by
      split
      · simp
      · simp; omega
    have htrk : (if pick k < p then decide (nc > 0) else !decide (nt > 0)) = false → 0 < nt := by
      split
      · simp; omega
      · simp
    generalize (if pick k < p then decide (nc > 0) else !decide (nt > 0)) = car at hcar htrk ⊢
    cases car with
    | true =>
      have := hcar rfl
      obtain ⟨m, rfl⟩ : ∃ m, nc = m + 1 := ⟨nc - 1, by omega⟩
      cases qc with
      | nil => simp at hc
      | cons v qc =>
        have hv := hn v (by simp)
        simp only [if_true, popOut, hv]
        exact mergeOut_total k m nt qc qt _ (by omega) (by simpa using hc) ht
          (fun w hw => hn w (by simp [hw])) hm
    | false =>
      have := htrk rfl
      obtain ⟨m, rfl⟩ : ∃ m, nt = m + 1 := ⟨nt - 1, by omega⟩
      cases qt with
      | nil => simp at ht
      | cons v qt =>
        have hv := hm v (by simp)
        simp only [Bool.false_eq_true, if_false, popOut, hv, if_true]
        exact mergeOut_total k nc m qc qt _ (by omega) hc (by simpa using ht) hn
          (fun w hw => hm w (by simp [hw]))

theorem moveLast_inv {truck hasNext : V → Bool} {scalar : ℚ} {pick : ℕ → ℚ} :
    ∀ {cs : List (Cell V)} {fin : List V} {p : List (Cell V) × List V},
    Ctm.moveLast truck hasNext scalar pick cs fin = .ok p → Sorted truck cs →
    Sorted truck p.1 ∧
      (∀ b, ofCls truck b p.2 ++ cellVehs b p.1 = ofCls truck b fin ++ cellVehs b cs) ∧
      p.1.length = cs.length ∧ fin <+: p.2
  | [], _, _, h, _ => by simp [Ctm.moveLast] at h
  | [c], fin, p, h, hs => by
    simp only [Ctm.moveLast] at h
    rw [Res.bind_eq_ok'] at h
    obtain ⟨x, hx, h⟩ := h
    cases h
    obtain ⟨h1, h2, h3, h4, _, h6⟩ := mergeOut_inv hx (hs c (by simp) false) (hs c (by simp) true)
    refine ⟨?_, ?_, rfl, h6⟩
    · intro d hd b v hv
      rw [List.mem_singleton] at hd
      subst hd
      rw [updatePer_q] at hv
      cases b
      · exact h1 v hv
      · exact h2 v hv
    · intro b
      cases b
      · simpa [Cell.q] using h3
      · simpa [Cell.q] using h4
  | c :: d :: rest, fin, p, h, hs => by
    simp only [Ctm.moveLast] at h
    rw [Res.bind_eq_ok'] at h
    obtain ⟨x, hx, h⟩ := h
    cases h
    obtain ⟨h1, h2, h3, h4⟩ := moveLast_inv hx (fun y hy => hs y (List.mem_cons_of_mem _ hy))
    refine ⟨?_, ?_, by simp [h3], h4⟩
    · intro y hy b v hv
      rcases List.mem_cons.1 hy with rfl | hy
      · rw [updatePer_q] at hv
        exact hs c (by simp) b v (by cases b <;> exact hv)
      · exact h1 y hy b v hv
    · intro b
      have := h2 b
      rw [cellVehs_cons, updatePer_q, ← List.append_assoc, this, cellVehs_cons b c]
      cases b <;> simp [Cell.q]

/-- Invariant of a two-class link: deques hold vehicles of their class; a point queue is ordered
by age. -/
def Inv (truck : V → Bool) : Link V → Prop
  | .ctm l => Sorted truck l.cells
  | .lq l => (∀ v ∈ l.bufCar ++ l.queueCar, truck v = false) ∧
      ∀ v ∈ l.bufTruck ++ l.queueTruck, truck v = true
  | .pq l => l.pool.Pairwise (fun a b => b.2 ≤ a.2) ∧ ∀ a ∈ l.pool, 0 ≤ a.2

theorem travelling_cls {truck : V → Bool} {l : Link V} (hi : Inv truck l) (b : Bool) :
    ∀ v ∈ l.travelling truck b, truck v = b := by
  cases l with
  | ctm l =>
    intro v hv
    rw [travelling_ctm] at hv
    unfold cellVehs at hv
    rw [List.mem_flatten] at hv
    obtain ⟨q, hq, hv⟩ := hv
    obtain ⟨c, hc, rfl⟩ := List.mem_map.1 hq
    exact hi c (List.mem_reverse.1 hc) b v hv
  | lq l =>
    intro v hv
    cases b
    · exact hi.1 v hv
    · exact hi.2 v hv
  | pq l =>
    intro v hv
    cases b
    · simpa using (List.mem_filter.1 hv).2
    · exact (List.mem_filter.1 hv).2

theorem travelling_pq (truck : V → Bool) (b : Bool) (l : Pq V) :
    (Link.pq l).travelling truck b = ofCls truck b (l.pool.map Prod.fst) := by
  cases b
  · rw [ofCls_false]; rfl
  · rw [ofCls_true]; rfl

theorem letIn_append : ∀ (x : ℚ) (l : List V), (Pq.letIn x l).1 ++ (Pq.letIn x l).2 = l
  | _, [] => rfl
  | x, v :: q => by
    simp only [Pq.letIn]
    split
    · simp [letIn_append (x - 1) q]
    · rfl

theorem clear_inv {truck : V → Bool} {l l' : Link V} (hi : Inv truck l)
    (h : l.clear truck = .ok l') :
    Inv truck l' ∧ (∀ b, l'.lane truck b = l.lane truck b) ∧ l'.finished = l.finished := by
  cases l with
  | ctm l =>
    simp only [Link.clear] at h
    rw [Res.bind_eq_ok'] at h
    obtain ⟨x, hx, h⟩ := h
    cases h
    unfold Ctm.clear at hx
    have hs : Sorted truck l.cells := hi
    cases hc : l.cells with
    | nil => rw [hc] at hx; simp at hx
    | cons c rest =>
      rw [hc] at hx hs
      simp only at hx
      cases hx
      refine ⟨?_, ?_, rfl⟩
      · intro d hd b v hv
        rcases List.mem_cons.1 hd with rfl | hd
        · rw [updatePer_q] at hv
          cases b
          · rcases List.mem_append.1 hv with hv | hv
            · exact hs c (by simp) false v hv
            · simpa using (List.mem_filter.1 hv).2
          · rcases List.mem_append.1 hv with hv | hv
            · exact hs c (by simp) true v hv
            · exact (List.mem_filter.1 hv).2
        · exact hs d (by simp [hd]) b v hv
      · intro b
        unfold Link.lane
        rw [travelling_ctm, travelling_ctm, hc]
        cases b
        · simp [Link.finished, Link.incoming, Link.com, Cell.q, ofCls_false]
        · simp [Link.finished, Link.incoming, Link.com, Cell.q, ofCls_true]
  | lq l =>
    simp only [Link.clear] at h
    cases h
    refine ⟨⟨?_, ?_⟩, ?_, rfl⟩
    · intro v hv
      simp only [Lq.clear, ← List.append_assoc] at hv
      rcases List.mem_append.1 hv with hv | hv
      · exact hi.1 v hv
      · simpa using (List.mem_filter.1 hv).2
    · intro v hv
      simp only [Lq.clear, ← List.append_assoc] at hv
      rcases List.mem_append.1 hv with hv | hv
      · exact hi.2 v hv
      · exact (List.mem_filter.1 hv).2
    · intro b
      cases b
      · simp [Link.lane, Link.travelling, Link.travellingCars, Lq.clear, Link.finished,
          Link.incoming, Link.com, ofCls_false]
      · simp [Link.lane, Link.travelling, Link.travellingTrucks, Lq.clear, Link.finished,
          Link.incoming, Link.com, ofCls_true]
  | pq l =>
    simp only [Link.clear] at h
    cases h
    refine ⟨⟨?_, ?_⟩, ?_, rfl⟩
    · refine List.pairwise_append.2 ⟨hi.1, ?_, ?_⟩
      · rw [List.pairwise_map]
        exact List.pairwise_of_forall (by simp)
      · intro a ha b hb
        obtain ⟨_, _, rfl⟩ := List.mem_map.1 hb
        exact hi.2 a ha
    · intro a ha
      rcases List.mem_append.1 ha with ha | ha
      · exact hi.2 a ha
      · obtain ⟨_, _, rfl⟩ := List.mem_map.1 ha
        simp
    · intro b
      unfold Link.lane
      rw [travelling_pq, travelling_pq]
      have e := letIn_append (l.supply * l.args.scalar) l.com.incoming
      conv_rhs => rw [show (Link.pq l).incoming = l.com.incoming from rfl, ← e]
      simp [Pq.clear, Link.finished, Link.incoming, Link.com, Function.comp_def]

theorem evolve_inv {truck hasNext : V → Bool} {u : Draws} {l l' : Link V} (hi : Inv truck l)
    (h : l.evolve truck hasNext u = .ok l') :
    Inv truck l' ∧ (∀ b, l'.lane truck b = l.lane truck b) ∧ l'.incoming = l.incoming ∧
      l.finished <+: l'.finished := by
  cases l with
  | ctm l =>
    simp only [Link.evolve] at h
    rw [Res.bind_eq_ok'] at h
    obtain ⟨x, hx, h⟩ := h
    cases h
    unfold Ctm.evolve at hx
    rw [Res.bind_eq_ok'] at hx
    obtain ⟨c1, h1, hx⟩ := hx
    rw [Res.bind_eq_ok'] at hx
    obtain ⟨c2, h2, hx⟩ := hx
    rw [Res.bind_eq_ok'] at hx
    obtain ⟨p, h3, hx⟩ := hx
    cases hx
    have m1 := updateOut_q h1
    have s1 : Sorted truck c1 := sorted_of_map m1 hi
    have h2' : (∀ b, cellVehs b c2 = cellVehs b c1) ∧ (Sorted truck c1 → Sorted truck c2) := by
      cases c1 with
      | nil => simp [Ctm.movePrev] at h2
      | cons c rest => exact moveFrom_inv h2
    obtain ⟨e1, e2, _, e4⟩ := moveLast_inv h3 (h2'.2 s1)
    refine ⟨e1, ?_, rfl, e4⟩
    intro b
    unfold Link.lane
    rw [travelling_ctm, travelling_ctm]
    have := e2 b
    rw [h2'.1 b, cellVehs_of_map (m1 b)] at this
    show ofCls truck b p.2 ++ cellVehs b p.1 ++ _ = _
    rw [this]; rfl
  | lq l =>
    simp only [Link.evolve] at h
    rw [Res.bind_eq_ok'] at h
    obtain ⟨x, hx, h⟩ := h
    cases h
    unfold Lq.evolve at hx
    simp only at hx
    rw [Res.bind_eq_ok'] at hx
    obtain ⟨rc, _, hx⟩ := hx
    rw [Res.bind_eq_ok'] at hx
    obtain ⟨rt, _, hx⟩ := hx
    rw [Res.bind_eq_ok'] at hx
    obtain ⟨pc, hpc, hx⟩ := hx
    rw [Res.bind_eq_ok'] at hx
    obtain ⟨pt, hpt, hx⟩ := hx
    rw [Res.bind_eq_ok'] at hx
    obtain ⟨r, hr, hx⟩ := hx
    split at hx
    · simp at hx
    cases hx
    obtain ⟨_, rfl⟩ := moveQueue_inv hpc
    obtain ⟨_, rfl⟩ := moveQueue_inv hpt
    obtain ⟨i1, i2⟩ := hi
    obtain ⟨k1, k2, k3, k4, _, k6⟩ := mergeOut_inv (truck := truck) hr
      (fun v hv => i1 v (by
        rcases List.mem_append.1 hv with hv | hv
        · simp [hv]
        · simp [List.mem_of_mem_take hv]))
      (fun v hv => i2 v (by
        rcases List.mem_append.1 hv with hv | hv
        · simp [hv]
        · simp [List.mem_of_mem_take hv]))
    refine ⟨⟨?_, ?_⟩, ?_, rfl, k6⟩
    · intro v hv
      rcases List.mem_append.1 hv with hv | hv
      · exact k1 v hv
      · exact i1 v (by simp [List.mem_of_mem_drop hv])
    · intro v hv
      rcases List.mem_append.1 hv with hv | hv
      · exact k2 v hv
      · exact i2 v (by simp [List.mem_of_mem_drop hv])
    · intro b
      cases b
      · show ofCls truck false r.2.2 ++ (r.1 ++ l.queueCar.drop _) ++ _ = _
        rw [← List.append_assoc (ofCls truck false r.2.2), k3]
        simp [Link.lane, Link.travelling, Link.travellingCars, Link.finished, Link.com,
          Link.incoming, Common.addWait]
      · show ofCls truck true r.2.2 ++ (r.2.1 ++ l.queueTruck.drop _) ++ _ = _
        rw [← List.append_assoc (ofCls truck true r.2.2), k4]
        simp [Link.lane, Link.travelling, Link.travellingTrucks, Link.finished, Link.com,
          Link.incoming, Common.addWait]
  | pq l =>
    simp only [Link.evolve] at h
    cases h
    refine ⟨⟨scan_pairwise hi.1, ?_⟩, ?_, rfl, List.prefix_append _ _⟩
    · intro b hb
      obtain ⟨a, ha, rfl⟩ := scan_mem hb
      have := hi.2 a ha
      simp; omega
    · intro b
      unfold Link.lane
      rw [travelling_pq, travelling_pq]
      have := scan_content (M := l.maxStamp) hi.1
      rw [← this]
      simp [Pq.evolve, Link.finished, Link.incoming, Link.com, Common.addWait]

theorem modify_inv {truck : V → Bool} {a : Args} {l l' : Link V} (hi : Inv truck l)
    (h : l.modify a = .ok l') :
    Inv truck l' ∧ (∀ b, l'.travelling truck b = l.travelling truck b) ∧
      l'.com = l.com := by
  cases l with
  | ctm l =>
    simp only [Link.modify] at h
    rw [Res.bind_eq_ok'] at h
    obtain ⟨x, hx, h⟩ := h
    cases h
    unfold Ctm.modify at hx
    rw [Res.bind_eq_ok'] at hx
    obtain ⟨c, _, hx⟩ := hx
    rw [Res.bind_eq_ok'] at hx
    obtain ⟨r, _, hx⟩ := hx
    split at hx
    · simp at hx
    have key : ∀ b, (l.cells.map fun c => ({ c with dia := r.dia } : Cell V)).map (Cell.q b)
        = l.cells.map (Cell.q b) := by
      intro b; cases b <;> simp [Cell.q, Function.comp_def]
    have fin : ∀ y : Ctm V, y.cells = (l.cells.map fun c => { c with dia := r.dia }) →
        y.com = l.com → Inv truck (.ctm y) ∧
        (∀ b, (Link.ctm y).travelling truck b = (Link.ctm l).travelling truck b) ∧
        (Link.ctm y).com = (Link.ctm l).com := by
      intro y h1 h2
      refine ⟨?_, ?_, h2⟩
      · show Sorted truck y.cells
        rw [h1]
        exact sorted_of_map key hi
      · intro b
        rw [travelling_ctm, travelling_ctm, h1]
        exact cellVehs_of_map (key b)
    split at hx
    · split at hx
      · split at hx
        · cases hx; exact fin _ rfl rfl
        · simp at hx
      · split at hx
        · cases hx; exact fin _ rfl rfl
        · simp at hx
    · simp at hx
  | lq l =>
    simp only [Link.modify] at h
    rw [Res.bind_eq_ok'] at h
    obtain ⟨x, hx, h⟩ := h
    cases h
    unfold Lq.modify at hx
    rw [Res.bind_eq_ok'] at hx
    obtain ⟨d, _, hx⟩ := hx
    cases hx
    exact ⟨hi, fun b => rfl, rfl⟩
  | pq l =>
    simp only [Link.modify] at h
    cases h
    exact ⟨hi, fun b => rfl, rfl⟩

@[simp] theorem finished_setIncoming (l : Link V) (a : List V) :
    (l.setIncoming a).finished = l.finished := by cases l <;> rfl

@[simp] theorem incoming_setIncoming (l : Link V) (a : List V) :
    (l.setIncoming a).incoming = a := by cases l <;> rfl

@[simp] theorem finished_setFinished (l : Link V) (a : List V) :
    (l.setFinished a).finished = a := by cases l <;> rfl

@[simp] theorem incoming_setFinished (l : Link V) (a : List V) :
    (l.setFinished a).incoming = l.incoming := by cases l <;> rfl

@[simp] theorem travelling_setIncoming (truck : V → Bool) (b : Bool) (l : Link V) (a : List V) :
    (l.setIncoming a).travelling truck b = l.travelling truck b := by cases l <;> rfl

@[simp] theorem travelling_setFinished (truck : V → Bool) (b : Bool) (l : Link V) (a : List V) :
    (l.setFinished a).travelling truck b = l.travelling truck b := by cases l <;> rfl

theorem inv_setIncoming {truck : V → Bool} {l : Link V} (hi : Inv truck l) (a : List V) :
    Inv truck (l.setIncoming a) := by cases l <;> exact hi

theorem inv_setFinished {truck : V → Bool} {l : Link V} (hi : Inv truck l) (a : List V) :
    Inv truck (l.setFinished a) := by cases l <;> exact hi

/-- One event, class by class. -/
theorem step_inv {truck hasNext : V → Bool} {l : Link V} (hi : Inv truck l) {op : Op V}
    {r : Link V × List V} (h : l.step truck hasNext op = .ok r) :
    Inv truck r.1 ∧
      (∀ b, (ofCls truck b r.2 ++ r.1.lane truck b).Perm
        (l.lane truck b ++ ofCls truck b (arrivals [op]))) ∧
      (∀ {κ : Type} [DecidableEq κ] (key : V → κ),
        (∀ p, op = .depart p → ∃ k, ∀ v, p v = decide (key v = k)) → ∀ b k,
        (ofCls truck b r.2 ++ r.1.lane truck b).filter (fun v => decide (key v = k))
          = (l.lane truck b ++ ofCls truck b (arrivals [op])).filter
              (fun v => decide (key v = k))) := by
  cases op with
  | arrive v =>
    simp only [Link.step] at h
    cases h
    have e : ∀ b, ofCls truck b ([] : List V) ++ (l.setIncoming (l.incoming ++ [v])).lane truck b
        = l.lane truck b ++ ofCls truck b (arrivals [Op.arrive v]) := by
      intro b; simp [Link.lane, arrivals]
    exact ⟨inv_setIncoming hi _, fun b => by rw [e], fun key _ b k => by rw [e]⟩
  | depart p =>
    simp only [Link.step] at h
    cases hr : removeFirst p l.finished with
    | none =>
      rw [hr] at h; simp only at h
      cases h
      exact ⟨hi, fun b => by simp [arrivals], fun key _ b k => by simp [arrivals]⟩
    | some y =>
      obtain ⟨v, rest⟩ := y
      rw [hr] at h; simp only at h
      cases h
      obtain ⟨a, c, e1, e2, e3, e4⟩ := removeFirst_some hr
      refine ⟨inv_setFinished hi _, ?_, ?_⟩
      · intro b
        simp only [Link.lane, finished_setFinished, travelling_setFinished, incoming_setFinished,
          arrivals, List.filterMap_cons, List.filterMap_nil, ofCls_nil, List.append_nil]
        rw [e1, e2]
        simp only [← List.append_assoc]
        refine (List.Perm.append_right _ (List.Perm.append_right _ ?_))
        rw [← ofCls_append]
        exact List.Perm.filter _ (List.perm_middle (a := v) (l₁ := a) (l₂ := c)).symm
      · intro κ _ key hp b k
        obtain ⟨k0, hk0⟩ := hp p rfl
        simp only [Link.lane, finished_setFinished, travelling_setFinished, incoming_setFinished,
          arrivals, List.filterMap_cons, List.filterMap_nil, ofCls_nil, List.append_nil]
        rw [e1, e2]
        simp only [List.filter_append, ofCls_append, ← List.append_assoc]
        congr 2
        by_cases hk : key v = k
        · have : (ofCls truck b a).filter (fun v => decide (key v = k)) = [] := by
            rw [List.filter_eq_nil_iff]
            intro x hx
            have h0 := e4 x (mem_ofCls.1 hx).1
            rw [hk0] at h0 e3
            simp at h0 e3 ⊢
            rw [← hk, e3]; exact h0
          rw [this, List.append_nil, List.nil_append, ← List.filter_append, ← ofCls_append]
          rfl
        · have : (ofCls truck b [v]).filter (fun v => decide (key v = k)) = [] := by
            rw [List.filter_eq_nil_iff]
            intro x hx
            obtain ⟨hx, _⟩ := mem_ofCls.1 hx
            simp at hx; subst hx; simpa using hk
          rw [this, List.nil_append]
          congr 1
          have : ofCls truck b (v :: c) = ofCls truck b [v] ++ ofCls truck b c := by
            rw [← ofCls_append]; rfl
          rw [this, List.filter_append, ‹(ofCls truck b [v]).filter _ = []›, List.nil_append]
  | clear =>
    simp only [Link.step] at h
    rw [Res.bind_eq_ok'] at h
    obtain ⟨x, hx, h⟩ := h
    cases h
    obtain ⟨h1, h2, _⟩ := clear_inv hi hx
    exact ⟨h1, fun b => by simp [h2 b, arrivals], fun key _ b k => by simp [h2 b, arrivals]⟩
  | evolve u =>
    simp only [Link.step] at h
    rw [Res.bind_eq_ok'] at h
    obtain ⟨x, hx, h⟩ := h
    cases h
    obtain ⟨h1, h2, _⟩ := evolve_inv hi hx
    exact ⟨h1, fun b => by simp [h2 b, arrivals], fun key _ b k => by simp [h2 b, arrivals]⟩
  | modify a =>
    simp only [Link.step] at h
    rw [Res.bind_eq_ok'] at h
    obtain ⟨x, hx, h⟩ := h
    cases h
    obtain ⟨h1, h2, h3⟩ := modify_inv hi hx
    have : ∀ b, x.lane truck b = l.lane truck b := by
      intro b; simp [Link.lane, h2 b, Link.finished, Link.incoming, h3]
    exact ⟨h1, fun b => by simp [this b, arrivals], fun key _ b k => by simp [this b, arrivals]⟩

theorem arrivals_cons (op : Op V) (ops : List (Op V)) :
    arrivals (op :: ops) = arrivals [op] ++ arrivals ops := by
  unfold arrivals
  rw [← List.filterMap_append]; rfl

theorem run_inv {truck hasNext : V → Bool} : ∀ {ops : List (Op V)} {l : Link V}
    {r : Link V × List V}, Inv truck l → l.run truck hasNext ops = .ok r →
    Inv truck r.1 ∧
      (∀ b, (ofCls truck b r.2 ++ r.1.lane truck b).Perm
        (l.lane truck b ++ ofCls truck b (arrivals ops))) ∧
      (∀ {κ : Type} [DecidableEq κ] (key : V → κ),
        (∀ p, Op.depart p ∈ ops → ∃ k, ∀ v, p v = decide (key v = k)) → ∀ b k,
        (ofCls truck b r.2 ++ r.1.lane truck b).filter (fun v => decide (key v = k))
          = (l.lane truck b ++ ofCls truck b (arrivals ops)).filter
              (fun v => decide (key v = k)))
  | [], l, r, hi, h => by
    simp [Link.run] at h; subst h
    exact ⟨hi, fun b => by simp [arrivals], fun key _ b k => by simp [arrivals]⟩
  | op :: ops, l, r, hi, h => by
    simp only [Link.run] at h
    rw [Res.bind_eq_ok'] at h
    obtain ⟨x, hx, h⟩ := h
    rw [Res.bind_eq_ok'] at h
    obtain ⟨y, hy, h⟩ := h
    cases h
    obtain ⟨h1, h2, h3⟩ := step_inv hi hx
    obtain ⟨k1, k2, k3⟩ := run_inv h1 hy
    refine ⟨k1, ?_, ?_⟩
    · intro b
      rw [arrivals_cons]
      simp only [ofCls_append, List.append_assoc]
      refine ((List.Perm.append_left _ (k2 b)).trans ?_)
      rw [← List.append_assoc, ← List.append_assoc (l.lane truck b)]
      exact List.Perm.append_right _ (h2 b)
    · intro κ _ key hp b k
      rw [arrivals_cons]
      simp only [ofCls_append]
      rw [List.append_assoc (ofCls truck b x.2), ← List.append_assoc (l.lane truck b),
        List.filter_append, k3 key (fun p hp' => hp p (by simp [hp'])) b k, ← List.filter_append,
        ← List.append_assoc, List.filter_append,
        h3 key (fun p hp' => hp p (by simp [hp'])) b k, ← List.filter_append]

theorem mkLink_inv {truck : V → Bool} {k : Kind} {a : Args} {l : Link V}
    (h : mkLink k a = .ok l) :
    Inv truck l ∧ (∀ b, l.travelling truck b = []) ∧ l.com = .empty := by
  cases k with
  | ctm =>
    simp only [mkLink] at h
    rw [Res.bind_eq_ok'] at h
    obtain ⟨x, hx, h⟩ := h
    cases h
    unfold Ctm.mk' at hx
    rw [Res.bind_eq_ok'] at hx
    obtain ⟨_, _, hx⟩ := hx
    rw [Res.bind_eq_ok'] at hx
    obtain ⟨c, _, hx⟩ := hx
    split at hx
    · simp at hx
    split at hx
    · simp at hx
    split at hx
    · simp at hx
    rw [Res.bind_eq_ok'] at hx
    obtain ⟨r, _, hx⟩ := hx
    cases hx
    have hq : ∀ c ∈ List.replicate (r.num - 1).toNat (Cell.mk' r.std r.dia : Cell V)
        ++ [Cell.mk' r.last r.dia], ∀ b, c.q b = [] := by
      intro c hc b
      rcases List.mem_append.1 hc with hc | hc
      · rw [(List.mem_replicate.1 hc).2]; cases b <;> rfl
      · simp at hc; subst hc; cases b <;> rfl
    refine ⟨?_, ?_, rfl⟩
    · intro c hc b v hv
      rw [hq c hc b] at hv; simp at hv
    · intro b
      rw [travelling_ctm]
      unfold cellVehs
      rw [List.flatten_eq_nil_iff]
      intro q hq'
      obtain ⟨c, hc, rfl⟩ := List.mem_map.1 hq'
      exact hq c (List.mem_reverse.1 hc) b
  | lq =>
    simp only [mkLink] at h
    rw [Res.bind_eq_ok'] at h
    obtain ⟨x, hx, h⟩ := h
    cases h
    unfold Lq.mk' at hx
    rw [Res.bind_eq_ok'] at hx
    obtain ⟨_, _, hx⟩ := hx
    rw [Res.bind_eq_ok'] at hx
    obtain ⟨r, _, hx⟩ := hx
    cases hx
    exact ⟨⟨by simp, by simp⟩, fun b => by cases b <;> rfl, rfl⟩
  | pq =>
    simp only [mkLink] at h
    rw [Res.bind_eq_ok'] at h
    obtain ⟨x, hx, h⟩ := h
    cases h
    unfold Pq.mk' at hx
    rw [Res.bind_eq_ok'] at hx
    obtain ⟨_, _, hx⟩ := hx
    split at hx
    · simp at hx
    rw [Res.bind_eq_ok'] at hx
    obtain ⟨r, _, hx⟩ := hx
    cases hx
    exact ⟨⟨by simp, by simp⟩, fun b => by cases b <;> rfl, rfl⟩

theorem lane_mk {truck : V → Bool} {k : Kind} {a : Args} {l : Link V}
    (h : mkLink k a = .ok l) (b : Bool) : l.lane truck b = [] := by
  obtain ⟨_, h1, h2⟩ := mkLink_inv (truck := truck) h
  simp [Link.lane, h1 b, Link.finished, Link.incoming, h2, Common.empty]

end Verif.MLnk
