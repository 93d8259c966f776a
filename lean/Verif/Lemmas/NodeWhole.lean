import Verif.Lemmas.Node

/-! # Lemmas about whole nodes -/

namespace Verif.Net
open Ults Curve Lnk

/-! ### Counting over families of lists -/

theorem count_flatMap_upd {A : List ℕ} (hA : A.Nodup) {i : ℕ} (hi : i ∈ A) {f f' : ℕ → List ℕ}
    (h : ∀ l, l ≠ i → f' l = f l) (v : ℕ) :
    (A.flatMap f').count v + (f i).count v = (A.flatMap f).count v + (f' i).count v := by
  induction A with
  | nil => simp at hi
  | cons a A ih =>
    rw [List.nodup_cons] at hA
    simp only [List.flatMap_cons, List.count_append]
    rcases List.mem_cons.1 hi with rfl | hi
    · have : A.flatMap f' = A.flatMap f := by
        apply List.flatMap_congr
        intro l hl
        exact h l (fun e => hA.1 (e ▸ hl))
      rw [this]; omega
    · have hne : a ≠ i := fun e => hA.1 (e ▸ hi)
      rw [h a hne]
      have := ih hA.2 hi
      omega

theorem flatMap_same {A : List ℕ} {i : ℕ} (hi : i ∉ A) {f f' : ℕ → List ℕ}
    (h : ∀ l, l ≠ i → f' l = f l) : A.flatMap f' = A.flatMap f := by
  apply List.flatMap_congr
  intro l hl
  exact h l (fun e => hi (e ▸ hl))

/-- The number of occurrences of a vehicle in the exit queues of `A` and entrance queues of `B`. -/
def waitCount (A B : List ℕ) (s : State) (v : ℕ) : ℕ :=
  (A.flatMap s.fin).count v + (B.flatMap s.inc).count v

theorem moveOne_count {ts o i : ℕ} {n : ℤ} {s s' : State} (h : moveOne ts o i n s = .ok s')
    {A B : List ℕ} (hA : A.Nodup) (hB : B.Nodup) (hi : i ∈ A) (ho : o ∈ B) (v : ℕ) :
    waitCount A B s' v = waitCount A B s v := by
  obtain ⟨_, _, _, _, _, a6, _, _, a9, a10, a11, _⟩ := moveOne_spec h
  have h1 := count_flatMap_upd hA hi a6 v
  have h2 := count_flatMap_upd hB ho a10 v
  have h3 := a11.count_eq v
  rw [a9] at h2
  simp only [List.count_append] at h2 h3
  unfold waitCount
  omega

theorem moveCol_count {ts : ℕ} {ins order : List ℕ} {s s' : State} {om : ℕ × List ℤ}
    (h : moveCol ts ins order s om = .ok s') {A B : List ℕ} (hA : A.Nodup) (hB : B.Nodup)
    (hi : ∀ l ∈ ins, l ∈ A) (ho : om.1 ∈ B) (v : ℕ) : waitCount A B s' v = waitCount A B s v := by
  unfold moveCol at h
  refine Res.foldlM_inv (P := fun t => waitCount A B t v = waitCount A B s v) ?_ _ _ _ rfl h
  intro b k b' hb hk
  cases e : ins[k]? with
  | none => rw [e] at hk; simp at hk
  | some l =>
    rw [e] at hk
    rw [moveOne_count hk hA hB (hi l (List.mem_of_getElem? e)) ho, hb]

theorem moveAll_count {ts : ℕ} {ins : List ℕ} {orc : NodeOracle} {A B : List ℕ} (hA : A.Nodup)
    (hB : B.Nodup) (hi : ∀ l ∈ ins, l ∈ A) (v : ℕ) :
    ∀ (oms : List (ℕ × List ℤ)) (j : ℕ) (s s' : State), moveAll ts ins orc j s oms = .ok s' →
      (∀ om ∈ oms, om.1 ∈ B) → waitCount A B s' v = waitCount A B s v
  | [], j, s, s', h, _ => by simp [moveAll] at h; rw [h]
  | om :: oms, j, s, s', h, ho => by
    simp only [moveAll] at h
    rw [Res.bind_eq_ok'] at h
    obtain ⟨s1, h1, h2⟩ := h
    rw [moveAll_count hA hB hi v oms _ _ _ h2 (fun x hx => ho x (by simp [hx])),
      moveCol_count h1 hA hB hi (ho om (by simp))]

/-! ### Recording -/

/-- Only the curves of links may differ. -/
structure OnlyCurves (s s' : State) : Prop where
  link : ∀ l, (s'.links l).link = (s.links l).link
  vehs : s'.vehs = s.vehs
  queue : s'.queue = s.queue
  factory : s'.numVeh = s.numVeh ∧ s'.enroute = s.enroute ∧ s'.finished = s.finished ∧
    s'.totalTime = s.totalTime ∧ s'.vehMap = s.vehMap
  tracker : s'.tracker = s.tracker
  log : s'.log = s.log

theorem OnlyCurves.refl (s : State) : OnlyCurves s s :=
  ⟨fun _ => rfl, rfl, rfl, ⟨rfl, rfl, rfl, rfl, rfl⟩, rfl, rfl⟩

theorem OnlyCurves.trans {a b c : State} (h : OnlyCurves a b) (k : OnlyCurves b c) :
    OnlyCurves a c := by
  refine ⟨fun l => (k.link l).trans (h.link l), k.vehs.trans h.vehs, k.queue.trans h.queue, ?_,
    k.tracker.trans h.tracker, k.log.trans h.log⟩
  obtain ⟨a1, a2, a3, a4, a5⟩ := h.factory
  obtain ⟨b1, b2, b3, b4, b5⟩ := k.factory
  exact ⟨b1.trans a1, b2.trans a2, b3.trans a3, b4.trans a4, b5.trans a5⟩

theorem OnlyCurves.onlyMoves {s s' : State} (h : OnlyCurves s s') : OnlyMoves s s' :=
  ⟨⟨fun v => by rw [h.vehs], fun v => by rw [h.vehs],
    fun l => by simp only [State.fin, State.inc, h.link, set_same], h.factory, h.tracker⟩, h.queue⟩

theorem OnlyCurves.fin {s s' : State} (h : OnlyCurves s s') (l : ℕ) : s'.fin l = s.fin l := by
  simp [State.fin, h.link]

theorem OnlyCurves.inc {s s' : State} (h : OnlyCurves s s') (l : ℕ) : s'.inc l = s.inc l := by
  simp [State.inc, h.link]

theorem OnlyCurves.waiting {s s' : State} (h : OnlyCurves s s') (i o : ℕ) :
    s'.waiting i o = s.waiting i o := waiting_congr h.onlyMoves (h.fin i) o

theorem recordOut_spec {scalar : ℚ} {ts : ℕ} : ∀ (oms : List (ℕ × List ℤ)) (s s' : State),
    Res.foldlM (recordOut scalar ts) s oms = .ok s' → (oms.map Prod.fst).Nodup →
    OnlyCurves s s' ∧ (∀ l, (s'.links l).nOut = (s.links l).nOut) ∧
    (∀ om ∈ oms, BothCurves s om.1 →
      Recorded scalar ts om.2.sum (s.links om.1).nIn (s'.links om.1).nIn) ∧
    (∀ l, l ∉ oms.map Prod.fst → (s'.links l).nIn = (s.links l).nIn) ∧
    (∀ l, (s'.links l).nIn.isSome = (s.links l).nIn.isSome)
  | [], s, s', h, _ => by
    simp at h; subst h
    exact ⟨OnlyCurves.refl _, fun _ => rfl, by simp, fun _ _ => rfl, fun _ => rfl⟩
  | om :: oms, s, s', h, hnd => by
    rw [Res.foldlM_cons, Res.bind_eq_ok] at h
    obtain ⟨s1, h1, h2⟩ := h
    simp only [List.map_cons, List.nodup_cons] at hnd
    obtain ⟨b1, b2, b3, b4, b5⟩ := recordOut_spec oms s1 s' h2 hnd.2
    have key : OnlyCurves s s1 ∧ (∀ l, (s1.links l).nOut = (s.links l).nOut) ∧
        (BothCurves s om.1 →
          Recorded scalar ts om.2.sum (s.links om.1).nIn (s1.links om.1).nIn) ∧
        (∀ l, l ≠ om.1 → (s1.links l).nIn = (s.links l).nIn) ∧
        (∀ l, (s1.links l).nIn.isSome = (s.links l).nIn.isSome) := by
      unfold recordOut at h1
      split at h1
      · rename_i hc
        cases hn : (s.links om.1).nIn with
        | none => rw [hn] at h1; simp at h1
        | some c =>
          rw [hn] at h1
          simp only at h1
          rw [Res.bind_eq_ok'] at h1
          obtain ⟨c', hc', h1⟩ := h1
          cases h1
          refine ⟨⟨?_, rfl, rfl, ⟨rfl, rfl, rfl, rfl, rfl⟩, rfl, rfl⟩, ?_, ?_, ?_, ?_⟩
          · intro l; simp only [upd]; split <;> simp_all
          · intro l; simp only [upd]; split <;> simp_all
          · intro _
            unfold Recorded
            rw [if_pos hc.2]
            exact ⟨c', hc', by simp⟩
          · intro l hl; simp [upd, hl]
          · intro l; simp only [upd]; split <;> simp_all
      · rename_i hc
        cases h1
        refine ⟨OnlyCurves.refl _, fun _ => rfl, ?_, fun _ _ => rfl, fun _ => rfl⟩
        intro hb
        unfold Recorded
        split
        · rename_i hp
          have : (s.links om.1).nIn = none := by
            cases hn : (s.links om.1).nIn with
            | none => rfl
            | some c =>
              exfalso; apply hc
              unfold BothCurves at hb
              rw [← hb, hn]
              exact ⟨rfl, hp⟩
          rw [this]
        · rfl
    obtain ⟨a1, a2, a3, a4, a5⟩ := key
    refine ⟨a1.trans b1, fun l => (b2 l).trans (a2 l), ?_, ?_, fun l => (b5 l).trans (a5 l)⟩
    · intro om' hom' hb
      rcases List.mem_cons.1 hom' with rfl | hom'
      · rw [b4 _ hnd.1]; exact a3 hb
      · have hne : om'.1 ≠ om.1 := fun e => hnd.1 (e ▸ List.mem_map_of_mem (f := Prod.fst) hom')
        have := b3 om' hom' (by unfold BothCurves at *; rw [a2, a5]; exact hb)
        rw [a4 _ hne] at this
        exact this
    · intro l hl
      simp only [List.map_cons, List.mem_cons, not_or] at hl
      rw [b4 l hl.2, a4 l hl.1]

theorem recordIn_spec {scalar : ℚ} {ts : ℕ} : ∀ (ims : List (ℕ × ℤ)) (s s' : State),
    Res.foldlM (recordIn scalar ts) s ims = .ok s' → (ims.map Prod.fst).Nodup →
    OnlyCurves s s' ∧ (∀ l, (s'.links l).nIn = (s.links l).nIn) ∧
    (∀ im ∈ ims, BothCurves s im.1 →
      Recorded scalar ts im.2 (s.links im.1).nOut (s'.links im.1).nOut) ∧
    (∀ l, l ∉ ims.map Prod.fst → (s'.links l).nOut = (s.links l).nOut) ∧
    (∀ l, (s'.links l).nOut.isSome = (s.links l).nOut.isSome)
  | [], s, s', h, _ => by
    simp at h; subst h
    exact ⟨OnlyCurves.refl _, fun _ => rfl, by simp, fun _ _ => rfl, fun _ => rfl⟩
  | im :: ims, s, s', h, hnd => by
    rw [Res.foldlM_cons, Res.bind_eq_ok] at h
    obtain ⟨s1, h1, h2⟩ := h
    simp only [List.map_cons, List.nodup_cons] at hnd
    obtain ⟨b1, b2, b3, b4, b5⟩ := recordIn_spec ims s1 s' h2 hnd.2
    have key : OnlyCurves s s1 ∧ (∀ l, (s1.links l).nIn = (s.links l).nIn) ∧
        (BothCurves s im.1 →
          Recorded scalar ts im.2 (s.links im.1).nOut (s1.links im.1).nOut) ∧
        (∀ l, l ≠ im.1 → (s1.links l).nOut = (s.links l).nOut) ∧
        (∀ l, (s1.links l).nOut.isSome = (s.links l).nOut.isSome) := by
      unfold recordIn at h1
      split at h1
      · rename_i hc
        cases hn : (s.links im.1).nOut with
        | none => rw [hn] at h1; simp at h1
        | some c =>
          rw [hn] at h1
          simp only at h1
          rw [Res.bind_eq_ok'] at h1
          obtain ⟨c', hc', h1⟩ := h1
          cases h1
          refine ⟨⟨?_, rfl, rfl, ⟨rfl, rfl, rfl, rfl, rfl⟩, rfl, rfl⟩, ?_, ?_, ?_, ?_⟩
          · intro l; simp only [upd]; split <;> simp_all
          · intro l; simp only [upd]; split <;> simp_all
          · intro _
            unfold Recorded
            rw [if_pos hc.2]
            exact ⟨c', hc', by simp⟩
          · intro l hl; simp [upd, hl]
          · intro l; simp only [upd]; split <;> simp_all
      · rename_i hc
        cases h1
        refine ⟨OnlyCurves.refl _, fun _ => rfl, ?_, fun _ _ => rfl, fun _ => rfl⟩
        intro hb
        unfold Recorded
        split
        · rename_i hp
          have : (s.links im.1).nOut = none := by
            cases hn : (s.links im.1).nOut with
            | none => rfl
            | some c =>
              exfalso; apply hc
              unfold BothCurves at hb
              rw [hb, hn]
              exact ⟨rfl, hp⟩
          rw [this]
        · rfl
    obtain ⟨a1, a2, a3, a4, a5⟩ := key
    refine ⟨a1.trans b1, fun l => (b2 l).trans (a2 l), ?_, ?_, fun l => (b5 l).trans (a5 l)⟩
    · intro im' him' hb
      rcases List.mem_cons.1 him' with rfl | him'
      · rw [b4 _ hnd.1]; exact a3 hb
      · have hne : im'.1 ≠ im.1 := fun e => hnd.1 (e ▸ List.mem_map_of_mem (f := Prod.fst) him')
        have := b3 im' him' (by unfold BothCurves at *; rw [a2, a5]; exact hb)
        rw [a4 _ hne] at this
        exact this
    · intro l hl
      simp only [List.map_cons, List.mem_cons, not_or] at hl
      rw [b4 l hl.2, a4 l hl.1]

/-! ### Shapes -/

theorem supplies_get {s : State} : ∀ {outs : List ℕ} {sups : List ℚ}, supplies s outs = .ok sups →
    sups.length = outs.length ∧ ∀ (j o : ℕ), outs[j]? = some o →
      ∃ x, sups[j]? = some x ∧ (s.links o).link.supply = .ok x
  | [], sups, h => by simp [supplies] at h; subst h; simp
  | o :: os, sups, h => by
    simp only [supplies] at h
    rw [Res.bind_eq_ok'] at h
    obtain ⟨x, hx, h⟩ := h
    rw [Res.bind_eq_ok'] at h
    obtain ⟨r, hr, h⟩ := h
    cases h
    obtain ⟨h1, h2⟩ := supplies_get hr
    refine ⟨by simp [h1], ?_⟩
    intro j o' hj
    cases j with
    | zero => simp at hj; subst hj; exact ⟨x, by simp, hx⟩
    | succ j => simp at hj; simpa using h2 j o' hj

theorem outflux_length {scalar : ℚ} {s : State} : ∀ {ins : List ℕ} {p : List ℚ × List ℚ},
    outflux scalar s ins = .ok p → p.1.length = ins.length ∧ p.2.length = ins.length
  | [], p, h => by simp [outflux] at h; subst h; simp
  | i :: is, p, h => by
    simp only [outflux] at h
    rw [Res.bind_eq_ok'] at h
    obtain ⟨x, hx, h⟩ := h
    rw [Res.bind_eq_ok'] at h
    obtain ⟨r, hr, h⟩ := h
    cases h
    obtain ⟨h1, h2⟩ := outflux_length hr
    simp [h1, h2]

theorem computeFlow_shape {scalar : ℚ} {grj : Bool} {s : State} {ins : List ℕ}
    {cols : List (List ℚ × ℚ)} {flows : List (List ℚ)}
    (h : computeFlow scalar grj s ins cols = .ok flows)
    (hc : ∀ c ∈ cols, c.1.length = ins.length) :
    flows.length = cols.length ∧ ∀ f ∈ flows, f.length = ins.length := by
  unfold computeFlow at h
  split at h
  · split at h
    · cases h
      refine ⟨by simp, ?_⟩
      intro f hf
      obtain ⟨c, hc', rfl⟩ := List.mem_map.1 hf
      simpa using hc c hc'
    · rw [Res.bind_eq_ok'] at h
      obtain ⟨p, hp, h⟩ := h
      obtain ⟨l1, l2⟩ := outflux_length hp
      unfold grjFlow at h
      split at h
      · cases h
        refine ⟨by simp, ?_⟩
        intro f hf
        obtain ⟨c, hc', rfl⟩ := List.mem_map.1 hf
        simpa using hc c hc'
      · rw [Res.bind_eq_ok'] at h
        obtain ⟨θ, _, h⟩ := h
        cases θ with
        | fin t =>
          simp only at h
          cases h
          refine ⟨by simp, ?_⟩
          intro f hf
          obtain ⟨c, hc', rfl⟩ := List.mem_map.1 hf
          simp [l1, l2, hc c hc']
        | pinf => simp at h
        | ninf => simp at h
        | nan => simp at h
  · cases h
    refine ⟨by simp, ?_⟩
    intro f hf
    obtain ⟨c, hc', rfl⟩ := List.mem_map.1 hf
    simpa [fwjCol] using hc c hc'

theorem reduceLoop_le {sup : ℚ} : ∀ {draws : List ℕ} {mv mv' : List ℤ} {tot : ℤ},
    reduceLoop sup draws mv tot = .ok mv' → tot = mv.sum →
    mv'.length = mv.length ∧ (mv'.sum : ℚ) ≤ sup := by
  intro draws
  induction draws with
  | nil =>
    intro mv mv' tot h ht
    unfold reduceLoop at h
    split at h
    · rename_i hle; cases h; rw [← ht]; exact ⟨rfl, hle⟩
    · simp at h
  | cons k ds ih =>
    intro mv mv' tot h ht
    unfold reduceLoop at h
    split at h
    · rename_i hle; cases h; rw [← ht]; exact ⟨rfl, hle⟩
    · simp only at h
      split at h
      · simp at h
      rename_i hlen
      have hi : k % mv.length < mv.length := Nat.mod_lt _ (by omega)
      split at h
      · have := ih h (by rw [set_sum _ _ hi, ht])
        simpa using this
      · exact ih h ht

theorem roundFlow_get {scalar : ℚ} {o : NodeOracle} : ∀ {cols : List (List ℚ × ℚ)} {j : ℕ}
    {mv : List (List ℤ)}, roundFlow scalar o j cols = .ok mv → mv.length = cols.length ∧
      ∀ x f sup, cols[x]? = some (f, sup) → ∃ r m, mv[x]? = some m ∧
        roundCol scalar (o.u (j + x)) 0 f = .ok r ∧
        reduceLoop (sup * scalar) (o.draws (j + x)) r r.sum = .ok m
  | [], j, mv, h => by simp [roundFlow] at h; subst h; simp
  | (f, sup) :: cols, j, mv, h => by
    simp only [roundFlow] at h
    rw [Res.bind_eq_ok'] at h
    obtain ⟨r, hr, h⟩ := h
    rw [Res.bind_eq_ok'] at h
    obtain ⟨m, hm, h⟩ := h
    rw [Res.bind_eq_ok'] at h
    obtain ⟨rest, hrest, h⟩ := h
    cases h
    obtain ⟨h1, h2⟩ := roundFlow_get hrest
    refine ⟨by simp [h1], ?_⟩
    intro x f' sup' hx
    cases x with
    | zero =>
      simp at hx
      obtain ⟨rfl, rfl⟩ := hx
      exact ⟨r, m, by simp, by simpa using hr, by simpa using hm⟩
    | succ x =>
      simp at hx
      obtain ⟨r', m', e1, e2, e3⟩ := h2 x f' sup' hx
      have e : j + 1 + x = j + (x + 1) := by omega
      rw [e] at e2 e3
      exact ⟨r', m', by simpa using e1, e2, e3⟩

theorem sum_range_getD (m : List ℤ) : ((List.range m.length).map fun k => m.getD k 0).sum = m.sum := by
  induction m with
  | nil => simp
  | cons a m ih =>
    rw [List.length_cons, List.range_succ_eq_map]
    simp only [List.map_cons, List.map_map, List.sum_cons]
    rw [← ih]
    rfl

theorem blocks_length {s : State} {ins : List ℕ} {o : ℕ} {m : List ℤ} {order : List ℕ}
    (hperm : order.Perm (List.range ins.length)) (hm : m.length = ins.length)
    (hb : ∀ (k l : ℕ), ins[k]? = some l → 0 ≤ m.getD k 0 ∧
      (m.getD k 0).toNat ≤ (s.waiting l o).length) :
    ((blocks s ins o m order).length : ℤ) = m.sum := by
  have h1 : (blocks s ins o m order).length
      = (order.map fun k => (m.getD k 0).toNat).sum := by
    unfold blocks
    rw [List.length_flatMap]
    congr 1
    apply List.map_congr_left
    intro k hk
    have hk' : k < ins.length := by
      have := (hperm.mem_iff).1 hk
      simpa using this
    have e : ins[k]? = some ins[k] := List.getElem?_eq_getElem hk'
    rw [getD_of_get? e, List.length_take, min_eq_left (hb k _ e).2]
  have h2 : (order.map fun k => (m.getD k 0).toNat).sum
      = ((List.range ins.length).map fun k => (m.getD k 0).toNat).sum :=
    (hperm.map _).sum_eq
  rw [h1, h2, ← hm, ← sum_range_getD m]
  have : ∀ ks : List ℕ, (∀ k ∈ ks, 0 ≤ m.getD k 0) →
      (((ks.map fun k => (m.getD k 0).toNat).sum : ℕ) : ℤ) = (ks.map fun k => m.getD k 0).sum := by
    intro ks
    induction ks with
    | nil => simp
    | cons k ks ih =>
      intro hk
      simp only [List.map_cons, List.sum_cons, Nat.cast_add]
      rw [ih (fun x hx => hk x (by simp [hx])), Int.toNat_of_nonneg (hk k (by simp))]
  apply this
  intro k hk
  have hk' : k < ins.length := by rw [← hm]; simpa using hk
  exact (hb k _ (List.getElem?_eq_getElem hk')).1

/-- What one interval does at an in-out node. -/
structure InoutSpec (scalar : ℚ) (ts : ℕ) (ins outs : List ℕ) (orc : NodeOracle) (s s' : State)
    (mv : List (List ℤ)) : Prop where
  moves : OnlyMoves s s'
  len : mv.length = outs.length
  col : ∀ (j o : ℕ), outs[j]? = some o → ∃ m sup, mv[j]? = some m ∧ m.length = ins.length ∧
    (s.links o).link.supply = .ok sup ∧ (m.sum : ℚ) ≤ sup * scalar ∧
    s'.inc o = s.inc o ++ blocks s ins o m (orc.order j) ∧
    ((blocks s ins o m (orc.order j)).length : ℤ) = m.sum ∧
    ∀ (k l : ℕ), ins[k]? = some l → 0 ≤ m.getD k 0 ∧
        (m.getD k 0).toNat ≤ (s.waiting l o).length ∧
        s'.waiting l o = (s.waiting l o).drop (m.getD k 0).toNat
  finOther : ∀ l, l ∉ ins → s'.fin l = s.fin l
  finSub : ∀ l, (s'.fin l).Sublist (s.fin l)
  finRest : ∀ l (r : ℕ → Bool), (∀ v, r v = true → ∀ o ∈ outs, s.heads o v = false) →
      (s'.fin l).filter r = (s.fin l).filter r
  incOther : ∀ l, l ∉ outs → s'.inc l = s.inc l
  count : ∀ A B : List ℕ, A.Nodup → B.Nodup → (∀ l ∈ ins, l ∈ A) → (∀ l ∈ outs, l ∈ B) → ∀ v,
    waitCount A B s' v = waitCount A B s v
  curveIn : ∀ (j o : ℕ) m, outs[j]? = some o → mv[j]? = some m → BothCurves s o →
    Recorded scalar ts m.sum (s.links o).nIn (s'.links o).nIn
  curveInOther : ∀ l, l ∉ outs → (s'.links l).nIn = (s.links l).nIn
  curveOut : ∀ (k i : ℕ), ins[k]? = some i → BothCurves s i →
    Recorded scalar ts (mv.map fun c => c.getD k 0).sum (s.links i).nOut (s'.links i).nOut
  curveOutOther : ∀ l, l ∉ ins → (s'.links l).nOut = (s.links l).nOut

theorem zip_get? {α β : Type} {as : List α} {bs : List β} {j : ℕ} {a : α} {b : β}
    (ha : as[j]? = some a) (hb : bs[j]? = some b) : (as.zip bs)[j]? = some (a, b) := by
  simp [List.getElem?_zip_eq_some, ha, hb]

theorem inout_spec {scalar : ℚ} {ts : ℕ} {grj : Bool} {ins outs : List ℕ} {orc : NodeOracle}
    {s s' : State} (h : inoutEvolve scalar ts grj ins outs orc s = .ok s') (hins : ins.Nodup)
    (houts : outs.Nodup) (hord : ∀ k, (orc.order k).Perm (List.range ins.length)) :
    (onRightNode s ins outs = true) ∧ ∃ sups flows mv, supplies s outs = .ok sups ∧
      computeFlow scalar grj s ins ((outs.map (demandCol scalar s ins)).zip sups) = .ok flows ∧
      flows.length = outs.length ∧ sups.length = outs.length ∧
      roundFlow scalar orc 0 (flows.zip sups) = .ok mv ∧
      InoutSpec scalar ts ins outs orc s s' mv := by
  unfold inoutEvolve at h
  split at h
  swap
  · simp at h
  rename_i hright
  refine ⟨hright, ?_⟩
  rw [Res.bind_eq_ok'] at h
  obtain ⟨sups, hsup, h⟩ := h
  rw [Res.bind_eq_ok'] at h
  obtain ⟨flows, hfl, h⟩ := h
  rw [Res.bind_eq_ok'] at h
  obtain ⟨mv, hmv, h⟩ := h
  rw [Res.bind_eq_ok'] at h
  obtain ⟨s1, h1, h⟩ := h
  rw [Res.bind_eq_ok'] at h
  obtain ⟨s2, h2, h⟩ := h
  obtain ⟨ls, hs⟩ := supplies_get hsup
  obtain ⟨lf, hf⟩ := computeFlow_shape hfl (by
    intro c hc
    have := (List.of_mem_zip hc).1
    obtain ⟨o, _, ho⟩ := List.mem_map.1 this
    rw [← ho]; simp [demandCol])
  have lf' : flows.length = outs.length := by
    rw [lf]; simp [ls]
  obtain ⟨lm, hm⟩ := roundFlow_get hmv
  have lm' : mv.length = outs.length := by rw [lm]; simp [lf', ls]
  have hfst : (outs.zip mv).map Prod.fst = outs := List.map_fst_zip (by omega)
  have hrow : (rowSums ins mv).map Prod.fst = ins := by
    simp only [rowSums, List.map_map]
    have : (Prod.fst ∘ fun p : ℕ × ℕ => (p.1, (mv.map fun c => c.getD p.2 0).sum)) = Prod.fst := rfl
    rw [this, List.zipIdx_map_fst]
  obtain ⟨a1, a2, a3, a4, a5⟩ := recordOut_spec _ _ _ h1 (by rw [hfst]; exact houts)
  obtain ⟨b1, b2, b3, b4, b5⟩ := recordIn_spec _ _ _ h2 (by rw [hrow]; exact hins)
  obtain ⟨c1, c2, c3, c4, c5, c6, c7⟩ := moveAll_spec hins _ _ _ _ h (by rw [hfst]; exact houts) hord
  have ab := a1.trans b1
  refine ⟨sups, flows, mv, hsup, hfl, lf', ls, hmv, ?_⟩
  have hzip : ∀ (j o : ℕ) m, outs[j]? = some o → mv[j]? = some m →
      (outs.zip mv)[j]? = some (o, m) := fun j o m ho hm => zip_get? ho hm
  refine ⟨ab.onlyMoves.trans c1, lm', ?_, ?_, ?_, ?_, ?_, ?_, ?_, ?_, ?_, ?_⟩
  · intro j o ho
    obtain ⟨sup, hx1, hx2⟩ := hs j o ho
    have hj : j < flows.length := by
      rw [lf']; exact (List.getElem?_eq_some_iff.1 ho).1
    have hfj : flows[j]? = some flows[j] := List.getElem?_eq_getElem hj
    obtain ⟨r, m, hm1, hm2, hm3⟩ := hm j flows[j] sup (zip_get? hfj hx1)
    obtain ⟨r1, r2⟩ := roundCol_get hm2
    obtain ⟨q1, q2⟩ := reduceLoop_le hm3 rfl
    have hlen : m.length = ins.length := by rw [q1, r1, hf _ (List.mem_of_getElem? hfj)]
    obtain ⟨d1, d2⟩ := c3 j (o, m) (hzip j o m ho hm1)
    simp only [Nat.zero_add] at d1
    have hblk : blocks s2 ins o m (orc.order j) = blocks s ins o m (orc.order j) := by
      unfold blocks
      apply List.flatMap_congr
      intro k _
      rw [ab.waiting]
    have d2' : ∀ (k l : ℕ), ins[k]? = some l → 0 ≤ m.getD k 0 ∧
        (m.getD k 0).toNat ≤ (s.waiting l o).length ∧
        s'.waiting l o = (s.waiting l o).drop (m.getD k 0).toNat := by
      intro k l hk
      have := d2 k l hk
      simp only [ab.waiting] at this
      exact this
    refine ⟨m, sup, hm1, hlen, hx2, q2, ?_, ?_, d2'⟩
    · rw [d1, hblk, ab.inc]
    · exact blocks_length (hord j) hlen (fun k l hk => ⟨(d2' k l hk).1, (d2' k l hk).2.1⟩)
  · intro l hl; rw [c4 l hl, ab.fin]
  · intro l; rw [← ab.fin l]; exact c5 l
  · intro l r hr
    rw [← ab.fin l]
    apply c6
    intro v hv om hom
    rw [ab.onlyMoves.heads]
    apply hr v hv
    rw [← hfst]
    exact List.mem_map_of_mem (f := Prod.fst) hom
  · intro l hl
    rw [c7 l (by rw [hfst]; exact hl), ab.inc]
  · intro A B hA hB hi ho v
    rw [moveAll_count hA hB hi v _ _ _ _ h (by
      intro om hom
      apply ho
      rw [← hfst]
      exact List.mem_map_of_mem (f := Prod.fst) hom)]
    unfold waitCount
    have e1 : s2.fin = s.fin := funext ab.fin
    have e2 : s2.inc = s.inc := funext ab.inc
    rw [e1, e2]
  · intro j o m ho hm hb
    rw [(c2 o).1, b2]
    exact a3 (o, m) (List.mem_of_getElem? (hzip j o m ho hm)) hb
  · intro l hl
    rw [(c2 l).1, b2, a4 l (by rw [hfst]; exact hl)]
  · intro k i hk hb
    rw [(c2 i).2]
    have hmem : (i, (mv.map fun c => c.getD k 0).sum) ∈ rowSums ins mv := by
      simp only [rowSums, List.mem_map]
      exact ⟨(i, k), by rw [List.mk_mem_zipIdx_iff_getElem?]; exact hk, rfl⟩
    have := b3 _ hmem (by unfold BothCurves at *; rw [a5, a2]; exact hb)
    simpa [a2] using this
  · intro l hl
    rw [(c2 l).2, b4 l (by rw [hrow]; exact hl), a2]

/-! ### Success of the moves -/

theorem moveOne_ok {ts o i : ℕ} {n : ℤ} {s : State} (h0 : 0 ≤ n)
    (h : n.toNat ≤ (s.waiting i o).length) : ∃ s', moveOne ts o i n s = .ok s' := by
  unfold moveOne
  simp only
  rw [if_pos]
  · exact ⟨_, rfl⟩
  · rw [takeFirst_fst, List.length_take]
    have : s.waiting i o = (s.links i).link.finished.filter (s.heads o) := rfl
    rw [this] at h
    omega

theorem moveCol_ok {ts : ℕ} {ins : List ℕ} (hins : ins.Nodup) {om : ℕ × List ℤ} :
    ∀ (order : List ℕ) (s : State), order.Nodup →
    (∀ k ∈ order, ∃ l, ins[k]? = some l ∧ 0 ≤ om.2.getD k 0 ∧
      (om.2.getD k 0).toNat ≤ (s.waiting l om.1).length) →
    ∃ s', moveCol ts ins order s om = .ok s' := by
  intro order
  induction order with
  | nil => intro s _ _; exact ⟨s, rfl⟩
  | cons k order ih =>
    intro s hnd h
    rw [List.nodup_cons] at hnd
    obtain ⟨i, hk, h1, h2⟩ := h k (by simp)
    obtain ⟨s1, hs1⟩ := moveOne_ok (ts := ts) (o := om.1) (i := i) (s := s) h1 h2
    obtain ⟨a1, a2, a3, a4, a5, a6, a7, a8, a9, a10, _, _⟩ := moveOne_spec hs1
    obtain ⟨s', hs'⟩ := ih s1 hnd.2 (by
      intro j hj
      obtain ⟨l, hl, c1, c2⟩ := h j (by simp [hj])
      refine ⟨l, hl, c1, ?_⟩
      have hne : l ≠ i := by
        rintro rfl
        exact hnd.1 (nodup_get_inj hins hk hl ▸ hj)
      rw [waiting_congr a1 (a6 l hne)]
      exact c2)
    refine ⟨s', ?_⟩
    unfold moveCol at hs' ⊢
    rw [Res.foldlM_cons, hk]
    simp only
    rw [hs1, Res.ok_bind]
    exact hs'

theorem moveAll_ok {ts : ℕ} {ins : List ℕ} (hins : ins.Nodup) {orc : NodeOracle}
    (hord : ∀ k, (orc.order k).Perm (List.range ins.length)) :
    ∀ (oms : List (ℕ × List ℤ)) (j : ℕ) (s : State), (oms.map Prod.fst).Nodup →
    (∀ om ∈ oms, ∀ (k l : ℕ), ins[k]? = some l → 0 ≤ om.2.getD k 0 ∧
      (om.2.getD k 0).toNat ≤ (s.waiting l om.1).length) →
    ∃ s', moveAll ts ins orc j s oms = .ok s' := by
  intro oms
  induction oms with
  | nil => intro j s _ _; exact ⟨s, rfl⟩
  | cons om oms ih =>
    intro j s hnd h
    simp only [List.map_cons, List.nodup_cons] at hnd
    have hordn : (orc.order j).Nodup := ((hord j).nodup_iff).2 List.nodup_range
    obtain ⟨s1, hs1⟩ := moveCol_ok (ts := ts) hins (om := om) (orc.order j) s hordn (by
      intro k hk
      have hk' : k < ins.length := by simpa using ((hord j).mem_iff).1 hk
      exact ⟨ins[k], List.getElem?_eq_getElem hk',
        h om (by simp) k _ (List.getElem?_eq_getElem hk')⟩)
    obtain ⟨a1, a2, a3, a4, a5, a6, a7, a8⟩ := moveCol_spec hins _ _ _ hs1 hordn
    obtain ⟨s', hs'⟩ := ih (j + 1) s1 hnd.2 (by
      intro om' hom' k l hk
      have : s1.waiting l om'.1 = s.waiting l om'.1 := by
        apply waiting_other a1 (o := om.1) _ (fun r hr => a6 l r hr)
        intro e
        exact hnd.1 (e ▸ List.mem_map_of_mem (f := Prod.fst) hom')
      rw [this]
      exact h om' (by simp [hom']) k l hk)
    refine ⟨s', ?_⟩
    simp only [moveAll]
    rw [hs1, Res.bind_ok']
    exact hs'

theorem addIncrement_ok {c : Curve} {t x : ℚ} {b : ℚ × ℚ} (hb : c.getLast? = some b)
    (ht : b.1 ≤ t) : ∃ c', addIncrement c (t, x) = .ok c' := by
  unfold addIncrement
  rw [hb]
  simp only
  rw [if_neg]
  · split <;> exact ⟨_, rfl⟩
  · unfold approxLt
    simp only [decide_eq_true_eq, not_lt]
    have : 0 ≤ tol * max |t| |b.1| := mul_nonneg (by norm_num [tol]) (le_max_of_le_left (abs_nonneg _))
    linarith

theorem recordOut_ok {scalar : ℚ} {ts : ℕ} : ∀ (oms : List (ℕ × List ℤ)) (s : State),
    (oms.map Prod.fst).Nodup →
    (∀ om ∈ oms, BothCurves s om.1 ∧ CurveReady ((ts : ℚ) + 1) (s.links om.1).nIn) →
    ∃ s', Res.foldlM (recordOut scalar ts) s oms = .ok s'
  | [], s, _, _ => ⟨s, rfl⟩
  | om :: oms, s, hnd, h => by
    simp only [List.map_cons, List.nodup_cons] at hnd
    have h1 : ∃ s1, recordOut scalar ts s om = .ok s1 := by
      obtain ⟨hb, hr⟩ := h om (by simp)
      unfold recordOut
      split
      · rename_i hc
        unfold BothCurves at hb
        cases hn : (s.links om.1).nIn with
        | none => rw [hn] at hb; rw [← hb] at hc; simp at hc
        | some c =>
          rw [hn] at hr
          obtain ⟨b, e1, e3⟩ := hr
          obtain ⟨c', hc'⟩ := addIncrement_ok (x := (om.2.sum : ℚ) / scalar) e1 e3
          simp [hc']
      · exact ⟨_, rfl⟩
    obtain ⟨s1, h1⟩ := h1
    obtain ⟨_, b2, _, b4, b5⟩ := recordOut_spec [om] s s1
      (by rw [Res.foldlM_cons, h1]; rfl) (by simp)
    obtain ⟨s', hs'⟩ := recordOut_ok oms s1 hnd.2 (by
      intro om' hom'
      obtain ⟨hb, hr⟩ := h om' (by simp [hom'])
      have hne : om'.1 ∉ [om].map Prod.fst := by
        simp only [List.map_cons, List.map_nil, List.mem_singleton]
        exact fun e => hnd.1 (e ▸ List.mem_map_of_mem (f := Prod.fst) hom')
      unfold BothCurves at *
      rw [b2, b5, b4 _ hne]
      exact ⟨hb, hr⟩)
    exact ⟨s', by rw [Res.foldlM_cons, h1]; exact hs'⟩

theorem recordIn_ok {scalar : ℚ} {ts : ℕ} : ∀ (ims : List (ℕ × ℤ)) (s : State),
    (ims.map Prod.fst).Nodup →
    (∀ im ∈ ims, BothCurves s im.1 ∧ CurveReady ((ts : ℚ) + 1) (s.links im.1).nOut) →
    ∃ s', Res.foldlM (recordIn scalar ts) s ims = .ok s'
  | [], s, _, _ => ⟨s, rfl⟩
  | im :: ims, s, hnd, h => by
    simp only [List.map_cons, List.nodup_cons] at hnd
    have h1 : ∃ s1, recordIn scalar ts s im = .ok s1 := by
      obtain ⟨hb, hr⟩ := h im (by simp)
      unfold recordIn
      split
      · rename_i hc
        unfold BothCurves at hb
        cases hn : (s.links im.1).nOut with
        | none => rw [hn] at hb; rw [hb] at hc; simp at hc
        | some c =>
          rw [hn] at hr
          obtain ⟨b, e1, e3⟩ := hr
          obtain ⟨c', hc'⟩ := addIncrement_ok (x := (im.2 : ℚ) / scalar) e1 e3
          simp [hc']
      · exact ⟨_, rfl⟩
    obtain ⟨s1, h1⟩ := h1
    obtain ⟨_, b2, _, b4, b5⟩ := recordIn_spec [im] s s1
      (by rw [Res.foldlM_cons, h1]; rfl) (by simp)
    obtain ⟨s', hs'⟩ := recordIn_ok ims s1 hnd.2 (by
      intro im' him'
      obtain ⟨hb, hr⟩ := h im' (by simp [him'])
      have hne : im'.1 ∉ [im].map Prod.fst := by
        simp only [List.map_cons, List.map_nil, List.mem_singleton]
        exact fun e => hnd.1 (e ▸ List.mem_map_of_mem (f := Prod.fst) him')
      unfold BothCurves at *
      rw [b2, b5, b4 _ hne]
      exact ⟨hb, hr⟩)
    exact ⟨s', by rw [Res.foldlM_cons, h1]; exact hs'⟩

/-! ### Forward junctions: the numbers moved -/

theorem demandCol_get {scalar : ℚ} {s : State} {ins : List ℕ} {o k l : ℕ} (h : ins[k]? = some l) :
    (demandCol scalar s ins o)[k]? = some (((s.waiting l o).length : ℚ) / scalar) := by
  simp only [demandCol, List.getElem?_map, h, Option.map_some, Option.some.injEq]
  rw [List.countP_eq_length_filter]
  rfl

theorem demandCol_nonneg {scalar : ℚ} (hs : 0 < scalar) (s : State) (ins : List ℕ) (o : ℕ) :
    ∀ x ∈ demandCol scalar s ins o, 0 ≤ x := by
  intro x hx
  obtain ⟨i, _, rfl⟩ := List.mem_map.1 hx
  positivity

theorem demandCol_sum (scalar : ℚ) (s : State) (ins : List ℕ) (o : ℕ) :
    (demandCol scalar s ins o).sum
      = (((ins.map fun i => (s.waiting i o).length).sum : ℕ) : ℚ) / scalar := by
  induction ins with
  | nil => simp [demandCol]
  | cons i ins ih =>
    unfold demandCol at ih
    simp only [demandCol, List.map_cons, List.sum_cons, Nat.cast_add]
    rw [ih, List.countP_eq_length_filter, add_div]
    rfl

/-- The rounded numbers of a column fit the waiting vehicles. -/
theorem fwj_rounded {scalar : ℚ} (hs : 0 < scalar) {s : State} {ins : List ℕ} {o : ℕ} {sup : ℚ}
    (hsup : 0 ≤ sup) {u : ℕ → ℚ} (hu : ∀ i, 0 ≤ u i) {r : List ℤ}
    (h : roundCol scalar u 0 (fwjCol (demandCol scalar s ins o) sup) = .ok r) :
    r.length = ins.length ∧ ∀ (k l : ℕ), ins[k]? = some l → 0 ≤ r.getD k 0 ∧
      r.getD k 0 ≤ (s.waiting l o).length := by
  obtain ⟨h1, h2⟩ := roundCol_get h
  obtain ⟨f1, f2, f3⟩ := fwjCol_spec _ sup (demandCol_nonneg hs s ins o) hsup
  refine ⟨by rw [h1, f1]; simp [demandCol], ?_⟩
  intro k l hk
  have hd := demandCol_get (scalar := scalar) (s := s) (o := o) hk
  have hlt : k < (fwjCol (demandCol scalar s ins o) sup).length := by
    rw [f1]; exact (List.getElem?_eq_some_iff.1 hd).1
  have hf := List.getElem?_eq_getElem hlt
  obtain ⟨g1, g2⟩ := f2 k _ _ hf hd
  have hr := h2 k _ hf
  rw [getD_of_get? hr]
  have hnn : 0 ≤ (fwjCol (demandCol scalar s ins o) sup)[k] * scalar := mul_nonneg g1 hs.le
  refine ⟨roundVal_natCast_nonneg hnn, roundVal_le_of_le hnn ?_ (hu _)⟩
  have := mul_le_mul_of_nonneg_right g2 hs.le
  rwa [div_mul_cancel₀ _ hs.ne'] at this

theorem list_nonneg_of_getD {r : List ℤ} (h : ∀ k, k < r.length → 0 ≤ r.getD k 0) :
    ∀ m ∈ r, 0 ≤ m := by
  intro m hm
  obtain ⟨k, hk, rfl⟩ := List.mem_iff_getElem.1 hm
  have := h k hk
  rwa [getD_of_get? (List.getElem?_eq_getElem hk)] at this

/-- The numbers of a forward junction after `round_flow_to_vehicle`. -/
theorem fwj_numbers {scalar : ℚ} (hs : 0 < scalar) {s : State} {ins outs : List ℕ}
    {sups : List ℚ} (hsups : supplies s outs = .ok sups) (hpos : ∀ x ∈ sups, 0 ≤ x)
    {orc : NodeOracle} (hu : ∀ j i, 0 ≤ orc.u j i) {mv : List (List ℤ)}
    (hmv : roundFlow scalar orc 0
      ((((outs.map (demandCol scalar s ins)).zip sups).map fun c => fwjCol c.1 c.2).zip sups)
        = .ok mv) :
    mv.length = outs.length ∧ ∀ (j o : ℕ), outs[j]? = some o → ∃ r m sup, mv[j]? = some m ∧
      sups[j]? = some sup ∧ (s.links o).link.supply = .ok sup ∧ 0 ≤ sup ∧
      m.length = ins.length ∧
      roundCol scalar (orc.u j) 0 (fwjCol (demandCol scalar s ins o) sup) = .ok r ∧
      m.sum = min r.sum ⌊sup * scalar⌋ ∧
      ∀ (k l : ℕ), ins[k]? = some l → 0 ≤ m.getD k 0 ∧ m.getD k 0 ≤ r.getD k 0 ∧
        m.getD k 0 ≤ (s.waiting l o).length := by
  obtain ⟨ls, hs'⟩ := supplies_get hsups
  obtain ⟨lm, hm⟩ := roundFlow_get hmv
  refine ⟨by rw [lm]; simp [ls], ?_⟩
  intro j o ho
  obtain ⟨sup, hx1, hx2⟩ := hs' j o ho
  have hsup0 := hpos sup (List.mem_of_getElem? hx1)
  have hcol : ((((outs.map (demandCol scalar s ins)).zip sups).map fun c => fwjCol c.1 c.2).zip
      sups)[j]? = some (fwjCol (demandCol scalar s ins o) sup, sup) := by
    apply zip_get? _ hx1
    rw [List.getElem?_map, zip_get? (a := demandCol scalar s ins o) (b := sup) (by simp [ho]) hx1]
    rfl
  obtain ⟨r, m, e1, e2, e3⟩ := hm j _ _ hcol
  rw [Nat.zero_add] at e2 e3
  obtain ⟨r1, r2⟩ := fwj_rounded hs hsup0 (hu j) e2
  have hnn : ∀ x ∈ r, 0 ≤ x := by
    apply list_nonneg_of_getD
    intro k hk
    rw [r1] at hk
    exact (r2 k _ (List.getElem?_eq_getElem hk)).1
  obtain ⟨q1, q2, q3⟩ := reduceLoop_spec e3 rfl hnn
  refine ⟨r, m, sup, e1, hx1, hx2, hsup0, by rw [q1, r1], e2, q3, ?_⟩
  intro k l hk
  exact ⟨(q2 k).1, (q2 k).2, le_trans (q2 k).2 (r2 k l hk).2⟩

/-! ### The vehicles at an exit, by next link -/

theorem sum_heads {s : State} {outs : List ℕ} (houts : outs.Nodup) {v o : ℕ} (ho : o ∈ outs)
    (hv : (s.vehs v).next = some o) :
    (outs.map fun o' => if s.heads o' v then 1 else 0).sum = 1 := by
  induction outs with
  | nil => simp at ho
  | cons a outs ih =>
    rw [List.nodup_cons] at houts
    simp only [List.map_cons, List.sum_cons]
    by_cases ha : a = o
    · subst ha
      have : (outs.map fun o' => if s.heads o' v then 1 else 0).sum = 0 := by
        rw [List.sum_eq_zero]
        intro x hx
        obtain ⟨o', ho', rfl⟩ := List.mem_map.1 hx
        have : s.heads o' v = false := by
          simp only [State.heads, decide_eq_false_iff_not, hv, Option.some.injEq]
          rintro rfl; exact houts.1 ho'
        simp [this]
      rw [this]
      simp [State.heads, hv]
    · have : s.heads a v = false := by
        simp only [State.heads, decide_eq_false_iff_not, hv, Option.some.injEq]
        exact fun e => ha e.symm
      rw [ih houts.2 (by simpa [Ne.symm ha] using ho)]
      simp [this]

theorem length_by_next {s : State} {outs : List ℕ} (houts : outs.Nodup) :
    ∀ (q : List ℕ), (∀ v ∈ q, ∃ o ∈ outs, (s.vehs v).next = some o) →
      q.length = (outs.map fun o => (q.filter (s.heads o)).length).sum
  | [], _ => by simp
  | v :: q, h => by
    obtain ⟨o, ho, hv⟩ := h v (by simp)
    have ih := length_by_next houts q (fun x hx => h x (by simp [hx]))
    have e : (outs.map fun o => ((v :: q).filter (s.heads o)).length)
        = outs.map fun o => (if s.heads o v then 1 else 0) + (q.filter (s.heads o)).length := by
      apply List.map_congr_left
      intro o' _
      by_cases hh : s.heads o' v <;> simp [hh]; omega
    rw [e, List.sum_map_add, sum_heads houts ho hv, ← ih, List.length_cons]
    omega

theorem onRight_mem {s : State} {ins outs : List ℕ} (h : onRightNode s ins outs = true) {i v : ℕ}
    (hi : i ∈ ins) (hv : v ∈ s.fin i) : ∃ o ∈ outs, (s.vehs v).next = some o := by
  unfold onRightNode at h
  rw [List.all_eq_true] at h
  have := h i hi
  rw [List.all_eq_true] at this
  have := this v hv
  rw [List.any_eq_true] at this
  obtain ⟨o, ho, hh⟩ := this
  exact ⟨o, ho, by simpa [State.heads] using hh⟩

theorem sums_balance {w w' : ℕ → ℕ} {g : List ℤ → ℤ} : ∀ (outs : List ℕ) (mv : List (List ℤ)),
    mv.length = outs.length →
    (∀ (j o : ℕ) m, outs[j]? = some o → mv[j]? = some m →
      0 ≤ g m ∧ (g m).toNat ≤ w o ∧ w' o = w o - (g m).toNat) →
    0 ≤ (mv.map g).sum ∧
      ((outs.map w').sum : ℤ) + (mv.map g).sum = ((outs.map w).sum : ℤ)
  | [], [], _, _ => by simp
  | [], _ :: _, h, _ => by simp at h
  | _ :: _, [], h, _ => by simp at h
  | o :: outs, m :: mv, hl, h => by
    obtain ⟨a1, a2, a3⟩ := h 0 o m (by simp) (by simp)
    obtain ⟨b1, b2⟩ := sums_balance outs mv (by simpa using hl)
      (fun j o' m' h1 h2 => h (j + 1) o' m' (by simpa using h1) (by simpa using h2))
    simp only [List.map_cons, List.sum_cons, Nat.cast_add]
    omega

/-- The row sums are the numbers of vehicles that leave the in links. -/
theorem leaving_count {scalar : ℚ} {ts : ℕ} {ins outs : List ℕ} {orc : NodeOracle} {s s' : State}
    {mv : List (List ℤ)} (h : InoutSpec scalar ts ins outs orc s s' mv) (houts : outs.Nodup)
    (hright : onRightNode s ins outs = true) {k i : ℕ} (hi : ins[k]? = some i) :
    (mv.map fun c => c.getD k 0).sum = ((s.fin i).length - (s'.fin i).length : ℕ) := by
  have hmem : i ∈ ins := List.mem_of_getElem? hi
  have e1 := length_by_next (s := s) houts (s.fin i) (fun v hv => onRight_mem hright hmem hv)
  have e2 := length_by_next (s := s) houts (s'.fin i)
    (fun v hv => onRight_mem hright hmem ((h.finSub i).subset hv))
  have hbal := sums_balance (w := fun o => ((s.fin i).filter (s.heads o)).length)
    (w' := fun o => ((s'.fin i).filter (s.heads o)).length) (g := fun c => c.getD k 0) outs mv h.len
    (by
      intro j o m ho hm
      obtain ⟨m', sup, f1, _, _, _, _, _, f2⟩ := h.col j o ho
      rw [hm] at f1
      cases f1
      obtain ⟨g1, g2, g3⟩ := f2 k i hi
      refine ⟨g1, g2, ?_⟩
      have : (s'.fin i).filter (s.heads o) = s'.waiting i o := by
        rw [waiting_eq, h.moves.heads]
      rw [this, g3, List.length_drop]
      rfl)
  have hle := (h.finSub i).length_le
  omega

/-! ### Small list facts -/

theorem idxOf_get? {l : List ℕ} {a : ℕ} (h : a ∈ l) : l[l.idxOf a]? = some a := by
  have := List.idxOf_lt_length_iff.2 h
  rw [List.getElem?_eq_getElem this, List.getElem_idxOf]

theorem map_getD_range (l : List ℕ) : (List.range l.length).map (fun k => l.getD k 0) = l := by
  apply List.ext_getElem?
  intro k
  rw [List.getElem?_map]
  by_cases hk : k < l.length
  · rw [List.getElem?_range hk]; simp [hk]
  · rw [List.getElem?_eq_none_iff.2 (by omega : l.length ≤ k),
      List.getElem?_eq_none_iff.2 (by simp; omega)]
    rfl

theorem sum_toNat {g : ℕ → ℤ} : ∀ (ks : List ℕ), (∀ k ∈ ks, 0 ≤ g k) →
    (((ks.map fun k => (g k).toNat).sum : ℕ) : ℤ) = (ks.map g).sum
  | [], _ => by simp
  | k :: ks, h => by
    simp only [List.map_cons, List.sum_cons, Nat.cast_add]
    rw [sum_toNat ks (fun x hx => h x (by simp [hx])), Int.toNat_of_nonneg (h k (by simp))]

theorem sum_cast (l : List ℕ) : (l.map (Nat.cast : ℕ → ℤ)).sum = (l.sum : ℕ) := by
  induction l with
  | nil => simp
  | cons a l ih => simp [ih]

theorem sum_le_of_entries : ∀ {m r : List ℤ}, m.length = r.length →
    (∀ k, m.getD k 0 ≤ r.getD k 0) → m.sum ≤ r.sum
  | [], [], _, _ => by simp
  | [], _ :: _, h, _ => by simp at h
  | _ :: _, [], h, _ => by simp at h
  | a :: m, b :: r, hl, h => by
    have h0 := h 0
    have := sum_le_of_entries (m := m) (r := r) (by simpa using hl) (fun k => by simpa using h (k + 1))
    simp only [List.getD_cons_zero] at h0
    simp only [List.sum_cons]
    omega

theorem sum_eq_entry : ∀ {m r : List ℤ} {k : ℕ}, m.length = r.length → m.sum = r.sum →
    (∀ k, m.getD k 0 ≤ r.getD k 0) → m.getD k 0 = r.getD k 0
  | [], [], _, _, _, _ => by simp
  | [], _ :: _, _, h, _, _ => by simp at h
  | _ :: _, [], _, h, _, _ => by simp at h
  | a :: m, b :: r, k, hl, hs, h => by
    have h0 := h 0
    have hsub := sum_le_of_entries (m := m) (r := r) (by simpa using hl)
      (fun k => by simpa using h (k + 1))
    simp only [List.getD_cons_zero] at h0
    simp only [List.sum_cons] at hs
    cases k with
    | zero => simp only [List.getD_cons_zero]; omega
    | succ k =>
      simp only [List.getD_cons_succ]
      exact sum_eq_entry (by simpa using hl) (by omega) (fun k => by simpa using h (k + 1))

theorem roundCol_sum_lower {scalar : ℚ} (hs : 0 < scalar) {u : ℕ → ℚ} (hu : ∀ i, u i < 1) :
    ∀ {f : List ℚ} {i : ℕ} {r : List ℤ}, roundCol scalar u i f = .ok r → (∀ x ∈ f, 0 ≤ x) →
      f.sum * scalar - f.length ≤ (r.sum : ℚ)
  | [], i, r, h, _ => by simp [roundCol] at h; subst h; simp
  | x :: f, i, r, h, hx => by
    simp only [roundCol] at h
    rw [Res.bind_eq_ok'] at h
    obtain ⟨n, hn, h⟩ := h
    rw [Res.bind_eq_ok'] at h
    obtain ⟨r', hr', h⟩ := h
    cases h
    have ih := roundCol_sum_lower hs hu hr' (fun y hy => hx y (by simp [hy]))
    have hn' := round_ok hn
    have hb := (roundVal_bounds (x := x * scalar) (u := u i) (mul_nonneg (hx x (by simp)) hs.le)).1
    rw [← hn'] at hb
    have hb' : (⌊x * scalar⌋ : ℚ) ≤ n := by exact_mod_cast hb
    have := Int.lt_floor_add_one (x * scalar)
    simp only [List.sum_cons, List.length_cons, Int.cast_add, Nat.cast_add, Nat.cast_one]
    linarith

end Verif.Net
