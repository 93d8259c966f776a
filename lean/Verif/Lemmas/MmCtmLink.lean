import Verif.Lemmas.MmCtm
import Mathlib.Data.List.Induction

/-! `evolve` and `clear_incoming_array` of the cell transmission link with stops. -/

namespace Verif.MmLnk
open MLnk

variable {V : Type} [DecidableEq V]
variable {K : Kinds V} {stops : List Stop} {k : ℤ} {n : ℕ}

/-- The positions of the vehicles in a row of cells. -/
def posOf (K : Kinds V) (cs : List (MLnk.Cell V)) : Pos V := fun x p =>
  match cs[p]? with
  | none => []
  | some c => inCell K x c

/-- Two rows of cells with the same deques. -/
def SameQ (cs cs' : List (MLnk.Cell V)) : Prop :=
  cs'.map (fun c => (c.queueCar, c.queueTruck)) = cs.map fun c => (c.queueCar, c.queueTruck)

theorem SameQ.length {cs cs' : List (MLnk.Cell V)} (h : SameQ cs cs') : cs'.length = cs.length := by
  have := congrArg List.length h
  simpa using this

theorem SameQ.get {cs cs' : List (MLnk.Cell V)} (h : SameQ cs cs') (p : ℕ) :
    (cs'[p]?).map (fun c => (c.queueCar, c.queueTruck)) =
      (cs[p]?).map fun c => (c.queueCar, c.queueTruck) := by
  have := congrArg (fun l => l[p]?) h
  simpa using this

theorem SameQ.posOf {cs cs' : List (MLnk.Cell V)} (h : SameQ cs cs') : posOf K cs' = posOf K cs := by
  funext x p
  have := h.get p
  simp only [MmLnk.posOf]
  cases h1 : cs'[p]? with
  | none =>
    rw [h1] at this
    cases h2 : cs[p]? with
    | none => rfl
    | some c => rw [h2] at this; simp at this
  | some c' =>
    rw [h1] at this
    cases h2 : cs[p]? with
    | none => rw [h2] at this; simp at this
    | some c =>
      rw [h2] at this
      simp only [Option.map_some, Option.some.injEq, Prod.mk.injEq] at this
      simp only [inCell, this.1, this.2]

theorem SameQ.ok {cs cs' : List (MLnk.Cell V)} (h : SameQ cs cs') (hok : ∀ c ∈ cs, CellOk K c) :
    ∀ c ∈ cs', CellOk K c := by
  intro c hc
  have : (c.queueCar, c.queueTruck) ∈ cs'.map fun c => (c.queueCar, c.queueTruck) :=
    List.mem_map.2 ⟨c, hc, rfl⟩
  rw [h, List.mem_map] at this
  obtain ⟨d, hd, e⟩ := this
  simp only [Prod.mk.injEq] at e
  have := hok d hd
  simp only [CellOk] at this ⊢
  rw [← e.1, ← e.2]; exact this

theorem SameQ.refl (cs : List (MLnk.Cell V)) : SameQ cs cs := rfl

theorem SameQ.trans {a b c : List (MLnk.Cell V)} (h : SameQ a b) (h' : SameQ b c) : SameQ a c :=
  Eq.trans h' h

theorem updateOut_same {scalar unit : ℚ} {u : ℕ → ℚ} : ∀ {i : ℕ} {cs cs' : List (MLnk.Cell V)},
    MLnk.Ctm.updateOut scalar unit u i cs = .ok cs' → SameQ cs cs' ∧ Enough cs' ∧ cs' ≠ []
  | _, [], _, h => by simp [MLnk.Ctm.updateOut] at h
  | _, [c], _, h => by
    simp [MLnk.Ctm.updateOut] at h
    subst h
    refine ⟨rfl, ?_, by simp⟩
    intro e he
    simp only [List.getLast?_singleton, Option.some.injEq] at he
    rw [← he]; simp
  | i, c :: d :: rest, cs', h => by
    simp only [MLnk.Ctm.updateOut] at h
    rw [Res.bind_eq_ok'] at h
    obtain ⟨rc, _, h⟩ := h
    rw [Res.bind_eq_ok'] at h
    obtain ⟨rt, _, h⟩ := h
    rw [Res.bind_eq_ok'] at h
    obtain ⟨rest', hr, h⟩ := h
    obtain ⟨h1, h2, h3⟩ := updateOut_same hr
    simp only [Res.ok.injEq] at h
    subst h
    refine ⟨?_, ?_, by simp⟩
    · simp only [SameQ, List.map_cons] at h1 ⊢
      rw [h1]
    · intro e he
      apply h2 e
      cases rest' with
      | nil => exact absurd rfl h3
      | cons y ys => simpa using he

theorem updateOut_not_throw {scalar unit : ℚ} {u : ℕ → ℚ} : ∀ {i : ℕ} {cs : List (MLnk.Cell V)},
    MLnk.Ctm.updateOut scalar unit u i cs = .ub ∨ ∃ cs', MLnk.Ctm.updateOut scalar unit u i cs = .ok cs'
  | _, [] => .inl rfl
  | _, [c] => .inr ⟨_, rfl⟩
  | i, c :: d :: rest => by
    have hround : ∀ x y : ℚ, Ults.round x y = .ub ∨ ∃ z, Ults.round x y = .ok z := by
      intro x y
      have ht : ∀ z : ℚ, Ults.toInt z = .ub ∨ ∃ w, Ults.toInt z = .ok w := by
        intro z; unfold Ults.toInt; split
        · exact .inr ⟨_, rfl⟩
        · exact .inl rfl
      unfold Ults.round
      rcases ht x with h | ⟨w, h⟩
      · rw [h]; exact .inl rfl
      · rw [h, Res.bind_ok']
        dsimp only
        split <;> exact ht _
    simp only [MLnk.Ctm.updateOut]
    rcases hround (c.per.fracCar * min (demandOf c.dia.capCar c.dia.ffsCar unit c.per.densCar)
      (supplyOf d.dia.capCar d.dia.waveCar d.dia.holdCar unit d.per.densCar) * scalar) (u (2 * i))
      with h | ⟨rc, h⟩
    · rw [h]; exact .inl rfl
    · rw [h, Res.bind_ok']
      rcases hround (c.per.fracTruck * min (demandOf c.dia.capTruck c.dia.ffsTruck unit c.per.densTruck)
        (supplyOf d.dia.capTruck d.dia.waveTruck d.dia.holdTruck unit d.per.densTruck) * scalar)
        (u (2 * i + 1)) with h | ⟨rt, h⟩
      · rw [h]; exact .inl rfl
      · rw [h, Res.bind_ok']
        rcases updateOut_not_throw (scalar := scalar) (unit := unit) (u := u) (i := i + 1)
          (cs := d :: rest) with h | ⟨cs', h⟩
        · rw [h]; exact .inl rfl
        · rw [h]; exact .inr ⟨_, rfl⟩

theorem volumes_same (truck : V → Bool) (scalar : ℚ) (fin : List V) : ∀ cs : List (MLnk.Cell V),
    SameQ cs (volumes truck scalar fin cs)
  | [] => rfl
  | [_] => rfl
  | c :: d :: rest => by
    have := volumes_same truck scalar fin (d :: rest)
    simp only [SameQ, volumes, List.map_cons] at this ⊢
    rw [this]
    rfl

theorem moveLast_inv {orc : ℕ → ℤ × Bool} {t : ℕ} {ds : List ℚ} (hk : 1 ≤ k) (hw : StopsWf stops n) :
    ∀ (cs : List (MLnk.Cell V)) (p : ℕ) (fin : List V) (A : Pos V) (b : Bay V),
      cs ≠ [] → n = p + cs.length → Inv K stops k n A b → (∀ d ∈ cs, CellOk K d) →
      (∀ (x : Cls) (j : ℕ) (d : MLnk.Cell V), cs[j]? = some d → A x (p + j) = inCell K x d) →
      Enough cs →
      moveLast K stops k orc t ds p cs fin b = .diverge ∨
      (∃ e, moveLast K stops k orc t ds p cs fin b = .throw e ∧
        ∃ d ∈ cs, ∃ v ∈ d.queueCar ++ d.queueTruck, K.hasNext v = false) ∨
      ∃ cs' fin' b' A' out, moveLast K stops k orc t ds p cs fin b = .ok (cs', fin', b') ∧
        Inv K stops k n A' b' ∧ cs'.length = cs.length ∧ (∀ d ∈ cs', CellOk K d) ∧
        (∀ (x : Cls) (j : ℕ) (d : MLnk.Cell V), cs'[j]? = some d → A' x (p + j) = inCell K x d) ∧
        (∀ x p', p' < p → A' x p' = A x p') ∧
        fin' = fin ++ out ∧ reachedExit b'.log = reachedExit b.log ++ out ∧
        entered b'.log = entered b.log := by
  intro cs
  induction cs with
  | nil => intro _ _ _ _ h; exact absurd rfl h
  | cons c cs ih =>
    intro p fin A b _ hn hI hok hA he
    cases cs with
    | nil =>
      have hc := hok c List.mem_cons_self
      have hAp : ∀ x, A x p = inCell K x c := fun x => hA x 0 c rfl
      simp only [moveLast]
      rcases lastLoop_inv (orc := orc) (t := t) (ps := c.outCar / (c.outCar + c.outTruck)) hk hw
        (by simpa using hn) ds c.outCar.toNat c.outTruck.toNat c.queueCar c.queueTruck fin [] A b hI
        hc.1 hc.2 (by rw [hAp, inCell_car hc]) (fun x hx => by rw [hAp, inCell_ne hc hx]; rfl) (by simp)
        (he c (by simp)) with e | ⟨e, e1, w, e2, e3⟩ | ⟨r, A', out, e1, e2, e3, e4, e5, e6, e7, e8, e9, e10⟩
      · left; rw [e]; rfl
      · right; left
        exact ⟨e, by rw [e1]; rfl, c, List.mem_cons_self, w, e2, e3⟩
      · right; right
        have okc : CellOk K { c with queueCar := r.cars, queueTruck := r.trucks } :=
          ⟨fun v hv => hc.1 v (e6 v hv), fun v hv => hc.2 v (e7 v hv)⟩
        refine ⟨_, _, _, A', out, by rw [e1]; rfl, e2, by simp, ?_, ?_, ?_, e8, e9, e10⟩
        · intro d hd
          rw [List.mem_singleton.1 hd]; exact okc
        · intro x j d hj
          cases j with
          | zero =>
            simp only [List.getElem?_cons_zero, Option.some.injEq] at hj
            subst hj
            rw [Nat.add_zero]
            by_cases hx : x = .car
            · subst hx; rw [inCell_car okc]; exact e3
            · rw [inCell_ne okc hx, e4 x hx]; rfl
          | succ j => simp at hj
        · intro x p' hp'; exact e5 x p' (by omega)
    | cons d rest =>
      simp only [moveLast]
      rcases ih (p + 1) fin A b (by simp) (by rw [hn]; simp only [List.length_cons]; omega) hI
        (fun y hy => hok y (List.mem_cons_of_mem _ hy))
        (by
          intro x j y hj
          have := hA x (j + 1) y (by simpa using hj)
          rw [← this]; congr 1; omega)
        (by intro e hl; apply he e; simpa using hl) with
        e | ⟨e, e1, y, hy, w, e2, e3⟩ | ⟨cs', fin', b', A', out, e1, e2, e3, e4, e5, e6, e7, e8, e9⟩
      · left; rw [e]; rfl
      · right; left
        exact ⟨e, by rw [e1]; rfl, y, List.mem_cons_of_mem _ hy, w, e2, e3⟩
      · right; right
        refine ⟨c :: cs', fin', b', A', out, by rw [e1]; rfl, e2, by simp [e3], ?_, ?_, ?_, e7, e8, e9⟩
        · intro y hy
          rcases List.mem_cons.1 hy with rfl | hy
          · exact hok y List.mem_cons_self
          · exact e4 y hy
        · intro x j y hj
          cases j with
          | zero =>
            simp only [List.getElem?_cons_zero, Option.some.injEq] at hj
            subst hj
            rw [Nat.add_zero, e6 x p (by omega)]
            exact hA x 0 c rfl
          | succ j =>
            simp only [List.getElem?_cons_succ] at hj
            rw [← e5 x j y hj]; congr 1; omega
        · intro x p' hp'; exact e6 x p' (by omega)

/-- The invariant of a cell transmission link with stops. -/
structure CtmInv (K : Kinds V) (l : Ctm V) : Prop where
  scalar : 1 ≤ Ults.trunc l.base.args.scalar
  ne : l.base.cells ≠ []
  wf : StopsWf l.stops l.base.cells.length
  ok : ∀ c ∈ l.base.cells, CellOk K c
  inv : Inv K l.stops (Ults.trunc l.base.args.scalar) l.base.cells.length (posOf K l.base.cells) l.bay

theorem pos_eq {cs : List (MLnk.Cell V)} {A : Pos V} {b : Bay V} (hI : Inv K stops k n A b)
    (hn : cs.length = n)
    (h : ∀ (x : Cls) (j : ℕ) (d : MLnk.Cell V), cs[j]? = some d → A x (0 + j) = inCell K x d) :
    A = posOf K cs := by
  funext x p
  simp only [posOf]
  cases hp : cs[p]? with
  | none =>
    rw [List.getElem?_eq_none_iff] at hp
    exact hI.out x p (by omega)
  | some d =>
    have := h x p d hp
    rw [Nat.zero_add] at this
    exact this

/-- What `evolve` does to a link that satisfies the invariant. -/
theorem ctm_evolve_inv {t : ℕ} {rnd : ℕ → ℚ} {ds : List ℚ} {orc : ℕ → ℤ × Bool} {l : Ctm V}
    (h : CtmInv K l) :
    l.evolve K t rnd ds orc = .ub ∨ l.evolve K t rnd ds orc = .diverge ∨
    (∃ e, l.evolve K t rnd ds orc = .throw e ∧
      ∃ v ∈ (Link.ctm l).travelling, K.hasNext v = false) ∨
    ∃ l' out, l.evolve K t rnd ds orc = .ok l' ∧ CtmInv K l' ∧ l'.stops = l.stops ∧
      l'.base.args = l.base.args ∧ l'.base.cells.length = l.base.cells.length ∧
      l'.base.com.incoming = l.base.com.incoming ∧
      l'.base.com.finished = l.base.com.finished ++ out ∧
      reachedExit l'.bay.log = reachedExit l.bay.log ++ out ∧
      entered l'.bay.log = entered l.bay.log := by
  rcases updateOut_not_throw (scalar := l.base.args.scalar) (unit := l.base.args.unit) (u := rnd)
    (i := 0) (cs := l.base.cells) with hu | ⟨cs, hu⟩
  · left; simp only [Ctm.evolve, hu]; rfl
  · right
    obtain ⟨s1, s2, s3⟩ := updateOut_same hu
    cases cs with
    | nil => exact absurd rfl s3
    | cons c rest =>
      have hlen := s1.length
      have hI := h.inv
      rw [← s1.posOf] at hI
      obtain ⟨cs1, b1, A1, e1, e2, e3, e4, e5, _, e7, e8, e9⟩ := moveFrom_inv (orc := orc) (t := t)
        h.scalar h.wf rest c 0 (posOf K (c :: rest)) l.bay (by rw [← hlen]; simp; omega) hI
        (s1.ok h.ok) (by
          intro x j d hj
          simp only [posOf, Nat.zero_add, hj]) s2
      have hne : cs1 ≠ [] := by intro hh; rw [hh] at e3; simp at e3
      have hl1 : cs1.length = l.base.cells.length := by rw [e3, ← hlen]; simp
      rcases moveLast_inv (orc := orc) (t := t) (ds := ds) h.scalar h.wf cs1 0 l.base.com.finished A1 b1 hne
        (by rw [hl1]; omega) e2 e4 e5 e7 with
        f | ⟨f, f1, y, hy, w, f2, f3⟩ | ⟨cs2, fin', b2, A2, out, f1, f2, f3, f4, f5, _, f7, f8, f9⟩
      · left
        simp only [Ctm.evolve, hu, Res.bind_ok', e1, f]
        rfl
      · right; left
        refine ⟨f, by simp only [Ctm.evolve, hu, Res.bind_ok', e1, f1]; rfl, w, ?_, f3⟩
        -- a vehicle in the cells after the moves was there before
        have hA1 := pos_eq e2 hl1 e5
        have hw1 : w ∈ trav (A1 (K.cls w)) l.base.cells.length := by
          obtain ⟨j, hj⟩ := List.mem_iff_getElem?.1 hy
          have hlt : j < cs1.length := by
            rw [List.getElem?_eq_some_iff] at hj; exact hj.1
          rw [mem_trav]
          refine ⟨j, by omega, ?_⟩
          rw [hA1]
          simp only [posOf, hj, inCell, mem_only, and_true]
          exact f2
        have hfi := h.inv.fifo (K.cls w)
        have hfi1 := e2.fifo (K.cls w)
        rw [e8, e9, hfi] at hfi1
        have := List.append_cancel_left hfi1
        rw [← this, mem_trav] at hw1
        obtain ⟨p, _, hp⟩ := hw1
        simp only [posOf] at hp
        split at hp
        · exact absurd hp (by simp)
        · rename_i d hd
          rw [inCell, mem_only] at hp
          simp only [Link.travelling, List.mem_flatten, List.mem_map, List.mem_reverse]
          exact ⟨_, ⟨d, List.mem_of_getElem? hd, rfl⟩, hp.1⟩
      · right; right
        have hA2 := pos_eq f2 (by rw [f3, hl1]) f5
        have hv := volumes_same K.truck l.base.args.scalar fin' cs2
        refine ⟨_, out, by simp only [Ctm.evolve, hu, Res.bind_ok', e1, f1]; rfl, ?_⟩
        refine ⟨?_, rfl, rfl, ?_, rfl, ?_, ?_, ?_⟩
        · have hlen2 : (volumes K.truck l.base.args.scalar fin' cs2).length = l.base.cells.length := by
            rw [hv.length, f3, hl1]
          refine ⟨h.scalar, ?_, ?_, hv.ok f4, ?_⟩
          · intro hh
            have : (volumes K.truck l.base.args.scalar fin' cs2).length = 0 := by
              exact congrArg List.length hh
            rw [hlen2] at this
            exact h.ne (List.length_eq_zero_iff.1 this)
          · show StopsWf l.stops (volumes K.truck l.base.args.scalar fin' cs2).length
            rw [hlen2]; exact h.wf
          · show Inv K l.stops _ (volumes K.truck l.base.args.scalar fin' cs2).length
              (posOf K (volumes K.truck l.base.args.scalar fin' cs2)) b2
            rw [hlen2, hv.posOf, ← hA2]; exact f2
        · show (volumes K.truck l.base.args.scalar fin' cs2).length = _
          rw [hv.length, f3, hl1]
        · simp only [Common.addWait]; exact f7
        · show reachedExit b2.log = _
          rw [f8, e8]
        · show entered b2.log = _
          rw [f9, e9]

/-! ## Coming onto the link -/

/-- Vehicles enter. -/
def adds (K : Kinds V) (A : Pos V) (vs : List V) : Pos V := fun c p =>
  if p = 0 then A c 0 ++ K.only c vs else A c p

theorem adds_nil (A : Pos V) : adds K A [] = A := by
  funext c p
  simp only [adds]
  split
  · rename_i h; subst h; simp [only_nil]
  · rfl

theorem adds_cons (A : Pos V) (v : V) (vs : List V) :
    adds K A (v :: vs) = adds K (add A v (K.cls v)) vs := by
  funext c p
  simp only [adds, add]
  by_cases hp : p = 0
  · subst hp
    simp only [if_true, and_true]
    by_cases hc : c = K.cls v
    · subst hc; rw [if_pos rfl, only_cons_same rfl]; simp
    · rw [if_neg hc, only_cons_ne (fun h => hc h.symm)]
  · simp [hp]

theorem comeIn_all {t : ℕ} (hw : StopsWf stops n) (hn : 0 < n) :
    ∀ (vs : List V) (A : Pos V) (b : Bay V), Inv K stops k n A b → vs.Nodup →
      (∀ v ∈ vs, ∀ c p, v ∉ A c p) →
      ∃ b', Res.foldlM (fun b v => comeIn K stops t v b) b vs = .ok b' ∧
        Inv K stops k n (adds K A vs) b' ∧ reachedExit b'.log = reachedExit b.log ∧
        entered b'.log = entered b.log ++ vs := by
  intro vs
  induction vs with
  | nil => intro A b hI _ _; exact ⟨b, rfl, by rw [adds_nil]; exact hI, rfl, by simp⟩
  | cons v vs ih =>
    intro A b hI hnd hv
    obtain ⟨b1, e1, e2⟩ := hI.comeIn (t := t) hw hn (hv v List.mem_cons_self)
    rw [List.nodup_cons] at hnd
    obtain ⟨b', f1, f2, f3, f4⟩ := ih (add A v (K.cls v)) b1 e2 hnd.2 (by
      intro w hw' c p hm
      simp only [add] at hm
      split at hm
      · rcases List.mem_append.1 hm with hm | hm
        · exact hv w (List.mem_cons_of_mem _ hw') _ _ hm
        · rw [List.mem_singleton.1 hm] at hw'; exact hnd.1 hw'
      · exact hv w (List.mem_cons_of_mem _ hw') _ _ hm)
    obtain ⟨g1, g2⟩ := comeIn_log e1
    refine ⟨b', ?_, by rw [adds_cons]; exact f2, by rw [f3, g1], by rw [f4, g2]; simp⟩
    rw [Res.foldlM_cons]
    show Res.bind _ _ = _
    rw [e1]; exact f1

theorem cls_truck (hK : K.Wf) (v : V) : K.truck v = false ↔ K.cls v = .car := by
  unfold Kinds.cls
  cases h : K.bus v with
  | some r => simp [hK v r h]
  | none => cases K.truck v <;> simp

theorem ctm_clear_inv {t : ℕ} {l : Ctm V} (hK : K.Wf) (h : CtmInv K l) (hnd : (Link.ctm l).present.Nodup) :
    ∃ l', l.clear K t = .ok l' ∧ CtmInv K l' ∧ l'.stops = l.stops ∧ l'.base.args = l.base.args ∧
      l'.base.cells.length = l.base.cells.length ∧ l'.base.com.incoming = [] ∧
      l'.base.com.finished = l.base.com.finished ∧
      reachedExit l'.bay.log = reachedExit l.bay.log ∧
      entered l'.bay.log = entered l.bay.log ++ l.base.com.incoming := by
  cases hc : l.base.cells with
  | nil => exact absurd hc h.ne
  | cons c rest =>
    have hI := h.inv
    rw [hc] at hI
    have hw := h.wf
    rw [hc] at hw
    simp only [Link.present, Link.com, List.nodup_append] at hnd
    obtain ⟨b', e1, e2, e3, e4⟩ := comeIn_all (t := t) hw (by simp) l.base.com.incoming _ _ hI hnd.1.1 (by
      intro v hv x p hm
      simp only [posOf] at hm
      split at hm
      · exact absurd hm (by simp)
      · rename_i d hd
        rw [inCell, mem_only] at hm
        refine hnd.1.2.2 v hv v ?_ rfl
        simp only [Link.travelling, List.mem_flatten, List.mem_map, List.mem_reverse]
        exact ⟨_, ⟨d, by rw [hc]; exact List.mem_of_getElem? hd, rfl⟩, hm.1⟩)
    refine ⟨_, by simp only [Ctm.clear, hc, e1, Res.bind_ok']; rfl, ?_⟩
    have okc := h.ok c (by rw [hc]; exact List.mem_cons_self)
    refine ⟨⟨h.scalar, by simp, by simpa using hw, ?_, ?_⟩, rfl, rfl, by simp, rfl, rfl, e3, e4⟩
    · intro d hd
      rcases List.mem_cons.1 hd with rfl | hd
      · refine ⟨?_, ?_⟩
        · intro v hv
          rcases List.mem_append.1 hv with hv | hv
          · exact okc.1 v hv
          · rw [List.mem_filter] at hv
            rw [← cls_truck hK]; simpa using hv.2
        · intro v hv
          rcases List.mem_append.1 hv with hv | hv
          · exact okc.2 v hv
          · rw [List.mem_filter] at hv
            intro h'
            rw [← cls_truck hK, hv.2] at h'
            exact absurd h' (by simp)
      · exact h.ok d (by rw [hc]; exact List.mem_cons_of_mem _ hd)
    · refine (congrArg (fun A => Inv K l.stops (Ults.trunc l.base.args.scalar) (rest.length + 1) A b') ?_).mpr e2
      funext x p
      cases p with
      | succ p => simp only [posOf, adds, List.getElem?_cons_succ]; simp
      | zero =>
        simp only [posOf, adds, List.getElem?_cons_zero, if_true, inCell, MLnk.Cell.updatePer, only_append]
        have hsplit : K.only x (l.base.com.incoming.filter fun v => !K.truck v) ++
            K.only x (l.base.com.incoming.filter K.truck) = K.only x l.base.com.incoming := by
          by_cases hx : x = .car
          · subst hx
            rw [only_none (l := l.base.com.incoming.filter K.truck), List.append_nil]
            · simp only [Kinds.only, List.filter_filter]
              apply List.filter_congr
              intro v _
              have := cls_truck hK v
              cases ht : K.truck v <;> simp [ht] at this <;> simp [this]
            · intro v hv h'
              rw [List.mem_filter] at hv
              rw [← cls_truck hK, hv.2] at h'
              exact absurd h' (by simp)
          · rw [only_none (l := l.base.com.incoming.filter fun v => !K.truck v), List.nil_append]
            · simp only [Kinds.only, List.filter_filter]
              apply List.filter_congr
              intro v _
              have := cls_truck hK v
              cases ht : K.truck v
              · simp [ht] at this; simp [this, Ne.symm hx]
              · simp
            · intro v hv h'
              rw [List.mem_filter] at hv
              have h2 : K.cls v = .car := by rw [← cls_truck hK]; simpa using hv.2
              rw [h2] at h'; exact hx h'.symm
        have hcomm : K.only x c.queueTruck = [] ∨
            K.only x (l.base.com.incoming.filter fun v => !K.truck v) = [] := by
          by_cases hx : x = .car
          · left; subst hx; exact only_none okc.2
          · right
            apply only_none
            intro v hv h'
            rw [List.mem_filter] at hv
            have h2 : K.cls v = .car := by rw [← cls_truck hK]; simpa using hv.2
            rw [h2] at h'; exact hx h'.symm
        rw [← hsplit]
        rcases hcomm with h0 | h0 <;> rw [h0] <;> simp

/-- The vehicles of a kind on the link. -/
theorem ctm_travelling {l : Ctm V} (c : Cls) :
    K.only c (Link.ctm l).travelling = trav (posOf K l.base.cells c) l.base.cells.length := by
  simp only [Link.travelling]
  generalize l.base.cells = cs
  induction cs using List.reverseRecOn with
  | nil => rfl
  | append_singleton cs d ih =>
    rw [List.reverse_append, List.map_append, List.flatten_append, only_append, ih, List.length_append]
    simp only [List.length_singleton, trav]
    congr 1
    · simp [posOf, inCell]
    · apply trav_congr
      intro p hp
      simp only [posOf]
      rw [List.getElem?_append_left hp]

theorem ctm_at {l : Ctm V} (c : Cls) (p : ℕ) : K.only c (Link.at_ p (.ctm l)) = posOf K l.base.cells c p := by
  simp only [Link.at_, posOf]
  split <;> simp_all [inCell, only_nil]

theorem trunc_one {x : ℚ} (h : 1 ≤ x) : 1 ≤ Ults.trunc x := by
  unfold Ults.trunc
  rw [if_pos (by linarith)]
  exact Int.le_floor.2 (by simpa using h)

theorem derive_scalar {a : Args} {r : Derived} (h : derive a = .ok r) : r.args.scalar = a.scalar := by
  unfold derive at h
  split_ifs at h
  rw [Res.bind_eq_ok'] at h
  obtain ⟨n0, _, h⟩ := h
  dsimp only at h
  split_ifs at h <;> · simp only [Res.ok.injEq] at h; subst h; rfl

theorem ctm_new {a : Args} {l : Ctm V} (h : Ctm.mk' a stops = .ok l) (hk : 1 ≤ a.scalar)
    (hw : StopsWf stops l.base.cells.length) :
    CtmInv K l ∧ l.bay = .empty ∧ l.base.com = .empty ∧ l.stops = stops ∧
      (Link.ctm l).travelling = [] := by
  simp only [Ctm.mk'] at h
  rw [Res.bind_eq_ok'] at h
  obtain ⟨m, hm, h⟩ := h
  simp only [Res.ok.injEq] at h
  subst h
  simp only [MLnk.Ctm.mk'] at hm
  rw [Res.bind_eq_ok'] at hm
  obtain ⟨_, _, hm⟩ := hm
  rw [Res.bind_eq_ok'] at hm
  obtain ⟨a', ha', hm⟩ := hm
  split_ifs at hm
  rw [Res.bind_eq_ok'] at hm
  obtain ⟨r, hr, hm⟩ := hm
  simp only [Res.ok.injEq] at hm
  subst hm
  have hs : r.args.scalar = a.scalar := by
    rw [derive_scalar hr]
    unfold checkAttrs at ha'
    split_ifs at ha'
    simp only [Res.ok.injEq] at ha'
    subst ha'; rfl
  have hq : ∀ d ∈ List.replicate (r.num - 1).toNat (MLnk.Cell.mk' r.std r.dia : MLnk.Cell V) ++
      [MLnk.Cell.mk' r.last r.dia], d.queueCar = [] ∧ d.queueTruck = [] := by
    intro d hd
    rcases List.mem_append.1 hd with hd | hd
    · rw [List.eq_of_mem_replicate hd]; exact ⟨rfl, rfl⟩
    · rw [List.mem_singleton.1 hd]; exact ⟨rfl, rfl⟩
  have hk' : 1 ≤ Ults.trunc r.args.scalar := by rw [hs]; exact trunc_one hk
  refine ⟨⟨hk', by simp, hw, ?_, ?_⟩, rfl, rfl, rfl, ?_⟩
  · intro d hd
    obtain ⟨h1, h2⟩ := hq d hd
    refine ⟨by rw [h1]; simp, by rw [h2]; simp⟩
  · have : posOf K (List.replicate (r.num - 1).toNat (MLnk.Cell.mk' r.std r.dia : MLnk.Cell V) ++
        [MLnk.Cell.mk' r.last r.dia]) = fun _ _ => [] := by
      funext x p
      simp only [posOf]
      split
      · rfl
      · rename_i d hd
        obtain ⟨h1, h2⟩ := hq d (List.mem_of_getElem? hd)
        rw [inCell, h1, h2]; rfl
    show Inv K stops _ _ (posOf K _) Bay.empty
    rw [this]; exact Inv.init hk'
  · simp only [Link.travelling, List.flatten_eq_nil_iff, List.mem_map, List.mem_reverse]
    rintro x ⟨d, hd, rfl⟩
    obtain ⟨h1, h2⟩ := hq d hd
    rw [h1, h2]; rfl

end Verif.MmLnk
