import Verif.Lemmas.MmCtmLink

/-! `evolve` and `clear_incoming_array` of the point queue with stops. -/

namespace Verif.MmLnk
open MLnk

variable {V : Type} [DecidableEq V]
variable {K : Kinds V} {stops : List Stop} {k : ℤ} {n : ℕ}

/-- The positions of the vehicles in the deque. -/
def posQ (K : Kinds V) (q : List (V × ℕ)) : Pos V := fun x p =>
  K.only x ((q.filter fun e => decide (e.2 = p)).map Prod.fst)

theorem posQ_append (l l' : List (V × ℕ)) (x : Cls) (p : ℕ) :
    posQ K (l ++ l') x p = posQ K l x p ++ posQ K l' x p := by
  simp [posQ, only_append]

theorem posQ_cons (v : V) (q : ℕ) (l : List (V × ℕ)) (x : Cls) (p : ℕ) :
    posQ K ((v, q) :: l) x p = (if K.cls v = x ∧ q = p then [v] else []) ++ posQ K l x p := by
  by_cases hq : q = p
  · by_cases hx : K.cls v = x
    · simp [posQ, hq, hx, Kinds.only]
    · simp [posQ, hq, hx, Kinds.only]
  · simp [posQ, hq]

theorem mem_posQ {l : List (V × ℕ)} {x : Cls} {p : ℕ} {v : V} :
    v ∈ posQ K l x p ↔ (v, p) ∈ l ∧ K.cls v = x := by
  simp only [posQ, mem_only, List.mem_map, List.mem_filter, decide_eq_true_eq]
  constructor
  · rintro ⟨⟨⟨w, q⟩, ⟨h1, h2⟩, h3⟩, h4⟩
    simp only at h2 h3
    subst h2 h3
    exact ⟨h1, h4⟩
  · rintro ⟨h1, h2⟩
    exact ⟨⟨(v, p), ⟨h1, rfl⟩, rfl⟩, h2⟩

/-- Within a kind the vehicles in front have travelled at least as long. -/
def Sorted (K : Kinds V) (q : List (V × ℕ)) : Prop :=
  q.Pairwise fun a b => K.cls a.1 = K.cls b.1 → b.2 ≤ a.2

theorem scan_inv {orc : ℕ → ℤ × Bool} {t : ℕ} {ms : ℤ} (hk : 1 ≤ k) (hw : StopsWf stops n)
    (hn : n = (max 1 ms).toNat) :
    ∀ (q D : List (V × ℕ)) (fin : List V) (b : Bay V),
      Inv K stops k n (posQ K (D ++ q)) b → (∀ e ∈ D ++ q, e.2 < n) → Sorted K (D ++ q) →
      (∀ d ∈ D, ∀ e ∈ q, K.cls d.1 = K.cls e.1 → d.2 = e.2 → Held K stops k b d.2 d.1) →
      ∃ q' fin' b' out, scan K stops k orc t ms q fin b = .ok (q', fin', b') ∧
        Inv K stops k n (posQ K (D ++ q')) b' ∧ (∀ e ∈ D ++ q', e.2 < n) ∧ Sorted K (D ++ q') ∧
        fin' = fin ++ out ∧ reachedExit b'.log = reachedExit b.log ++ out ∧
        entered b'.log = entered b.log := by
  intro q
  induction q with
  | nil =>
    intro D fin b hI hlt hs _
    exact ⟨[], fin, b, [], rfl, hI, hlt, hs, by simp, by simp, rfl⟩
  | cons e q ih =>
    obtain ⟨v, p⟩ := e
    intro D fin b hI hlt hs hh
    have hp : p < n := hlt (v, p) (by simp)
    have hA : posQ K (D ++ (v, p) :: q) (K.cls v) p =
        posQ K D (K.cls v) p ++ v :: posQ K q (K.cls v) p := by
      rw [posQ_append, posQ_cons]; simp
    have hm : v ∈ posQ K (D ++ (v, p) :: q) (K.cls v) p := by rw [hA]; simp
    have hturn : (∃ q', posQ K (D ++ (v, p) :: q) (K.cls v) p = v :: q') ∨
        Blocked K stops k (posQ K (D ++ (v, p) :: q)) b p v := by
      cases hd : posQ K D (K.cls v) p with
      | nil => left; rw [hA, hd]; exact ⟨_, rfl⟩
      | cons w l =>
        right
        have hw' : w ∈ posQ K D (K.cls v) p := by rw [hd]; exact List.mem_cons_self
        rw [mem_posQ] at hw'
        obtain ⟨r, i, h1, h2, h3⟩ := hh (w, p) hw'.1 (v, p) List.mem_cons_self hw'.2 rfl
        have hc : K.cls v = .bus r := by rw [← hw'.2]; exact cls_bus.2 h1
        refine ⟨r, i, cls_bus.1 hc, h2, h3, ?_⟩
        rw [← hc, hA, hd]; simp
    obtain ⟨b1, held, e1, e2, e3⟩ := hI.visit (orc := orc) (t := t) hk hw hm hturn
    have hs' := hs
    simp only [Sorted, List.pairwise_append, List.pairwise_cons] at hs'
    obtain ⟨s1, ⟨s2, s3⟩, s4⟩ := hs'
    obtain ⟨l1, l2⟩ := visit_log e1
    cases held with
    | true =>
      obtain ⟨f1, f2, f3⟩ := e2 rfl
      have hre : D ++ (v, p) :: q = (D ++ [(v, p)]) ++ q := by simp
      obtain ⟨q', fin', b', out, g1, g2, g3, g4, g5, g6, g7⟩ := ih (D ++ [(v, p)]) fin b1
        (by rw [← hre]; exact f1) (by rw [← hre]; exact hlt) (by rw [← hre]; exact hs) (by
          intro d hd e he hc heq
          rcases List.mem_append.1 hd with hd | hd
          · obtain ⟨r, i, h1, h2, h3⟩ := hh d hd e (List.mem_cons_of_mem _ he) hc heq
            exact ⟨r, i, h1, h2, f3 i h3⟩
          · rw [List.mem_singleton.1 hd]; exact f2)
      have hre' : D ++ (v, p) :: q' = (D ++ [(v, p)]) ++ q' := by simp
      refine ⟨(v, p) :: q', fin', b', out, ?_, by rw [hre']; exact g2, by rw [hre']; exact g3,
        by rw [hre']; exact g4, g5, by rw [g6, l1], by rw [g7, l2]⟩
      simp only [scan, e1, Res.bind_ok', if_true, g1]
    | false =>
      obtain ⟨q0, b2, f1, f2, f3, f4, f5⟩ := e3 rfl
      obtain ⟨m1, m2⟩ := goOn_log f2
      have hD : posQ K D (K.cls v) p = [] := by
        have hnd := nodup_at (hI.nodup (K.cls v)) hp
        rw [hA] at f1 hnd
        cases hd : posQ K D (K.cls v) p with
        | nil => rfl
        | cons w l =>
          exfalso
          rw [hd] at f1 hnd
          simp only [List.cons_append, List.cons.injEq] at f1
          rw [f1.1] at hnd
          simp only [List.cons_append, List.nodup_cons] at hnd
          exact hnd.1 (by simp)
      have hq1 : posQ K q (K.cls v) (p + 1) = [] := by
        rw [List.eq_nil_iff_forall_not_mem]
        intro w hw'
        rw [mem_posQ] at hw'
        have := s2 (w, p + 1) hw'.1 hw'.2.symm
        simp only at this
        omega
      have hheld : ∀ (b3 : Bay V), b3.counter = b2.counter → ∀ d ∈ D, ∀ e ∈ q, K.cls d.1 = K.cls e.1 →
          d.2 = e.2 → Held K stops k b3 d.2 d.1 := by
        intro b3 hb3 d hd e he hc heq
        obtain ⟨r, i, h1, h2, h3⟩ := hh d hd e (List.mem_cons_of_mem _ he) hc heq
        refine ⟨r, i, h1, h2, ?_⟩
        rw [hb3, f3 i, h3]
        intro r' hr' hst
        have h4 := stopAt_some hst
        rw [stopAt_some h2] at h4
        simp only [Option.some.injEq, Stop.mk.injEq] at h4
        have : d.1 ∈ posQ K D (K.cls v) p := by
          rw [mem_posQ]
          refine ⟨by rw [← h4.2]; exact hd, ?_⟩
          rw [cls_bus.2 h1, cls_bus.2 hr', h4.1]
        rw [hD] at this
        exact absurd this (by simp)
      by_cases hend : (p : ℤ) ≥ max 0 (ms - 1)
      · -- leaves
        have hnp : n = p + 1 := by omega
        obtain ⟨h5, h6⟩ := f5 hnp
        have hpos : mv (posQ K (D ++ (v, p) :: q)) (K.cls v) p v n = posQ K (D ++ q) := by
          funext x p'
          simp only [mv]
          split
          · rename_i hx
            rw [hx.1, hx.2, hA, hD, posQ_append, hD]; rfl
          · rename_i hx
            rw [if_neg (by omega), posQ_append, posQ_cons, if_neg (by rintro ⟨h1, h2⟩; exact hx ⟨h1.symm, h2.symm⟩),
              posQ_append]
            rfl
        obtain ⟨q', fin', b', out, g1, g2, g3, g4, g5, g6, g7⟩ := ih D (fin ++ [v]) (b2.note t (.leave v))
          (by rw [← hpos]; exact h6) (fun e he => hlt e (by
            rcases List.mem_append.1 he with he | he
            · exact List.mem_append_left _ he
            · exact List.mem_append_right _ (List.mem_cons_of_mem _ he)))
          (by
            simp only [Sorted, List.pairwise_append]
            exact ⟨s1, s3, fun d hd e he => s4 d hd e (List.mem_cons_of_mem _ he)⟩)
          (hheld _ rfl)
        refine ⟨q', fin', b', v :: out, ?_, g2, g3, g4, by rw [g5]; simp, ?_, ?_⟩
        · simp only [scan, e1, Res.bind_ok', f2, h5]
          simp only [Bool.false_eq_true, if_false]
          rw [if_pos hend]; exact g1
        · rw [g6]; simp only [Bay.note, exit_append, m1, l1]
          simp [reachedExit]
        · rw [g7]; simp only [Bay.note, entered_append, m2, l2]
          simp [entered]
      · have hnp : p + 1 < n := by omega
        have h6 := f4 hnp
        have hpos : mv (posQ K (D ++ (v, p) :: q)) (K.cls v) p v n = posQ K ((D ++ [(v, p + 1)]) ++ q) := by
          funext x p'
          simp only [mv]
          split
          · rename_i hx
            rw [hx.1, hx.2, hA, hD, posQ_append, posQ_append, hD, posQ_cons, if_neg (by omega)]; rfl
          · rename_i hx
            split
            · rename_i hx2
              rw [hx2.1, hx2.2.1, posQ_append, posQ_cons, if_neg (by omega), hq1, posQ_append, posQ_append,
                posQ_cons, if_pos ⟨rfl, rfl⟩, hq1]
              simp [posQ, only_nil]
            · rename_i hx2
              rw [posQ_append, posQ_cons, if_neg (by rintro ⟨h1, h2⟩; exact hx ⟨h1.symm, h2.symm⟩),
                posQ_append, posQ_append, posQ_cons,
                if_neg (by rintro ⟨h1, h2⟩; exact hx2 ⟨h1.symm, h2.symm, hnp⟩)]
              simp [posQ, only_nil]
        have hbc : (comeTo K stops t (p + 1) v b2).counter = b2.counter := comeTo_counter _ _ _ _
        obtain ⟨n1, n2⟩ := comeTo_log (K := K) (stops := stops) (t := t) (p := p + 1) (v := v) (b := b2)
        have hgt : ∀ d ∈ D, K.cls d.1 = K.cls v → p + 1 ≤ d.2 := by
          intro d hd hc
          have h1 := s4 d hd (v, p) List.mem_cons_self hc
          rcases Nat.eq_or_lt_of_le h1 with h2 | h2
          · exfalso
            have : d.1 ∈ posQ K D (K.cls v) p := by
              rw [mem_posQ]; exact ⟨by simp only at h2; rw [h2]; exact hd, hc⟩
            rw [hD] at this
            exact absurd this (by simp)
          · exact h2
        obtain ⟨q', fin', b', out, g1, g2, g3, g4, g5, g6, g7⟩ := ih (D ++ [(v, p + 1)]) fin
          (comeTo K stops t (p + 1) v b2) (by rw [← hpos]; exact h6)
          (by
            intro e he
            rcases List.mem_append.1 he with he | he
            · rcases List.mem_append.1 he with he | he
              · exact hlt e (List.mem_append_left _ he)
              · rw [List.mem_singleton.1 he]; exact hnp
            · exact hlt e (List.mem_append_right _ (List.mem_cons_of_mem _ he)))
          (by
            simp only [Sorted, List.pairwise_append, List.pairwise_cons, List.mem_append,
              List.mem_singleton]
            refine ⟨⟨s1, by simp, ?_⟩, s3, ?_⟩
            · intro d hd e he hc
              rw [he] at hc ⊢
              exact hgt d hd hc
            · rintro d (hd | hd) e he hc
              · exact s4 d hd e (List.mem_cons_of_mem _ he) hc
              · rw [hd] at hc ⊢
                have := s2 e he hc
                simp only at this ⊢
                omega)
          (by
            intro d hd e he hc heq
            rcases List.mem_append.1 hd with hd | hd
            · exact hheld _ hbc d hd e he hc heq
            · rw [List.mem_singleton] at hd
              rw [hd] at hc heq
              have := s2 e he hc
              simp only at this heq
              omega)
        have hre' : D ++ (v, p + 1) :: q' = (D ++ [(v, p + 1)]) ++ q' := by simp
        refine ⟨(v, p + 1) :: q', fin', b', out, ?_, by rw [hre']; exact g2, by rw [hre']; exact g3,
          by rw [hre']; exact g4, g5, by rw [g6, n1, m1, l1], by rw [g7, n2, m2, l2]⟩
        simp only [scan, e1, Res.bind_ok', f2]
        simp only [Bool.false_eq_true, if_false]
        rw [if_neg hend, g1]; rfl

/-- The invariant of a point queue with stops. -/
structure PqInv (K : Kinds V) (l : Pq V) : Prop where
  scalar : 1 ≤ Ults.trunc l.base.args.scalar
  pool : l.base.pool = []
  wf : StopsWf l.stops (max 1 l.base.maxStamp).toNat
  low : ∀ e ∈ l.queue, e.2 < (max 1 l.base.maxStamp).toNat
  sorted : Sorted K l.queue
  inv : Inv K l.stops (Ults.trunc l.base.args.scalar) (max 1 l.base.maxStamp).toNat (posQ K l.queue) l.bay

theorem pq_evolve_inv {t : ℕ} {orc : ℕ → ℤ × Bool} {l : Pq V} (h : PqInv K l) :
    ∃ l' out, l.evolve K t orc = .ok l' ∧ PqInv K l' ∧ l'.stops = l.stops ∧
      l'.base.maxStamp = l.base.maxStamp ∧ l'.base.args = l.base.args ∧
      l'.origin = l.origin ∧ l'.base.com.incoming = l.base.com.incoming ∧
      l'.base.com.finished = l.base.com.finished ++ out ∧
      reachedExit l'.bay.log = reachedExit l.bay.log ++ out ∧
      entered l'.bay.log = entered l.bay.log := by
  obtain ⟨q', fin', b', out, g1, g2, g3, g4, g5, g6, g7⟩ := scan_inv (orc := orc) (t := t) h.scalar h.wf rfl
    l.queue [] l.base.com.finished l.bay h.inv h.low h.sorted (by simp)
  refine ⟨_, out, by simp only [Pq.evolve, g1, Res.bind_ok']; rfl, ?_⟩
  exact ⟨⟨h.scalar, h.pool, h.wf, g3, g4, g2⟩, rfl, rfl, rfl, rfl, rfl, by simp only [Common.addWait]; exact g5, g6, g7⟩

theorem letIn_inv {t : ℕ} {origin : Bool} (hw : StopsWf stops n) (hn : 0 < n) :
    ∀ (vs : List V) (x : ℚ) (w : V → ℤ) (A : Pos V) (b : Bay V), Inv K stops k n A b → vs.Nodup →
      (∀ v ∈ vs, ∀ c p, v ∉ A c p) →
      ∃ r, letIn K stops t origin x vs w b = .ok r ∧ (r.inside ++ r.outside).Perm vs ∧
        (origin = false → r.inside ++ r.outside = vs) ∧
        Inv K stops k n (adds K A r.inside) r.bay ∧ reachedExit r.bay.log = reachedExit b.log ∧
        entered r.bay.log = entered b.log ++ r.inside := by
  intro vs
  induction vs with
  | nil =>
    intro x w A b hI _ _
    exact ⟨⟨[], [], w, b⟩, rfl, by simp, by simp, by rw [adds_nil]; exact hI, rfl, by simp⟩
  | cons v vs ih =>
    intro x w A b hI hnd hv
    have hnd' := List.nodup_cons.1 hnd
    simp only [letIn]
    by_cases hx : x > 0
    · rw [if_pos hx]
      split
      · rename_i ho
        obtain ⟨r, e1, e2, e3, e5, e6, e7⟩ := ih x (upd w v (w v - 1)) A b hI hnd'.2
          fun u hu => hv u (List.mem_cons_of_mem _ hu)
        refine ⟨{ r with outside := v :: r.outside }, by rw [e1]; rfl, ?_, ?_, e5, e6, e7⟩
        · exact List.perm_middle.trans (e2.cons v)
        · intro h; rw [h] at ho; exact absurd ho.1 (by simp)
      · obtain ⟨b1, f1, f2⟩ := hI.comeIn (t := t) hw hn (hv v List.mem_cons_self)
        rw [f1, Res.bind_ok']
        obtain ⟨r, e1, e2, e3, e5, e6, e7⟩ := ih (x - 1) (if origin then upd w v 0 else w)
          (add A v (K.cls v)) b1 f2 hnd'.2 (by
            intro u hu c p hm
            simp only [add] at hm
            split at hm
            · rcases List.mem_append.1 hm with hm | hm
              · exact hv u (List.mem_cons_of_mem _ hu) _ _ hm
              · rw [List.mem_singleton.1 hm] at hu; exact hnd'.1 hu
            · exact hv u (List.mem_cons_of_mem _ hu) _ _ hm)
        obtain ⟨g1, g2⟩ := comeIn_log f1
        refine ⟨{ r with inside := v :: r.inside }, by rw [e1]; rfl, e2.cons v,
          fun h => by simp only [List.cons_append, e3 h], ?_,
          by rw [← g1]; exact e6, ?_⟩
        · show Inv K stops k n (adds K A (v :: r.inside)) r.bay
          rw [adds_cons]; exact e5
        · show entered r.bay.log = entered b.log ++ (v :: r.inside)
          rw [e7, g2]; simp
    · rw [if_neg hx]
      exact ⟨⟨[], v :: vs, w, b⟩, rfl, by simp, by simp, by rw [adds_nil]; exact hI, rfl, by simp⟩

theorem posQ_adds (q : List (V × ℕ)) (vs : List V) :
    posQ K (q ++ vs.map fun v => (v, 0)) = adds K (posQ K q) vs := by
  funext x p
  rw [posQ_append]
  simp only [adds]
  by_cases hp : p = 0
  · subst hp
    simp [posQ, List.filter_map, Function.comp_def]
  · rw [if_neg hp]
    simp [posQ, List.filter_map, Function.comp_def, Ne.symm hp, only_nil]

theorem pq_clear_inv {t : ℕ} {l : Pq V} (h : PqInv K l) (hnd : (Link.pq l).present.Nodup) :
    ∃ l' ins, l.clear K t = .ok l' ∧ PqInv K l' ∧ l'.stops = l.stops ∧
      l'.base.maxStamp = l.base.maxStamp ∧ l'.base.args = l.base.args ∧
      l'.origin = l.origin ∧ (ins ++ l'.base.com.incoming).Perm l.base.com.incoming ∧
      (l.origin = false → ins ++ l'.base.com.incoming = l.base.com.incoming) ∧
      l'.base.com.finished = l.base.com.finished ∧
      reachedExit l'.bay.log = reachedExit l.bay.log ∧
      entered l'.bay.log = entered l.bay.log ++ ins := by
  simp only [Link.present, Link.com, List.nodup_append] at hnd
  obtain ⟨r, e1, e2, e3, e5, e6, e7⟩ := letIn_inv (t := t) (origin := l.origin) h.wf (by omega)
    l.base.com.incoming (l.base.supply * l.base.args.scalar) l.wait _ _ h.inv hnd.1.1 (by
      intro v hv c p hm
      rw [mem_posQ] at hm
      refine hnd.1.2.2 v hv v ?_ rfl
      simp only [Link.travelling, List.mem_map]
      exact ⟨_, hm.1, rfl⟩)
  refine ⟨_, r.inside, by simp only [Pq.clear, e1, Res.bind_ok']; rfl, ?_⟩
  refine ⟨⟨h.scalar, h.pool, h.wf, ?_, ?_, ?_⟩, rfl, rfl, rfl, rfl, e2, e3, rfl, e6, e7⟩
  · intro e he
    rcases List.mem_append.1 he with he | he
    · exact h.low e he
    · obtain ⟨v, _, rfl⟩ := List.mem_map.1 he
      show 0 < (max 1 l.base.maxStamp).toNat
      omega
  · show Sorted K (l.queue ++ r.inside.map fun v => (v, 0))
    simp only [Sorted, List.pairwise_append]
    refine ⟨h.sorted, ?_, ?_⟩
    · rw [List.pairwise_map]
      exact List.pairwise_of_forall fun _ _ _ => le_rfl
    · intro d _ e he _
      obtain ⟨v, _, rfl⟩ := List.mem_map.1 he
      exact Nat.zero_le _
  · show Inv K l.stops _ _ (posQ K (l.queue ++ r.inside.map fun v => (v, 0))) r.bay
    rw [posQ_adds]; exact e5

theorem sorted_trav : ∀ (q : List (V × ℕ)) (m : ℕ), Sorted K q → (∀ e ∈ q, e.2 < m) → ∀ c,
    trav (posQ K q c) m = K.only c (q.map Prod.fst)
  | [], m, _, _, c => by
    rw [trav_congr (g := fun _ => [])]
    · induction m with
      | zero => rfl
      | succ m ih => simp only [trav]; rw [ih (by simp)]; simp [only_nil]
    · intro p _; rfl
  | (v, p) :: q, m, hs, hlt, c => by
    have ih := sorted_trav q m (List.pairwise_cons.1 hs).2
      (fun e he => hlt e (List.mem_cons_of_mem _ he)) c
    have hp : p < m := hlt (v, p) List.mem_cons_self
    by_cases hc : K.cls v = c
    · rw [List.map_cons, only_cons_same hc, ← ih]
      have hab : ∀ p', p < p' → posQ K q c p' = [] := by
        intro p' hp'
        rw [List.eq_nil_iff_forall_not_mem]
        intro w hw
        rw [mem_posQ] at hw
        have := (List.pairwise_cons.1 hs).1 _ hw.1 (by rw [hc, hw.2])
        simp only at this
        omega
      have key : ∀ m', p < m' → trav (posQ K ((v, p) :: q) c) m' = v :: trav (posQ K q c) m' := by
        intro m'
        induction m' with
        | zero => intro h; omega
        | succ m' ihm =>
          intro h
          simp only [trav]
          rcases Nat.eq_or_lt_of_le (Nat.le_of_lt_succ h) with h1 | h1
          · rw [posQ_cons, if_pos ⟨hc, h1⟩, trav_congr (g := posQ K q c)]
            · rfl
            · intro p' hp'
              rw [posQ_cons, if_neg (by omega)]; rfl
          · rw [posQ_cons, if_neg (by omega), hab m' h1, ihm h1]; rfl
      exact key m hp
    · rw [List.map_cons, only_cons_ne hc, ← ih]
      apply trav_congr
      intro p' _
      rw [posQ_cons, if_neg (by tauto)]; rfl

theorem pq_travelling {l : Pq V} (h : PqInv K l) (c : Cls) :
    K.only c (Link.pq l).travelling = trav (posQ K l.queue c) (max 1 l.base.maxStamp).toNat :=
  (sorted_trav l.queue _ h.sorted h.low c).symm

theorem pq_new {a : Args} {origin : Bool} {wait : V → ℤ} {l : Pq V}
    (h : Pq.mk' a origin wait stops = .ok l) (hk : 1 ≤ a.scalar)
    (hw : StopsWf stops (max 1 l.base.maxStamp).toNat) :
    PqInv K l ∧ l.bay = .empty ∧ l.base.com = .empty ∧ l.stops = stops ∧
      (Link.pq l).travelling = [] := by
  simp only [Pq.mk'] at h
  rw [Res.bind_eq_ok'] at h
  obtain ⟨m, hm, h⟩ := h
  simp only [Res.ok.injEq] at h
  subst h
  simp only [MLnk.Pq.mk'] at hm
  rw [Res.bind_eq_ok'] at hm
  obtain ⟨_, _, hm⟩ := hm
  split_ifs at hm
  rw [Res.bind_eq_ok'] at hm
  obtain ⟨r, hr, hm⟩ := hm
  simp only [Res.ok.injEq] at hm
  subst hm
  have hk' := trunc_one hk
  exact ⟨⟨hk', rfl, hw, by simp, List.Pairwise.nil, Inv.init hk'⟩, rfl, rfl, rfl, rfl⟩

end Verif.MmLnk
