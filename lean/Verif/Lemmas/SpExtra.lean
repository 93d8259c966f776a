import Verif.Lemmas.ShortestPath

/-! # Path extraction and the LIFO variant -/

namespace Verif.Sp
open Graph

section
variable {g : G} {cost : ℤ → Option Cost} {w : ℤ → Cost} {dest : ℤ} {o0 : ℤ → Option ℤ} {d : ℤ → Cost}
  {out : ℤ → Option ℤ} {p : ℤ → List ℤ}

theorem extract_reach (hc : Ctx g cost w) (h : Inv g w dest o0 d out p (fun _ => False)) {v : ℤ}
    (hr : Reach g dest out v) (hv : d v ≠ ⊤) :
    ∃ ls, (∀ n, extractPath g dest out (ls.length + 1 + n) v = .ok (some (walkNodes g v ls, ls))) ∧
      Walk g v ls dest ∧ walkCost w ls = d v := by
  have base : ∃ ls, (∀ n, extractPath g dest out (ls.length + 1 + n) dest
        = .ok (some (walkNodes g dest ls, ls))) ∧ Walk g dest ls dest ∧ walkCost w ls = d dest := by
    refine ⟨[], ?_, rfl, by rw [h.dest0]; rfl⟩
    intro n
    rw [show ([] : List ℤ).length + 1 + n = n + 1 from by simp; omega]
    simp [extractPath, walkNodes]
  induction hr with
  | dest => exact base
  | step v l t h1 h2 h3 ih =>
    by_cases hvd : v = dest
    · subst hvd; exact base
    · obtain ⟨l', t', e1, e2, hle⟩ := h.next v hvd hv
      rw [h1] at e1
      cases e1
      rw [h2] at e2
      cases e2
      have heq : d v = d t + w l := le_antisymm ((h.tight l v t h2).resolve_left id) hle
      obtain ⟨ls, a, b, c⟩ := ih (by
        intro htop
        rw [htop] at heq
        rw [heq] at hv
        simp at hv)
      refine ⟨l :: ls, ?_, ⟨t, h2, b⟩, by rw [walkCost_cons, c, heq, add_comm]⟩
      intro n
      rw [show (l :: ls).length + 1 + n = (ls.length + 1 + n) + 1 from by simp; omega]
      simp only [extractPath, if_neg hvd, h1, if_neg (hc.cost l v t h2).2.2.1, h2, Res.bind_ok', a n,
        Option.map_some, walkNodes]

theorem extract_none (h : Inv g w dest o0 d out p (fun _ => False)) {v : ℤ} (hv : d v = ⊤)
    (ho : o0 v = none ∨ o0 v = some (-1)) (fuel : ℕ) :
    extractPath g dest out (fuel + 1) v = .ok none := by
  have hvd : v ≠ dest := by
    rintro rfl
    rw [h.dest0] at hv
    cases hv
  simp only [extractPath, if_neg hvd, h.untouched v (Or.inr hv)]
  rcases ho with ho | ho <;> simp [ho]

/-! ## LIFO -/

/-- One-link labels: every node has the cost of a cheapest link leaving it. -/
structure OneLink (g : G) (w : ℤ → Cost) (dest : ℤ) (s : Lab) (done : ℤ → Prop) : Prop where
  dest0 : lab s.dist dest = 0
  tight : ∀ l f t, getEndpoints g l = .ok (f, t) → done l → f ≠ dest → lab s.dist f ≤ w l
  next : ∀ v, v ≠ dest → lab s.dist v ≠ ⊤ → ∃ l t, s.out v = some l ∧ getEndpoints g l = .ok (v, t) ∧
    w l = lab s.dist v
  noNext : ∀ v, v ≠ dest → lab s.dist v = ⊤ → v ∈ nodeIds g → s.out v = some (-1)

theorem pushFront_mem (q : List ℤ) (x y : ℤ) : y ∈ pushFront q x ↔ y ∈ q ∨ y = x := by
  simp [pushFront]; tauto

theorem lifo_first (hc : Ctx g cost w) : ∀ (ls : List ℤ) (s : Lab) (done : ℤ → Prop),
    (∀ l ∈ ls, ∃ f t, getEndpoints g l = .ok (f, t)) → LabOk g dest s → OneLink g w dest s done →
    ∃ s', Res.foldlM (relax pushFront g cost 0) s ls = .ok s' ∧ LabOk g dest s' ∧
      OneLink g w dest s' (fun l => done l ∨ l ∈ ls)
  | [], s, done, _, hs, ho => ⟨s, rfl, hs, ⟨ho.dest0, fun l f t e h => ho.tight l f t e (by simpa using h),
      ho.next, ho.noNext⟩⟩
  | l :: ls, s, done, hl, hs, ho => by
    obtain ⟨f, t, he⟩ := hl l (by simp)
    obtain ⟨hcost, hw, _, _⟩ := hc.cost _ _ _ he
    obtain ⟨hf, _, _⟩ := hc.ends _ _ _ he
    obtain ⟨df, hdf⟩ := Option.isSome_iff_exists.1 (hs.dist f hf)
    have hlab : lab s.dist f = df := by simp [lab, hdf]
    have step : ∃ s1, relax pushFront g cost 0 s l = .ok s1 ∧ LabOk g dest s1 ∧
        OneLink g w dest s1 (fun x => done x ∨ x = l) := by
      unfold relax
      rw [he, Res.bind_ok']
      simp only [hcost, hdf, zero_add]
      by_cases hlt : w l < df
      · rw [if_pos hlt]
        have hfd : f ≠ dest := by
          rintro rfl
          have h0 := ho.dest0
          rw [hlab] at h0
          subst h0
          exact absurd hlt (not_lt.2 hw)
        obtain ⟨o, hout⟩ := Option.isSome_iff_exists.1 (hs.out f hf hfd)
        obtain ⟨b, hb⟩ := Option.isSome_iff_exists.1 (hs.sup f hf)
        simp only [hout, hb]
        have hq : ∀ y, y ∈ (if b then s.q else pushFront s.q f) ↔ y ∈ s.q ∨ y = f := by
          intro y
          cases b with
          | true =>
            have : f ∈ s.q := (hs.sup_iff f).1 hb
            simp only [if_true]
            constructor
            · exact Or.inl
            · rintro (h | rfl)
              · exact h
              · exact this
          | false => simp only [Bool.false_eq_true, if_false, pushFront_mem]
        refine ⟨_, rfl, ⟨?_, ?_, ?_, ?_, ?_, ?_⟩, ⟨?_, ?_, ?_, ?_⟩⟩
        · intro x hx
          by_cases hxf : x = f
          · subst hxf; simp
          · simp only; rw [upd_other _ _ _ _ hxf]; exact hs.dist x hx
        · intro x hx hxd
          by_cases hxf : x = f
          · subst hxf; simp
          · simp only; rw [upd_other _ _ _ _ hxf]; exact hs.out x hx hxd
        · intro x hx
          by_cases hxf : x = f
          · subst hxf; simp
          · simp only; rw [upd_other _ _ _ _ hxf]; exact hs.sup x hx
        · intro x
          simp only
          rw [hq]
          by_cases hxf : x = f
          · subst hxf; simp
          · rw [upd_other _ _ _ _ hxf, hs.sup_iff]
            simp [hxf]
        · intro x hx
          rcases (hq x).1 hx with hx | rfl
          · exact hs.q x hx
          · exact hf
        · cases b with
          | true => simpa using hs.nd
          | false =>
            simp only [Bool.false_eq_true, if_false, pushFront, List.nodup_cons]
            refine ⟨fun hm => ?_, hs.nd⟩
            have := (hs.sup_iff f).2 hm
            rw [hb] at this
            cases this
        · rw [lab_upd, upd_other _ _ _ _ hfd.symm]; exact ho.dest0
        · intro l' f' t' e' hd' hfd'
          rw [lab_upd]
          by_cases hff : f' = f
          · subst hff
            rw [upd_same]
            rcases hd' with hd' | rfl
            · exact hlt.le.trans (hlab ▸ ho.tight l' f' t' e' hd' hfd')
            · exact le_refl _
          · rw [upd_other _ _ _ _ hff]
            rcases hd' with hd' | rfl
            · exact ho.tight l' f' t' e' hd' hfd'
            · rw [he] at e'; cases e'; exact absurd rfl hff
        · intro v hv hn
          rw [lab_upd] at hn ⊢
          simp only
          by_cases hff : v = f
          · subst hff
            rw [upd_same, upd_same]
            exact ⟨l, t, rfl, he, rfl⟩
          · rw [upd_other _ _ _ _ hff] at hn ⊢
            rw [upd_other _ _ _ _ hff]
            exact ho.next v hv hn
        · intro v hv hn hnode
          rw [lab_upd] at hn
          simp only
          by_cases hff : v = f
          · subst hff
            rw [upd_same] at hn
            exact absurd hn (ne_top_of_lt hlt)
          · rw [upd_other _ _ _ _ hff] at hn ⊢
            exact ho.noNext v hv hn hnode
      · rw [if_neg hlt]
        refine ⟨s, rfl, hs, ho.dest0, ?_, ho.next, ho.noNext⟩
        intro l' f' t' e' hd' hfd'
        rcases hd' with hd' | rfl
        · exact ho.tight l' f' t' e' hd' hfd'
        · rw [he] at e'; cases e'; rw [hlab]; exact not_lt.1 hlt
    obtain ⟨s1, e1, h1, o1⟩ := step
    obtain ⟨s2, e2, h2, o2⟩ := lifo_first hc ls s1 _ (fun x hx => hl x (by simp [hx])) h1 o1
    refine ⟨s2, by rw [Res.foldlM_cons, e1]; exact e2, h2, o2.dest0, ?_, o2.next, o2.noNext⟩
    intro l' f' t' e' hd'
    refine o2.tight l' f' t' e' ?_
    rcases hd' with hd' | hd'
    · exact Or.inl (Or.inl hd')
    · rcases List.mem_cons.1 hd' with rfl | hd'
      · exact Or.inl (Or.inr rfl)
      · exact Or.inr hd'

theorem lifo_idle (hc : Ctx g cost w) {s : Lab} (hs : LabOk g dest s)
    (ho : OneLink g w dest s (fun _ => True)) {td : Cost} (htd : 0 ≤ td) :
    ∀ (ls : List ℤ), (∀ l ∈ ls, ∃ f t, getEndpoints g l = .ok (f, t)) →
      Res.foldlM (relax pushFront g cost td) s ls = .ok s
  | [], _ => rfl
  | l :: ls, hl => by
    obtain ⟨f, t, he⟩ := hl l (by simp)
    obtain ⟨hcost, hw, _, _⟩ := hc.cost _ _ _ he
    obtain ⟨hf, _, _⟩ := hc.ends _ _ _ he
    obtain ⟨df, hdf⟩ := Option.isSome_iff_exists.1 (hs.dist f hf)
    have hlab : lab s.dist f = df := by simp [lab, hdf]
    have hnlt : ¬ td + w l < df := by
      rw [not_lt, ← hlab]
      by_cases hfd : f = dest
      · rw [hfd, ho.dest0]; exact add_nonneg htd hw
      · exact (ho.tight l f t he trivial hfd).trans (le_add_of_nonneg_left htd)
    have : relax pushFront g cost td s l = .ok s := by
      unfold relax
      rw [he, Res.bind_ok']
      simp only [hcost, hdf, if_neg hnlt]
    rw [Res.foldlM_cons, this]
    exact lifo_idle hc hs ho htd ls (fun x hx => hl x (by simp [hx]))

theorem pop_ok {s : Lab} (hs : LabOk g dest s) {v : ℤ} {q : List ℤ} (hq : s.q = v :: q) :
    LabOk g dest { s with
      q := q
      sup := upd s.sup v (some false) } := by
  have hnq : v ∉ q ∧ q.Nodup := by
    have := hs.nd
    rw [hq, List.nodup_cons] at this
    exact this
  refine ⟨hs.dist, hs.out, (by
      intro x hx
      by_cases hxv : x = v
      · subst hxv; simp
      · simp only; rw [upd_other _ _ _ _ hxv]; exact hs.sup x hx), (by
      intro x
      simp only
      by_cases hxv : x = v
      · subst hxv; simp [hnq.1]
      · rw [upd_other _ _ _ _ hxv, hs.sup_iff, hq]; simp [hxv]),
    (fun x hx => hs.q x (by rw [hq]; exact List.mem_cons_of_mem _ hx)), hnq.2⟩

theorem lifo_drain (hc : Ctx g cost w) {links : List ℤ}
    (hl : ∀ l ∈ links, ∃ f t, getEndpoints g l = .ok (f, t)) :
    ∀ (k : ℕ) (s : Lab), s.q.length = k → LabOk g dest s → OneLink g w dest s (fun _ => True) →
      ∃ s', (∀ n, lifoLoop links g cost (k + 1 + n) s = .ok s') ∧ s'.dist = s.dist ∧ s'.out = s.out
  | 0, s, hk, _, _ => by
    refine ⟨s, fun n => ?_, rfl, rfl⟩
    rw [show 0 + 1 + n = n + 1 from by omega]
    simp [lifoLoop, List.length_eq_zero_iff.1 hk]
  | k + 1, s, hk, hs, ho => by
    cases hq : s.q with
    | nil => rw [hq] at hk; simp at hk
    | cons v q =>
      have hv : v ∈ nodeIds g := hs.q v (by rw [hq]; simp)
      obtain ⟨td, htd⟩ := Option.isSome_iff_exists.1 (hs.dist v hv)
      have hlab : lab s.dist v = td := by simp [lab, htd]
      have hnn : 0 ≤ td := by
        rw [← hlab]
        by_cases hvd : v = dest
        · rw [hvd, ho.dest0]
        · by_cases htop : lab s.dist v = ⊤
          · rw [htop]; exact le_top
          · obtain ⟨l, t, _, e, h⟩ := ho.next v hvd htop
            rw [← h]; exact (hc.cost l v t e).2.1
      have hs1 := pop_ok hs hq
      have ho1 : OneLink g w dest { s with
          q := q
          sup := upd s.sup v (some false) } (fun _ => True) := ⟨ho.dest0, ho.tight, ho.next, ho.noNext⟩
      obtain ⟨s', h1, h2, h3⟩ := lifo_drain hc hl k _ (by rw [hq] at hk; simpa using hk) hs1 ho1
      refine ⟨s', fun n => ?_, h2, h3⟩
      rw [show k + 1 + 1 + n = (k + 1 + n) + 1 from by omega]
      simp only [lifoLoop, hq, htd, lifo_idle hc hs1 ho1 hnn links hl, Res.bind_ok']
      exact h1 n

theorem lifo_spec (hc : Ctx g cost w) (hd : dest ∈ nodeIds g) {links : List ℤ}
    (hl : ∀ l, l ∈ links ↔ ∃ f t, getEndpoints g l = .ok (f, t)) (out : ℤ → Option ℤ) :
    ∃ n0 s, (∀ fuel, n0 ≤ fuel → lifo fuel links g dest cost out = .ok s) ∧
      OneLink g w dest s (fun _ => True) := by
  have h0 := lab_init hd out
  have hs0 := pop_ok h0 (v := dest) (q := []) rfl
  have ho0 : OneLink g w dest { labInit g dest out with
      q := []
      sup := upd (labInit g dest out).sup dest (some false) } (fun _ => False) := by
    refine ⟨by simp [lab, labInit], fun _ _ _ _ h => h.elim, ?_, ?_⟩
    · intro v hv hn
      exfalso
      apply hn
      by_cases h : v ∈ nodeIds g <;> simp [lab, labInit, hv, h]
    · intro v hv _ hnode
      simp [labInit, hv, hnode]
  obtain ⟨s1, e1, h1, o1⟩ := lifo_first hc links _ _ (fun l h => (hl l).1 h) hs0 ho0
  have o1' : OneLink g w dest s1 (fun _ => True) :=
    ⟨o1.dest0, fun l f t e _ => o1.tight l f t e (Or.inr ((hl l).2 ⟨f, t, e⟩)), o1.next, o1.noNext⟩
  obtain ⟨s2, e2, hd2, ho2⟩ := lifo_drain hc (fun l h => (hl l).1 h) _ s1 rfl h1 o1'
  refine ⟨s1.q.length + 2, s2, ?_, ?_⟩
  · intro fuel hf
    obtain ⟨n, rfl⟩ := Nat.exists_eq_add_of_le hf
    have := e2 n
    unfold lifo
    rw [show s1.q.length + 2 + n = (s1.q.length + 1 + n) + 1 from by omega]
    have hdist : (labInit g dest out).dist dest = some 0 := by simp [labInit]
    have hq : (labInit g dest out).q = [dest] := rfl
    simp only [lifoLoop, hq, hdist]
    rw [e1, Res.bind_ok']
    exact this
  · refine ⟨?_, ?_, ?_, ?_⟩
    · rw [hd2]; exact o1'.dest0
    · intro l f t e h; rw [hd2]; exact o1'.tight l f t e h
    · intro v hv; rw [hd2, ho2]; exact o1'.next v hv
    · intro v hv; rw [hd2, ho2]; exact o1'.noNext v hv

end

/-! ## Turn costs -/

theorem relax_out {push : List ℤ → ℤ → List ℤ} {g : G} {cost : ℤ → Option Cost} {td : Cost} {s s' : Lab}
    {l v : ℤ} (h : relax push g cost td s l = .ok s') (hv : (s.out v).isSome) : (s'.out v).isSome := by
  unfold relax at h
  rw [Res.bind_eq_ok'] at h
  obtain ⟨e, _, h⟩ := h
  split at h
  · split at h
    · split at h
      · cases h
        by_cases hve : v = e.1
        · subst hve; simp
        · simp only; rw [upd_other _ _ _ _ hve]; exact hv
      · cases h
    · cases h; exact hv
  · cases h

theorem relax_queue {g : G} {cost : ℤ → Option Cost} {td : Cost} {s s' : Lab} {l dest : ℤ}
    (h : relax pushBack g cost td s l = .ok s') (hq : ∀ x ∈ s.q, x = dest ∨ (s.out x).isSome) :
    ∀ x ∈ s'.q, x = dest ∨ (s'.out x).isSome := by
  intro x hx
  have ho : ∀ y, (s.out y).isSome → (s'.out y).isSome := fun y => relax_out h
  unfold relax at h
  rw [Res.bind_eq_ok'] at h
  obtain ⟨e, _, h⟩ := h
  split at h
  · split at h
    · split at h
      · rename_i b _ hb
        cases h
        by_cases hxe : x = e.1
        · subst hxe; simp
        · have : x ∈ s.q := by
            cases b with
            | true => simpa using hx
            | false =>
              simp only [Bool.false_eq_true, if_false, pushBack, List.mem_append, List.mem_singleton] at hx
              exact hx.resolve_right hxe
          exact (hq x this).imp id (ho x)
      · cases h
    · cases h; exact hq x hx
  · cases h

theorem foldl_turn {g : G} {cost : ℤ → Option Cost} {td : Cost} {dest v : ℤ} :
    ∀ (ls : List ℤ) (s : Lab), (v = dest ∨ (s.out v).isSome) →
      Res.foldlM (relaxTurn g dest v cost (fun _ _ => none) td) s ls =
        Res.foldlM (relax pushBack g cost td) s ls
  | [], s, _ => rfl
  | l :: ls, s, hv => by
    have hstep : relaxTurn g dest v cost (fun _ _ => none) td s l = relax pushBack g cost td s l := by
      unfold relaxTurn relax
      cases getEndpoints g l with
      | ok e =>
        rw [Res.bind_ok', Res.bind_ok']
        cases cost l with
        | none => rfl
        | some c =>
          cases s.dist e.1 with
          | none => rfl
          | some d =>
            simp only
            rcases hv with hv | hv
            · simp [hv]
            · obtain ⟨o, ho⟩ := Option.isSome_iff_exists.1 hv
              simp [ho]
      | throw m => rfl
      | ub => rfl
      | diverge => rfl
    rw [Res.foldlM_cons, Res.foldlM_cons, hstep]
    cases hs : relax pushBack g cost td s l with
    | ok s' =>
      simp only [Res.ok_bind]
      exact foldl_turn ls s' (hv.imp id (relax_out hs))
    | throw m => rfl
    | ub => rfl
    | diverge => rfl

theorem fifoTurnLoop_none {g : G} {cost : ℤ → Option Cost} {dest : ℤ} :
    ∀ (fuel : ℕ) (s : Lab), (∀ x ∈ s.q, x = dest ∨ (s.out x).isSome) →
      fifoTurnLoop g dest cost (fun _ _ => none) fuel s = fifoLoop g cost fuel s
  | 0, _, _ => rfl
  | fuel + 1, s, hq => by
    unfold fifoTurnLoop fifoLoop
    cases hsq : s.q with
    | nil => rfl
    | cons v q =>
      simp only
      cases incoming g v with
      | ok ls =>
        simp only [Res.bind_ok']
        cases s.dist v with
        | none => rfl
        | some td =>
          simp only
          rw [foldl_turn ls
            { s with
              q := q
              sup := upd s.sup v (some false) } (hq v (by rw [hsq]; simp))]
          cases hf : Res.foldlM (relax pushBack g cost td)
            { s with
              q := q
              sup := upd s.sup v (some false) } ls with
          | ok s' =>
            simp only [Res.bind_ok']
            refine fifoTurnLoop_none fuel s' ?_
            refine Res.foldlM_inv (P := fun s => ∀ x ∈ s.q, x = dest ∨ (s.out x).isSome)
              (fun b a b' hb h => relax_queue h hb) ls _ _ ?_ hf
            intro x hx
            exact hq x (by rw [hsq]; exact List.mem_cons_of_mem _ hx)
          | throw m => rfl
          | ub => rfl
          | diverge => rfl
      | throw m => rfl
      | ub => rfl
      | diverge => rfl

end Verif.Sp
