import Verif.Props.PreRoute
import Mathlib.Data.List.Chain

/-! # C150, C151: vehicles on predetermined routes -/

namespace Verif
open Pre

/-- Everything that does not change during a loading. -/
structure PreNet where
  table : Table
  paths : PathTable
  trips : Trips
  origins : List Origin
  freq : ℕ
  links : List (ℤ × ℤ)

/-- The first path of the pair of a vehicle. -/
def PreNet.first (N : PreNet) (v : ℤ) : Option (List ℤ) :=
  (N.paths (N.trips.orig v) (N.trips.dest v)).bind fun ps => ps[0]?

/-- The routing, and for every vehicle the link it is on and the links it has entered so far. -/
structure PreRun where
  st : St
  cur : ℤ → Option ℤ
  trav : ℤ → List ℤ

/-- What happens: a vehicle enters its next link, or the routing is updated while some vehicles wait at
origins and some are at the ends of links. -/
inductive PreOp where
  | enter (v : ℤ)
  | update (ts : ℕ) (queue ends : ℤ → List ℤ)

/-- One step. -/
def preStep (N : PreNet) (r : PreRun) : PreOp → Res PreRun
  | .enter v =>
    match r.st.next v with
    | none => .ok r
    | some l => .ok (if r.cur v = some l then r
        else { r with cur := upd r.cur v (some l), trav := upd r.trav v (r.trav v ++ [l]) })
  | .update ts queue ends =>
    (update N.table N.paths N.trips N.origins N.freq N.links r.cur queue ends ts r.st).bind fun s =>
      .ok { r with st := s }

/-- What the rest of the network ensures: vehicles at the end of a link are on it, and vehicles wait at
their own origin.  The last part is an assumption: no vehicle waits at its origin longer than until the
next release. -/
def PreFits (N : PreNet) (r : PreRun) : PreOp → Prop
  | .enter _ => True
  | .update ts queue ends =>
    (∀ p ∈ N.links, ∀ v ∈ ends p.1, r.cur v = some p.1) ∧
    (∀ o ∈ N.origins, (queue o.node).Nodup ∧ ∀ v ∈ queue o.node, N.trips.orig v = o.node) ∧
    (ts % N.freq = 0 → ∀ o ∈ N.origins, ∀ v ∈ queue o.node, r.st.tracker v = none)

/-- A history from `r` to `r'`. -/
def PreGoes (N : PreNet) : PreRun → List PreOp → PreRun → Prop
  | r, [], r' => r' = r
  | r, op :: ops, r' => PreFits N r op ∧ ∃ r1, preStep N r op = .ok r1 ∧ PreGoes N r1 ops r'

/-- Before the loading. -/
def preStart : PreRun := ⟨⟨fun _ => none, fun _ => none⟩, fun _ => none, fun _ => []⟩

/-- All of it as it is set up: the table is made from the path table, every link leads to one node, no path
has a link twice in a row. -/
structure PreSetup (N : PreNet) (dests : List ℤ) : Prop where
  origins : (N.origins.map (·.node)).Nodup
  nodup : dests.Nodup
  table : construct N.paths dests N.origins = .ok N.table
  links : ∀ p ∈ N.links, ∀ q ∈ N.links, p.1 = q.1 → p = q
  simple : ∀ o d ps p, N.paths o d = some ps → ps[0]? = some p → List.IsChain (· ≠ ·) p

theorem table_first {N : PreNet} {dests : List ℤ} (h : PreSetup N dests) {o : Origin} (ho : o ∈ N.origins)
    {i : ℕ} {d : ℤ} {r y : ℚ} (h1 : lookup N.table o.node d 0 i = .ok r) (h2 : demandAt o d i = .ok y) : r = y := by
  have hp : ∀ o ∈ N.origins, ∀ d ∈ dests, Store.get o.demand d ≠ none → N.paths o.node d ≠ none := by
    intro o ho d hd hx hp
    have := C149_missing_paths N.paths N.origins dests o ho d hd hx hp
    rw [h.table] at this
    cases this
  obtain ⟨t0', e1, e2, e3⟩ := construct_spec N.paths N.origins h.origins dests (fun _ _ => none) h.nodup
    (fun _ _ _ _ => rfl) hp
  have e1' : construct N.paths dests N.origins = .ok t0' := e1
  rw [h.table] at e1'
  cases e1'
  unfold lookup at h1
  unfold demandAt at h2
  by_cases hd : d ∈ dests
  · rw [e2 o ho d hd] at h1
    cases e : Store.get o.demand d with
    | none => rw [e] at h2; cases h2
    | some x =>
      rw [e] at h1 h2
      have h0 := pairEntries_get x ((N.paths o.node d).getD []).length 0
      simp only [Option.map_some, h0, if_true] at h1
      simp only at h2
      cases e4 : x[i]? with
      | none => rw [e4] at h2; cases h2
      | some z =>
        rw [e4] at h1 h2
        cases h1; cases h2; rfl
  · rw [e3 o.node d (Or.inl hd)] at h1
    cases h1

/-- While the first paths carry the whole demand, the first path is taken. -/
theorem advance_first {t : Table} {o : Origin} {i : ℕ}
    (hi : ∀ d r y, lookup t o.node d 0 i = .ok r → demandAt o d i = .ok y → r = y) {c c' : Cursor} {d : ℤ}
    (h0 : c.id = 0) (h1 : c.this = c.remain) (h : advance t o i c d = .ok c') :
    c'.id = 0 ∧ c'.this = c'.remain := by
  unfold advance at h
  by_cases ha : d ≠ c.dest ∧ c.remain ≤ 0
  · rw [if_pos ha, h0, Res.bind_eq_ok'] at h
    obtain ⟨r, e1, h⟩ := h
    rw [Res.bind_eq_ok'] at h
    obtain ⟨y, e2, h⟩ := h
    cases h
    exact ⟨rfl, (hi d r y e1 e2).symm⟩
  · rw [if_neg ha, if_neg (by rw [h1]; rintro ⟨a, b⟩; exact absurd a (not_le.2 b))] at h
    split at h
    · cases h
    · cases h; exact ⟨h0, h1⟩

theorem assign_first {t : Table} {o : Origin} {i : ℕ} {paths : PathTable} {tr : Trips}
    (hi : ∀ d r y, lookup t o.node d 0 i = .ok r → demandAt o d i = .ok y → r = y) :
    ∀ (q : List ℤ) (s s' : Cursor × St), s.1.id = 0 → s.1.this = s.1.remain →
      Res.foldlM (assignOne t paths tr o i) s q = .ok s' →
      s'.2.next = s.2.next ∧ (∀ v, v ∉ q ∨ (s.2.tracker v).isSome → s'.2.tracker v = s.2.tracker v) ∧
      ∀ v ∈ q, s.2.tracker v = none →
        ∃ ps p, paths (tr.orig v) (tr.dest v) = some ps ∧ ps[0]? = some p ∧ s'.2.tracker v = some p
  | [], s, s', _, _, h => by
    cases h
    exact ⟨rfl, fun _ _ => rfl, fun v hv => (by cases hv)⟩
  | v :: q, s, s', h0, h1, h => by
    rw [Res.foldlM_cons, Res.bind_eq_ok] at h
    obtain ⟨s1, hs, h⟩ := h
    unfold assignOne at hs
    rw [Res.bind_eq_ok'] at hs
    obtain ⟨c, hc, hs⟩ := hs
    obtain ⟨a, b⟩ := advance_first hi h0 h1 hc
    cases e1 : paths (tr.orig v) (tr.dest v) with
    | none => rw [e1] at hs; cases hs
    | some ps =>
      rw [e1] at hs
      simp only [a] at hs
      cases e2 : ps[0]? with
      | none => rw [e2] at hs; cases hs
      | some p =>
        rw [e2] at hs
        cases hs
        obtain ⟨g1, g2, g3⟩ := assign_first hi q _ s' rfl (by simp only [b]) h
        simp only at g1 g2 g3
        cases e3 : s.2.tracker v with
        | some w =>
          rw [e3] at g1 g2 g3
          simp only [Option.isSome_some, if_true] at g1 g2 g3
          refine ⟨g1, fun v' h' => ?_, fun v' hv' hn => ?_⟩
          · refine g2 v' ?_
            rcases h' with h' | h'
            · exact Or.inl (fun hm => h' (List.mem_cons_of_mem _ hm))
            · exact Or.inr h'
          · rcases List.mem_cons.1 hv' with rfl | hv'
            · rw [e3] at hn; cases hn
            · exact g3 v' hv' hn
        | none =>
          rw [e3] at g1 g2 g3
          simp only [Option.isSome_none, Bool.false_eq_true, if_false] at g1 g2 g3
          refine ⟨g1, fun v' h' => ?_, fun v' hv' hn => ?_⟩
          · have hne : v' ≠ v := by
              rintro rfl
              rcases h' with h' | h'
              · exact h' (by simp)
              · rw [e3] at h'; cases h'
            rw [g2 v', upd_other _ _ _ _ hne]
            rcases h' with h' | h'
            · exact Or.inl (fun hm => h' (List.mem_cons_of_mem _ hm))
            · exact Or.inr (by rw [upd_other _ _ _ _ hne]; exact h')
          · by_cases hne : v' = v
            · subst hne
              refine ⟨ps, p, e1, e2, ?_⟩
              rw [g2 v' (Or.inr (by rw [upd_same]; rfl)), upd_same]
            · rcases List.mem_cons.1 hv' with h' | hv'
              · exact absurd h' hne
              · exact g3 v' hv' (by rw [upd_other _ _ _ _ hne]; exact hn)

theorem pop_all (isLink : ℤ → Bool) : ∀ (q : List ℤ) (s s' : St), q.Nodup →
    Res.foldlM (popOne isLink) s q = .ok s' →
    (∀ v, v ∉ q → s'.tracker v = s.tracker v ∧ s'.next v = s.next v) ∧
    ∀ v ∈ q, ∃ l ls, s.tracker v = some (l :: ls) ∧ isLink l = true ∧ s'.tracker v = some ls ∧ s'.next v = some l
  | [], s, s', _, h => by
    cases h
    exact ⟨fun _ _ => ⟨rfl, rfl⟩, fun v hv => (by cases hv)⟩
  | v :: q, s, s', hn, h => by
    rw [List.nodup_cons] at hn
    rw [Res.foldlM_cons, Res.bind_eq_ok] at h
    obtain ⟨s1, hs, h⟩ := h
    obtain ⟨g1, g2⟩ := pop_all isLink q s1 s' hn.2 h
    unfold popOne at hs
    cases e : s.tracker v with
    | none => rw [e] at hs; cases hs
    | some ls =>
      rw [e] at hs
      cases ls with
      | nil => cases hs
      | cons l ls =>
        simp only at hs
        split at hs
        · rename_i hl
          cases hs
          simp only at g1 g2
          refine ⟨fun v' hv' => ?_, fun v' hv' => ?_⟩
          · have hne : v' ≠ v := fun h' => hv' (by simp [h'])
            obtain ⟨a, b⟩ := g1 v' (fun hm => hv' (List.mem_cons_of_mem _ hm))
            rw [upd_other _ _ _ _ hne] at a b
            exact ⟨a, b⟩
          · by_cases hne : v' = v
            · subst hne
              obtain ⟨a, b⟩ := g1 v' hn.1
              rw [upd_same] at a b
              exact ⟨l, ls, e, hl, a, b⟩
            · rcases List.mem_cons.1 hv' with h' | hv'
              · exact absurd h' hne
              · obtain ⟨l', ls', a, b, c, d⟩ := g2 v' hv'
                rw [upd_other _ _ _ _ hne] at a
                exact ⟨l', ls', a, b, c, d⟩
        · cases hs

theorem origin_first {t : Table} {o : Origin} {i : ℕ} {paths : PathTable} {tr : Trips} {isLink : ℤ → Bool}
    {queue : ℤ → List ℤ} {s s' : St}
    (hi : ∀ d r y, lookup t o.node d 0 i = .ok r → demandAt o d i = .ok y → r = y)
    (hn : (queue o.node).Nodup) (hq : ∀ v ∈ queue o.node, s.tracker v = none)
    (h : originStep t paths tr isLink i queue s o = .ok s') :
    (∀ v, v ∉ queue o.node → s'.tracker v = s.tracker v ∧ s'.next v = s.next v) ∧
    ∀ v ∈ queue o.node, ∃ ps l ls, paths (tr.orig v) (tr.dest v) = some ps ∧ ps[0]? = some (l :: ls) ∧
      s'.tracker v = some ls ∧ s'.next v = some l := by
  unfold originStep at h
  cases e : o.demand with
  | nil => rw [e] at h; cases h
  | cons dx rest =>
    obtain ⟨d, xs⟩ := dx
    rw [e] at h
    simp only at h
    cases e2 : xs[i]? with
    | none => rw [e2] at h; cases h
    | some x =>
      rw [e2] at h
      simp only at h
      rw [Res.bind_eq_ok'] at h
      obtain ⟨r, hr, h⟩ := h
      rw [Res.bind_eq_ok'] at h
      obtain ⟨p, hp, h⟩ := h
      have hxr : x = r := by
        refine (hi d r x hr ?_).symm
        unfold demandAt
        rw [e]
        simp [Store.get, e2]
      obtain ⟨a1, a2, a3⟩ := assign_first hi (queue o.node) _ p rfl hxr hp
      obtain ⟨b1, b2⟩ := pop_all isLink (queue o.node) p.2 s' hn h
      refine ⟨fun v hv => ?_, fun v hv => ?_⟩
      · obtain ⟨c1, c2⟩ := b1 v hv
        rw [c1, c2, a1, a2 v (Or.inl hv)]
        exact ⟨rfl, rfl⟩
      · obtain ⟨ps, p', f1, f2, f3⟩ := a3 v hv (hq v hv)
        obtain ⟨l, ls, d1, _, d3, d4⟩ := b2 v hv
        rw [f3] at d1
        cases d1
        exact ⟨ps, l, ls, f1, f2, d3, d4⟩

/-- Where a vehicle is on its path. -/
def PreInv (N : PreNet) (r : PreRun) (v : ℤ) : Prop :=
  r.cur v = (r.trav v).getLast? ∧
  ((r.st.tracker v = none ∧ r.st.next v = none ∧ r.trav v = []) ∨
   ∃ rest P, r.st.tracker v = some rest ∧ N.first v = some P ∧
    ((∃ l, r.st.next v = some l ∧ r.cur v ≠ some l ∧ r.trav v ++ l :: rest = P ∧
        ∀ p ∈ N.links, r.cur v = some p.1 → p.2 ≠ N.trips.dest v) ∨
     (∃ l, r.st.next v = some l ∧ r.cur v = some l ∧ r.trav v ++ rest = P) ∨
     (r.st.next v = none ∧ rest = [] ∧ r.trav v = P ∧
        ∀ p ∈ N.links, r.cur v = some p.1 → p.2 = N.trips.dest v)))

theorem origins_inv {N : PreNet} {dests : List ℤ} (hs : PreSetup N dests) (isLink : ℤ → Bool) (i : ℕ)
    (queue : ℤ → List ℤ) (cur : ℤ → Option ℤ) (trav : ℤ → List ℤ) :
    ∀ (os : List Origin), (∀ o ∈ os, o ∈ N.origins) → (os.map (·.node)).Nodup → ∀ s s' : St,
      (∀ o ∈ os, (queue o.node).Nodup ∧ ∀ v ∈ queue o.node, N.trips.orig v = o.node ∧ s.tracker v = none) →
      (∀ v, PreInv N ⟨s, cur, trav⟩ v) →
      Res.foldlM (originStep N.table N.paths N.trips isLink i queue) s os = .ok s' →
      ∀ v, PreInv N ⟨s', cur, trav⟩ v
  | [], _, _, s, s', _, hv, h => by cases h; exact hv
  | o :: os, hm, hn, s, s', hq, hv, h => by
    simp only [List.map_cons, List.nodup_cons, List.mem_map, not_exists, not_and] at hn
    rw [Res.foldlM_cons, Res.bind_eq_ok] at h
    obtain ⟨s1, h1, h⟩ := h
    obtain ⟨q1, q2⟩ := hq o (by simp)
    obtain ⟨a, b⟩ := origin_first (fun d r y => table_first hs (hm o (by simp))) q1 (fun v hv => (q2 v hv).2) h1
    refine origins_inv hs isLink i queue cur trav os (fun o' ho' => hm o' (by simp [ho'])) hn.2 s1 s' ?_ ?_ h
    · intro o' ho'
      obtain ⟨p1, p2⟩ := hq o' (by simp [ho'])
      refine ⟨p1, fun v hv' => ⟨(p2 v hv').1, ?_⟩⟩
      rw [(a v (fun hv'' => hn.1 o' ho' (by rw [← (p2 v hv').1, (q2 v hv'').1]))).1]
      exact (p2 v hv').2
    · intro v
      by_cases hm' : v ∈ queue o.node
      · obtain ⟨ps, l, ls, e1, e2, e3, e4⟩ := b v hm'
        obtain ⟨i1, i2⟩ := hv v
        rcases i2 with ⟨j1, j2, j3⟩ | ⟨rest, P, j1, _⟩
        · simp only at i1 j1 j2 j3
          refine ⟨i1, Or.inr ⟨ls, l :: ls, e3, ?_, Or.inl ⟨l, e4, ?_, ?_, ?_⟩⟩⟩
          · unfold PreNet.first; rw [e1]; exact e2
          · simp only [i1, j3]; simp
          · simp only [j3]; rfl
          · intro p _ hp
            simp only [i1, j3] at hp
            cases hp
        · simp only at j1
          rw [(q2 v hm').2] at j1; cases j1
      · obtain ⟨c1, c2⟩ := a v hm'
        have := hv v
        unfold PreInv at this ⊢
        simp only [c1, c2] at this ⊢
        exact this

theorem end_inv {N : PreNet} {dests : List ℤ} (hs : PreSetup N dests) (isLink : ℤ → Bool)
    (cur : ℤ → Option ℤ) (trav : ℤ → List ℤ) {p : ℤ × ℤ} (hp : p ∈ N.links) {s s' : St} {v : ℤ}
    (hc : cur v = some p.1) (hv : ∀ v, PreInv N ⟨s, cur, trav⟩ v)
    (h : endOne N.trips isLink cur p.2 s v = .ok s') : ∀ v, PreInv N ⟨s', cur, trav⟩ v := by
  intro v'
  by_cases hne : v' = v
  · subst hne
    obtain ⟨i1, i2⟩ := hv v'
    refine ⟨i1, ?_⟩
    simp only at i1
    unfold endOne at h
    rcases i2 with ⟨j1, j2, j3⟩ | ⟨rest, P, j1, j2, j⟩
    · simp only at j3
      rw [j3] at i1
      rw [i1] at hc
      cases hc
    · simp only at j1 j
      right
      by_cases hd : N.trips.dest v' = p.2
      · rw [if_pos hd, j1] at h
        simp only at h
        split at h
        · cases h
        · rename_i hl
          cases h
          have hrest : rest = [] := by
            simpa using hl
          subst hrest
          refine ⟨[], P, j1, j2, Or.inr (Or.inr ⟨by simp [upd_same], rfl, ?_, ?_⟩)⟩
          · rcases j with ⟨l, _, _, _, k⟩ | ⟨l, _, _, k⟩ | ⟨_, _, k, _⟩
            · exact absurd hd.symm (k p hp hc)
            · simpa using k
            · exact k
          · intro q hq hcq
            simp only at hcq
            rw [hc] at hcq
            rw [← hs.links p hp q hq (by simpa using hcq), hd]
      · rw [if_neg hd, j1] at h
        simp only at h
        rcases j with ⟨l, k1, k2, k3, k4⟩ | ⟨l, k1, k2, k3⟩ | ⟨k1, k2, k3, k4⟩
        · rw [if_neg (by rw [k1]; exact k2)] at h
          cases h
          exact ⟨rest, P, j1, j2, Or.inl ⟨l, k1, k2, k3, k4⟩⟩
        · rw [if_pos (by rw [k1]; exact k2)] at h
          cases rest with
          | nil => cases h
          | cons l' ls =>
            simp only at h
            split at h
            · cases h
            · split at h
              · cases h
                refine ⟨ls, P, by simp [upd_same], j2, Or.inl ⟨l', by simp [upd_same], ?_, k3, ?_⟩⟩
                · simp only
                  rw [k2]
                  intro hl
                  have hl' : l = l' := by simpa using hl
                  subst hl'
                  unfold PreNet.first at j2
                  cases e : N.paths (N.trips.orig v') (N.trips.dest v') with
                  | none => rw [e] at j2; cases j2
                  | some ps =>
                    rw [e] at j2
                    have hch := hs.simple _ _ _ _ e j2
                    rw [← k3, List.isChain_append] at hch
                    rw [k2] at i1
                    exact hch.2.2 l i1.symm l (by simp) rfl
                · intro q hq hcq
                  simp only at hcq
                  rw [hc] at hcq
                  rw [← hs.links p hp q hq (by simpa using hcq)]
                  exact fun h' => hd h'.symm
              · cases h
        · exact absurd (k4 p hp hc).symm hd
  · have hsame : s'.tracker v' = s.tracker v' ∧ s'.next v' = s.next v' := by
      unfold endOne at h
      repeat' split at h
      all_goals first
        | (cases h; done)
        | (cases h; exact ⟨rfl, rfl⟩)
        | (cases h; exact ⟨rfl, upd_other _ _ _ _ hne⟩)
        | (cases h; exact ⟨upd_other _ _ _ _ hne, upd_other _ _ _ _ hne⟩)
    have := hv v'
    unfold PreInv at this ⊢
    simp only [hsame.1, hsame.2] at this ⊢
    exact this

theorem preStep_inv {N : PreNet} {dests : List ℤ} (hs : PreSetup N dests) {r r' : PreRun} {op : PreOp}
    (hf : PreFits N r op) (hv : ∀ v, PreInv N r v) (h : preStep N r op = .ok r') : ∀ v, PreInv N r' v := by
  cases op with
  | enter w =>
    simp only [preStep] at h
    cases e : r.st.next w with
    | none => rw [e] at h; cases h; exact hv
    | some l =>
      rw [e] at h
      simp only at h
      by_cases hc : r.cur w = some l
      · rw [if_pos hc] at h; cases h; exact hv
      · rw [if_neg hc] at h
        cases h
        intro v
        by_cases hne : v = w
        · subst hne
          obtain ⟨i1, i2⟩ := hv v
          refine ⟨by simp [upd_same], ?_⟩
          rcases i2 with ⟨_, j2, _⟩ | ⟨rest, P, j1, j2, j⟩
          · rw [e] at j2; cases j2
          · refine Or.inr ⟨rest, P, j1, j2, ?_⟩
            rcases j with ⟨l', k1, k2, k3, k4⟩ | ⟨l', k1, k2, k3⟩ | ⟨k1, _⟩
            · rw [e] at k1
              cases k1
              exact Or.inr (Or.inl ⟨l, e, by simp [upd_same], by simp [upd_same, k3]⟩)
            · rw [e] at k1
              cases k1
              exact absurd k2 hc
            · rw [e] at k1; cases k1
        · have := hv v
          unfold PreInv at this ⊢
          simp only [upd_other _ _ _ _ hne] at this ⊢
          exact this
  | update ts queue ends =>
    simp only [preStep] at h
    rw [Res.bind_eq_ok'] at h
    obtain ⟨s, h, h'⟩ := h
    cases h'
    obtain ⟨f1, f2, f3⟩ := hf
    unfold update at h
    simp only at h
    split at h
    · cases h
    · rw [Res.bind_eq_ok'] at h
      obtain ⟨s1, h1, h2⟩ := h
      have hv1 : ∀ v, PreInv N ⟨s1, r.cur, r.trav⟩ v := by
        by_cases ht : ts % N.freq = 0
        · rw [if_pos ht] at h1
          exact origins_inv hs _ _ queue r.cur r.trav N.origins (fun _ h => h) hs.origins r.st s1
            (fun o ho => ⟨(f2 o ho).1, fun v hv => ⟨(f2 o ho).2 v hv, f3 ht o ho v hv⟩⟩) hv h1
        · rw [if_neg ht] at h1
          cases h1
          exact hv
      refine Res.foldlM_inv_mem (P := fun s : St => ∀ v, PreInv N ⟨s, r.cur, r.trav⟩ v) N.links ?_ s1 s hv1 h2
      intro s2 p s3 hp hv2 h3
      refine Res.foldlM_inv_mem (P := fun s : St => ∀ v, PreInv N ⟨s, r.cur, r.trav⟩ v) (ends p.1) ?_ s2 s3 hv2 h3
      intro s4 v s5 hve hv4 h5
      exact end_inv hs _ r.cur r.trav hp (f1 p hp v hve) hv4 h5

/-- **C150, partial.**  With predetermined routing as it is set up, over any history in which no vehicle
waits at its origin until the next release: the links that a vehicle has entered are, in order, the first
links of the first path of its pair; a vehicle that is told to leave the network has travelled the whole
path.  Missing: vehicles that wait (see `C150_waiting_vehicle_skips_a_link`). -/
theorem C150_travel_partial (N : PreNet) (dests : List ℤ) (hs : PreSetup N dests) (ops : List PreOp) (r : PreRun)
    (h : PreGoes N preStart ops r) (v : ℤ) :
    (r.st.tracker v = none → r.trav v = []) ∧
    (r.st.tracker v ≠ none → ∃ p, N.first v = some p ∧ r.trav v <+: p ∧
      (r.st.next v = none → r.trav v = p)) := by
  have key : ∀ (ops : List PreOp) (r0 r : PreRun), (∀ v, PreInv N r0 v) → PreGoes N r0 ops r →
      ∀ v, PreInv N r v := by
    intro ops
    induction ops with
    | nil => intro r0 r h0 h; rw [show r = r0 from h]; exact h0
    | cons op ops ih =>
      intro r0 r h0 h
      obtain ⟨a, r1, b, c⟩ := h
      exact ih r1 r (preStep_inv hs a h0 b) c
  obtain ⟨i1, i2⟩ := key ops preStart r (fun v => ⟨rfl, Or.inl ⟨rfl, rfl, rfl⟩⟩) h v
  rcases i2 with ⟨j1, _, j3⟩ | ⟨rest, P, j1, j2, j⟩
  · exact ⟨fun _ => j3, fun hn => absurd j1 hn⟩
  · refine ⟨fun hn => (by rw [j1] at hn; cases hn), fun _ => ⟨P, j2, ?_⟩⟩
    rcases j with ⟨l, k1, _, k3, _⟩ | ⟨l, k1, _, k3⟩ | ⟨k1, _, k3, _⟩
    · exact ⟨⟨_, k3⟩, fun hn => (by rw [k1] at hn; cases hn)⟩
    · exact ⟨⟨_, k3⟩, fun hn => (by rw [k1] at hn; cases hn)⟩
    · exact ⟨k3 ▸ List.prefix_rfl, fun _ => k3⟩

theorem pop_ok (isLink : ℤ → Bool) : ∀ (q : List ℤ) (s : St), q.Nodup →
    (∀ v ∈ q, ∃ l ls, s.tracker v = some (l :: ls) ∧ isLink l = true) →
    ∃ s', Res.foldlM (popOne isLink) s q = .ok s'
  | [], s, _, _ => ⟨s, rfl⟩
  | v :: q, s, hn, h => by
    rw [List.nodup_cons] at hn
    obtain ⟨l, ls, e1, e2⟩ := h v (by simp)
    obtain ⟨s', hs'⟩ := pop_ok isLink q ⟨upd s.tracker v (some ls), upd s.next v (some l)⟩ hn.2 (fun w hw => by
      obtain ⟨l', ls', a, b⟩ := h w (by simp [hw])
      exact ⟨l', ls', (upd_other s.tracker v w (some ls) (fun h' => hn.1 (h' ▸ hw))).trans a, b⟩)
    refine ⟨s', ?_⟩
    rw [Res.foldlM_cons]
    unfold popOne
    rw [e1]
    simp only [e2, if_true]
    exact hs'

theorem table_ok {N : PreNet} {dests : List ℤ} (h : PreSetup N dests) {o : Origin} (ho : o ∈ N.origins)
    {i : ℕ} {d : ℤ} (hd : d ∈ dests) {x : List ℚ} (hx : Store.get o.demand d = some x) (hi : i < x.length) :
    lookup N.table o.node d 0 i = .ok x[i] ∧ demandAt o d i = .ok x[i] := by
  have hp : ∀ o ∈ N.origins, ∀ d ∈ dests, Store.get o.demand d ≠ none → N.paths o.node d ≠ none := by
    intro o ho d hd hx hp
    have := C149_missing_paths N.paths N.origins dests o ho d hd hx hp
    rw [h.table] at this
    cases this
  obtain ⟨t0', e1, e2, e3⟩ := construct_spec N.paths N.origins h.origins dests (fun _ _ => none) h.nodup
    (fun _ _ _ _ => rfl) hp
  have e1' : construct N.paths dests N.origins = .ok t0' := e1
  rw [h.table] at e1'
  cases e1'
  have h0 := pairEntries_get x ((N.paths o.node d).getD []).length 0
  constructor
  · unfold lookup
    rw [e2 o ho d hd, hx]
    simp only [Option.map_some, h0, if_true, List.getElem?_eq_getElem hi]
  · unfold demandAt
    rw [hx]
    simp only [List.getElem?_eq_getElem hi]

theorem assign_ok {N : PreNet} {dests : List ℤ} (h : PreSetup N dests) {o : Origin} (ho : o ∈ N.origins)
    {i : ℕ} (hd : ∀ d x, Store.get o.demand d = some x → d ∈ dests ∧ i < x.length) :
    ∀ (q : List ℤ) (s : Cursor × St), s.1.id = 0 → s.1.this = s.1.remain →
      (∀ v ∈ q, Store.get o.demand (N.trips.dest v) ≠ none ∧ N.first v ≠ none) →
      ∃ s', Res.foldlM (assignOne N.table N.paths N.trips o i) s q = .ok s'
  | [], s, _, _, _ => ⟨s, rfl⟩
  | v :: q, s, h0, h1, hq => by
    have hadv : ∃ c, advance N.table o i s.1 (N.trips.dest v) = .ok c ∧ c.id = 0 ∧ c.this = c.remain := by
      unfold advance
      by_cases ha : N.trips.dest v ≠ s.1.dest ∧ s.1.remain ≤ 0
      · cases e : Store.get o.demand (N.trips.dest v) with
        | none => exact absurd e (hq v (by simp)).1
        | some x =>
          obtain ⟨a, b⟩ := hd _ _ e
          obtain ⟨c1, c2⟩ := table_ok h ho a e b
          rw [if_pos ha, h0, c1, Res.bind_ok', c2, Res.bind_ok']
          exact ⟨_, rfl, rfl, rfl⟩
      · rw [if_neg ha, if_neg (by rw [h1]; rintro ⟨a, b⟩; exact absurd a (not_le.2 b)),
          if_neg (by rw [h1]; rintro ⟨a, b⟩; exact absurd (a.trans b) (lt_irrefl _))]
        exact ⟨_, rfl, h0, h1⟩
    obtain ⟨c, e1, e2, e3⟩ := hadv
    have hf := (hq v (by simp)).2
    unfold PreNet.first at hf
    cases e4 : N.paths (N.trips.orig v) (N.trips.dest v) with
    | none => rw [e4] at hf; exact absurd rfl hf
    | some ps =>
      rw [e4] at hf
      cases e5 : ps[0]? with
      | none => exact absurd e5 hf
      | some p =>
        obtain ⟨s', hs'⟩ := assign_ok h ho hd q (⟨c.dest, c.this - 1, c.remain - 1, c.id⟩,
            if (s.2.tracker v).isSome then s.2 else { s.2 with tracker := upd s.2.tracker v (some p) })
          e2 (by simp only [e3]) (fun w hw => hq w (by simp [hw]))
        refine ⟨s', ?_⟩
        rw [Res.foldlM_cons]
        unfold assignOne
        rw [e1, Res.bind_ok', e4]
        simp only [e2, e5]
        rw [e2] at hs'
        exact hs'

/-- **C150.**  A release interval inside the horizon, with predetermined routing as it is set up, at an
origin where newly released vehicles wait (and none from before): no error is raised, and every vehicle is
sent to the first link of the first path of its pair with the rest of this path to follow; nothing
changes for other vehicles. -/
theorem C150_release (N : PreNet) (dests : List ℤ) (h : PreSetup N dests) (o : Origin) (ho : o ∈ N.origins)
    (i : ℕ) (hne : o.demand ≠ []) (hd : ∀ d x, Store.get o.demand d = some x → d ∈ dests ∧ i < x.length)
    (isLink : ℤ → Bool) (queue : ℤ → List ℤ) (s : St) (hn : (queue o.node).Nodup)
    (hq : ∀ v ∈ queue o.node, s.tracker v = none ∧ Store.get o.demand (N.trips.dest v) ≠ none ∧
      ∃ l ls, N.first v = some (l :: ls) ∧ isLink l = true) :
    ∃ s', originStep N.table N.paths N.trips isLink i queue s o = .ok s' ∧
      (∀ v ∈ queue o.node, ∃ l ls, N.first v = some (l :: ls) ∧ s'.next v = some l ∧ s'.tracker v = some ls) ∧
      ∀ v, v ∉ queue o.node → s'.tracker v = s.tracker v ∧ s'.next v = s.next v := by
  have hfirst := fun d r y => @table_first N dests h o ho i d r y
  have hok : ∃ s', originStep N.table N.paths N.trips isLink i queue s o = .ok s' := by
    unfold originStep
    cases e : o.demand with
    | nil => exact absurd e hne
    | cons dx rest =>
      obtain ⟨d, x⟩ := dx
      have hg : Store.get o.demand d = some x := by rw [e]; simp [Store.get]
      obtain ⟨a, b⟩ := hd d x hg
      obtain ⟨c1, c2⟩ := table_ok h ho a hg b
      simp only [List.getElem?_eq_getElem b, c1, Res.bind_ok']
      obtain ⟨p, hp⟩ := assign_ok h ho hd (queue o.node) (⟨d, x[i], x[i], 0⟩, s) rfl rfl
        (fun v hv => ⟨(hq v hv).2.1, by obtain ⟨l, ls, e, _⟩ := (hq v hv).2.2; rw [e]; simp⟩)
      rw [hp, Res.bind_ok']
      obtain ⟨_, _, a3⟩ := assign_first hfirst (queue o.node) _ p rfl rfl hp
      refine pop_ok isLink (queue o.node) p.2 hn (fun v hv => ?_)
      obtain ⟨l, ls, e1, e2⟩ := (hq v hv).2.2
      obtain ⟨ps, p', f1, f2, f3⟩ := a3 v hv (hq v hv).1
      unfold PreNet.first at e1
      rw [f1] at e1
      simp only [Option.bind_some] at e1
      rw [f2] at e1
      cases e1
      exact ⟨l, ls, f3, e2⟩
  obtain ⟨s', hs'⟩ := hok
  obtain ⟨a, b⟩ := origin_first hfirst hn (fun v hv => (hq v hv).1) hs'
  refine ⟨s', hs', fun v hv => ?_, a⟩
  obtain ⟨ps, l, ls, f1, f2, f3, f4⟩ := b v hv
  refine ⟨l, ls, ?_, f4, f3⟩
  unfold PreNet.first
  rw [f1]
  exact f2

/-- An origin without any demand, or a release interval after the horizon: memory outside the demand is
read, whatever the queues hold. -/
theorem C150_after_horizon (t : Table) (paths : PathTable) (tr : Trips) (o : Origin) (os : List Origin)
    (freq : ℕ) (links : List (ℤ × ℤ)) (cur : ℤ → Option ℤ) (queue ends : ℤ → List ℤ) (ts : ℕ) (s : St)
    (hts : ts % freq = 0)
    (h : o.demand = [] ∨ ∃ d x rest, o.demand = (d, x) :: rest ∧ x.length ≤ ts / freq) :
    update t paths tr (o :: os) freq links cur queue ends ts s = .ub := by
  unfold update
  simp only [hts, if_true]
  split
  · rfl
  · rw [Res.foldlM_cons]
    have : originStep t paths tr (fun l => links.any fun p => p.1 = l) (ts / freq) queue s o = .ub := by
      unfold originStep
      rcases h with h | ⟨d, x, rest, h, hl⟩
      · rw [h]
      · rw [h]
        simp only [List.getElem?_eq_none hl]
    rw [this]
    rfl

/-- The network of the example: vehicles with even numbers go to node 3, the others to node 4. -/
def exPreNet : PreNet where
  table := fun o d =>
    if o = 1 ∧ d = 4 then some (pairEntries [5, 5] 1)
    else if o = 1 ∧ d = 3 then some (pairEntries [4, 6] 2) else none
  paths := exPrePaths
  trips := ⟨fun _ => 1, fun v => if v % 2 = 0 then 3 else 4⟩
  origins := [exPreOrigin]
  freq := 60
  links := [(10, 2), (11, 3), (12, 5), (13, 3), (14, 4)]

theorem exPre_setup : PreSetup exPreNet [3, 4] where
  origins := by decide
  nodup := by decide
  table := rfl
  links := by decide
  simple := by
    intro o d ps p h1 h2
    change exPrePaths o d = some ps at h1
    unfold exPrePaths at h1
    split at h1
    · cases h1; cases h2; simp
    · split at h1
      · cases h1; cases h2; simp
      · cases h1

/-- Vehicle 8 is released, enters links 10 and 11 and arrives. -/
def exPreOps : List PreOp :=
  [.update 0 (fun o => if o = 1 then [8, 9] else []) (fun _ => []), .enter 8,
   .update 1 (fun o => if o = 1 then [9] else []) (fun l => if l = 10 then [8] else []), .enter 8,
   .update 2 (fun o => if o = 1 then [9] else []) (fun l => if l = 11 then [8] else [])]

set_option synthInstance.maxSize 1024 in
example : ((Res.foldlM (preStep exPreNet) preStart exPreOps).bind fun r =>
    .ok (r.trav 8, r.st.next 8, r.st.next 9, r.st.tracker 9)) = .ok ([10, 11], none, some 10, some [14]) := by
  decide +kernel

theorem preOk {x : Res PreRun} (h : x.isOk = true) : x = .ok (x.stateOr preStart) := by
  cases x with
  | ok s => rfl
  | _ => cases h

example : ∃ r, PreGoes exPreNet preStart exPreOps r ∧ r.trav 8 = [10, 11] := by
  refine ⟨_, ⟨⟨by decide, by decide, fun _ o _ v _ => rfl⟩, _, preOk (by decide +kernel), ⟨trivial, _,
    preOk (by decide +kernel), ⟨by decide +kernel, by decide, fun h => absurd h (by decide)⟩, _,
    preOk (by decide +kernel), trivial, _, preOk (by decide +kernel),
    ⟨by decide +kernel, by decide, fun h => absurd h (by decide)⟩, _, preOk (by decide +kernel), rfl⟩⟩, ?_⟩
  decide +kernel

/-- The same with a single destination and three intervals. -/
def exPreNet30 : PreNet where
  table := fun o d => if o = 1 ∧ d = 3 then some (pairEntries [4, 6, 1] 2) else none
  paths := exPrePaths
  trips := ⟨fun _ => 1, fun _ => 3⟩
  origins := [⟨1, [(3, [4, 6, 1])]⟩]
  freq := 30
  links := exPreNet.links

/-- **C150 is false for vehicles that wait.**  Vehicle 8 still waits at its origin at the second release:
the first link of its path is taken off again, and it is sent to link 11 which does not start at its
origin.  At the third release there is no link left and memory outside the queue is read. -/
theorem C150_waiting_vehicle_skips_a_link :
    ((Res.foldlM (preStep exPreNet) preStart
      [.update 0 (fun o => if o = 1 then [8] else []) (fun _ => []),
       .update 60 (fun o => if o = 1 then [8] else []) (fun _ => [])]).bind fun r =>
      .ok (r.st.next 8, r.st.tracker 8)) = .ok (some 11, some []) ∧
    ((Res.foldlM (preStep exPreNet30) preStart
      [.update 0 (fun o => if o = 1 then [8] else []) (fun _ => []),
       .update 30 (fun o => if o = 1 then [8] else []) (fun _ => []),
       .update 60 (fun o => if o = 1 then [8] else []) (fun _ => [])]).bind fun r =>
      .ok (r.st.next 8, r.st.tracker 8)) = .ub := by
  constructor <;> decide +kernel

/-! ## Shares -/

/-- Path `k` for the first `a` vehicles, path `k + 1` for the next, and so on. -/
def shareFrom : ℕ → List ℕ → List ℕ
  | _, [] => []
  | k, a :: as => List.replicate a k ++ shareFrom (k + 1) as

theorem assign_shares {t : Table} {o : Origin} {i : ℕ} {paths : PathTable} {tr : Trips} {d : ℤ}
    {ps : List (List ℤ)} (hps : paths o.node d = some ps) :
    ∀ (q : List ℤ) (st : St) (id b : ℕ) (rest : List ℕ),
      (∀ j a : ℕ, rest[j]? = some a → 0 < a ∧ lookup t o.node d (id + 1 + j) i = .ok (a : ℚ)) →
      id + rest.length < ps.length → q.length ≤ b + rest.sum → q.Nodup →
      (∀ v ∈ q, tr.orig v = o.node ∧ tr.dest v = d ∧ st.tracker v = none) →
      ∃ s', Res.foldlM (assignOne t paths tr o i) (⟨d, ((b + rest.sum : ℕ) : ℚ), (b : ℚ), id⟩, st) q = .ok s' ∧
        s'.2.next = st.next ∧ (∀ v, v ∉ q → s'.2.tracker v = st.tracker v) ∧
        ∀ (k : ℕ) (v : ℤ), q[k]? = some v → ∃ (j : ℕ) (p : List ℤ), (List.replicate b id ++ shareFrom (id + 1) rest)[k]? = some j ∧
          ps[j]? = some p ∧ s'.2.tracker v = some p
  | [], st, id, b, rest, _, _, _, _, _ => ⟨_, rfl, rfl, fun _ _ => rfl, fun k v h => (by simp at h)⟩
  | v :: q, st, id, b, rest, hr, hl, hq, hn, hv => by
    rw [List.nodup_cons] at hn
    obtain ⟨v1, v2, v3⟩ := hv v (by simp)
    have hv' : ∀ (p : List ℤ), ∀ w ∈ q, tr.orig w = o.node ∧ tr.dest w = d ∧ upd st.tracker v (some p) w = none :=
      fun p w hw => ⟨(hv w (by simp [hw])).1, (hv w (by simp [hw])).2.1, 
        (upd_other st.tracker v w (some p) (fun h' => hn.1 (h' ▸ hw))).trans (hv w (by simp [hw])).2.2⟩
    simp only [List.length_cons] at hq
    rcases Nat.eq_zero_or_pos b with hb | hb
    · subst hb
      cases rest with
      | nil => simp at hq
      | cons a rest =>
        obtain ⟨ha, hlook⟩ := hr 0 a rfl
        simp only [List.sum_cons] at hq
        simp only [List.length_cons] at hl
        have hp : ps[id + 1]? = some (ps[id + 1]'(by omega)) := List.getElem?_eq_getElem (by omega)
        obtain ⟨s', e1, e2, e3, e4⟩ := assign_shares (t := t) (i := i) (tr := tr) hps q
          { st with tracker := upd st.tracker v (some (ps[id + 1]'(by omega))) } (id + 1) (a - 1) rest
          (fun j a' hj => by
            have := hr (j + 1) a' (by simpa using hj)
            rw [show id + 1 + (j + 1) = id + 1 + 1 + j from by omega] at this
            exact this)
          (by omega) (by omega) hn.2 (hv' _)
        refine ⟨s', ?_, e2, fun w hw => ?_, fun k w hw => ?_⟩
        · rw [Res.foldlM_cons]
          have : assignOne t paths tr o i (⟨d, ((0 + (a :: rest).sum : ℕ) : ℚ), ((0 : ℕ) : ℚ), id⟩, st) v =
              .ok (⟨d, ((a - 1 + rest.sum : ℕ) : ℚ), ((a - 1 : ℕ) : ℚ), id + 1⟩,
                { st with tracker := upd st.tracker v (some (ps[id + 1]'(by omega))) }) := by
            unfold assignOne advance
            simp only [v2, ne_eq, not_true_eq_false, false_and, if_false]
            rw [if_pos ⟨by simp, by simp only [List.sum_cons]; push_cast; positivity⟩]
            simp only [Nat.add_zero] at hlook
            rw [hlook, Res.bind_ok', Res.bind_ok', v1, hps]
            simp only [hp, v3, Option.isSome_none, Bool.false_eq_true, if_false]
            congr 1
            have h1 : ((a - 1 : ℕ) : ℚ) = (a : ℚ) - 1 := by
              rw [Nat.cast_sub (by omega)]; simp
            refine Prod.ext ?_ rfl
            simp only [Cursor.mk.injEq, true_and, and_true]
            constructor
            · push_cast [h1, List.sum_cons]
              ring
            · exact h1.symm
          rw [this]
          exact e1
        · rw [e3 w (fun h' => hw (List.mem_cons_of_mem _ h'))]
          exact upd_other _ _ _ _ (fun h' => hw (by simp [h']))
        · have hlist : List.replicate 0 id ++ shareFrom (id + 1) (a :: rest) =
              (id + 1) :: (List.replicate (a - 1) (id + 1) ++ shareFrom (id + 1 + 1) rest) := by
            simp only [List.replicate_zero, List.nil_append, shareFrom]
            rw [show a = (a - 1) + 1 from by omega, List.replicate_succ]
            simp
          rw [hlist]
          cases k with
          | zero =>
            simp only [List.getElem?_cons_zero, Option.some.injEq] at hw
            subst hw
            refine ⟨id + 1, _, rfl, hp, ?_⟩
            rw [e3 v hn.1]
            exact upd_same _ _ _
          | succ k =>
            rw [List.getElem?_cons_succ] at hw
            obtain ⟨j, p, f1, f2, f3⟩ := e4 k w hw
            exact ⟨j, p, by rw [List.getElem?_cons_succ]; exact f1, f2, f3⟩
    · have hp : ps[id]? = some (ps[id]'(by omega)) := List.getElem?_eq_getElem (by omega)
      obtain ⟨s', e1, e2, e3, e4⟩ := assign_shares (t := t) (i := i) (tr := tr) hps q
        { st with tracker := upd st.tracker v (some (ps[id]'(by omega))) } id (b - 1) rest hr hl
        (by omega) hn.2 (hv' _)
      refine ⟨s', ?_, e2, fun w hw => ?_, fun k w hw => ?_⟩
      · rw [Res.foldlM_cons]
        have : assignOne t paths tr o i (⟨d, ((b + rest.sum : ℕ) : ℚ), (b : ℚ), id⟩, st) v =
            .ok (⟨d, ((b - 1 + rest.sum : ℕ) : ℚ), ((b - 1 : ℕ) : ℚ), id⟩,
              { st with tracker := upd st.tracker v (some (ps[id]'(by omega))) }) := by
          have hb' : (0 : ℚ) < b := by exact_mod_cast hb
          have ht' : (0 : ℚ) ≤ ((b + rest.sum : ℕ) : ℚ) := by positivity
          unfold assignOne advance
          simp only [v2, ne_eq, not_true_eq_false, false_and, if_false]
          rw [if_neg (fun h => absurd h.1 (not_le.2 hb')), if_neg (fun h => absurd h.2 (not_lt.2 ht')),
            Res.bind_ok', v1, hps]
          simp only [hp, v3, Option.isSome_none, Bool.false_eq_true, if_false]
          congr 1
          have h1 : ((b - 1 : ℕ) : ℚ) = (b : ℚ) - 1 := by
            rw [Nat.cast_sub (by omega)]; simp
          refine Prod.ext ?_ rfl
          simp only [Cursor.mk.injEq, true_and, and_true]
          constructor
          · push_cast [h1]
            ring
          · exact h1.symm
        rw [this]
        exact e1
      · rw [e3 w (fun h' => hw (List.mem_cons_of_mem _ h'))]
        exact upd_other _ _ _ _ (fun h' => hw (by simp [h']))
      · have hlist : List.replicate b id ++ shareFrom (id + 1) rest =
            id :: (List.replicate (b - 1) id ++ shareFrom (id + 1) rest) := by
          rw [show b = (b - 1) + 1 from by omega, List.replicate_succ]
          simp
        rw [hlist]
        cases k with
        | zero =>
          simp only [List.getElem?_cons_zero, Option.some.injEq] at hw
          subst hw
          refine ⟨id, _, rfl, hp, ?_⟩
          rw [e3 v hn.1]
          exact upd_same _ _ _
        | succ k =>
          rw [List.getElem?_cons_succ] at hw
          obtain ⟨j, p, f1, f2, f3⟩ := e4 k w hw
          exact ⟨j, p, by rw [List.getElem?_cons_succ]; exact f1, f2, f3⟩

/-- **C151, partial.**  An origin with a single destination whose table gives path 0, 1, … whole numbers
of at least one vehicle each in interval `i`, and whose queue holds at most that many newly released
vehicles: the first vehicles go to path 0, as many as the table says, the next to path 1, and so on.
Missing: shares of zero, fractions and several destinations (see the counterexamples). -/
theorem C151_shares_partial (t : Table) (paths : PathTable) (tr : Trips) (isLink : ℤ → Bool) (i : ℕ)
    (queue : ℤ → List ℤ) (s : St) (o : Origin) (d : ℤ) (x : List ℚ) (shares : List ℕ) (ps : List (List ℤ))
    (hsh : shares ≠ []) (ho : o.demand = [(d, x)]) (hx : x[i]? = some ((shares.sum : ℕ) : ℚ))
    (ht : ∀ j a : ℕ, shares[j]? = some a → 0 < a ∧ lookup t o.node d j i = .ok (a : ℚ))
    (hps : paths o.node d = some ps) (hlen : shares.length ≤ ps.length)
    (hpath : ∀ p ∈ ps, ∃ l ls, p = l :: ls ∧ isLink l = true)
    (hq : (queue o.node).length ≤ shares.sum) (hn : (queue o.node).Nodup)
    (hv : ∀ v ∈ queue o.node, tr.orig v = o.node ∧ tr.dest v = d ∧ s.tracker v = none) :
    ∃ s', originStep t paths tr isLink i queue s o = .ok s' ∧
      ∀ (k : ℕ) (v : ℤ), (queue o.node)[k]? = some v → ∃ (j : ℕ) (l : ℤ) (ls : List ℤ), (shareFrom 0 shares)[k]? = some j ∧
        ps[j]? = some (l :: ls) ∧ s'.next v = some l ∧ s'.tracker v = some ls := by
  cases shares with
  | nil => exact absurd rfl hsh
  | cons b rest =>
    obtain ⟨hb, hlook⟩ := ht 0 b rfl
    simp only [List.sum_cons, List.length_cons] at hx hq hlen
    obtain ⟨p, e1, e2, e3, e4⟩ := assign_shares (t := t) (i := i) (tr := tr) hps (queue o.node) s 0 b rest
      (fun j a hj => by
        have := ht (j + 1) a (by simpa using hj)
        rw [show 0 + 1 + j = j + 1 from by omega]
        exact this) (by omega) hq hn hv
    have hpop : ∀ v ∈ queue o.node, ∃ l ls, p.2.tracker v = some (l :: ls) ∧ isLink l = true := by
      intro v hvq
      obtain ⟨k, hk⟩ := List.mem_iff_getElem?.1 hvq
      obtain ⟨j, p', _, f2, f3⟩ := e4 k v hk
      obtain ⟨l, ls, rfl, g⟩ := hpath p' (List.mem_of_getElem? f2)
      exact ⟨l, ls, f3, g⟩
    obtain ⟨s', hs'⟩ := pop_ok isLink (queue o.node) p.2 hn hpop
    refine ⟨s', ?_, fun k v hk => ?_⟩
    · unfold originStep
      rw [ho]
      simp only [hx, hlook, Res.bind_ok']
      rw [e1, Res.bind_ok']
      exact hs'
    · obtain ⟨j, p', f1, f2, f3⟩ := e4 k v hk
      obtain ⟨_, b2⟩ := pop_all isLink (queue o.node) p.2 s' hn hs'
      obtain ⟨l, ls, g1, _, g3, g4⟩ := b2 v (List.mem_of_getElem? hk)
      rw [f3] at g1
      cases g1
      exact ⟨j, l, ls, by simpa [shareFrom] using f1, f2, g4, g3⟩

/-- Three paths from node 1 to node 3 with one link each, one path to node 4. -/
def exSharePaths : PathTable := fun o d =>
  if o = 1 ∧ d = 3 then some [[10], [11], [12]] else if o = 1 ∧ d = 4 then some [[13]] else none

/-- Vehicles 0 to 4 go to node 3, the others to node 4. -/
def exShareTrips : Trips := ⟨fun _ => 1, fun v => if v < 5 then 3 else 4⟩

set_option synthInstance.maxSize 1024 in
example : ((originStep (fun o d => if o = 1 ∧ d = 3 then some [(0, [2]), (1, [1]), (2, [2])] else none)
      exSharePaths exShareTrips (fun _ => true) 0 (fun _ => [0, 1, 2, 3, 4])
      ⟨fun _ => none, fun _ => none⟩ ⟨1, [(3, [5])]⟩).bind fun s => .ok ([0, 1, 2, 3, 4].map s.next)) =
    .ok [some 10, some 10, some 11, some 12, some 12] ∧
    shareFrom 0 [2, 1, 2] = [0, 0, 1, 2, 2] := by
  refine ⟨by decide +kernel, by decide⟩

/-- **C151 is false in general.**  With shares 2, 0 and 3 the path without a share gets a vehicle. -/
theorem C151_zero_share :
    ((originStep (fun o d => if o = 1 ∧ d = 3 then some [(0, [2]), (1, [0]), (2, [3])] else none)
      exSharePaths exShareTrips (fun _ => true) 0 (fun _ => [0, 1, 2, 3, 4])
      ⟨fun _ => none, fun _ => none⟩ ⟨1, [(3, [5])]⟩).bind fun s => .ok ([0, 1, 2, 3, 4].map s.next)) =
    .ok [some 10, some 10, some 11, some 12, some 12] := by
  decide +kernel

/-- **C151 is false in general.**  After a destination with several paths the share for the next
destination is looked up under the index of the old path.  If there is none, memory outside the table is read;
if there is one, the first path of the new destination gets the share of another path: here one vehicle, the
share of the second path, where the table says two. -/
theorem C151_next_destination :
    ((originStep (fun o d => if o = 1 ∧ d = 3 then some [(0, [2]), (1, [3])]
        else if o = 1 ∧ d = 4 then some [(0, [1])] else none)
      exSharePaths exShareTrips (fun _ => true) 0 (fun _ => [0, 1, 2, 3, 4, 5])
      ⟨fun _ => none, fun _ => none⟩ ⟨1, [(3, [5]), (4, [1])]⟩).bind fun s => .ok (s.next 5)) = .ub ∧
    ((originStep (fun o d => if o = 1 ∧ d = 3 then some [(0, [2]), (1, [3])]
        else if o = 1 ∧ d = 4 then some [(0, [2]), (1, [1])] else none)
      (fun o d => if o = 1 ∧ d = 4 then some [[20, 21], [22, 23]] else exSharePaths o d) exShareTrips
      (fun _ => true) 0 (fun _ => [0, 1, 2, 3, 4, 5, 6]) ⟨fun _ => none, fun _ => none⟩
      ⟨1, [(3, [5]), (4, [3])]⟩).bind fun s => .ok ([5, 6].map s.next)) = .ok [some 20, some 22] := by
  decide +kernel

end Verif
