import Verif.Lemmas.RouteNodes

/-! # Lemmas about adaptive and random routing, labels and the end of loading -/

namespace Verif.Net
open Ults Curve Lnk

theorem foldlM_settle {α β : Type} {f : β → α → Res β} {P Q : β → Prop} (as : List α)
    (hP : ∀ b a b', a ∈ as → P b → f b a = .ok b' → P b')
    (keep : ∀ b a b', a ∈ as → P b → Q b → f b a = .ok b' → Q b')
    (est : ∃ a ∈ as, ∀ b b', P b → f b a = .ok b' → Q b') :
    ∀ (b b' : β), P b → Res.foldlM f b as = .ok b' → Q b' := by
  induction as with
  | nil => obtain ⟨a, ha, _⟩ := est; simp at ha
  | cons a as ih =>
    intro b b' hb h
    rw [Res.foldlM_cons, Res.bind_eq_ok] at h
    obtain ⟨d, hd, h⟩ := h
    have pd := hP b a d (by simp) hb hd
    by_cases e : ∃ x ∈ as, ∀ b b', P b → f b x = .ok b' → Q b'
    · exact ih (fun b a b' ha => hP b a b' (List.mem_cons_of_mem _ ha))
        (fun b a b' ha => keep b a b' (List.mem_cons_of_mem _ ha)) e d b' pd h
    · obtain ⟨x, hx, hest⟩ := est
      rcases List.mem_cons.1 hx with rfl | hx
      · exact (Res.foldlM_inv_mem (P := fun t => P t ∧ Q t) as (by
          intro b a b' ha hb he
          exact ⟨hP b a b' (List.mem_cons_of_mem _ ha) hb.1 he,
            keep b a b' (List.mem_cons_of_mem _ ha) hb.1 hb.2 he⟩) d b' ⟨pd, hest _ _ hb hd⟩ h).2
      · exact absurd ⟨x, hx, hest⟩ e

/-- A routing step that handles every vehicle at most at one place leaves `v` as its own step does. -/
theorem routeAll_settles {c : Cfg} {fo fl : ℕ → State → ℕ → Res State} (v : ℕ) (Good : State → Prop)
    (ro : ∀ n s s' v, fo n s v = .ok s' → Routed s s')
    (rl : ∀ n s s' v, fl n s v = .ok s' → Routed s s') {s s' : State}
    (ho : ∀ oid ∈ c.originIds, ∀ w ∈ s.queue (c.origin oid).node, ∀ t t', Routed s t →
      fo (c.origin oid).node t w = .ok t' → (w = v → Good t') ∧ (w ≠ v → Good t → Good t'))
    (hl : ∀ l ∈ c.linkIds, ∀ w ∈ s.fin l, ∀ t t', Routed s t →
      fl l t w = .ok t' → (w = v → Good t') ∧ (w ≠ v → Good t → Good t'))
    (hin : (∃ oid ∈ c.originIds, v ∈ s.queue (c.origin oid).node) ∨ ∃ l ∈ c.linkIds, v ∈ s.fin l)
    (h : routeAll c fo fl s = .ok s') : Good s' := by
  unfold routeAll at h
  rw [Res.bind_eq_ok'] at h
  obtain ⟨s1, h1, h2⟩ := h
  have keep1 : ∀ b oid b', oid ∈ c.originIds → Routed s b → Good b →
      Res.foldlM (fo (c.origin oid).node) b (b.queue (c.origin oid).node) = .ok b' → Good b' := by
    intro b oid b' ho' hb hg he
    refine (Res.foldlM_inv_mem (P := fun t => Routed s t ∧ Good t) _ ?_ _ _ ⟨hb, hg⟩ he).2
    intro x w x' hw hx hxe
    refine ⟨hx.1.trans (ro _ _ _ _ hxe), ?_⟩
    have := ho oid ho' w (by rw [← hb.queue]; exact hw) x x' hx.1 hxe
    by_cases e : w = v
    · exact this.1 e
    · exact this.2 e hx.2
  have keep2 : ∀ b l b', l ∈ c.linkIds → Routed s b → Good b →
      Res.foldlM (fl l) b (b.links l).link.finished = .ok b' → Good b' := by
    intro b l b' hl' hb hg he
    refine (Res.foldlM_inv_mem (P := fun t => Routed s t ∧ Good t) _ ?_ _ _ ⟨hb, hg⟩ he).2
    intro x w x' hw hx hxe
    refine ⟨hx.1.trans (rl _ _ _ _ hxe), ?_⟩
    have := hl l hl' w (by rw [← hb.fin_eq]; exact hw) x x' hx.1 hxe
    by_cases e : w = v
    · exact this.1 e
    · exact this.2 e hx.2
  have P1 : ∀ b oid b', oid ∈ c.originIds → Routed s b →
      Res.foldlM (fo (c.origin oid).node) b (b.queue (c.origin oid).node) = .ok b' → Routed s b' := by
    intro b oid b' _ hb he
    refine Res.foldlM_inv (P := fun t => Routed s t) ?_ _ _ _ hb he
    intro x w x' hx hxe
    exact hx.trans (ro _ _ _ _ hxe)
  have P2 : ∀ b l b', l ∈ c.linkIds → Routed s b →
      Res.foldlM (fl l) b (b.links l).link.finished = .ok b' → Routed s b' := by
    intro b l b' _ hb he
    refine Res.foldlM_inv (P := fun t => Routed s t) ?_ _ _ _ hb he
    intro x w x' hx hxe
    exact hx.trans (rl _ _ _ _ hxe)
  have R1 : Routed s s1 := Res.foldlM_inv_mem (P := fun t => Routed s t) c.originIds
    (fun b oid b' ho' hb he => P1 b oid b' ho' hb he) s s1 (Routed.refl s) h1
  rcases hin with ⟨oid, hoid, hv⟩ | ⟨l, hll, hv⟩
  · have G1 : Good s1 := by
      refine foldlM_settle (P := fun t => Routed s t) (Q := Good) c.originIds
        (fun b oid b' ho' hb he => P1 b oid b' ho' hb he)
        (fun b oid b' ho' hb hg he => keep1 b oid b' ho' hb hg he) ⟨oid, hoid, ?_⟩ s s1
        (Routed.refl s) h1
      intro b b' hb he
      refine foldlM_settle (P := fun t => Routed s t) (Q := Good) (b.queue (c.origin oid).node)
        (fun x w x' _ hx hxe => hx.trans (ro _ _ _ _ hxe)) ?_ ⟨v, ?_, ?_⟩ b b' hb he
      · intro x w x' hw hx hg hxe
        have := ho oid hoid w (by rw [← hb.queue]; exact hw) x x' hx hxe
        by_cases e : w = v
        · exact this.1 e
        · exact this.2 e hg
      · rw [hb.queue]; exact hv
      · intro x x' hx hxe
        exact (ho oid hoid v hv x x' hx hxe).1 rfl
    exact (Res.foldlM_inv_mem (P := fun t => Routed s t ∧ Good t) c.linkIds (by
      intro b l b' hl' hb he
      exact ⟨P2 b l b' hl' hb.1 he, keep2 b l b' hl' hb.1 hb.2 he⟩) s1 s' ⟨R1, G1⟩ h2).2
  · refine foldlM_settle (P := fun t => Routed s t) (Q := Good) c.linkIds
      (fun b l b' hl' hb he => P2 b l b' hl' hb he)
      (fun b l b' hl' hb hg he => keep2 b l b' hl' hb hg he) ⟨l, hll, ?_⟩ s1 s' R1 h2
    intro b b' hb he
    refine foldlM_settle (P := fun t => Routed s t) (Q := Good) (b.links l).link.finished
      (fun x w x' _ hx hxe => hx.trans (rl _ _ _ _ hxe)) ?_ ⟨v, ?_, ?_⟩ b b' hb he
    · intro x w x' hw hx hg hxe
      have := hl l hll w (by rw [← hb.fin_eq]; exact hw) x x' hx hxe
      by_cases e : w = v
      · exact this.1 e
      · exact this.2 e hg
    · have := hb.fin_eq
      rw [← this] at hv
      exact hv
    · intro x x' hx hxe
      exact (hl l hll v hv x x' hx hxe).1 rfl

/-- The step changes no vehicle but `v`. -/
def OnlyVeh (v : ℕ) (s s' : State) : Prop := ∀ w, w ≠ v → s'.vehs w = s.vehs w

theorem onlyVeh_next (s : State) (v : ℕ) (x : Option ℕ) :
    OnlyVeh v s { s with vehs := upd s.vehs v { s.vehs v with next := x } } :=
  fun w hw => upd_other _ _ _ _ hw

theorem getLink_ok {c : Cfg} {l k : ℕ} (h : getLink c l = .ok k) : k = l ∧ l ∈ c.linkIds := by
  unfold getLink at h
  split at h
  · cases h; exact ⟨rfl, by assumption⟩
  · simp at h

theorem getLinkZ_ok {c : Cfg} {l : ℤ} {k : ℕ} (h : getLinkZ c l = .ok k) : (k : ℤ) = l ∧ k ∈ c.linkIds := by
  unfold getLinkZ at h
  split at h
  · obtain ⟨rfl, h2⟩ := getLink_ok h
    exact ⟨by omega, h2⟩
  · simp at h

theorem adaptiveOrigin_next {c : Cfg} {tr : Trees} {n : ℕ} {s s' : State} {v : ℕ}
    (h : adaptiveOrigin c tr n s v = .ok s') :
    OnlyVeh v s s' ∧ ((s.vehs v).adaptive = true → ∃ l ∈ c.linkIds,
      tr (s.vehs v).dest n = some (l : ℤ) ∧ (s'.vehs v).next = some l) := by
  unfold adaptiveOrigin at h
  split at h
  · split at h
    · simp at h
    · rename_i l hl
      split at h
      · simp at h
      · rw [Res.bind_eq_ok'] at h
        obtain ⟨k, hk, h⟩ := h
        cases h
        obtain ⟨e1, e2⟩ := getLinkZ_ok hk
        exact ⟨onlyVeh_next _ _ _, fun _ => ⟨k, e2, by rw [hl, e1], by simp⟩⟩
  · rename_i hv
    cases h; exact ⟨fun _ _ => rfl, fun e => absurd e hv⟩

/-- What adaptive routing gives a vehicle of destination `d` at the end of link `l`. -/
def LinkChoice (c : Cfg) (tr : Trees) (l d : ℕ) (x : Option ℕ) : Prop :=
  (c.toNode l = c.destNode d ∧ x = none) ∨
  (c.toNode l ≠ c.destNode d ∧ ∃ k ∈ c.linkIds, x = some k ∧
    (tr d (c.toNode l) = some (k : ℤ) ∨
      (tr d (c.toNode l) = some (-1) ∧ k ∈ c.outLinks (c.toNode l))) ∧
    (c.toNode k ≠ c.destNode d → ∃ e, tr d (c.toNode k) = some e ∧ e ≠ -1))

theorem adaptiveLink_next {c : Cfg} {tr : Trees} {o : RouteOracle} {l : ℕ} {s s' : State} {v : ℕ}
    (h : adaptiveLink c tr o l s v = .ok s') :
    OnlyVeh v s s' ∧ ((s.vehs v).adaptive = true →
      LinkChoice c tr l (s.vehs v).dest (s'.vehs v).next) := by
  unfold adaptiveLink at h
  split at h
  · split at h
    · simp at h
    · split at h
      · rename_i hd
        cases h
        exact ⟨onlyVeh_next _ _ _, fun _ => Or.inl ⟨hd.symm, by simp⟩⟩
      · rename_i hd
        split at h
        · simp at h
        · rename_i k hk
          simp only at h
          rw [Res.bind_eq_ok'] at h
          obtain ⟨m, hm, h⟩ := h
          obtain ⟨m1, m2⟩ := getLinkZ_ok hm
          split at h
          · simp at h
          · rename_i q1
            split at h
            · simp at h
            · rename_i q2
              cases h
              refine ⟨onlyVeh_next _ _ _, fun _ => Or.inr ⟨fun e => hd e.symm, m, m2, by simp, ?_, ?_⟩⟩
              · split at m1
                · rename_i hc
                  right
                  refine ⟨by rw [hk, hc.1], ?_⟩
                  have hlen : 0 < (c.outLinks (c.toNode l)).length := by
                    rw [List.length_pos_iff]; exact hc.2
                  have : m = (c.outLinks (c.toNode l)).getD (o.pick v % (c.outLinks (c.toNode l)).length) 0 := by
                    exact_mod_cast m1
                  rw [this, List.getD_eq_getElem?_getD, List.getElem?_eq_getElem (Nat.mod_lt _ hlen),
                    Option.getD_some]
                  exact List.getElem_mem _
                · left; rw [hk, m1]
              · intro hne
                cases ht : tr (s.vehs v).dest (c.toNode m) with
                | none => exact absurd ⟨hne, ht⟩ q1
                | some e =>
                  exact ⟨e, rfl, fun he => q2 ⟨hne, by rw [ht, he]⟩⟩
  · rename_i hv
    cases h; exact ⟨fun _ _ => rfl, fun e => absurd e hv⟩

theorem fixedRouting_keeps {c : Cfg} {pt : PathTable} {o : RouteOracle} {s s' : State}
    (h : fixedRouting c pt o s = .ok s') (v : ℕ) (hv : (s.vehs v).adaptive = true) :
    (s'.vehs v).next = (s.vehs v).next := by
  unfold fixedRouting routeAll at h
  rw [Res.bind_eq_ok'] at h
  obtain ⟨s1, h1, h2⟩ := h
  have fo : ∀ t w t', Routed s t → fixedOrigin c pt o t w = .ok t' →
      (t'.vehs v).next = (t.vehs v).next := by
    intro t w t' ht he
    unfold fixedOrigin at he
    have ha : (t.vehs v).adaptive = true := by rw [ht.adaptive]; exact hv
    split at he
    · split at he
      · unfold registerVeh at he
        split at he
        · simp at he
        · split at he
          · simp at he
          · cases he
            by_cases e : v = w
            · subst e; simp
            · simp [upd_other _ _ _ _ e]
      · cases he; rfl
    · rename_i hw
      have e : v ≠ w := by rintro rfl; exact hw ha
      split at he
      · cases he; rfl
      · rw [Res.bind_eq_ok'] at he
        obtain ⟨t1, e1, e2⟩ := he
        unfold registerVeh at e1
        unfold nextFromTracker at e2
        split at e1
        · simp at e1
        · split at e1
          · simp at e1
          · cases e1
            split at e2
            · simp at e2
            · simp at e2
            · rw [Res.bind_eq_ok'] at e2
              obtain ⟨_, _, e2⟩ := e2
              cases e2
              simp [upd_other _ _ _ _ e]
  have fl : ∀ l t w t', Routed s t → fixedLink c l t w = .ok t' →
      (t'.vehs v).next = (t.vehs v).next := by
    intro l t w t' ht he
    have ha : (t.vehs v).adaptive = true := by rw [ht.adaptive]; exact hv
    unfold fixedLink at he
    split at he
    · cases he; rfl
    · rename_i hw
      have e : v ≠ w := by rintro rfl; exact hw ha
      split at he
      · split at he
        · simp at he
        · cases he; simp [upd_other _ _ _ _ e]
        · simp at he
      · split at he
        · simp at he
        · split at he
          · unfold nextFromTracker at he
            split at he
            · simp at he
            · simp at he
            · rw [Res.bind_eq_ok'] at he
              obtain ⟨_, _, he⟩ := he
              cases he
              simp [upd_other _ _ _ _ e]
          · cases he; rfl
  have A := Res.foldlM_inv (P := fun t => Routed s t ∧ (t.vehs v).next = (s.vehs v).next) (by
    intro b oid b' hb he
    refine Res.foldlM_inv (P := fun t => Routed s t ∧ (t.vehs v).next = (s.vehs v).next) ?_ _ _ _ hb he
    intro x w x' hx hxe
    exact ⟨hx.1.trans (fixedOrigin_routed hxe), (fo _ _ _ hx.1 hxe).trans hx.2⟩) _ _ _
    ⟨Routed.refl s, rfl⟩ h1
  refine (Res.foldlM_inv (P := fun t => Routed s t ∧ (t.vehs v).next = (s.vehs v).next) (by
    intro b l b' hb he
    refine Res.foldlM_inv (P := fun t => Routed s t ∧ (t.vehs v).next = (s.vehs v).next) ?_ _ _ _ hb he
    intro x w x' hx hxe
    exact ⟨hx.1.trans (fixedLink_routed hxe), (fl _ _ _ _ hx.1 hxe).trans hx.2⟩) _ _ _ A h2).2

theorem adaptiveRouting_origin {c : Cfg} (hc : c.Ok) {tr : Trees} {o : RouteOracle} {s s' : State}
    (hco : Core c s) (h : adaptiveRouting c tr o s = .ok s') (oid : ℕ) (hoid : oid ∈ c.originIds) (v : ℕ)
    (hv : v ∈ s.queue (c.origin oid).node) (ha : (s.vehs v).adaptive = true) :
    ∃ l ∈ c.linkIds, tr (s.vehs v).dest (c.origin oid).node = some (l : ℤ) ∧
      (s'.vehs v).next = some l := by
  refine routeAll_settles (c := c) v (fun t => ∃ l ∈ c.linkIds,
      tr (s.vehs v).dest (c.origin oid).node = some (l : ℤ) ∧ (t.vehs v).next = some l)
    (fun _ _ _ _ h => adaptiveOrigin_routed h) (fun _ _ _ _ h => adaptiveLink_routed h) ?_ ?_
    (Or.inl ⟨oid, hoid, hv⟩) h
  · intro oid' ho' w hw t t' ht he
    obtain ⟨a, b⟩ := adaptiveOrigin_next he
    constructor
    · rintro rfl
      have : (c.origin oid').node = (c.origin oid).node :=
        hco.once.queue_queue (hc.origins oid' ho').1 (hc.origins oid hoid).1 hw hv
      have := b (by rw [ht.adaptive]; exact ha)
      rw [ht.dest, ‹(c.origin oid').node = _›] at this
      exact this
    · intro hne hg
      rw [a v (Ne.symm hne)]; exact hg
  · intro l hl w hw t t' ht he
    obtain ⟨a, b⟩ := adaptiveLink_next he
    constructor
    · rintro rfl
      exact absurd (fin_on hw) (hco.once.queue_on (hc.origins oid hoid).1 hl hv)
    · intro hne hg
      rw [a v (Ne.symm hne)]; exact hg

theorem adaptiveRouting_link {c : Cfg} (hc : c.Ok) {tr : Trees} {o : RouteOracle} {s s' : State}
    (hco : Core c s) (h : adaptiveRouting c tr o s = .ok s') (l : ℕ) (hl : l ∈ c.linkIds) (v : ℕ)
    (hv : v ∈ s.fin l) (ha : (s.vehs v).adaptive = true) :
    LinkChoice c tr l (s.vehs v).dest (s'.vehs v).next := by
  refine routeAll_settles (c := c) v (fun t => LinkChoice c tr l (s.vehs v).dest (t.vehs v).next)
    (fun _ _ _ _ h => adaptiveOrigin_routed h) (fun _ _ _ _ h => adaptiveLink_routed h) ?_ ?_
    (Or.inr ⟨l, hl, hv⟩) h
  · intro oid' ho' w hw t t' ht he
    obtain ⟨a, b⟩ := adaptiveOrigin_next he
    constructor
    · rintro rfl
      exact absurd (fin_on hv) (hco.once.queue_on (hc.origins oid' ho').1 hl hw)
    · intro hne hg
      rw [a v (Ne.symm hne)]; exact hg
  · intro l' hl' w hw t t' ht he
    obtain ⟨a, b⟩ := adaptiveLink_next he
    constructor
    · rintro rfl
      have e : l' = l := hco.once.on_on hl' hl (fin_on hw) (fin_on hv)
      subst e
      have := b (by rw [ht.adaptive]; exact ha)
      rw [ht.dest] at this
      exact this
    · intro hne hg
      rw [a v (Ne.symm hne)]; exact hg

/-! ### Labels -/

theorem labelScan_spec : ∀ (ps : List ℚ) (r : ℚ) (k : ℤ), (∀ p ∈ ps, 0 ≤ p) → 0 ≤ r → r ≤ ps.sum →
    ps ≠ [] → ∃ a w b, ps = a ++ w :: b ∧ labelScan ps r k = k + a.length ∧
      (a ≠ [] → a.sum < r) ∧ r - a.sum ≤ w + 1 / 10000 * max |w| |r - a.sum| ∧
      (w = 0 → a = [] ∧ r = 0)
  | [], _, _, _, _, _, hne => absurd rfl hne
  | w :: rest, r, k, h, hr, hs, _ => by
    have hw : 0 ≤ w := h w (by simp)
    unfold labelScan
    by_cases hlt : approxLt w r tol = true
    · simp only [hlt, Bool.not_true, Bool.false_eq_true, if_false]
      have hlt : w + 1 / 10000 * max |w| |r| < r := of_decide_eq_true hlt
      have hm : (0 : ℚ) ≤ 1 / 10000 * max |w| |r| := by positivity
      have hpos : 0 < r - w := by linarith
      rw [List.sum_cons] at hs
      obtain ⟨a, v, b, e1, e2, e3, e4, e5⟩ := labelScan_spec rest (r - w) (k + 1)
        (fun q hq => h q (by simp [hq])) hpos.le (by linarith) (by
          rintro rfl
          simp at hs
          linarith)
      refine ⟨w :: a, v, b, by rw [e1]; rfl, by rw [e2, List.length_cons]; push_cast; ring, ?_, ?_, ?_⟩
      · intro _
        rw [List.sum_cons]
        by_cases ha : a = []
        · subst ha
          simp; linarith
        · have := e3 ha
          linarith
      · rw [List.sum_cons, show r - (w + a.sum) = r - w - a.sum by ring]
        exact e4
      · intro hv
        have := (e5 hv).2
        linarith
    · simp only [hlt, Bool.not_false, if_true]
      have hlt : r ≤ w + 1 / 10000 * max |w| |r| := not_lt.1 (of_decide_eq_false (Bool.eq_false_iff.2 hlt))
      refine ⟨[], w, rest, rfl, by simp, by simp, by simpa using hlt, ?_⟩
      rintro rfl
      refine ⟨rfl, ?_⟩
      simp [abs_of_nonneg hr, max_eq_right hr] at hlt
      linarith

theorem releaseDests_label {c : Cfg} {scalar : ℚ} {ts oid assign : ℕ} (hoid : oid ∈ c.originIds)
    (orc : ReleaseOracle) : ∀ (dem : List (ℕ × (ℕ → ℚ))) (k : ℕ) (ratio : ℚ) (s s' : State),
    releaseDests scalar (c.origin oid) oid orc ts assign k ratio dem s = .ok s' →
      ∀ v, s.numVeh < v → v ≤ s'.numVeh →
        (s'.vehs v).label = generateLabel (c.origin oid).labels (orc.l v)
  | [], k, ratio, s, s', h => by
    simp only [releaseDests, Res.ok.injEq] at h
    subst h
    intro v h1 h2; omega
  | (d, f) :: dem, k, ratio, s, s', h => by
    simp only [releaseDests] at h
    rw [Res.bind_eq_ok'] at h
    obtain ⟨n, hn, h⟩ := h
    obtain ⟨rt, h⟩ : ∃ rt, releaseDests scalar (c.origin oid) oid orc ts assign (k + 1) rt dem
          (releaseVehs (c.origin oid) oid orc ts d rt n.toNat s) = .ok s' := ⟨_, h⟩
    obtain ⟨B, B'⟩ := releaseVehs_spec (c := c) (ts := ts) (d := d) hoid orc rt n.toNat s
    generalize hs1 : releaseVehs (c.origin oid) oid orc ts d rt n.toNat s = s1 at *
    have ih := releaseDests_label hoid orc dem _ _ _ _ h
    obtain ⟨m, R, _⟩ := releaseDests_rel hoid orc dem _ _ _ _ h
    intro v v1 v2
    by_cases hv : v ≤ s1.numVeh
    · rw [R.old v (Or.inl hv), B'.veh v v1 (by rw [← B.num]; exact hv)]
    · exact ih v (by omega) v2

end Verif.Net
