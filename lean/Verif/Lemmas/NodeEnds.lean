import Verif.Lemmas.NodeWhole

/-! # Lemmas about origin and destination nodes -/

namespace Verif.Net
open Ults Curve Lnk

theorem queued_eq (s : State) (n o : ℕ) : s.queued n o = (s.queue n).filter (s.heads o) := rfl

theorem recordOpt_ok {scalar : ℚ} {ts : ℕ} {n : ℤ} {c c' : Option Curve}
    (h : (if n > 0 then recordOpt scalar ts n c else .ok c) = .ok c') :
    Recorded scalar ts n c c' := by
  unfold Recorded
  split at h
  · rename_i hn
    rw [if_pos hn]
    cases c with
    | none => simp [recordOpt] at h; exact h.symm
    | some k =>
      simp only [recordOpt] at h
      rw [Res.bind_eq_ok'] at h
      obtain ⟨k', h1, h2⟩ := h
      cases h2
      exact ⟨k', h1, rfl⟩
  · rename_i hn
    rw [if_neg hn]
    cases h; rfl

/-- What one interval of an origin node does with the volumes `lvs`. -/
structure OriginSpec (scalar : ℚ) (ts node : ℕ) (lvs : List (ℕ × ℤ)) (s s' : State) : Prop where
  frame : Frame s s'
  fin : ∀ l, s'.fin l = s.fin l
  out : ∀ l n, (l, n) ∈ lvs → s'.inc l = s.inc l ++ (s.queued node l).take n.toNat ∧
    s'.queued node l = (s.queued node l).drop n.toNat ∧
    Recorded scalar ts n (s.links l).nIn (s'.links l).nIn
  incOther : ∀ l, l ∉ lvs.map Prod.fst → s'.inc l = s.inc l
  nInOther : ∀ l, l ∉ lvs.map Prod.fst → (s'.links l).nIn = (s.links l).nIn
  nOut : ∀ l, (s'.links l).nOut = (s.links l).nOut
  queueOther : ∀ k, k ≠ node → s'.queue k = s.queue k
  sub : (s'.queue node).Sublist (s.queue node)
  rest : ∀ r : ℕ → Bool, (∀ v, r v = true → ∀ lv ∈ lvs, s.heads lv.1 v = false) →
    (s'.queue node).filter r = (s.queue node).filter r
  count : ∀ B : List ℕ, B.Nodup → (∀ lv ∈ lvs, lv.1 ∈ B) → ∀ v,
    (s'.queue node).count v + (B.flatMap s'.inc).count v
      = (s.queue node).count v + (B.flatMap s.inc).count v

theorem originMove_spec {scalar : ℚ} {ts node : ℕ} {s s' : State} {lv : ℕ × ℤ}
    (h : originMove scalar ts node s lv = .ok s') : OriginSpec scalar ts node [lv] s s' := by
  obtain ⟨l, n⟩ := lv
  unfold originMove at h
  rw [Res.bind_eq_ok'] at h
  obtain ⟨c, hc, h⟩ := h
  have hrec := recordOpt_ok hc
  clear hc
  simp only at h hrec
  have hfst := takeFirst_fst (s.heads l) n.toNat (s.queue node)
  have hsnd := takeFirst_snd (s.heads l) n.toNat (s.queue node)
  have hoth := takeFirst_other (s.heads l) (n := n.toNat) (q := s.queue node)
  have hsub := takeFirst_sublist (s.heads l) n.toNat (s.queue node)
  have hperm := takeFirst_perm (s.heads l) n.toNat (s.queue node)
  generalize takeFirst (s.heads l) n.toNat (s.queue node) = r at *
  rw [Res.ok.injEq] at h
  have hfin : ∀ x, s'.fin x = s.fin x := by
    intro x; rw [← h]; simp only [State.fin, State.enter, upd]
    split <;> simp_all
  have hinc : ∀ x, s'.inc x = if x = l then s.inc l ++ r.1 else s.inc x := by
    intro x; rw [← h]; simp only [State.inc, State.enter, upd]
    split <;> simp_all
  have hq : ∀ k, s'.queue k = if k = node then r.2 else s.queue k := by
    intro k; rw [← h]; simp only [State.enter, upd]
  have hin : ∀ x, (s'.links x).nIn = if x = l then c else (s.links x).nIn := by
    intro x; rw [← h]; simp only [State.enter, upd]
    split <;> simp_all
  have hfr : Frame s s' := by
    refine ⟨?_, ?_, ?_, ?_, ?_⟩
    · intro v; rw [← h]; simp only [State.enter]; split <;> rfl
    · intro v; rw [← h]; simp only [State.enter]; split <;> rfl
    · intro x
      rw [hfin, hinc, ← h]
      simp only [State.enter, upd]
      split
      · rename_i e
        subst e
        simp [State.fin, State.inc, setFin_same]
      · simp only [State.fin, State.inc, set_same]
    · rw [← h]; exact ⟨rfl, rfl, rfl, rfl, rfl⟩
    · rw [← h]; rfl
  refine ⟨hfr, hfin, ?_, ?_, ?_, ?_, ?_, ?_, ?_, ?_⟩
  · intro l' n' hmem
    simp only [List.mem_singleton, Prod.mk.injEq] at hmem
    obtain ⟨rfl, rfl⟩ := hmem
    refine ⟨?_, ?_, ?_⟩
    · rw [hinc, if_pos rfl, hfst]; rfl
    · rw [queued_eq, hq, if_pos rfl, hfr.heads, hsnd]; rfl
    · rw [hin, if_pos rfl]; exact hrec
  · intro x hx; rw [hinc, if_neg (by simpa using hx)]
  · intro x hx; rw [hin, if_neg (by simpa using hx)]
  · intro x; rw [← h]; simp only [State.enter, upd]
    split <;> simp_all
  · intro k hk; rw [hq, if_neg hk]
  · rw [hq, if_pos rfl]; exact hsub
  · intro r' hr'
    rw [hq, if_pos rfl]
    exact hoth r' (fun v hv => hr' v hv (l, n) (by simp))
  · intro B hB hl v
    have hl' : l ∈ B := hl (l, n) (by simp)
    have h1 := count_flatMap_upd hB hl' (f := s.inc) (f' := s'.inc)
      (fun x hx => by rw [hinc, if_neg hx]) v
    have h2 := hperm.count_eq v
    rw [hinc, if_pos rfl] at h1
    rw [hq, if_pos rfl]
    simp only [List.count_append] at h1 h2
    omega

theorem originFold_spec {scalar : ℚ} {ts node : ℕ} : ∀ (lvs : List (ℕ × ℤ)) (s s' : State),
    Res.foldlM (originMove scalar ts node) s lvs = .ok s' → (lvs.map Prod.fst).Nodup →
    OriginSpec scalar ts node lvs s s'
  | [], s, s', h, _ => by
    simp only [Res.foldlM_nil, Res.ok.injEq] at h
    subst h
    exact ⟨(OnlyMoves.refl s).toFrame, fun _ => rfl, by simp, fun _ _ => rfl, fun _ _ => rfl,
      fun _ => rfl, fun _ _ => rfl, List.Sublist.refl _, fun _ _ => rfl, fun _ _ _ _ => rfl⟩
  | (l, n) :: lvs, s, s', h, hnd => by
    rw [Res.foldlM_cons, Res.bind_eq_ok] at h
    obtain ⟨s1, h1, h2⟩ := h
    simp only [List.map_cons, List.nodup_cons] at hnd
    have A := originMove_spec h1
    have B := originFold_spec lvs s1 s' h2 hnd.2
    have hne : ∀ lv ∈ lvs, lv.1 ≠ l := fun lv hlv e =>
      hnd.1 (e ▸ List.mem_map_of_mem (f := Prod.fst) hlv)
    have hq1 : s'.queued node l = s1.queued node l := by
      rw [queued_eq, queued_eq, B.frame.heads]
      apply B.rest
      intro v hv lv hlv
      simp only [State.heads, decide_eq_true_eq, decide_eq_false_iff_not] at *
      rw [hv]
      simpa using Ne.symm (hne lv hlv)
    have hq2 : ∀ lv ∈ lvs, s1.queued node lv.1 = s.queued node lv.1 := by
      intro lv hlv
      rw [queued_eq, queued_eq, A.frame.heads]
      apply A.rest
      intro v hv lv' hlv'
      simp only [List.mem_singleton] at hlv'
      subst hlv'
      simp only [State.heads, decide_eq_true_eq, decide_eq_false_iff_not] at *
      rw [hv]
      simpa using hne lv hlv
    obtain ⟨a1, a2, a3⟩ := A.out l n (by simp)
    refine ⟨A.frame.trans B.frame, fun x => (B.fin x).trans (A.fin x), ?_, ?_, ?_, ?_, ?_, ?_, ?_, ?_⟩
    · intro l' n' hmem
      rcases List.mem_cons.1 hmem with e | hmem
      · simp only [Prod.mk.injEq] at e
        obtain ⟨rfl, rfl⟩ := e
        refine ⟨by rw [B.incOther _ hnd.1, a1], by rw [hq1, a2], ?_⟩
        rw [B.nInOther _ hnd.1]; exact a3
      · obtain ⟨b1, b2, b3⟩ := B.out l' n' hmem
        have hx := hne _ hmem
        have hx' : l' ∉ [(l, n)].map Prod.fst := by simpa using hx
        rw [hq2 _ hmem] at b1 b2
        rw [A.incOther _ hx'] at b1
        rw [A.nInOther _ hx'] at b3
        exact ⟨b1, b2, b3⟩
    · intro x hx
      simp only [List.map_cons, List.mem_cons, not_or] at hx
      rw [B.incOther x hx.2, A.incOther x (by simpa using hx.1)]
    · intro x hx
      simp only [List.map_cons, List.mem_cons, not_or] at hx
      rw [B.nInOther x hx.2, A.nInOther x (by simpa using hx.1)]
    · exact fun x => (B.nOut x).trans (A.nOut x)
    · exact fun k hk => (B.queueOther k hk).trans (A.queueOther k hk)
    · exact B.sub.trans A.sub
    · intro r hr
      rw [B.rest r (fun v hv lv hlv => by rw [A.frame.heads]; exact hr v hv lv (by simp [hlv])),
        A.rest r (fun v hv lv hlv => by
          simp only [List.mem_singleton] at hlv
          subst hlv
          exact hr v hv _ (by simp))]
    · intro C hC hl v
      rw [B.count C hC (fun lv hlv => hl lv (by simp [hlv])) v,
        A.count C hC (fun lv hlv => by
          simp only [List.mem_singleton] at hlv
          subst hlv
          exact hl _ (by simp)) v]

theorem originVolumes_get {scalar : ℚ} {s : State} {q : List ℕ} {u : ℕ → ℚ} :
    ∀ {outs : List ℕ} {i : ℕ} {lvs : List (ℕ × ℤ)}, originVolumes scalar s q u i outs = .ok lvs →
      lvs.map Prod.fst = outs ∧ ∀ (k l : ℕ), outs[k]? = some l →
        ∃ n, lvs[k]? = some (l, n) ∧ originVolume scalar s q (u (i + k)) l = .ok n
  | [], i, lvs, h => by simp [originVolumes] at h; subst h; simp
  | l :: ls, i, lvs, h => by
    simp only [originVolumes] at h
    rw [Res.bind_eq_ok'] at h
    obtain ⟨n, hn, h⟩ := h
    rw [Res.bind_eq_ok'] at h
    obtain ⟨r, hr, h⟩ := h
    cases h
    obtain ⟨h1, h2⟩ := originVolumes_get hr
    refine ⟨by simp [h1], ?_⟩
    intro k l' hk
    cases k with
    | zero => simp at hk; subst hk; exact ⟨n, by simp, by simpa using hn⟩
    | succ k =>
      simp at hk
      obtain ⟨m, m1, m2⟩ := h2 k l' hk
      have e : i + 1 + k = i + (k + 1) := by omega
      rw [e] at m2
      exact ⟨m, by simpa using m1, m2⟩

theorem origin_spec {scalar : ℚ} {ts node : ℕ} {outs : List ℕ} {u : ℕ → ℚ} {s s' : State}
    (h : originEvolve scalar ts node outs u s = .ok s') (houts : outs.Nodup) :
    (∀ v ∈ s.queue node, ∃ o ∈ outs, (s.vehs v).next = some o) ∧
    ∃ lvs, lvs.map Prod.fst = outs ∧ OriginSpec scalar ts node lvs s s' ∧
      ∀ (k l : ℕ), outs[k]? = some l → ∃ n sup, (l, n) ∈ lvs ∧ (s.links l).link.supply = .ok sup ∧
        ((((s.queued node l).length : ℚ) ≤ sup * scalar ∧ n = (s.queued node l).length) ∨
         (sup * scalar < ((s.queued node l).length : ℚ) ∧ n = roundVal (sup * scalar) (u k))) := by
  unfold originEvolve at h
  split at h
  swap
  · simp at h
  rename_i hall
  rw [Res.bind_eq_ok'] at h
  obtain ⟨lvs, h1, h2⟩ := h
  obtain ⟨e1, e2⟩ := originVolumes_get h1
  refine ⟨?_, lvs, e1, originFold_spec lvs s s' h2 (by rw [e1]; exact houts), ?_⟩
  · intro v hv
    rw [List.all_eq_true] at hall
    have := hall v hv
    rw [List.any_eq_true] at this
    obtain ⟨o, ho, hh⟩ := this
    exact ⟨o, ho, by simpa [State.heads] using hh⟩
  · intro k l hk
    obtain ⟨n, hn, hv⟩ := e2 k l hk
    rw [Nat.zero_add] at hv
    unfold originVolume at hv
    rw [Res.bind_eq_ok'] at hv
    obtain ⟨sup, hsup, hv⟩ := hv
    have hc : (s.queue node).countP (s.heads l) = (s.queued node l).length :=
      List.countP_eq_length_filter
    rw [hc] at hv
    refine ⟨n, sup, List.mem_of_getElem? hn, hsup, ?_⟩
    split at hv
    · rename_i hlt
      exact Or.inr ⟨hlt, round_ok hv⟩
    · rename_i hge
      cases hv
      exact Or.inl ⟨not_lt.1 hge, rfl⟩

/-- What one interval of a destination node does. -/
structure DestSpec (scalar : ℚ) (ts node : ℕ) (ins : List ℕ) (s s' : State) : Prop where
  frame : Frame s s'
  none : ∀ l ∈ ins, ∀ v ∈ s.fin l, (s.vehs v).next = .none
  inc : ∀ l, s'.inc l = s.inc l
  nIn : ∀ l, (s'.links l).nIn = (s.links l).nIn
  queue : s'.queue node = s.queue node ++ ins.flatMap s.fin
  queueOther : ∀ k, k ≠ node → s'.queue k = s.queue k
  fin : ∀ l ∈ ins, s'.fin l = [] ∧
    Recorded scalar ts (s.fin l).length (s.links l).nOut (s'.links l).nOut
  finOther : ∀ l, l ∉ ins → s'.fin l = s.fin l
  nOutOther : ∀ l, l ∉ ins → (s'.links l).nOut = (s.links l).nOut

theorem destTake_spec {scalar : ℚ} {ts node : ℕ} {s s' : State} {l : ℕ}
    (h : destTake scalar ts node s l = .ok s') : DestSpec scalar ts node [l] s s' := by
  unfold destTake at h
  simp only at h
  rw [Res.bind_eq_ok'] at h
  obtain ⟨c, hc, h⟩ := h
  have hrec : Recorded scalar ts ((s.links l).link.finished.length : ℤ) (s.links l).nOut c := by
    apply recordOpt_ok
    have e : (((s.links l).link.finished.length : ℤ) > 0) ↔ 0 < (s.links l).link.finished.length := by
      omega
    simp only [e]
    exact hc
  split at h
  swap
  · simp at h
  rename_i hall
  rw [Res.ok.injEq] at h
  have hfin : ∀ x, s'.fin x = if x = l then [] else s.fin x := by
    intro x; rw [← h]; simp only [State.fin, upd]
    split <;> simp_all
  have hinc : ∀ x, s'.inc x = s.inc x := by
    intro x; rw [← h]; simp only [State.inc, upd]
    split <;> simp_all
  refine ⟨⟨?_, ?_, ?_, ?_, ?_⟩, ?_, hinc, ?_, ?_, ?_, ?_, ?_, ?_⟩
  · intro v; rw [← h]; simp only; split <;> rfl
  · intro v; rw [← h]; simp only; split <;> rfl
  · intro x
    rw [hfin, hinc, ← h]
    simp only [upd]
    split
    · rename_i e; subst e
      simp only [State.inc]
      rw [← inc_setFin (s.links x).link [], setInc_same]
    · simp only [State.fin, State.inc, set_same]
  · rw [← h]; exact ⟨rfl, rfl, rfl, rfl, rfl⟩
  · rw [← h]
  · intro x hx v hv
    simp only [List.mem_singleton] at hx
    subst hx
    rw [List.all_eq_true] at hall
    simpa using hall v hv
  · intro x; rw [← h]; simp only [upd]; split <;> simp_all
  · rw [← h]; simp [upd, State.fin]
  · intro k hk; rw [← h]; simp [upd, hk]
  · intro x hx
    simp only [List.mem_singleton] at hx
    subst hx
    refine ⟨by rw [hfin, if_pos rfl], ?_⟩
    have : (s'.links x).nOut = c := by rw [← h]; simp [upd]
    rw [this]; exact hrec
  · intro x hx; rw [hfin, if_neg (by simpa using hx)]
  · intro x hx; rw [← h]; simp only [upd]; rw [if_neg (by simpa using hx)]

theorem dest_spec {scalar : ℚ} {ts node : ℕ} : ∀ (ins : List ℕ) (s s' : State),
    destEvolve scalar ts node ins s = .ok s' → ins.Nodup → DestSpec scalar ts node ins s s'
  | [], s, s', h, _ => by
    simp only [destEvolve, Res.foldlM_nil, Res.ok.injEq] at h
    subst h
    exact ⟨(OnlyMoves.refl s).toFrame, by simp, fun _ => rfl, fun _ => rfl, by simp, fun _ _ => rfl,
      by simp, fun _ _ => rfl, fun _ _ => rfl⟩
  | l :: ins, s, s', h, hnd => by
    unfold destEvolve at h
    rw [Res.foldlM_cons, Res.bind_eq_ok] at h
    obtain ⟨s1, h1, h2⟩ := h
    rw [List.nodup_cons] at hnd
    have A := destTake_spec h1
    have B := dest_spec ins s1 s' h2 hnd.2
    have hne : ∀ x ∈ ins, x ∉ [l] := by
      intro x hx e
      simp only [List.mem_singleton] at e
      exact hnd.1 (e ▸ hx)
    have hf : ∀ x ∈ ins, s1.fin x = s.fin x := fun x hx => A.finOther x (hne x hx)
    refine ⟨A.frame.trans B.frame, ?_, fun x => (B.inc x).trans (A.inc x),
      fun x => (B.nIn x).trans (A.nIn x), ?_, fun k hk => (B.queueOther k hk).trans (A.queueOther k hk),
      ?_, ?_, ?_⟩
    · intro x hx v hv
      rcases List.mem_cons.1 hx with rfl | hx
      · exact A.none x (by simp) v hv
      · rw [← A.frame.next v]
        exact B.none x hx v (by rw [hf x hx]; exact hv)
    · rw [B.queue, A.queue]
      simp only [List.flatMap_cons, List.flatMap_nil, List.append_nil, List.append_assoc]
      congr 2
      exact List.flatMap_congr hf
    · intro x hx
      rcases List.mem_cons.1 hx with rfl | hx
      · obtain ⟨a1, a2⟩ := A.fin x (by simp)
        rw [B.finOther x hnd.1, B.nOutOther x hnd.1]
        exact ⟨a1, a2⟩
      · obtain ⟨b1, b2⟩ := B.fin x hx
        rw [hf x hx, A.nOutOther x (hne x hx)] at b2
        exact ⟨b1, b2⟩
    · intro x hx
      simp only [List.mem_cons, not_or] at hx
      rw [B.finOther x hx.2, A.finOther x (by simpa using hx.1)]
    · intro x hx
      simp only [List.mem_cons, not_or] at hx
      rw [B.nOutOther x hx.2, A.nOutOther x (by simpa using hx.1)]

/-! ### Accepting vehicles -/

theorem moveQueue_all {V : Type} : ∀ (src dst : List V),
    moveQueue src.length src dst = .ok ([], dst ++ src)
  | [], dst => by simp [moveQueue]
  | v :: src, dst => by
    simp only [List.length_cons, moveQueue]
    rw [moveQueue_all src]
    simp

/-- The link takes whatever stands at its entrance: `clear_incoming_array` returns normally and
leaves the entrance empty. -/
theorem clear_accepts {l : Link ℕ} {sup : ℚ} (hs : l.supply = .ok sup)
    (h : (l.incoming.length : ℚ) ≤ sup * l.scalar) (hr : sup * l.scalar < 2147483648)
    (hc : ∀ x, l = .ltm x → ∃ b, x.nIn2.getLast? = some b ∧ b.1 ≤ (x.now : ℚ) * x.unit) :
    ∃ l', l.clear = .ok l' ∧ l'.incoming = [] := by
  have h0 : (0 : ℚ) ≤ sup * l.scalar := le_trans (by positivity) h
  have hint := toInt_ok_of h0 hr
  have hle : (l.incoming.length : ℤ) ≤ ⌊sup * l.scalar⌋ := by
    rw [Int.le_floor]; exact_mod_cast h
  cases l with
  | pq l =>
    simp only [Link.supply, Link.scalar, Link.incoming, Res.ok.injEq] at hs hint hle
    subst hs
    refine ⟨_, by simp only [Link.clear, Pq.clear]; rw [hint]; rfl, ?_⟩
    simp only [Link.incoming]
    rw [min_eq_left hle]
    simp
  | ctm l =>
    simp only [Link.clear, Ctm.clear]
    simp only [Link.supply, Ctm.supply, Link.scalar, Link.incoming] at hs h
    cases hcells : l.cells with
    | nil => rw [hcells] at hs; simp at hs
    | cons c rest =>
      rw [hcells] at hs
      simp only [Res.ok.injEq] at hs
      subst hs
      simp only
      rw [if_neg (not_lt.2 h), moveQueue_all]
      exact ⟨_, rfl, rfl⟩
  | lq l =>
    simp only [Link.supply, Link.scalar, Link.incoming, Res.ok.injEq] at hs hint hle
    subst hs
    simp only [Link.clear, Lq.clear]
    rw [hint, Res.bind_ok', if_neg (not_lt.2 hle), moveQueue_all]
    exact ⟨_, rfl, rfl⟩
  | ltm l =>
    simp only [Link.supply, Link.scalar, Link.incoming] at hs hint hle
    obtain ⟨b, hb1, hb2⟩ := hc l rfl
    obtain ⟨c', hc'⟩ := addIncrement_ok (x := (l.incoming.length : ℚ) / l.scalar) hb1 hb2
    simp only [Link.clear, Ltm.clear]
    rw [hs, Res.bind_ok', hint, Res.bind_ok', if_neg (not_lt.2 hle), hc', Res.bind_ok', moveQueue_all]
    exact ⟨_, rfl, rfl⟩

theorem scalar_moved (l : Link ℕ) (a b : List ℕ) :
    ((l.setFinished a).setIncoming b).scalar = l.scalar := by cases l <;> rfl

theorem supply_moved (l : Link ℕ) (a b : List ℕ) :
    ((l.setFinished a).setIncoming b).supply = l.supply := by cases l <;> rfl

/-! ### Destinations -/

/-- What `receive` does before the queue is emptied. -/
structure ReceiveSpec (ts d : ℕ) (vs : List ℕ) (s s' : State) : Prop where
  dest : ∀ v ∈ vs, (s.vehs v).dest = d
  known : ∀ v ∈ vs, v ∈ s.vehMap
  finish : ∀ v ∈ vs, (s'.vehs v).finish = ts
  veh : ∀ v, { s'.vehs v with finish := 0 } = { s.vehs v with finish := 0 }
  other : ∀ v, v ∉ vs → s'.vehs v = s.vehs v
  map : ∀ v, s'.vehMap.count v = s.vehMap.count v - vs.count v
  finished : s'.finished = s.finished + vs.length
  enroute : s'.enroute = s.enroute - vs.length
  num : s'.numVeh = s.numVeh
  time : s'.totalTime = s.totalTime + (vs.map fun v => (((ts : ℤ) - (s.vehs v).start : ℤ) : ℚ)).sum
  queue : s'.queue = s.queue
  links : s'.links = s.links
  tracker : ∀ v, s'.tracker v = if v ∈ vs then none else s.tracker v
  log : s'.log = s.log

theorem receiveVeh_eq {ts d : ℕ} {s s' : State} {v : ℕ} (h : receiveVeh ts d s v = .ok s') :
    (s.vehs v).dest = d ∧ v ∈ s.vehMap ∧
    s' = { s with
      vehs := upd s.vehs v { s.vehs v with finish := ts }
      tracker := upd s.tracker v none
      vehMap := s.vehMap.erase v
      totalTime := s.totalTime + (((ts : ℤ) - (s.vehs v).start : ℤ) : ℚ)
      finished := s.finished + 1
      enroute := s.enroute - 1 } := by
  unfold receiveVeh at h
  split at h
  · simp at h
  rename_i hd
  simp only [State.removeFinished, State.untrack] at h
  split at h
  · rename_i hm
    cases h
    refine ⟨not_not.1 hd, hm, ?_⟩
    simp
  · simp at h

theorem receiveFold_spec {ts d : ℕ} : ∀ (vs : List ℕ) (s s' : State),
    Res.foldlM (receiveVeh ts d) s vs = .ok s' → vs.Nodup → ReceiveSpec ts d vs s s'
  | [], s, s', h, _ => by
    simp only [Res.foldlM_nil, Res.ok.injEq] at h
    subst h
    refine ⟨by simp, by simp, by simp, fun _ => rfl, fun _ _ => rfl, by simp, by simp, by simp, rfl,
      by simp, rfl, rfl, by simp, rfl⟩
  | v :: vs, s, s', h, hnd => by
    rw [Res.foldlM_cons, Res.bind_eq_ok] at h
    obtain ⟨s1, h1, h2⟩ := h
    rw [List.nodup_cons] at hnd
    obtain ⟨a1, a2, a3⟩ := receiveVeh_eq h1
    have B := receiveFold_spec vs s1 s' h2 hnd.2
    have hv : ∀ w, w ≠ v → s1.vehs w = s.vehs w := by
      intro w hw; rw [a3]; exact upd_other _ _ _ _ hw
    have hvv : s1.vehs v = { s.vehs v with finish := ts } := by rw [a3]; exact upd_same _ _ _
    have hne : ∀ w ∈ vs, w ≠ v := fun w hw e => hnd.1 (e ▸ hw)
    refine ⟨?_, ?_, ?_, ?_, ?_, ?_, ?_, ?_, ?_, ?_, ?_, ?_, ?_, ?_⟩
    · intro w hw
      rcases List.mem_cons.1 hw with rfl | hw
      · exact a1
      · rw [← hv w (hne w hw)]; exact B.dest w hw
    · intro w hw
      rcases List.mem_cons.1 hw with rfl | hw
      · exact a2
      · have := B.known w hw
        rw [a3] at this
        exact List.mem_of_mem_erase this
    · intro w hw
      rcases List.mem_cons.1 hw with rfl | hw
      · rw [B.other w hnd.1, hvv]
      · exact B.finish w hw
    · intro w
      rw [B.veh w]
      by_cases e : w = v
      · subst e; rw [hvv]
      · rw [hv w e]
    · intro w hw
      simp only [List.mem_cons, not_or] at hw
      rw [B.other w hw.2, hv w hw.1]
    · intro w
      rw [B.map w]
      have : s1.vehMap = s.vehMap.erase v := by rw [a3]
      rw [this, List.count_erase, List.count_cons]
      by_cases e : v = w
      · subst e; simp; omega
      · simp [e]
    · rw [B.finished, a3, List.length_cons]; simp only; omega
    · rw [B.enroute, a3, List.length_cons]; push_cast; omega
    · rw [B.num, a3]
    · rw [B.time]
      have e : (vs.map fun w => (((ts : ℤ) - (s1.vehs w).start : ℤ) : ℚ))
          = vs.map fun w => (((ts : ℤ) - (s.vehs w).start : ℤ) : ℚ) := by
        apply List.map_congr_left
        intro w hw
        rw [hv w (hne w hw)]
      rw [e, a3]
      simp only [List.map_cons, List.sum_cons]
      ring
    · rw [B.queue, a3]
    · rw [B.links, a3]
    · intro w
      rw [B.tracker w]
      by_cases e : w = v
      · subst e
        simp only [List.mem_cons, true_or, if_true]
        rw [a3]; simp
      · simp only [List.mem_cons, e, false_or]
        rw [a3]; simp [upd_other _ _ _ _ e]
    · rw [B.log, a3]

theorem receive_spec {c : Cfg} {ts d : ℕ} {s s' : State} (h : receive c ts s d = .ok s')
    (hnd : (s.queue (c.destNode d)).Nodup) :
    ReceiveSpec ts d (s.queue (c.destNode d)) s { s' with queue := s.queue } ∧
      s'.queue = upd s.queue (c.destNode d) [] := by
  unfold receive at h
  rw [Res.bind_eq_ok'] at h
  obtain ⟨s1, h1, h2⟩ := h
  cases h2
  have S := receiveFold_spec _ _ _ h1 hnd
  refine ⟨?_, by rw [← S.queue]⟩
  obtain ⟨x1, x2, x3, x4, x5, x6, x7, x8, x9, x10, x11, x12, x13, x14⟩ := S
  exact ⟨x1, x2, x3, x4, x5, x6, x7, x8, x9, x10, rfl, x12, x13, x14⟩

theorem receive_wrong {ts d : ℕ} : ∀ (vs : List ℕ) (s : State), vs.Nodup →
    (∀ v ∈ vs, v ∈ s.vehMap) → ∀ {v : ℕ}, v ∈ vs → (s.vehs v).dest ≠ d →
    Res.foldlM (receiveVeh ts d) s vs = .throw "invalid state"
  | [], _, _, _, v, hv, _ => by simp at hv
  | w :: vs, s, hnd, hk, v, hv, hne => by
    rw [List.nodup_cons] at hnd
    rw [Res.foldlM_cons]
    by_cases hw : (s.vehs w).dest = d
    · have hvw : v ≠ w := by rintro rfl; exact hne hw
      have hv' : v ∈ vs := by simpa [hvw] using hv
      have : ∃ s1, receiveVeh ts d s w = .ok s1 := by
        unfold receiveVeh
        rw [if_neg (not_not.2 hw)]
        simp only [State.removeFinished, State.untrack]
        rw [if_pos (hk w (by simp))]
        exact ⟨_, rfl⟩
      obtain ⟨s1, h1⟩ := this
      obtain ⟨_, _, a3⟩ := receiveVeh_eq h1
      rw [h1, Res.ok_bind]
      apply receive_wrong vs s1 hnd.2 _ hv'
      · rw [a3]
        simp only
        rw [upd_other _ _ _ _ hvw]; exact hne
      · intro x hx
        rw [a3]
        simp only
        have hxw : x ≠ w := fun e => hnd.1 (e ▸ hx)
        exact (List.mem_erase_of_ne hxw).2 (hk x (by simp [hx]))
    · have : receiveVeh ts d s w = .throw "invalid state" := by
        unfold receiveVeh
        rw [if_pos hw]
      rw [this]; rfl

end Verif.Net
