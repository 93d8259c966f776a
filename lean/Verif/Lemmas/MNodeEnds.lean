import Verif.Lemmas.MNode
import Verif.Lemmas.MNetInv

/-! # Origin nodes, destination nodes and release with cars and trucks -/

namespace Verif.MNet
open Ults Curve Net

theorem OnlyQueues.refl (s : State) : OnlyQueues s s := OnlyMoves.refl s

theorem OnlyQueues.trans {a b d : State} (h : OnlyQueues a b) (k : OnlyQueues b d) :
    OnlyQueues a d := by
  refine ⟨?_, fun v => (k.veh v).trans (h.veh v), ?_⟩
  · rw [k.rest]
    conv_lhs => rw [h.rest]
  · intro l
    rw [k.link l]
    show ((b.links l).link.setFinished _).setIncoming _ = _
    rw [h.link l, setBoth]

theorem OnlyQueues.truck {s s' : State} (h : OnlyQueues s s') : s'.truck = s.truck := by
  rw [OnlyMoves.rest h]

theorem OnlyQueues.heads {s s' : State} (h : OnlyQueues s s') (o : ℕ) : s'.heads o = s.heads o :=
  OnlyMoves.heads h o

theorem OnlyQueues.next {s s' : State} (h : OnlyQueues s s') (v : ℕ) :
    (s'.vehs v).next = (s.vehs v).next := OnlyMoves.next h v

theorem OnlyCurves.onlyQueues {s s' : State} (h : OnlyCurves s s') : OnlyQueues s s' := by
  have hq : s'.queue = s.queue := by rw [h.rest]
  unfold OnlyQueues
  rw [hq]
  exact h.moves

theorem queued_eq (s : State) (n o : ℕ) : s.queued n o = (s.queue n).filter (s.heads o) := rfl

/-- What one interval of an origin node does with the volumes `lvs`. -/
structure OriginSpec (scalar : ℚ) (ts node : ℕ) (lvs : List (ℕ × ℤ)) (s s' : State) : Prop where
  only : OnlyQueues s s'
  pq : ∀ lv ∈ lvs, isPq (s.links lv.1).link = true
  fin : ∀ l, s'.fin l = s.fin l
  out : ∀ l n, (l, n) ∈ lvs → s'.inc l = s.inc l ++ (s.queued node l).take n.toNat ∧
    s'.queued node l = (s.queued node l).drop n.toNat ∧
    ∀ b, Recorded scalar ts (cls s.truck b ((s.queued node l).take n.toNat) : ℕ)
      ((s.links l).nIn b) ((s'.links l).nIn b)
  incOther : ∀ l, l ∉ lvs.map Prod.fst → s'.inc l = s.inc l
  nInOther : ∀ l, l ∉ lvs.map Prod.fst → ∀ b, (s'.links l).nIn b = (s.links l).nIn b
  nOut : ∀ l b, (s'.links l).nOut b = (s.links l).nOut b
  queueOther : ∀ k, k ≠ node → s'.queue k = s.queue k
  sub : (s'.queue node).Sublist (s.queue node)
  rest : ∀ r : ℕ → Bool, (∀ v, r v = true → ∀ lv ∈ lvs, s.heads lv.1 v = false) →
    (s'.queue node).filter r = (s.queue node).filter r
  count : ∀ B : List ℕ, B.Nodup → (∀ lv ∈ lvs, lv.1 ∈ B) → ∀ v,
    (s'.queue node).count v + (B.flatMap s'.inc).count v
      = (s.queue node).count v + (B.flatMap s.inc).count v

theorem originMove_spec {scalar : ℚ} {ts node : ℕ} {s s' : State} {lv : ℕ × ℤ}
    (h : originMove scalar ts node s lv = .ok s') : OriginSpec scalar ts node [lv] s s' := by
  obtain ⟨l, n⟩ := lv
  unfold originMove at h
  split at h
  swap
  · simp at h
  rename_i hpq
  simp only at h hpq
  have hfst := takeFirst_fst (s.heads l) n.toNat (s.queue node)
  have hsnd := takeFirst_snd (s.heads l) n.toNat (s.queue node)
  have hoth := takeFirst_other (s.heads l) (n := n.toNat) (q := s.queue node)
  have hsub := takeFirst_sublist (s.heads l) n.toNat (s.queue node)
  have hperm := takeFirst_perm (s.heads l) n.toNat (s.queue node)
  generalize takeFirst (s.heads l) n.toNat (s.queue node) = r at *
  obtain ⟨n1, n2, n3, n4, n5⟩ := noteIn_spec h
  clear h
  set t := State.enter ts none l { s with queue := upd s.queue node r.2 } r.1 with ht
  have htf : ∀ x, t.fin x = s.fin x := by
    intro x
    rw [ht]
    simp only [State.fin, State.enter, upd]
    split
    · rename_i e; subst e; cases (s.links x).link <;> rfl
    · rfl
  have hti : ∀ x, t.inc x = if x = l then s.inc l ++ r.1 else s.inc x := by
    intro x
    rw [ht]
    simp only [State.inc, State.enter, upd]
    split
    · rename_i e; subst e; cases (s.links x).link <;> rfl
    · rfl
  have hfin : ∀ x, s'.fin x = s.fin x := by
    intro x; rw [← htf]; unfold State.fin; rw [n2]
  have hinc : ∀ x, s'.inc x = if x = l then s.inc l ++ r.1 else s.inc x := by
    intro x; rw [← hti]; unfold State.inc; rw [n2]
  have hq : ∀ k, s'.queue k = if k = node then r.2 else s.queue k := by
    intro k; rw [n1, ht]; simp only [State.enter, upd]
  have hcur : ∀ x b, (t.links x).nIn b = (s.links x).nIn b ∧ (t.links x).nOut b = (s.links x).nOut b := by
    intro x b
    rw [ht]
    simp only [State.enter, upd]
    split
    · rename_i e; subst e; exact ⟨rfl, rfl⟩
    · exact ⟨rfl, rfl⟩
  have hot : OnlyQueues s t := by
    refine ⟨?_, ?_, ?_⟩
    · rw [ht]; rfl
    · intro v
      rw [ht]; simp only [State.enter]
      split <;> rfl
    · intro x
      rw [htf, hti, ht]
      simp only [State.enter, upd]
      split
      · rename_i e
        subst e
        simp only [State.fin, State.inc]
        cases (s.links x).link <;> rfl
      · simp only [State.fin, State.inc, setSelf]
  have hO : OnlyQueues s s' := hot.trans (OnlyCurves.onlyQueues ⟨n1, n2⟩)
  refine ⟨hO, by simpa using hpq, hfin, ?_, ?_, ?_, ?_, ?_, ?_, ?_, ?_⟩
  · intro l' n' hmem
    simp only [List.mem_singleton, Prod.mk.injEq] at hmem
    obtain ⟨rfl, rfl⟩ := hmem
    refine ⟨?_, ?_, ?_⟩
    · rw [hinc, if_pos rfl, hfst]; rfl
    · rw [queued_eq, hq, if_pos rfl, hO.heads, hsnd]; rfl
    · intro b
      have := n5 b
      rw [(hcur _ b).1] at this
      have e : (if b then MLnk.trucks s.truck r.1 else MLnk.cars s.truck r.1)
          = cls s.truck b ((s.queued node l').take n'.toNat) := by
        have : (s.queued node l').take n'.toNat = r.1 := by rw [hfst]; rfl
        rw [this]
        cases b
        · rw [cls_false]; rfl
        · rw [cls_true]; rfl
      rw [e] at this
      exact this
  · intro x hx; rw [hinc, if_neg (by simpa using hx)]
  · intro x hx b; rw [n4 x b (by simpa using hx), (hcur x b).1]
  · intro x b; rw [n3, (hcur x b).2]
  · intro k hk; rw [hq, if_neg hk]
  · rw [hq, if_pos rfl]; exact hsub
  · intro r' hr'
    rw [hq, if_pos rfl]
    exact hoth r' (fun v hv => hr' v hv (l, n) (by simp))
  · intro B hB hl v
    have hl' : l ∈ B := hl (l, n) (by simp)
    have h1 := count_flatMap_upd hB hl' (f := s.inc) (f' := s'.inc)
      (fun x hx => by rw [hinc, if_neg hx]) v
    have h2 := hperm.count_eq v
    rw [hinc, if_pos rfl] at h1
    rw [hq, if_pos rfl]
    simp only [List.count_append] at h1 h2
    omega

theorem OnlyQueues.isPq {s s' : State} (h : OnlyQueues s s') (l : ℕ) :
    isPq (s'.links l).link = isPq (s.links l).link := by
  rw [h.link l]
  show MNet.isPq (((s.links l).link.setFinished _).setIncoming _) = _
  cases (s.links l).link <;> rfl

theorem originFold_spec {scalar : ℚ} {ts node : ℕ} : ∀ (lvs : List (ℕ × ℤ)) (s s' : State),
    Res.foldlM (originMove scalar ts node) s lvs = .ok s' → (lvs.map Prod.fst).Nodup →
    OriginSpec scalar ts node lvs s s'
  | [], s, s', h, _ => by
    simp only [Res.foldlM_nil, Res.ok.injEq] at h
    subst h
    exact ⟨OnlyQueues.refl s, by simp, fun _ => rfl, by simp, fun _ _ => rfl, fun _ _ _ => rfl,
      fun _ _ => rfl, fun _ _ => rfl, List.Sublist.refl _, fun _ _ => rfl, fun _ _ _ _ => rfl⟩
  | (l, n) :: lvs, s, s', h, hnd => by
    rw [Res.foldlM_cons, Res.bind_eq_ok] at h
    obtain ⟨s1, h1, h2⟩ := h
    simp only [List.map_cons, List.nodup_cons] at hnd
    have A := originMove_spec h1
    have B := originFold_spec lvs s1 s' h2 hnd.2
    have hne : ∀ lv ∈ lvs, lv.1 ≠ l := fun lv hlv e =>
      hnd.1 (e ▸ List.mem_map_of_mem (f := Prod.fst) hlv)
    have hq1 : s'.queued node l = s1.queued node l := by
      rw [queued_eq, queued_eq, B.only.heads]
      apply B.rest
      intro v hv lv hlv
      simp only [State.heads, decide_eq_true_eq, decide_eq_false_iff_not] at *
      rw [hv]
      simpa using Ne.symm (hne lv hlv)
    have hq2 : ∀ lv ∈ lvs, s1.queued node lv.1 = s.queued node lv.1 := by
      intro lv hlv
      rw [queued_eq, queued_eq, A.only.heads]
      apply A.rest
      intro v hv lv' hlv'
      simp only [List.mem_singleton] at hlv'
      subst hlv'
      simp only [State.heads, decide_eq_true_eq, decide_eq_false_iff_not] at *
      rw [hv]
      simpa using hne lv hlv
    obtain ⟨a1, a2, a3⟩ := A.out l n (by simp)
    refine ⟨A.only.trans B.only, ?_, fun x => (B.fin x).trans (A.fin x), ?_, ?_, ?_, ?_, ?_, ?_, ?_, ?_⟩
    · intro lv hlv
      rcases List.mem_cons.1 hlv with rfl | hlv
      · exact A.pq _ (by simp)
      · rw [← A.only.isPq]; exact B.pq lv hlv
    · intro l' n' hmem
      rcases List.mem_cons.1 hmem with e | hmem
      · simp only [Prod.mk.injEq] at e
        obtain ⟨rfl, rfl⟩ := e
        refine ⟨by rw [B.incOther _ hnd.1, a1], by rw [hq1, a2], ?_⟩
        intro b
        rw [B.nInOther _ hnd.1]; exact a3 b
      · obtain ⟨b1, b2, b3⟩ := B.out l' n' hmem
        have hx := hne _ hmem
        have hx' : l' ∉ [(l, n)].map Prod.fst := by simpa using hx
        rw [hq2 _ hmem] at b1 b2 b3
        rw [A.incOther _ hx'] at b1
        refine ⟨b1, b2, ?_⟩
        intro b
        have := b3 b
        rw [A.nInOther _ hx', A.only.truck] at this
        exact this
    · intro x hx
      simp only [List.map_cons, List.mem_cons, not_or] at hx
      rw [B.incOther x hx.2, A.incOther x (by simpa using hx.1)]
    · intro x hx b
      simp only [List.map_cons, List.mem_cons, not_or] at hx
      rw [B.nInOther x hx.2, A.nInOther x (by simpa using hx.1)]
    · exact fun x b => (B.nOut x b).trans (A.nOut x b)
    · exact fun k hk => (B.queueOther k hk).trans (A.queueOther k hk)
    · exact B.sub.trans A.sub
    · intro r hr
      rw [B.rest r (fun v hv lv hlv => by rw [A.only.heads]; exact hr v hv lv (by simp [hlv])),
        A.rest r (fun v hv lv hlv => by
          simp only [List.mem_singleton] at hlv
          subst hlv
          exact hr v hv _ (by simp))]
    · intro C hC hl v
      rw [B.count C hC (fun lv hlv => hl lv (by simp [hlv])) v,
        A.count C hC (fun lv hlv => by
          simp only [List.mem_singleton] at hlv
          subst hlv
          exact hl _ (by simp)) v]

theorem originVolumes_get {scalar : ℚ} {s : State} {q : List ℕ} {u : ℕ → ℚ} :
    ∀ {outs : List ℕ} {i : ℕ} {lvs : List (ℕ × ℤ)}, originVolumes scalar s q u i outs = .ok lvs →
      lvs.map Prod.fst = outs ∧ ∀ (k l : ℕ), outs[k]? = some l →
        ∃ n, lvs[k]? = some (l, n) ∧ originVolume scalar s q (u (i + k)) l = .ok n
  | [], i, lvs, h => by simp [originVolumes] at h; subst h; simp
  | l :: ls, i, lvs, h => by
    simp only [originVolumes] at h
    rw [Res.bind_eq_ok'] at h
    obtain ⟨n, hn, h⟩ := h
    rw [Res.bind_eq_ok'] at h
    obtain ⟨r, hr, h⟩ := h
    cases h
    obtain ⟨h1, h2⟩ := originVolumes_get hr
    refine ⟨by simp [h1], ?_⟩
    intro k l' hk
    cases k with
    | zero => simp at hk; subst hk; exact ⟨n, by simp, by simpa using hn⟩
    | succ k =>
      simp at hk
      obtain ⟨m, m1, m2⟩ := h2 k l' hk
      have e : i + 1 + k = i + (k + 1) := by omega
      rw [e] at m2
      exact ⟨m, by simpa using m1, m2⟩

theorem origin_spec {scalar : ℚ} {ts node : ℕ} {outs : List ℕ} {u : ℕ → ℚ} {s s' : State}
    (h : originEvolve scalar ts node outs u s = .ok s') (houts : outs.Nodup) :
    ∃ lvs, lvs.map Prod.fst = outs ∧ OriginSpec scalar ts node lvs s s' ∧
      ∀ (k l : ℕ), outs[k]? = some l → ∃ n sup, (l, n) ∈ lvs ∧ (s.links l).link.supply = .ok sup ∧
        ((((s.queued node l).length : ℚ) ≤ sup * scalar ∧ n = (s.queued node l).length) ∨
         (sup * scalar < ((s.queued node l).length : ℚ) ∧ n = roundVal (sup * scalar) (u k))) := by
  unfold originEvolve at h
  rw [Res.bind_eq_ok'] at h
  obtain ⟨lvs, h1, h2⟩ := h
  obtain ⟨e1, e2⟩ := originVolumes_get h1
  refine ⟨lvs, e1, originFold_spec lvs s s' h2 (by rw [e1]; exact houts), ?_⟩
  intro k l hk
  obtain ⟨n, hn, hv⟩ := e2 k l hk
  rw [Nat.zero_add] at hv
  unfold originVolume at hv
  rw [Res.bind_eq_ok'] at hv
  obtain ⟨sup, hsup, hv⟩ := hv
  have hc : (s.queue node).countP (s.heads l) = (s.queued node l).length :=
    List.countP_eq_length_filter
  rw [hc] at hv
  refine ⟨n, sup, List.mem_of_getElem? hn, hsup, ?_⟩
  split at hv
  · rename_i hlt
    exact Or.inr ⟨hlt, round_ok hv⟩
  · rename_i hge
    cases hv
    exact Or.inl ⟨not_lt.1 hge, rfl⟩

/-- What one interval of a destination node does. -/
structure DestSpec (scalar : ℚ) (ts node : ℕ) (ins : List ℕ) (s s' : State) : Prop where
  only : OnlyQueues s s'
  none : ∀ l ∈ ins, ∀ v ∈ s.fin l, (s.vehs v).next = .none
  inc : ∀ l, s'.inc l = s.inc l
  nIn : ∀ l b, (s'.links l).nIn b = (s.links l).nIn b
  queue : s'.queue node = s.queue node ++ ins.flatMap s.fin
  queueOther : ∀ k, k ≠ node → s'.queue k = s.queue k
  fin : ∀ l ∈ ins, s'.fin l = [] ∧ ∀ b,
    Recorded scalar ts (cls s.truck b (s.fin l) : ℕ) ((s.links l).nOut b) ((s'.links l).nOut b)
  finOther : ∀ l, l ∉ ins → s'.fin l = s.fin l
  nOutOther : ∀ l, l ∉ ins → ∀ b, (s'.links l).nOut b = (s.links l).nOut b

theorem destTake_spec {scalar : ℚ} {ts node : ℕ} {s s' : State} {l : ℕ}
    (h : destTake scalar ts node s l = .ok s') : DestSpec scalar ts node [l] s s' := by
  unfold destTake at h
  simp only at h
  split at h
  swap
  · simp at h
  rename_i hall
  split at h
  swap
  · simp at h
  obtain ⟨n1, n2, n3, n4, n5⟩ := noteOut_spec h
  clear h
  have hlink : ∀ x, (s'.links x).link
      = if x = l then (s.links l).link.setFinished [] else (s.links x).link := by
    intro x; rw [n2]; simp only [upd]; split <;> rfl
  have hfin : ∀ x, s'.fin x = if x = l then [] else s.fin x := by
    intro x; unfold State.fin; rw [hlink]; split
    · cases (s.links l).link <;> rfl
    · rfl
  have hinc : ∀ x, s'.inc x = s.inc x := by
    intro x; unfold State.inc; rw [hlink]; split
    · rename_i e; subst e; cases (s.links x).link <;> rfl
    · rfl
  refine ⟨⟨?_, ?_, ?_⟩, ?_, hinc, ?_, ?_, ?_, ?_, ?_, ?_⟩
  · rw [n1]
  · intro v
    have hv := congrArg (fun t : State => t.vehs v) n1
    simp only at hv
    rw [hv]; split <;> rfl
  · intro x
    rw [hfin, hinc, hlink]
    simp only
    split
    · rename_i e; subst e
      unfold State.inc
      cases (s.links x).link <;> rfl
    · simp only [State.fin, State.inc, setSelf]
  · intro x hx v hv
    simp only [List.mem_singleton] at hx
    subst hx
    rw [List.all_eq_true] at hall
    simpa using hall v hv
  · intro x b
    rw [n3]
    simp only [upd]
    split
    · rename_i e; subst e; rfl
    · rfl
  · rw [n1]; simp [upd, State.fin]
  · intro k hk; rw [n1]; simp [upd, hk]
  · intro x hx
    simp only [List.mem_singleton] at hx
    subst hx
    refine ⟨by rw [hfin, if_pos rfl], ?_⟩
    intro b
    have := n5 b
    have e : (if b then MLnk.trucks s.truck (s.links x).link.finished
        else MLnk.cars s.truck (s.links x).link.finished) = cls s.truck b (s.fin x) := by
      cases b
      · rw [cls_false]; rfl
      · rw [cls_true]; rfl
    rw [e] at this
    simp only [upd_same] at this
    exact this
  · intro x hx; rw [hfin, if_neg (by simpa using hx)]
  · intro x hx b
    rw [n4 x b (by simpa using hx)]
    simp only [upd]; rw [if_neg (by simpa using hx)]

theorem dest_spec {scalar : ℚ} {ts node : ℕ} : ∀ (ins : List ℕ) (s s' : State),
    destEvolve scalar ts node ins s = .ok s' → ins.Nodup → DestSpec scalar ts node ins s s'
  | [], s, s', h, _ => by
    simp only [destEvolve, Res.foldlM_nil, Res.ok.injEq] at h
    subst h
    exact ⟨OnlyQueues.refl s, by simp, fun _ => rfl, fun _ _ => rfl, by simp, fun _ _ => rfl,
      by simp, fun _ _ => rfl, fun _ _ _ => rfl⟩
  | l :: ins, s, s', h, hnd => by
    unfold destEvolve at h
    rw [Res.foldlM_cons, Res.bind_eq_ok] at h
    obtain ⟨s1, h1, h2⟩ := h
    rw [List.nodup_cons] at hnd
    have A := destTake_spec h1
    have B := dest_spec ins s1 s' h2 hnd.2
    have hne : ∀ x ∈ ins, x ∉ [l] := by
      intro x hx e
      simp only [List.mem_singleton] at e
      exact hnd.1 (e ▸ hx)
    have hf : ∀ x ∈ ins, s1.fin x = s.fin x := fun x hx => A.finOther x (hne x hx)
    refine ⟨A.only.trans B.only, ?_, fun x => (B.inc x).trans (A.inc x),
      fun x b => (B.nIn x b).trans (A.nIn x b), ?_,
      fun k hk => (B.queueOther k hk).trans (A.queueOther k hk), ?_, ?_, ?_⟩
    · intro x hx v hv
      rcases List.mem_cons.1 hx with rfl | hx
      · exact A.none x (by simp) v hv
      · rw [← A.only.next v]
        exact B.none x hx v (by rw [hf x hx]; exact hv)
    · rw [B.queue, A.queue]
      simp only [List.flatMap_cons, List.flatMap_nil, List.append_nil, List.append_assoc]
      congr 2
      exact List.flatMap_congr hf
    · intro x hx
      rcases List.mem_cons.1 hx with rfl | hx
      · obtain ⟨a1, a2⟩ := A.fin x (by simp)
        refine ⟨by rw [B.finOther x hnd.1, a1], ?_⟩
        intro b
        rw [B.nOutOther x hnd.1]; exact a2 b
      · obtain ⟨b1, b2⟩ := B.fin x hx
        refine ⟨b1, ?_⟩
        intro b
        have := b2 b
        rw [hf x hx, A.nOutOther x (hne x hx), A.only.truck] at this
        exact this
    · intro x hx
      simp only [List.mem_cons, not_or] at hx
      rw [B.finOther x hx.2, A.finOther x (by simpa using hx.1)]
    · intro x hx b
      simp only [List.mem_cons, not_or] at hx
      rw [B.nOutOther x hx.2, A.nOutOther x (by simpa using hx.1)]

/-! ### Release in detail -/

/-- What the release for all destinations of one class does. -/
structure MRelDetail (scalar : ℚ) (oid freq ts assign : ℕ) (cl : Bool) (u : ℕ → ℚ) (labels : List ℚ)
    (orc : ReleaseOracle) (dem : List (ℕ × (ℕ → ℚ))) (k node : ℕ) (s s' : State) (ns : List ℕ) :
    Prop where
  len : ns.length = dem.length
  num : s'.numVeh = s.numVeh + ns.sum
  amount : ∀ (j d : ℕ) f, dem[j]? = some (d, f) →
    ns[j]? = some (roundVal (f assign * scalar) (u (k + j))).toNat
  dests : (List.range' (s.numVeh + 1) ns.sum).map (fun v => (s'.vehs v).dest)
    = (dem.zip ns).flatMap (fun p => List.replicate p.2 p.1.1)
  veh : ∀ v, s.numVeh < v → v ≤ s'.numVeh → s'.vehs v = ⟨ts, -1, (s'.vehs v).adaptive, oid,
    (s'.vehs v).dest, none, none, none, (ts / freq : ℕ), generateLabel labels (orc.l v)⟩ ∧
    s'.truck v = cl
  queue : s'.queue node = s.queue node ++ List.range' (s.numVeh + 1) ns.sum
  other : ∀ k, k ≠ node → s'.queue k = s.queue k
  old : ∀ v, v ≤ s.numVeh → s'.vehs v = s.vehs v ∧ s'.truck v = s.truck v

theorem releaseDests_detail {c : Cfg} {scalar : ℚ} {ts oid assign : ℕ}
    (hoid : oid ∈ c.net.originIds) (orc : ReleaseOracle) (cl : Bool) (u : ℕ → ℚ)
    (own : ℕ → Option (ℕ → ℚ)) (labels : List ℚ) :
    ∀ (dem : List (ℕ × (ℕ → ℚ))) (k : ℕ) (ratio : ℚ) (s : State) (p : State × ℚ),
    releaseDests scalar (c.net.origin oid).node oid (c.net.origin oid).freq orc ts assign cl u own
      labels k ratio dem s = .ok p →
    ∃ ns : List ℕ, MRelDetail scalar oid (c.net.origin oid).freq ts assign cl u labels orc dem k
        (c.net.origin oid).node s p.1 ns ∧
      ((∀ d ∈ dem.map Prod.fst, own d = none) → p.2 = ratio ∧
        ∀ v, s.numVeh < v → v ≤ p.1.numVeh → ((p.1.vehs v).adaptive = true ↔
          ratio ≠ 0 ∧ (ratio = 1 ∨ orc.r v ≤ ratio)))
  | [], k, ratio, s, p, h => by
    simp only [releaseDests, Res.ok.injEq] at h
    subst h
    exact ⟨[], ⟨rfl, rfl, by simp, by simp, by intro v h1 h2; simp only at h2; omega, by simp,
      fun _ _ => rfl, fun _ _ => ⟨rfl, rfl⟩⟩, fun _ => ⟨rfl, by intro v h1 h2; simp only at h2; omega⟩⟩
  | (d, f) :: dem, k, ratio, s, p, h => by
    simp only [releaseDests] at h
    rw [Res.bind_eq_ok'] at h
    obtain ⟨n, hn, h⟩ := h
    obtain ⟨rt, hrt, h⟩ : ∃ rt, (own d = none → rt = ratio) ∧
        releaseDests scalar (c.net.origin oid).node oid (c.net.origin oid).freq orc ts assign cl u own
          labels (k + 1) rt dem
          (releaseVehs (c.net.origin oid).node oid (c.net.origin oid).freq orc ts d cl rt labels
            n.toNat s) = .ok p :=
      ⟨_, fun e => by rw [e], h⟩
    have hn' := round_ok hn
    obtain ⟨B, B'⟩ := releaseVehs_spec (c := c) (ts := ts) (d := d) hoid orc cl rt labels n.toNat s
    generalize hs1 : releaseVehs (c.net.origin oid).node oid (c.net.origin oid).freq orc ts d cl rt
      labels n.toNat s = s1 at *
    obtain ⟨ns, D, hr⟩ := releaseDests_detail hoid orc cl u own labels dem _ _ _ _ h
    have hB := B.numVeh
    refine ⟨n.toNat :: ns, ⟨by simp [D.len], by rw [D.num, hB, List.sum_cons]; omega, ?_, ?_, ?_, ?_, ?_,
      ?_⟩, ?_⟩
    · intro j d' f' hj
      cases j with
      | zero =>
        simp only [List.getElem?_cons_zero, Option.some.injEq, Prod.mk.injEq] at hj
        obtain ⟨_, rfl⟩ := hj
        simp [hn']
      | succ j =>
        simp only [List.getElem?_cons_succ] at hj ⊢
        rw [D.amount j d' f' hj]
        congr 4
        omega
    · rw [List.sum_cons, ← List.range'_append_1, List.map_append, List.zip_cons_cons,
        List.flatMap_cons]
      congr 1
      · rw [List.eq_replicate_iff]
        refine ⟨by simp, ?_⟩
        intro x hx
        rw [List.mem_map] at hx
        obtain ⟨v, hv, rfl⟩ := hx
        rw [List.mem_range'_1] at hv
        rw [(D.old v (by omega)).1, (B'.veh v (by omega) (by omega)).1]
      · rw [← D.dests, hB]
        congr 2
        omega
    · intro v v1 v2
      by_cases hv : v ≤ s1.numVeh
      · obtain ⟨a, b⟩ := B'.veh v v1 (by omega)
        rw [(D.old v hv).1, (D.old v hv).2, b, a]
        exact ⟨rfl, rfl⟩
      · exact D.veh v (by omega) v2
    · rw [D.queue, B'.queue, List.sum_cons, ← List.range'_append_1, List.append_assoc, hB]
      congr 3
      omega
    · intro q hq; rw [D.other q hq, B'.other q hq]
    · intro v hv
      obtain ⟨a, b⟩ := D.old v (by omega)
      rw [a, b]
      exact ⟨B.view.old v (Or.inl hv), B.truck v hv⟩
    · intro hnone
      have e : rt = ratio := hrt (hnone d (by simp))
      obtain ⟨r1, r2⟩ := hr (fun x hx => hnone x (by simp at hx ⊢; tauto))
      refine ⟨r1.trans e, ?_⟩
      intro v v1 v2
      by_cases hv : v ≤ s1.numVeh
      · rw [(D.old v hv).1, (B'.veh v v1 (by omega)).1, e]
        by_cases r0 : ratio = 0
        · simp [r0]
        · by_cases r1 : ratio = 1
          · simp [r1]
          · simp [r0, r1]
      · rw [← e]
        exact r2 v (by omega) v2

end Verif.MNet
