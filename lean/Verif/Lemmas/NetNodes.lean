import Verif.Lemmas.NetSteps

/-! # Lemmas about the node, link and receiving phases of a loading interval -/

namespace Verif.Net
open Ults Curve Lnk

theorem count_cleared {A : List ℕ} (hA : A.Nodup) {f : ℕ → List ℕ} (v : ℕ) : ∀ (ins : List ℕ)
    (f' : ℕ → List ℕ), ins.Nodup → (∀ l ∈ ins, l ∈ A) → (∀ l ∈ ins, f' l = []) →
    (∀ l, l ∉ ins → f' l = f l) →
    (A.flatMap f').count v + (ins.flatMap f).count v = (A.flatMap f).count v
  | [], f', _, _, _, h => by
    have : f' = f := funext fun l => h l (by simp)
    rw [this]; simp
  | i :: ins, f', hnd, hsub, h0, h => by
    rw [List.nodup_cons] at hnd
    have ih := count_cleared hA (f := f) v ins (fun l => if l ∈ ins then [] else f l) hnd.2
      (fun l hl => hsub l (by simp [hl])) (by intro l hl; simp [hl]) (by intro l hl; simp [hl])
    have hu := count_flatMap_upd hA (hsub i (by simp))
      (f := fun l => if l ∈ ins then [] else f l) (f' := f') (by
        intro l hl
        by_cases hm : l ∈ ins
        · simp [hm, h0 l (by simp [hm])]
        · simp [hm, h l (by simp [hl, hm])]) v
    simp only [hnd.1, if_false, h0 i (by simp), List.count_nil] at hu
    simp only [List.flatMap_cons, List.count_append]
    omega

/-- The curve `c'` is `c` after the passage of `n` vehicles. -/
def Counted (scalar : ℚ) (n : ℤ) (c c' : Option Curve) : Prop :=
  c'.isSome = c.isSome ∧ ∀ k k', c = some k → c' = some k' → total k' = total k + n / scalar

theorem Counted.refl (scalar : ℚ) (c : Option Curve) : Counted scalar 0 c c := by
  refine ⟨rfl, ?_⟩
  intro k k' h h'
  rw [h] at h'; cases h'; simp

theorem Counted.trans {scalar : ℚ} {n m : ℤ} {a b c : Option Curve} (h : Counted scalar n a b)
    (k : Counted scalar m b c) : Counted scalar (n + m) a c := by
  refine ⟨k.1.trans h.1, ?_⟩
  intro x z hx hz
  cases hb : b with
  | none => have := h.1; rw [hb, hx] at this; simp at this
  | some y =>
    rw [k.2 y z hb hz, h.2 x y hx hb]
    push_cast; ring

theorem Recorded.counted {scalar : ℚ} {ts : ℕ} {n : ℤ} {c c' : Option Curve} (hn : 0 ≤ n)
    (h : Recorded scalar ts n c c') : Counted scalar n c c' := by
  unfold Recorded at h
  split at h
  · cases c with
    | none => simp only at h; rw [h]; exact ⟨rfl, by simp⟩
    | some k =>
      obtain ⟨k', h1, h2⟩ := h
      subst h2
      refine ⟨rfl, ?_⟩
      intro a b ha hb
      cases ha; cases hb
      rcases List.eq_nil_or_concat k with rfl | ⟨d, b, rfl⟩
      · simp only [addIncrement, List.getLast?_nil, addRecord, List.nil_append, Res.ok.injEq] at h1
        subst h1
        simp [total]
      · simp only [List.concat_eq_append] at h1 ⊢
        obtain ⟨d', b', e, hb⟩ := addIncrement_total h1
        rw [e]; simp [total, hb]
  · have : n = 0 := by omega
    subst this
    rw [h]; exact Counted.refl _ _

/-- What the nodes of a network do to it. -/
structure NodeStep (c : Cfg) (s s' : State) : Prop where
  frame : Frame s s'
  count : ∀ v, (c.nodeIds.flatMap s'.queue).count v + waitCount c.linkIds c.linkIds s' v
    = (c.nodeIds.flatMap s.queue).count v + waitCount c.linkIds c.linkIds s v
  finSub : ∀ l, (s'.fin l).Sublist (s.fin l)
  both : (∀ l, BothCurves s l) → ∀ l, BothCurves s' l
  nIn : (∀ l, BothCurves s l) → ∀ l,
    Counted c.scalar ((s'.inc l).length - (s.inc l).length : ℤ) (s.links l).nIn (s'.links l).nIn
  nOut : (∀ l, BothCurves s l) → ∀ l,
    Counted c.scalar ((s.fin l).length - (s'.fin l).length : ℤ) (s.links l).nOut (s'.links l).nOut
  /-- vehicles that appear in a queue come from the end of a link, and only at destinations -/
  queue : ∀ n, (s'.queue n).Sublist (s.queue n) ∨
    (∃ ins, c.node n = .dest ins ∧ ∀ v ∈ s'.queue n, v ∈ s.queue n ∨ ∃ l ∈ c.linkIds, v ∈ s.fin l)

theorem NodeStep.refl (c : Cfg) (s : State) : NodeStep c s s :=
  ⟨(OnlyMoves.refl s).toFrame, fun _ => rfl, fun _ => List.Sublist.refl _, fun h => h,
    fun _ _ => by simpa using Counted.refl _ _, fun _ _ => by simpa using Counted.refl _ _,
    fun _ => Or.inl (List.Sublist.refl _)⟩

theorem NodeStep.trans {c : Cfg} {a b d : State} (h : NodeStep c a b) (k : NodeStep c b d) :
    NodeStep c a d := by
  refine ⟨h.frame.trans k.frame, fun v => (k.count v).trans (h.count v),
    fun l => (k.finSub l).trans (h.finSub l), fun hb => k.both (h.both hb), ?_, ?_, ?_⟩
  · intro hb l
    have := (h.nIn hb l).trans (k.nIn (h.both hb) l)
    have e : ((b.inc l).length - (a.inc l).length : ℤ) + ((d.inc l).length - (b.inc l).length : ℤ)
      = ((d.inc l).length - (a.inc l).length : ℤ) := by ring
    rwa [e] at this
  · intro hb l
    have := (h.nOut hb l).trans (k.nOut (h.both hb) l)
    have e : ((a.fin l).length - (b.fin l).length : ℤ) + ((b.fin l).length - (d.fin l).length : ℤ)
      = ((a.fin l).length - (d.fin l).length : ℤ) := by ring
    rwa [e] at this
  · intro n
    rcases k.queue n with k1 | ⟨ins, k1, k2⟩
    · rcases h.queue n with h1 | ⟨ins, h1, h2⟩
      · exact Or.inl (k1.trans h1)
      · exact Or.inr ⟨ins, h1, fun v hv => h2 v (k1.subset hv)⟩
    · refine Or.inr ⟨ins, k1, ?_⟩
      intro v hv
      rcases k2 v hv with hv | ⟨l, hl, hv⟩
      · rcases h.queue n with h1 | ⟨_, _, h2⟩
        · exact Or.inl (h1.subset hv)
        · exact h2 v hv
      · exact Or.inr ⟨l, hl, (h.finSub l).subset hv⟩

theorem counted_both {scalar : ℚ} {s s' : State} {n m : ℕ → ℤ} (hb : ∀ l, BothCurves s l)
    (hi : ∀ l, Counted scalar (n l) (s.links l).nIn (s'.links l).nIn)
    (ho : ∀ l, Counted scalar (m l) (s.links l).nOut (s'.links l).nOut) : ∀ l, BothCurves s' l := by
  intro l
  have := hb l
  unfold BothCurves at this ⊢
  rw [(hi l).1, (ho l).1, this]

theorem inout_step {c : Cfg} (hc : c.Ok) {n : ℕ} (hn : n ∈ c.nodeIds) {grj : Bool}
    {ins outs : List ℕ} (hi : (c.node n).ins = ins) (ho : (c.node n).outs = outs) {ts : ℕ}
    {orc : NodeOracle} (hord : ∀ k, (orc.order k).Perm (List.range ins.length)) {s s' : State}
    (h : inoutEvolve c.scalar ts grj ins outs orc s = .ok s') : NodeStep c s s' := by
  have hins := hc.ins n hn
  have houts := hc.outs n hn
  rw [hi] at hins
  rw [ho] at houts
  obtain ⟨hright, sups, flows, mv, _, _, _, _, _, S⟩ := inout_spec h hins.1 houts.1 hord
  have hnIn : (∀ l, BothCurves s l) → ∀ l,
      Counted c.scalar ((s'.inc l).length - (s.inc l).length : ℤ) (s.links l).nIn
        (s'.links l).nIn := by
    intro hb l
    by_cases hl : l ∈ outs
    · obtain ⟨m, sup, f1, _, _, _, f2, f3, _⟩ := S.col _ l (idxOf_get? hl)
      have := S.curveIn _ l m (idxOf_get? hl) f1 (hb l)
      have e : ((s'.inc l).length - (s.inc l).length : ℤ) = m.sum := by
        rw [f2, List.length_append, ← f3]; push_cast; ring
      rw [e]; exact Recorded.counted (by rw [← f3]; positivity) this
    · rw [S.curveInOther l hl, S.incOther l hl, sub_self]; exact Counted.refl _ _
  have hnOut : (∀ l, BothCurves s l) → ∀ l,
      Counted c.scalar ((s.fin l).length - (s'.fin l).length : ℤ) (s.links l).nOut
        (s'.links l).nOut := by
    intro hb l
    by_cases hl : l ∈ ins
    · have := S.curveOut _ l (idxOf_get? hl) (hb l)
      rw [leaving_count S houts.1 hright (idxOf_get? hl)] at this
      have e : (((s.fin l).length - (s'.fin l).length : ℕ) : ℤ)
          = ((s.fin l).length - (s'.fin l).length : ℤ) := by
        have := (S.finSub l).length_le
        omega
      rw [← e]; exact Recorded.counted (by positivity) this
    · rw [S.curveOutOther l hl, S.finOther l hl, sub_self]; exact Counted.refl _ _
  refine ⟨S.moves.toFrame, ?_, S.finSub, fun hb => counted_both hb (hnIn hb) (hnOut hb), hnIn, hnOut, ?_⟩
  · intro v
    rw [S.moves.queue, S.count c.linkIds c.linkIds hc.links hc.links hins.2 houts.2 v]
  · intro k; rw [S.moves.queue]; exact Or.inl (List.Sublist.refl _)

theorem roundVal_le {x u : ℚ} {n : ℕ} (hu : 0 ≤ u) (hx : x < n) (hp : 0 < roundVal x u) :
    roundVal x u ≤ n := by
  rcases le_or_gt 0 x with h0 | h0
  · exact roundVal_le_of_le h0 hx.le hu
  · exfalso
    have h1 : (trunc x : ℚ) = ⌈x⌉ := by
      unfold trunc
      rw [if_neg (not_le.2 h0)]
    have h2 : x ≤ ⌈x⌉ := Int.le_ceil x
    have h3 : ⌈x⌉ ≤ 0 := Int.ceil_le.2 (by exact_mod_cast h0.le)
    unfold roundVal at hp
    rw [if_neg (by rw [h1]; linarith)] at hp
    have : trunc x = ⌈x⌉ := by exact_mod_cast h1
    omega

theorem origin_step {c : Cfg} (hc : c.Ok) {n : ℕ} (hn : n ∈ c.nodeIds) {outs : List ℕ}
    (hk : c.node n = .origin outs) {ts : ℕ} {u : ℕ → ℚ} (hu : ∀ k, 0 ≤ u k) {s s' : State}
    (h : originEvolve c.scalar ts n outs u s = .ok s') : NodeStep c s s' := by
  have houts := hc.outs n hn
  rw [hk] at houts
  simp only [Node.outs] at houts
  obtain ⟨_, lvs, e1, S, hv⟩ := origin_spec h houts.1
  have hnIn : ∀ l, Counted c.scalar ((s'.inc l).length - (s.inc l).length : ℤ) (s.links l).nIn
        (s'.links l).nIn := by
    intro l
    by_cases hl : l ∈ outs
    · obtain ⟨m, sup, hm, _, hcase⟩ := hv _ l (idxOf_get? hl)
      obtain ⟨a1, _, a3⟩ := S.out l m hm
      by_cases hpos : 0 < m
      · have hle : m.toNat ≤ (s.queued n l).length := by
          rcases hcase with ⟨_, rfl⟩ | ⟨hlt, rfl⟩
          · simp
          · have := roundVal_le (u := u (outs.idxOf l)) (hu _) hlt hpos
            omega
        have e : ((s'.inc l).length - (s.inc l).length : ℤ) = m := by
          rw [a1, List.length_append, List.length_take]
          have := Int.toNat_of_nonneg hpos.le
          push_cast
          omega
        rw [e]
        exact Recorded.counted hpos.le a3
      · have h0 : m.toNat = 0 := by omega
        rw [a1, h0]
        unfold Recorded at a3
        rw [if_neg hpos] at a3
        rw [a3]
        simpa using Counted.refl _ _
    · have hl' : l ∉ lvs.map Prod.fst := by rw [e1]; exact hl
      rw [S.incOther l hl', S.nInOther l hl', sub_self]; exact Counted.refl _ _
  have hnOut : ∀ l, Counted c.scalar ((s.fin l).length - (s'.fin l).length : ℤ) (s.links l).nOut
        (s'.links l).nOut := by
    intro l
    rw [S.nOut l, S.fin l, sub_self]; exact Counted.refl _ _
  refine ⟨S.frame, ?_, fun l => by rw [S.fin l], fun hb => counted_both hb hnIn hnOut,
    fun _ => hnIn, fun _ => hnOut, ?_⟩
  · intro v
    have hq := count_flatMap_upd hc.nodes hn (f := s.queue) (f' := s'.queue) S.queueOther v
    have hcnt := S.count c.linkIds hc.links (by
      intro lv hlv
      apply houts.2
      rw [← e1]; exact List.mem_map_of_mem hlv) v
    have hf : c.linkIds.flatMap s'.fin = c.linkIds.flatMap s.fin := by
      apply List.flatMap_congr
      intro l _; exact S.fin l
    unfold waitCount
    rw [hf]
    omega
  · intro k
    by_cases hkn : k = n
    · subst hkn; exact Or.inl S.sub
    · rw [S.queueOther k hkn]; exact Or.inl (List.Sublist.refl _)

theorem dest_step {c : Cfg} (hc : c.Ok) {n : ℕ} (hn : n ∈ c.nodeIds) {ins : List ℕ}
    (hk : c.node n = .dest ins) {ts : ℕ} {s s' : State}
    (h : destEvolve c.scalar ts n ins s = .ok s') : NodeStep c s s' := by
  have hins := hc.ins n hn
  rw [hk] at hins
  simp only [Node.ins] at hins
  have S := dest_spec ins s s' h hins.1
  have hnIn : ∀ l, Counted c.scalar ((s'.inc l).length - (s.inc l).length : ℤ) (s.links l).nIn
        (s'.links l).nIn := by
    intro l
    rw [S.nIn l, S.inc l, sub_self]; exact Counted.refl _ _
  have hnOut : ∀ l, Counted c.scalar ((s.fin l).length - (s'.fin l).length : ℤ) (s.links l).nOut
        (s'.links l).nOut := by
    intro l
    by_cases hl : l ∈ ins
    · rw [(S.fin l hl).1]
      have := Recorded.counted (by positivity) (S.fin l hl).2
      simpa using this
    · rw [S.finOther l hl, S.nOutOther l hl, sub_self]; exact Counted.refl _ _
  refine ⟨S.frame, ?_, ?_, fun hb => counted_both hb hnIn hnOut, fun _ => hnIn, fun _ => hnOut, ?_⟩
  · intro v
    have hq := count_flatMap_upd hc.nodes hn (f := s.queue) (f' := s'.queue) S.queueOther v
    rw [S.queue, List.count_append] at hq
    have hf := count_cleared hc.links (f := s.fin) v ins s'.fin hins.1 hins.2
      (fun l hl => (S.fin l hl).1) S.finOther
    have hi : c.linkIds.flatMap s'.inc = c.linkIds.flatMap s.inc := by
      apply List.flatMap_congr
      intro l _; exact S.inc l
    unfold waitCount
    rw [hi]
    omega
  · intro l
    by_cases hl : l ∈ ins
    · rw [(S.fin l hl).1]; exact List.nil_sublist _
    · rw [S.finOther l hl]
  · intro k
    by_cases hkn : k = n
    · subst hkn
      refine Or.inr ⟨ins, hk, ?_⟩
      intro v hv
      rw [S.queue, List.mem_append, List.mem_flatMap] at hv
      rcases hv with hv | ⟨l, hl, hv⟩
      · exact Or.inl hv
      · exact Or.inr ⟨l, hins.2 l hl, hv⟩
    · rw [S.queueOther k hkn]; exact Or.inl (List.Sublist.refl _)

theorem node_step {c : Cfg} (hc : c.Ok) {o : StepOracle} (ho : o.Ok c) {n : ℕ} (hn : n ∈ c.nodeIds)
    {ts : ℕ} {s s' : State} (h : (c.node n).evolve c.scalar ts n (o.node n) s = .ok s') :
    NodeStep c s s' := by
  have hord := ho.order n
  cases hk : c.node n with
  | origin outs => rw [hk] at h; exact origin_step hc hn hk (fun k => ho.draw n k 0) h
  | dest ins => rw [hk] at h; exact dest_step hc hn hk h
  | fwj ins outs =>
    rw [hk] at h hord
    exact inout_step hc hn (by rw [hk, Node.ins]) (by rw [hk, Node.outs]) hord h
  | grj ins outs =>
    rw [hk] at h hord
    exact inout_step hc hn (by rw [hk, Node.ins]) (by rw [hk, Node.outs]) hord h

theorem stepNodes_step {c : Cfg} (hc : c.Ok) {o : StepOracle} (ho : o.Ok c) {ts : ℕ} {s s' : State}
    (h : stepNodes c o ts s = .ok s') : NodeStep c s s' := by
  refine Res.foldlM_inv_mem (P := fun t => NodeStep c s t) c.nodeIds ?_ s s' (NodeStep.refl c s) h
  intro b n b' hn hb he
  exact hb.trans (node_step hc ho hn he)

end Verif.Net
