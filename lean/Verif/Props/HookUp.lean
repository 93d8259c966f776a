import Mathlib.Tactic.ByContra
import Mathlib.Tactic.Push
import Verif.Props.Graph
import Verif.Spec.HookUp

/-!
# C218: nodes and links know each other
-/

namespace Verif
open Graph Hook

private def fits (N : Net) (n l : ℤ) : Prop := l ∈ N.links ∧ (N.kind n = .station → N.pq l = true)

private theorem outs_ok (N : Net) (n : ℤ) : ∀ (o ls : List ℤ), (∀ l ∈ o, fits N n l) →
    Res.foldlM (withLink N (addOut N n)) ls o = .ok (if N.kind n = .dest then ls else ls ++ o) := by
  intro o
  induction o with
  | nil => intro ls _; simp
  | cons l o ih =>
    intro ls h
    have h1 := h l (by simp)
    rw [Res.foldlM_cons]
    have e : withLink N (addOut N n) ls l = .ok (if N.kind n = .dest then ls else ls ++ [l]) := by
      unfold withLink addOut
      rw [if_pos h1.1]
      cases hk : N.kind n <;> simp
      exact h1.2 hk
    rw [e, Res.ok_bind, ih _ fun x hx => h x (by simp [hx])]
    split <;> simp

private theorem ins_ok (N : Net) (n : ℤ) : ∀ (o ls : List ℤ), (∀ l ∈ o, fits N n l) →
    Res.foldlM (withLink N (addIn N n)) ls o = .ok (if N.kind n = .origin then ls else ls ++ o) := by
  intro o
  induction o with
  | nil => intro ls _; simp
  | cons l o ih =>
    intro ls h
    have h1 := h l (by simp)
    rw [Res.foldlM_cons]
    have e : withLink N (addIn N n) ls l = .ok (if N.kind n = .origin then ls else ls ++ [l]) := by
      unfold withLink addIn
      rw [if_pos h1.1]
      cases hk : N.kind n <;> simp
      exact h1.2 hk
    rw [e, Res.ok_bind, ih _ fun x hx => h x (by simp [hx])]
    split <;> simp

private theorem outs_throw (N : Net) (n : ℤ) : ∀ (o ls : List ℤ), (∃ l ∈ o, ¬ fits N n l) →
    Res.foldlM (withLink N (addOut N n)) ls o = .throw "runtime_error" := by
  intro o
  induction o with
  | nil => rintro ls ⟨l, h, _⟩; simp at h
  | cons l o ih =>
    intro ls h
    rw [Res.foldlM_cons]
    by_cases h1 : fits N n l
    · have e : withLink N (addOut N n) ls l = .ok (if N.kind n = .dest then ls else ls ++ [l]) := by
        have := outs_ok N n [l] ls (by simpa using h1)
        rw [Res.foldlM_cons] at this
        cases hw : withLink N (addOut N n) ls l <;> rw [hw] at this <;> simpa using this
      rw [e, Res.ok_bind]
      apply ih
      obtain ⟨x, hx, hx'⟩ := h
      rcases List.mem_cons.1 hx with rfl | hx
      · exact absurd h1 hx'
      · exact ⟨x, hx, hx'⟩
    · have e : withLink N (addOut N n) ls l = .throw "runtime_error" := by
        unfold withLink addOut
        by_cases hl : l ∈ N.links
        · have hs : N.kind n = .station ∧ N.pq l = false := by
            by_contra hc
            apply h1
            refine ⟨hl, fun hk => ?_⟩
            by_contra hp
            exact hc ⟨hk, by simpa using hp⟩
          simp [hl, hs.1, hs.2]
        · rw [if_neg hl]
      rw [e]
      rfl

private theorem ins_throw (N : Net) (n : ℤ) : ∀ (o ls : List ℤ), (∃ l ∈ o, ¬ fits N n l) →
    Res.foldlM (withLink N (addIn N n)) ls o = .throw "runtime_error" := by
  intro o
  induction o with
  | nil => rintro ls ⟨l, h, _⟩; simp at h
  | cons l o ih =>
    intro ls h
    rw [Res.foldlM_cons]
    by_cases h1 : fits N n l
    · have e : withLink N (addIn N n) ls l = .ok (if N.kind n = .origin then ls else ls ++ [l]) := by
        have := ins_ok N n [l] ls (by simpa using h1)
        rw [Res.foldlM_cons] at this
        cases hw : withLink N (addIn N n) ls l <;> rw [hw] at this <;> simpa using this
      rw [e, Res.ok_bind]
      apply ih
      obtain ⟨x, hx, hx'⟩ := h
      rcases List.mem_cons.1 hx with rfl | hx
      · exact absurd h1 hx'
      · exact ⟨x, hx, hx'⟩
    · have e : withLink N (addIn N n) ls l = .throw "runtime_error" := by
        unfold withLink addIn
        by_cases hl : l ∈ N.links
        · have hs : N.kind n = .station ∧ N.pq l = false := by
            by_contra hc
            apply h1
            refine ⟨hl, fun hk => ?_⟩
            by_contra hp
            exact hc ⟨hk, by simpa using hp⟩
          simp [hl, hs.1, hs.2]
        · rw [if_neg hl]
      rw [e]
      rfl

/-- The links at a node. -/
private theorem conn (ops : List Op) {n : ℤ} (hn : n ∈ nodeIds (run empty ops)) :
    ∃ o i : List ℤ, connections (sizeLinks (run empty ops) + 1) (run empty ops) n .out = .ok o ∧
      connections (sizeLinks (run empty ops) + 1) (run empty ops) n .inc = .ok i ∧ o.Nodup ∧ i.Nodup ∧
      (∀ l, l ∈ o ↔ ∃ t, Leads (run empty ops) l n t) ∧ (∀ l, l ∈ i ↔ ∃ f, Leads (run empty ops) l f n) := by
  obtain ⟨o, e1, d1, -, h1⟩ := (C02_directed_connections ops n .out _ (Nat.lt_succ_self _)).1 hn
  obtain ⟨i, e2, d2, -, h2⟩ := (C02_directed_connections ops n .inc _ (Nat.lt_succ_self _)).1 hn
  refine ⟨o, i, e1, e2, d1, d2, fun l => ?_, fun l => ?_⟩
  · rw [h1]
    constructor
    · rintro ⟨f, t, h, rfl⟩; exact ⟨t, h⟩
    · rintro ⟨t, h⟩; exact ⟨n, t, h, rfl⟩
  · rw [h2]
    constructor
    · rintro ⟨f, t, h, rfl⟩; exact ⟨f, h⟩
    · rintro ⟨f, h⟩; exact ⟨f, n, h, rfl⟩

/-- What is known about a node. -/
private structure NodeHooked (N : Net) (s : St) (n : ℤ) : Prop where
  outsOnce : (s.outs n).Nodup
  insOnce : (s.ins n).Nodup
  outs : ∀ l, l ∈ s.outs n ↔ N.kind n ≠ .dest ∧ ∃ t, Leads N.g l n t
  ins : ∀ l, l ∈ s.ins n ↔ N.kind n ≠ .origin ∧ ∃ f, Leads N.g l f n

private def nodeFits (N : Net) (n : ℤ) : Prop :=
  n ∈ N.nodes ∧ (∀ l, (∃ t, Leads N.g l n t) ∨ (∃ f, Leads N.g l f n) → fits N n l)

private theorem node_ok (ops : List Op) (N : Net) (hg : N.g = run empty ops) (s : St) {n : ℤ} (hn : n ∈ nodeIds N.g)
    (ho : s.outs n = []) (hi : s.ins n = []) (hf : nodeFits N n) :
    ∃ s', hookNode N s n = .ok s' ∧ s'.ends = s.ends ∧ NodeHooked N s' n ∧
      ∀ m, m ≠ n → s'.outs m = s.outs m ∧ s'.ins m = s.ins m := by
  obtain ⟨o, i, e1, e2, d1, d2, h1, h2⟩ := conn ops (hg ▸ hn)
  rw [← hg] at e1 e2 h1 h2
  have f1 := outs_ok N n o (s.outs n) fun l hl => hf.2 l (Or.inl ((h1 l).1 hl))
  have f2 := ins_ok N n i (s.ins n) fun l hl => hf.2 l (Or.inr ((h2 l).1 hl))
  refine ⟨{ s with
    outs := upd s.outs n (if N.kind n = .dest then s.outs n else s.outs n ++ o)
    ins := upd s.ins n (if N.kind n = .origin then s.ins n else s.ins n ++ i) }, ?_, rfl, ?_, ?_⟩
  · unfold hookNode
    rw [if_pos hf.1, e1, Res.bind_ok', f1, Res.bind_ok', e2, Res.bind_ok', f2, Res.bind_ok']
  · constructor
    · simp only [upd_same, ho]
      split <;> simp [d1]
    · simp only [upd_same, hi]
      split <;> simp [d2]
    · intro l
      simp only [upd_same, ho]
      by_cases hk : N.kind n = .dest <;> simp [hk, h1]
    · intro l
      simp only [upd_same, hi]
      by_cases hk : N.kind n = .origin <;> simp [hk, h2]
  · intro m hm
    exact ⟨upd_other _ _ _ _ hm, upd_other _ _ _ _ hm⟩

private theorem node_throw (ops : List Op) (N : Net) (hg : N.g = run empty ops) (s : St) {n : ℤ} (hn : n ∈ nodeIds N.g)
    (hf : ¬ nodeFits N n) : hookNode N s n = .throw "runtime_error" := by
  unfold hookNode
  by_cases h : n ∈ N.nodes
  · obtain ⟨o, i, e1, e2, _, _, h1, h2⟩ := conn ops (hg ▸ hn)
    rw [← hg] at e1 e2 h1 h2
    rw [if_pos h, e1, Res.bind_ok']
    by_cases ho : ∀ l ∈ o, fits N n l
    · rw [outs_ok N n o _ ho, Res.bind_ok', e2, Res.bind_ok', ins_throw N n i]
      · rfl
      · by_contra hc
        push Not at hc
        apply hf
        refine ⟨h, fun l hl => ?_⟩
        rcases hl with hl | hl
        · exact ho l ((h1 l).2 hl)
        · exact hc l ((h2 l).2 hl)
    · push Not at ho
      rw [outs_throw N n o _ ho]
      rfl
  · rw [if_neg h]

private theorem nodes_ok (ops : List Op) (N : Net) (hg : N.g = run empty ops) : ∀ (ns : List ℤ) (s : St), ns.Nodup →
    (∀ n ∈ ns, n ∈ nodeIds N.g ∧ s.outs n = [] ∧ s.ins n = [] ∧ nodeFits N n) →
    ∃ s', Res.foldlM (hookNode N) s ns = .ok s' ∧ s'.ends = s.ends ∧ (∀ n ∈ ns, NodeHooked N s' n) ∧
      ∀ m, m ∉ ns → s'.outs m = s.outs m ∧ s'.ins m = s.ins m := by
  intro ns
  induction ns with
  | nil => intro s _ _; exact ⟨s, rfl, rfl, by simp, by simp⟩
  | cons n ns ih =>
    intro s hd h
    obtain ⟨h1, h2, h3, h4⟩ := h n (by simp)
    obtain ⟨hnn, hd'⟩ := List.nodup_cons.1 hd
    obtain ⟨s1, e1, f1, g1, k1⟩ := node_ok ops N hg s h1 h2 h3 h4
    obtain ⟨s2, e2, f2, g2, k2⟩ := ih s1 hd' (by
      intro m hm
      obtain ⟨a, b, c, d⟩ := h m (by simp [hm])
      have hne : m ≠ n := by rintro rfl; exact hnn hm
      exact ⟨a, by rw [(k1 m hne).1, b], by rw [(k1 m hne).2, c], d⟩)
    refine ⟨s2, by rw [Res.foldlM_cons, e1, Res.ok_bind, e2], by rw [f2, f1], ?_, ?_⟩
    · intro m hm
      rcases List.mem_cons.1 hm with rfl | hm
      · obtain ⟨p, q⟩ := k2 m hnn
        exact ⟨by rw [p]; exact g1.outsOnce, by rw [q]; exact g1.insOnce, by rw [p]; exact g1.outs, by rw [q]; exact g1.ins⟩
      · exact g2 m hm
    · intro m hm
      rw [List.mem_cons, not_or] at hm
      rw [(k2 m hm.2).1, (k2 m hm.2).2]
      exact k1 m hm.1

private theorem links_ok (ops : List Op) (N : Net) (hg : N.g = run empty ops) (hN : ∀ n ∈ nodeIds N.g, n ∈ N.nodes)
    (hL : ∀ l ∈ linkIds N.g, l ∈ N.links) : ∀ (ls : List ℤ) (s : St), (∀ l ∈ ls, l ∈ linkIds N.g) →
    ∃ s', Res.foldlM (hookLink N) s ls = .ok s' ∧ s'.outs = s.outs ∧ s'.ins = s.ins ∧
      (∀ l ∈ ls, ∀ f t, s'.ends l = some (f, t) ↔ Leads N.g l f t) ∧ ∀ l, l ∉ ls → s'.ends l = s.ends l := by
  intro ls
  induction ls with
  | nil => intro s _; exact ⟨s, rfl, rfl, rfl, by simp, by simp⟩
  | cons l ls ih =>
    intro s h
    obtain ⟨f, t, e, _, hf, ht⟩ := (C05_endpoints_unknown ops l).2 (hg ▸ h l (by simp))
    rw [← hg] at e hf ht
    obtain ⟨s', e', o', i', h1, h2⟩ := ih { s with ends := upd s.ends l (some (f, t)) } fun x hx => h x (by simp [hx])
    refine ⟨s', ?_, o', i', ?_, ?_⟩
    · rw [Res.foldlM_cons]
      have : hookLink N s l = .ok { s with ends := upd s.ends l (some (f, t)) } := by
        unfold hookLink
        rw [if_pos (hL l (h l (by simp))), e, Res.bind_ok', if_pos ⟨hN f hf, hN t ht⟩]
      rw [this, Res.ok_bind, e']
    · intro x hx a b
      by_cases hm : x ∈ ls
      · exact h1 x hm a b
      · obtain rfl : x = l := by
          rcases List.mem_cons.1 hx with h | h
          · exact h
          · exact absurd h hm
        rw [h2 x hm]
        simp only [upd_same]
        unfold Leads
        rw [e]
        simp
    · intro x hx
      rw [List.mem_cons, not_or] at hx
      rw [h2 x hx.2]
      exact upd_other _ _ _ _ hx.1

private theorem leads_in (ops : List Op) {l f t : ℤ} (h : Leads (run empty ops) l f t) :
    l ∈ linkIds (run empty ops) ∧ f ∈ nodeIds (run empty ops) ∧ t ∈ nodeIds (run empty ops) := by
  have hl : l ∈ linkIds (run empty ops) := by
    by_contra hn
    unfold Leads at h
    rw [(C05_endpoints_unknown ops l).1 hn] at h
    simp at h
  obtain ⟨f', t', e, _, h1, h2⟩ := (C05_endpoints_unknown ops l).2 hl
  unfold Leads at h
  rw [h] at e
  obtain ⟨rfl, rfl⟩ : f = f' ∧ t = t' := by simpa using e
  exact ⟨hl, h1, h2⟩

/-- **C218 (nodes and links know each other).**  Take any graph, and nodes and links that know nothing yet.  If everything in the
graph was read and only point queues are at charging stations, hooking up ends without an error; afterwards every node knows
exactly the links that leave it and those that enter it, each once (origins and destinations only the one kind), and every link
knows its two ends. -/
theorem C218_hooked (ops : List Op) (N : Net) (hg : N.g = run empty ops) (hc : Complete N) :
    ∃ s, hookUp N ⟨fun _ => [], fun _ => [], fun _ => none⟩ = .ok s ∧ Hooked N s := by
  have hnd := (C01_ids_unique_and_failed_calls_harmless ops (.addNode 0)).1
  obtain ⟨s1, e1, f1, g1, k1⟩ := nodes_ok ops N hg (nodeIds N.g) ⟨fun _ => [], fun _ => [], fun _ => none⟩ (by rw [hg]; exact hnd) (by
    intro n hn
    refine ⟨hn, rfl, rfl, hc.nodes n hn, fun l hl => ?_⟩
    rcases hl with ⟨t, h⟩ | ⟨f, h⟩
    · exact ⟨hc.links l (by rw [hg] at h ⊢; exact (leads_in ops h).1), fun hk => hc.stations l n t h (Or.inl hk)⟩
    · exact ⟨hc.links l (by rw [hg] at h ⊢; exact (leads_in ops h).1), fun hk => hc.stations l f n h (Or.inr hk)⟩)
  obtain ⟨s2, e2, o2, i2, g2, k2⟩ := links_ok ops N hg hc.nodes hc.links (linkIds N.g) s1 fun _ h => h
  have out : ∀ n, n ∉ nodeIds N.g → ∀ l, (¬ ∃ t, Leads N.g l n t) ∧ ¬ ∃ f, Leads N.g l f n := by
    intro n hn l
    rw [hg] at hn ⊢
    exact ⟨fun ⟨t, h⟩ => hn (leads_in ops h).2.1, fun ⟨f, h⟩ => hn (leads_in ops h).2.2⟩
  refine ⟨s2, by unfold hookUp; rw [e1, Res.bind_ok', e2], ?_⟩
  constructor
  · intro n
    rw [o2]
    by_cases hn : n ∈ nodeIds N.g
    · exact (g1 n hn).outsOnce
    · rw [(k1 n hn).1]; simp
  · intro n
    rw [i2]
    by_cases hn : n ∈ nodeIds N.g
    · exact (g1 n hn).insOnce
    · rw [(k1 n hn).2]; simp
  · intro n l
    rw [o2]
    by_cases hn : n ∈ nodeIds N.g
    · exact (g1 n hn).outs l
    · rw [(k1 n hn).1]
      simp [(out n hn l).1]
  · intro n l
    rw [i2]
    by_cases hn : n ∈ nodeIds N.g
    · exact (g1 n hn).ins l
    · rw [(k1 n hn).2]
      simp [(out n hn l).2]
  · intro l f t
    by_cases hl : l ∈ linkIds N.g
    · exact g2 l hl f t
    · rw [k2 l hl, f1]
      constructor
      · intro h; simp at h
      · intro h
        exfalso
        apply hl
        rw [hg] at h ⊢
        exact (leads_in ops h).1

/-- **C218 (incomplete files are reported).**  If a node or a link of the graph was not read, or a link that is no point queue is
at a charging station, hooking up ends with an exception. -/
theorem C218_incomplete (ops : List Op) (N : Net) (hg : N.g = run empty ops) (hc : ¬ Complete N) :
    hookUp N ⟨fun _ => [], fun _ => [], fun _ => none⟩ = .throw "runtime_error" := by
  have hbad : ∃ n ∈ nodeIds N.g, ¬ nodeFits N n := by
    by_contra hall
    push Not at hall
    apply hc
    refine ⟨fun n hn => (hall n hn).1, fun l hl => ?_, fun l f t h hk => ?_⟩
    · obtain ⟨f, t, e, _, hf, _⟩ := (C05_endpoints_unknown ops l).2 (hg ▸ hl)
      rw [← hg] at e hf
      exact ((hall f hf).2 l (Or.inl ⟨t, e⟩)).1
    · have := leads_in ops (hg ▸ h)
      rw [← hg] at this
      rcases hk with hk | hk
      · exact ((hall f this.2.1).2 l (Or.inl ⟨t, h⟩)).2 hk
      · exact ((hall t this.2.2).2 l (Or.inr ⟨f, h⟩)).2 hk
  have hnd := (C01_ids_unique_and_failed_calls_harmless ops (.addNode 0)).1
  have key : ∀ (ns : List ℤ) (s : St), ns.Nodup → (∀ n ∈ ns, n ∈ nodeIds N.g ∧ s.outs n = [] ∧ s.ins n = []) →
      (∃ n ∈ ns, ¬ nodeFits N n) → Res.foldlM (hookNode N) s ns = .throw "runtime_error" := by
    intro ns
    induction ns with
    | nil => rintro s _ _ ⟨n, h, _⟩; simp at h
    | cons n ns ih =>
      intro s hd h hb
      obtain ⟨hnn, hd'⟩ := List.nodup_cons.1 hd
      obtain ⟨h1, h2, h3⟩ := h n (by simp)
      rw [Res.foldlM_cons]
      by_cases hf : nodeFits N n
      · obtain ⟨s1, e1, _, _, k1⟩ := node_ok ops N hg s h1 h2 h3 hf
        rw [e1, Res.ok_bind]
        apply ih s1 hd'
        · intro m hm
          obtain ⟨a, b, c⟩ := h m (by simp [hm])
          have hne : m ≠ n := by rintro rfl; exact hnn hm
          exact ⟨a, by rw [(k1 m hne).1, b], by rw [(k1 m hne).2, c]⟩
        · obtain ⟨m, hm, hm'⟩ := hb
          rcases List.mem_cons.1 hm with rfl | hm
          · exact absurd hf hm'
          · exact ⟨m, hm, hm'⟩
      · rw [node_throw ops N hg s h1 hf]
        rfl
  unfold hookUp
  rw [key _ _ (by rw [hg]; exact hnd) (fun n hn => ⟨hn, rfl, rfl⟩) hbad]
  rfl

/-! The hypotheses are met: a network of an origin, a station and a destination; without link 11, or with a link at the station
that is no point queue, it is not complete. -/

private def hookNet : Net :=
  ⟨run empty [.addNode 1, .addNode 2, .addNode 3, .addLink 1 2 10, .addLink 2 3 11, .addLink 1 3 12], [3, 2, 1], [12, 11, 10],
    fun n => if n = 1 then .origin else if n = 2 then .station else .dest, fun l => l ≠ 12⟩

private theorem hookNet_leads {l f t : ℤ} (h : Leads hookNet.g l f t) : l ∈ linkIds hookNet.g := (leads_in _ h).1

example : Complete hookNet := by
  refine ⟨by decide +kernel, by decide +kernel, fun l f t h hk => ?_⟩
  have hl := hookNet_leads h
  have : linkIds hookNet.g = [10, 11, 12] := by decide +kernel
  rw [this] at hl
  have e12 : getEndpoints hookNet.g 12 = .ok (1, 3) := by decide +kernel
  simp only [List.mem_cons, List.not_mem_nil, or_false] at hl
  rcases hl with rfl | rfl | rfl
  · decide
  · decide
  · unfold Leads at h
    rw [e12] at h
    obtain ⟨rfl, rfl⟩ : (1 : ℤ) = f ∧ (3 : ℤ) = t := by simpa using h
    exact absurd hk (by decide)

example : (hookUp hookNet ⟨fun _ => [], fun _ => [], fun _ => none⟩).bind (fun s => .ok ([1, 2, 3].map s.outs, [1, 2, 3].map s.ins,
    [10, 11, 12].map s.ends)) = .ok ([[12, 10], [11], []], [[], [10], [12, 11]], [some (1, 2), some (2, 3), some (1, 3)]) := by
  decide +kernel

example : ¬ Complete { hookNet with links := [12, 10] } := fun h =>
  absurd (h.links 11 (by decide +kernel)) (by decide)

end Verif
