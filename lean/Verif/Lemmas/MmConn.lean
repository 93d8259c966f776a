import Verif.Spec.MmConn
import Verif.Lemmas.PathGen
import Verif.Lemmas.Io
import Verif.Props.ShortestPath

namespace Verif.MmConn
open Graph Sp Path Text Io

/-! ## Trees -/

theorem walkCost_one : ∀ ls : List ℤ, walkCost (fun _ => 1) ls ≠ ⊤
  | [] => by simp [walkCost]
  | l :: ls => by
    rw [walkCost_cons]
    intro h
    rcases WithTop.add_eq_top.1 h with h | h
    · exact absurd h (by decide)
    · exact walkCost_one ls h

/-- A tree tells where there are ways. -/
def Tells (g : G) (v : ℤ) (out : ℤ → Option ℤ) : Prop :=
  ∀ u ∈ nodeIds g, u ≠ v → ∃ l, out u = some l ∧ (0 < l ↔ Reach g u v) ∧ (l = -1 ↔ ¬ Reach g u v)

theorem tells {g : G} {ops : List Op} (hg : g = run empty ops) (hpos : ∀ l ∈ linkIds g, 0 < l) {v : ℤ}
    (hv : v ∈ nodeIds g) (out : ℤ → Option ℤ) {T : String → Prop} :
    Evt (fun n => fifo n g v (one g) out) (fun s => Tells g v s.out) T := by
  subst hg
  have hc : Costs (run empty ops) (one (run empty ops)) fun _ => 1 :=
    ⟨fun l hl => by simp [one, hl], fun l _ => by decide, fun h => absurd (hpos _ h) (by decide)⟩
  obtain ⟨n0, s, h1, h2⟩ := C37_fifo_shortest_paths ops v hv _ _ hc out
  refine Or.inl ⟨s, fun u hu hne => ?_, n0, h1⟩
  obtain ⟨d, -, hL, a, b⟩ := h2 u hu
  by_cases hd : d = ⊤
  · have hno : ¬ Reach (run empty ops) u v := by
      rintro ⟨ls, hw⟩
      have := hL.1 ls hw
      rw [hd, top_le_iff] at this
      exact walkCost_one ls this
    exact ⟨-1, a hne hd, ⟨fun h => absurd h (by decide), fun h => absurd h hno⟩, by simp [hno]⟩
  · obtain ⟨l, t, dt, e1, e2, -⟩ := b hne hd
    have hr : Reach (run empty ops) u v := by
      rcases hL.2 with h | ⟨ls, hw, -⟩
      · exact absurd h hd
      · exact ⟨ls, hw⟩
    have hl : 0 < l := hpos l ((ctx_of_run ops hc).cost _ _ _ e2).2.2.2
    refine ⟨l, e1, by simp [hl, hr], ?_⟩
    simp only [hr, not_true_eq_false, iff_false]
    omega

theorem mem_of_ends (ops : List Op) {l f t : ℤ} (h : getEndpoints (run empty ops) l = .ok (f, t)) (hneg : -1 ∉ linkIds (run empty ops)) :
    l ∈ linkIds (run empty ops) :=
  ((ctx_of_run ops (⟨fun l hl => by simp [one, hl], fun l _ => by decide, hneg⟩ :
    Costs (run empty ops) (one (run empty ops)) fun _ => 1)).cost _ _ _ h).2.2.2

theorem look_some {t : ℤ → Option ℤ} {u l : ℤ} (h : t u = some l) : look t u = .ok l := by simp [look, h]

variable {x : Net} {ops1 ops2 : List Op} {T : String → Prop}

/-! ## Parking lots -/

open Classical in
theorem lotsOf_spec (h : Good x ops1 ops2) (d : ℤ) :
    Evt (fun n => lotsOf n x d) (fun ls => ls = x.lots.filter fun p => decide (Rides x p d)) T := by
  unfold lotsOf
  by_cases hd : d ∈ nodeIds x.transit
  · simp only [if_pos hd]
    refine Evt.bind (g := fun n s => Res.foldlM _ [] x.lots) (tells h.transit h.posT hd _) fun s hs => ?_
    have := Evt.fold (T := T) (f := fun _ (acc : List ℤ) p =>
        if p ≠ d ∧ p ∈ nodeIds x.transit then
          (look s.out p).bind fun l => .ok (if 0 < l then acc ++ [p] else acc)
        else .ok acc) (I := fun pre acc => acc = pre.filter fun p => decide (Rides x p d)) x.lots [] [] ?_ rfl
    · exact this
    · intro pre p post acc _ hacc
      subst hacc
      by_cases hp : p ≠ d ∧ p ∈ nodeIds x.transit
      · simp only [if_pos hp]
        obtain ⟨l, e, h1, -⟩ := hs p hp.2 hp.1
        rw [look_some e, Res.bind_ok']
        refine Evt.ok ?_
        rw [List.filter_append]
        by_cases hr : Reach x.transit p d
        · have : Rides x p d := ⟨hp.1, hp.2, hd, hr⟩
          simp [h1.2 hr, this]
        · have : ¬ Rides x p d := fun g => hr g.2.2.2
          have hl : ¬ 0 < l := fun g => hr (h1.1 g)
          simp [hl, this]
      · simp only [if_neg hp]
        refine Evt.ok ?_
        have : ¬ Rides x p d := fun g => hp ⟨g.1, g.2.1⟩
        simp [List.filter_append, this]
  · simp only [if_neg hd]
    refine Evt.ok ?_
    symm
    rw [List.filter_eq_nil_iff]
    intro p _
    simp only [decide_eq_true_eq]
    exact fun g => hd g.2.2.1

open Classical in
theorem findLots_spec (h : Good x ops1 ops2) (hn : x.dests.Nodup) (v : ℤ → List ℤ) :
    Evt (fun n => findLots n x v) (fun v' => v' = fun d => v d ++
      if d ∈ x.dests then x.lots.filter fun p => decide (Rides x p d) else []) T := by
  unfold findLots
  have := Evt.fold (T := T) (f := fun n (v : ℤ → List ℤ) d => (lotsOf n x d).bind fun ls => .ok (upd v d (v d ++ ls)))
    (I := fun pre v' => v' = fun d => v d ++ if d ∈ pre then x.lots.filter fun p => decide (Rides x p d) else [])
    x.dests [] v ?_ (by simp)
  · exact this
  · intro pre d post v' hsplit hv
    rw [List.nil_append] at hsplit
    refine Evt.bind (g := fun _ ls => .ok (upd v' d (v' d ++ ls))) (lotsOf_spec h d) fun ls hls => Evt.ok ?_
    subst hls
    have hnot : d ∉ pre := by
      rw [hsplit, List.nodup_append] at hn
      intro hm
      exact hn.2.2 d hm d (by simp) rfl
    funext e
    by_cases he : e = d
    · subst he
      rw [upd_same, hv]
      simp [hnot]
    · rw [upd_other _ _ _ _ he, hv]
      simp [he]

/-! ## The check of the transit network -/

/-- What the check asks of a pair. -/
def Fine (x : Net) (bus pnr : ℤ → ℤ → Bool) (lots : ℤ → List ℤ) (o d : ℤ) : Prop :=
  (bus o d = true → o ∈ nodeIds x.transit ∧ Reach x.transit o d) ∧ (pnr o d = true → lots d ≠ [])

theorem checkOrigins_spec {bus pnr : ℤ → ℤ → Bool} {lots : ℤ → List ℤ} {d : ℤ} {t : ℤ → Option ℤ}
    (ht : Tells x.transit d t) : ∀ (os : List ℤ), (∀ o ∈ os, o ≠ d) →
    ∃ b, checkOrigins x bus pnr lots d t os = .ok b ∧ (b = true ↔ ∀ o ∈ os, Fine x bus pnr lots o d)
  | [], _ => ⟨true, rfl, by simp⟩
  | o :: os, h => by
    obtain ⟨b, e, hb⟩ := checkOrigins_spec (bus := bus) (pnr := pnr) (lots := lots) ht os
      fun p hp => h p (by simp [hp])
    have hod := h o (by simp)
    obtain ⟨b1, e1, hb1⟩ : ∃ b1, (if bus o d then
        if o ∈ nodeIds x.transit then (look t o).bind fun l => .ok (decide (l ≠ -1)) else .ok false
        else .ok true) = .ok b1 ∧
        (b1 = true ↔ (bus o d = true → o ∈ nodeIds x.transit ∧ Reach x.transit o d)) := by
      by_cases hbus : bus o d = true
      · rw [if_pos hbus]
        by_cases ho : o ∈ nodeIds x.transit
        · obtain ⟨l, el, -, h2⟩ := ht o ho hod
          rw [if_pos ho, look_some el, Res.bind_ok']
          refine ⟨_, rfl, ?_⟩
          simp only [decide_eq_true_eq, hbus, true_implies, ho, true_and]
          rw [ne_eq, h2, not_not]
        · rw [if_neg ho]
          exact ⟨false, rfl, by simp [hbus, ho]⟩
      · rw [if_neg hbus]
        exact ⟨true, rfl, by simp [hbus]⟩
    rw [checkOrigins, e1, Res.bind_ok']
    by_cases hb1' : b1 = true
    · subst hb1'
      simp only [Bool.not_true, Bool.false_eq_true, if_false]
      by_cases hp : (pnr o d && (lots d).isEmpty) = true
      · rw [if_pos hp]
        refine ⟨false, rfl, ?_⟩
        simp only [Bool.false_eq_true, List.mem_cons, forall_eq_or_imp, false_iff, not_and]
        intro hf
        exfalso
        rw [Bool.and_eq_true] at hp
        exact hf.2 hp.1 (List.isEmpty_iff.1 hp.2)
      · rw [if_neg hp]
        refine ⟨b, e, ?_⟩
        rw [hb]
        simp only [List.mem_cons, forall_eq_or_imp]
        refine ⟨fun hf => ⟨⟨hb1.1 rfl, fun hpp hnil => hp ?_⟩, hf⟩, fun hf => hf.2⟩
        simp [hpp, hnil]
    · have : b1 = false := by simpa using hb1'
      subst this
      simp only [Bool.not_false, if_true]
      refine ⟨false, rfl, ?_⟩
      simp only [Bool.false_eq_true, List.mem_cons, forall_eq_or_imp, false_iff, not_and]
      intro hf
      exact absurd (hb1.2 hf.1) (by simp)

theorem checkDests_spec (h : Good x ops1 ops2) (bus pnr : ℤ → ℤ → Bool) (lots : ℤ → List ℤ) : ∀ (ds : List ℤ),
    (∀ d ∈ ds, d ∈ x.dests) → Evt (fun n => checkDests n x bus pnr lots ds) (fun b => b = true ↔
      ∀ d ∈ ds, d ∈ nodeIds x.transit → ∀ o ∈ x.origins, Fine x bus pnr lots o d) T
  | [], _ => Evt.ok (by simp)
  | d :: ds, hds => by
    have ih := checkDests_spec h bus pnr lots ds fun e he => hds e (by simp [he])
    have hdd := hds d (by simp)
    unfold checkDests
    by_cases hd : d ∈ nodeIds x.transit
    · simp only [if_pos hd]
      refine Evt.bind (g := fun n s => (checkOrigins x bus pnr lots d s.out x.origins).bind fun b =>
          if b then checkDests n x bus pnr lots ds else .ok false) (tells h.transit h.posT hd _) fun s hs => ?_
      obtain ⟨b, e, hb⟩ := checkOrigins_spec (bus := bus) (pnr := pnr) (lots := lots) hs x.origins
        fun o ho heq => h.apartD o ho (heq ▸ hdd)
      rw [e]
      simp only [Res.bind_ok']
      cases b with
      | true =>
        simp only [if_true]
        refine ih.imp fun b' hb' => ?_
        rw [hb']
        simp only [List.mem_cons, forall_eq_or_imp]
        exact ⟨fun g => ⟨fun _ => hb.1 rfl, g⟩, fun g => g.2⟩
      | false =>
        simp only [Bool.false_eq_true, if_false]
        refine Evt.ok ?_
        simp only [Bool.false_eq_true, List.mem_cons, forall_eq_or_imp, false_iff, not_and]
        intro g
        exact absurd (hb.2 (g hd)) (by simp)
    · simp only [if_neg hd]
      refine ih.imp fun b' hb' => ?_
      rw [hb']
      simp only [List.mem_cons, forall_eq_or_imp]
      exact ⟨fun g => ⟨fun hd' => absurd hd' hd, g⟩, fun g => g.2⟩

/-! ## Connectivity -/

theorem pnrLoop_spec (h : Good x ops1 ops2) {o : ℤ} (ho : o ∈ x.origins) : ∀ (ps : List ℤ), (∀ p ∈ ps, p ∈ x.lots) →
    ∀ t, Evt (fun n => pnrLoop n x o ps t) (fun r => r.1 = true ↔ ∃ p ∈ ps, Reach x.drive o p) T
  | [], _, t => Evt.ok (by simp)
  | p :: ps, hps, t => by
    unfold pnrLoop
    refine Evt.bind (g := fun n s => (look s.out o).bind fun l =>
        if 0 < l then .ok (true, s.out) else pnrLoop n x o ps s.out)
      (tells h.drive h.posD (h.lots p (hps p (by simp))) t) fun s hs => ?_
    obtain ⟨l, e, h1, -⟩ := hs o (h.origins o ho) fun heq => h.apartL o ho (heq ▸ hps p (by simp))
    rw [look_some e]
    simp only [Res.bind_ok']
    by_cases hl : 0 < l
    · simp only [if_pos hl]
      exact Evt.ok ⟨fun _ => ⟨p, by simp, h1.1 hl⟩, fun _ => rfl⟩
    · simp only [if_neg hl]
      refine (pnrLoop_spec h ho ps (fun q hq => hps q (by simp [hq])) s.out).imp fun r hr => ?_
      rw [hr]
      have : ¬ Reach x.drive o p := fun g => hl (h1.2 g)
      simp [this]

theorem pairFlags_spec (h : Good x ops1 ops2) (modes : List Mode) {lots : ℤ → List ℤ} {o d : ℤ}
    (ho : o ∈ x.origins) (hd : d ∈ x.dests) (hl : ∀ p, p ∈ lots d ↔ p ∈ x.lots ∧ Rides x p d) {td tb : ℤ → Option ℤ}
    (htd : Tells x.drive d td) (htb : d ∈ nodeIds x.transit → Tells x.transit d tb) (t : ℤ → Option ℤ) :
    Evt (fun n => pairFlags n x modes lots td tb o d t) (fun r => ∀ m, r.1 m = true ↔ m ∈ modes ∧ Possible x m o d) T := by
  have hod : o ≠ d := fun heq => h.apartD o ho (heq ▸ hd)
  unfold pairFlags
  refine Evt.bind (A := fun a => a = true ↔ .driving ∈ modes ∧ Possible x .driving o d)
    (g := fun n (a : Bool) => Res.bind _ _) ?_ fun a ha => ?_
  · by_cases hm : Mode.driving ∈ modes
    · simp only [if_pos hm]
      obtain ⟨l, e, h1, -⟩ := htd o (h.origins o ho) hod
      rw [look_some e, Res.bind_ok']
      exact Evt.ok (by simp [hm, h1, Possible])
    · simp only [if_neg hm]
      exact Evt.ok (by simp [hm])
  refine Evt.bind (A := fun a => a = true ↔ .transit ∈ modes ∧ Possible x .transit o d)
    (g := fun n (b : Bool) => Res.bind _ _) ?_ fun b hb => ?_
  · by_cases hm : Mode.transit ∈ modes ∧ d ∈ nodeIds x.transit ∧ o ∈ nodeIds x.transit
    · simp only [if_pos hm]
      obtain ⟨l, e, h1, -⟩ := htb hm.2.1 o hm.2.2 hod
      rw [look_some e, Res.bind_ok']
      exact Evt.ok (by simp [hm, h1, Possible])
    · simp only [if_neg hm]
      refine Evt.ok ?_
      simp only [Bool.false_eq_true, false_iff]
      exact fun g => hm ⟨g.1, g.2.2.1, g.2.1⟩
  refine Evt.bind (A := fun r : Bool × (ℤ → Option ℤ) => r.1 = true ↔ .pnr ∈ modes ∧ Possible x .pnr o d)
    (g := fun n c => .ok ((fun m => match m with | Mode.driving => a | .transit => b | .pnr => c.1), c.2)) ?_
    fun c hc => Evt.ok ?_
  · by_cases hm : Mode.pnr ∈ modes ∧ d ∈ nodeIds x.transit ∧ lots d ≠ []
    · simp only [if_pos hm]
      refine (pnrLoop_spec h ho (lots d) (fun p hp => ((hl p).1 hp).1) t).imp fun r hr => ?_
      rw [hr]
      simp only [hm.1, true_and, Possible]
      constructor
      · rintro ⟨p, hp, hr⟩
        exact ⟨p, ((hl p).1 hp).1, hr, ((hl p).1 hp).2⟩
      · rintro ⟨p, hp, hr, hrd⟩
        exact ⟨p, (hl p).2 ⟨hp, hrd⟩, hr⟩
    · simp only [if_neg hm]
      refine Evt.ok ?_
      simp only [Bool.false_eq_true, false_iff]
      rintro ⟨g, p, hp, -, hrd⟩
      exact hm ⟨g, hrd.2.2.1, fun hnil => by
        have := (hl p).2 ⟨hp, hrd⟩
        rw [hnil] at this
        simp at this⟩
  · intro m
    cases m
    · exact ha
    · exact hb
    · exact hc

open Classical in
/-- The flags of a pair. -/
noncomputable def flagsOf (x : Net) (modes : List Mode) (o d : ℤ) : Flags := fun m =>
  if m ∈ modes then some (decide (Possible x m o d)) else none

open Classical in
/-- The map for the pairs of a set. -/
noncomputable def connOf (x : Net) (modes : List Mode) (S : ℤ → ℤ → Prop) : Conn := fun o d =>
  if S o d then some (flagsOf x modes o d) else none

theorem connOf_congr {modes : List Mode} {S S' : ℤ → ℤ → Prop} {o d : ℤ} (h : S o d ↔ S' o d) :
    connOf x modes S o d = connOf x modes S' o d := by
  unfold connOf
  by_cases hS : S o d
  · rw [if_pos hS, if_pos (h.1 hS)]
  · rw [if_neg hS, if_neg fun g => hS (h.2 g)]

/-- The map for the pairs of a set, all of which are served. -/
def Inv (x : Net) (modes : List Mode) (S : ℤ → ℤ → Prop) (c : Conn) : Prop :=
  c = connOf x modes S ∧ ∀ o d, S o d → ∃ m ∈ modes, Possible x m o d

theorem Inv.congr {modes : List Mode} {S S' : ℤ → ℤ → Prop} {c : Conn} (h : Inv x modes S c)
    (he : ∀ o d, S o d ↔ S' o d) : Inv x modes S' c := by
  have : S = S' := by
    funext o d
    exact propext (he o d)
  exact this ▸ h

/-- A pair that no mode serves. -/
def Cut (x : Net) (modes : List Mode) (demand : ℤ → ℤ → Bool) (m : String) : Prop :=
  m = "No mode available for OD" ∧ ∃ o ∈ x.origins, ∃ d ∈ x.dests, demand o d = true ∧ ∀ m ∈ modes, ¬ Possible x m o d

open Classical in
theorem setFlags_eq {modes : List Mode} {f : Mode → Bool} {o d : ℤ}
    (hf : ∀ m, f m = true ↔ m ∈ modes ∧ Possible x m o d) {old : Option Flags}
    (hold : old = none ∨ old = some (flagsOf x modes o d)) : setFlags modes f old = flagsOf x modes o d := by
  funext m
  unfold setFlags flagsOf
  by_cases hm : m ∈ modes
  · rw [if_pos hm, if_pos hm]
    have hfm := hf m
    simp only [hm, true_and] at hfm
    have : f m = decide (Possible x m o d) := by
      cases hfm' : f m
      · rw [hfm'] at hfm
        simpa using hfm
      · rw [hfm'] at hfm
        simpa using hfm
    rcases hold with rfl | rfl
    · simp [this]
    · simp [flagsOf, hm, this]
  · rw [if_neg hm, if_neg hm]
    rcases hold with rfl | rfl
    · rfl
    · simp [flagsOf, hm]

theorem connectPair_spec (h : Good x ops1 ops2) (modes : List Mode) (demand : ℤ → ℤ → Bool) {lots : ℤ → List ℤ}
    {o d : ℤ} (ho : o ∈ x.origins) (hd : d ∈ x.dests) (hl : ∀ p, p ∈ lots d ↔ p ∈ x.lots ∧ Rides x p d)
    {td tb : ℤ → Option ℤ} (htd : Tells x.drive d td) (htb : d ∈ nodeIds x.transit → Tells x.transit d tb)
    {S : ℤ → ℤ → Prop} {s : Conn × (ℤ → Option ℤ)} (hs : Inv x modes S s.1) :
    Evt (fun n => connectPair n x modes demand lots td tb d s o)
      (fun r => Inv x modes (fun o' d' => S o' d' ∨ (o' = o ∧ d' = d ∧ demand o d = true)) r.1)
      (Cut x modes demand) := by
  unfold connectPair
  by_cases hdem : demand o d = true
  · simp only [if_pos hdem]
    refine Evt.bind (g := fun n r => if r.1 .driving || r.1 .transit || r.1 .pnr then _ else _)
      (pairFlags_spec h modes ho hd hl htd htb s.2) fun r hr => ?_
    by_cases hany : (r.1 .driving || r.1 .transit || r.1 .pnr) = true
    · simp only [if_pos hany]
      refine Evt.ok ?_
      have hset : setFlags modes r.1 (s.1 o d) = flagsOf x modes o d := by
        refine setFlags_eq hr ?_
        rw [hs.1]
        unfold connOf
        by_cases hS : S o d
        · right; simp [hS]
        · left; simp [hS]
      simp only [hset]
      refine ⟨?_, ?_⟩
      swap
      · rintro o' d' (hS | ⟨rfl, rfl, -⟩)
        · exact hs.2 o' d' hS
        · simp only [Bool.or_eq_true] at hany
          rcases hany with (g | g) | g
          · exact ⟨_, (hr _).1 g⟩
          · exact ⟨_, (hr _).1 g⟩
          · exact ⟨_, (hr _).1 g⟩
      funext o' d'
      by_cases ho' : o' = o
      · subst ho'
        rw [upd_same]
        by_cases hd' : d' = d
        · subst hd'
          rw [upd_same]
          simp [connOf, hdem]
        · rw [upd_other _ _ _ _ hd', hs.1]
          exact connOf_congr (by simp [hd'])
      · rw [upd_other _ _ _ _ ho', hs.1]
        exact connOf_congr (by simp [ho'])
    · simp only [if_neg hany]
      refine Evt.throw ⟨rfl, o, ho, d, hd, hdem, fun m hm hp => hany ?_⟩
      have := (hr m).2 ⟨hm, hp⟩
      cases m <;> simp [this]
  · simp only [if_neg hdem]
    exact Evt.ok (hs.congr fun o' d' => by simp [hdem])

theorem connectDest_spec (h : Good x ops1 ops2) (modes : List Mode) (demand : ℤ → ℤ → Bool) {lots : ℤ → List ℤ}
    {d : ℤ} (hd : d ∈ x.dests) (hl : ∀ p, p ∈ lots d ↔ p ∈ x.lots ∧ Rides x p d) {S : ℤ → ℤ → Prop} {c : Conn}
    (hc : Inv x modes S c) :
    Evt (fun n => connectDest n x modes demand lots c d)
      (Inv x modes fun o' d' => S o' d' ∨ (o' ∈ x.origins ∧ d' = d ∧ demand o' d = true))
      (Cut x modes demand) := by
  unfold connectDest
  refine Evt.bind (g := fun n sd => Res.bind _ _) (tells h.drive h.posD (h.dests d hd) _) fun sd hsd => ?_
  refine Evt.bind (A := fun tb => d ∈ nodeIds x.transit → Tells x.transit d tb) (g := fun n tb => Res.bind _ _) ?_
    fun tb htb => ?_
  · by_cases hdt : d ∈ nodeIds x.transit
    · simp only [if_pos hdt]
      refine Evt.bind (g := fun n s => .ok s.out) (tells h.transit h.posT hdt _) fun s hs => Evt.ok ?_
      exact fun _ => hs
    · simp only [if_neg hdt]
      exact Evt.ok fun g => absurd g hdt
  · refine Evt.bind (A := fun r : Conn × (ℤ → Option ℤ) => Inv x modes (fun o' d' => S o' d' ∨
        (o' ∈ x.origins ∧ d' = d ∧ demand o' d = true)) r.1) (g := fun n s => .ok s.1) ?_ fun s hs => ?_
    swap
    · refine Evt.ok ?_
      exact hs
    have := Evt.fold (T := Cut x modes demand) (f := fun n => connectPair n x modes demand lots sd.out tb d)
      (I := fun pre s => Inv x modes (fun o' d' => S o' d' ∨ (o' ∈ pre ∧ d' = d ∧ demand o' d = true)) s.1)
      x.origins [] (c, fun _ => none) ?_ (hc.congr fun o' d' => by simp)
    · exact this
    · intro pre o post s hsplit hs
      have ho : o ∈ x.origins := by rw [List.nil_append] at hsplit; rw [hsplit]; simp
      refine (connectPair_spec h modes demand ho hd hl hsd htb hs).imp fun r hr =>
        hr.congr fun o' d' => ?_
      constructor
      · rintro ((h1 | ⟨h1, h2⟩) | ⟨rfl, h2⟩)
        · exact Or.inl h1
        · exact Or.inr ⟨by simp [h1], h2⟩
        · exact Or.inr ⟨by simp, h2⟩
      · rintro (h1 | ⟨h1, h2⟩)
        · exact Or.inl (Or.inl h1)
        · rcases List.mem_append.1 h1 with h1 | h1
          · exact Or.inl (Or.inr ⟨h1, h2⟩)
          · have : o' = o := by simpa using h1
            subst this
            exact Or.inr ⟨rfl, h2⟩

theorem connect_spec (h : Good x ops1 ops2) (modes : List Mode) (demand : ℤ → ℤ → Bool) {lots : ℤ → List ℤ}
    (hl : ∀ d ∈ x.dests, ∀ p, p ∈ lots d ↔ p ∈ x.lots ∧ Rides x p d) :
    Evt (fun n => connect n x modes demand lots)
      (Inv x modes fun o d => o ∈ x.origins ∧ d ∈ x.dests ∧ demand o d = true) (Cut x modes demand) := by
  unfold connect
  have := Evt.fold (T := Cut x modes demand) (f := fun n => connectDest n x modes demand lots)
    (I := fun pre c => Inv x modes (fun o d => o ∈ x.origins ∧ d ∈ pre ∧ demand o d = true) c)
    x.dests [] (fun _ _ => none) ?_
    ⟨by funext o d; simp [connOf], by simp⟩
  · exact this
  · intro pre d post c hsplit hc
    have hd : d ∈ x.dests := by rw [List.nil_append] at hsplit; rw [hsplit]; simp
    refine (connectDest_spec h modes demand hd (hl d hd) hc).imp fun r hr =>
      hr.congr fun o' d' => ?_
    constructor
    · rintro (⟨h1, h2, h3⟩ | ⟨h1, rfl, h3⟩)
      · exact ⟨h1, by simp [h2], h3⟩
      · exact ⟨h1, by simp, h3⟩
    · rintro ⟨h1, h2, h3⟩
      rcases List.mem_append.1 h2 with h2 | h2
      · exact Or.inl ⟨h1, h2, h3⟩
      · have : d' = d := by simpa using h2
        subst this
        exact Or.inr ⟨h1, rfl, h3⟩

open Classical in
theorem connectivity_spec (h : Good x ops1 ops2) (hn : x.dests.Nodup) (modes : List Mode) (demand : ℤ → ℤ → Bool) :
    Evt (fun n => connectivity n x modes demand)
      (Inv x modes fun o d => o ∈ x.origins ∧ d ∈ x.dests ∧ demand o d = true) (Cut x modes demand) := by
  unfold connectivity
  refine Evt.bind (g := fun n lots => connect n x modes demand lots) (findLots_spec h hn _) fun lots hl => ?_
  refine connect_spec h modes demand fun d hd p => ?_
  rw [hl]
  simp [hd]

end Verif.MmConn
