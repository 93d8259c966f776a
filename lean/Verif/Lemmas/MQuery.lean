import Verif.Spec.MQuery
import Verif.Lemmas.Query

/-! # Lemmas about the queries of networks with cars and trucks -/

namespace Verif.MQuery
open Curve Ults Query Tt

/-! ## Links that differ in what they remember -/

theorem bind_assoc' {A B C : Type} (x : Res A) (f : A → Res B) (g : B → Res C) :
    (x.bind f).bind g = x.bind fun a => (f a).bind g := by cases x <;> rfl

/-- What follows from the values. -/
theorem fst_congr {A B C D : Type} {x : Res (A × B)} {y : Res (A × C)}
    (h : (x.bind fun r => .ok r.1) = y.bind fun r => .ok r.1) (k : A → Res D) :
    (x.bind fun r => k r.1) = y.bind fun r => k r.1 := by
  have h1 : ∀ {E : Type} (z : Res (A × E)), (z.bind fun r => k r.1) = (z.bind fun r => .ok r.1).bind k := by
    intro E z; cases z <;> rfl
  rw [h1, h1, h]

/-- The last valid time that a query uses. -/
def lastTime (T : ℕ) (cc : LinkCc) : Res ℚ :=
  if cc.lastValid < 0 then getLastValidTime cc.nIn cc.nOut T else .ok cc.lastValid

/-- Curves that queries cannot tell apart. -/
structure CcSim (T : ℕ) (a b : LinkCc) : Prop where
  nIn : a.nIn = b.nIn
  nOut : a.nOut = b.nOut
  fftt : a.fftt = b.fftt
  last : lastTime T a = lastTime T b

theorem CcSim.refl (T : ℕ) (a : LinkCc) : CcSim T a a := ⟨rfl, rfl, rfl, rfl⟩
theorem CcSim.symm {T : ℕ} {a b : LinkCc} (h : CcSim T a b) : CcSim T b a :=
  ⟨h.nIn.symm, h.nOut.symm, h.fftt.symm, h.last.symm⟩
theorem CcSim.trans {T : ℕ} {a b c : LinkCc} (h : CcSim T a b) (h' : CcSim T b c) : CcSim T a c :=
  ⟨h.nIn.trans h'.nIn, h.nOut.trans h'.nOut, h.fftt.trans h'.fftt, h.last.trans h'.last⟩

theorem getTravelTime_last (T : ℕ) (cc : LinkCc) (start : ℚ) :
    getTravelTime cc start T = (lastTime T cc).bind fun lv =>
      (travelTimeFromCc start cc.nIn cc.nOut lv cc.fftt false).bind fun r => .ok (r, { cc with lastValid := lv }) := rfl

theorem lastTime_keep {T : ℕ} {cc : LinkCc} {lv : ℚ} (h : lastTime T cc = .ok lv) :
    lastTime T { cc with lastValid := lv } = .ok lv := by
  unfold lastTime at h ⊢
  by_cases hl : lv < 0
  · by_cases hc : cc.lastValid < 0
    · rw [if_pos hc] at h
      simp only [hl, if_true]; exact h
    · rw [if_neg hc] at h
      cases h
      exact absurd hl hc
  · rw [if_neg hl]

theorem getTravelTime_keep {T : ℕ} {cc : LinkCc} {start : ℚ} {r : ℚ × LinkCc} (h : getTravelTime cc start T = .ok r) :
    CcSim T cc r.2 := by
  rw [getTravelTime_last, Res.bind_eq_ok'] at h
  obtain ⟨lv, h1, h⟩ := h
  rw [Res.bind_eq_ok'] at h
  obtain ⟨x, h2, h3⟩ := h
  cases h3
  exact ⟨rfl, rfl, rfl, by rw [h1, lastTime_keep h1]⟩

theorem getTravelTime_sim {T : ℕ} {a b : LinkCc} (h : CcSim T a b) (start : ℚ) :
    ((getTravelTime a start T).bind fun r => .ok r.1) = (getTravelTime b start T).bind fun r => .ok r.1 := by
  rw [getTravelTime_last, getTravelTime_last, h.last, h.nIn, h.nOut, h.fftt]

/-- Links that queries about the classes `B` cannot tell apart. -/
structure LinkSim (T : ℕ) (B : Bool → Prop) (p q : Link) : Prop where
  cc : ∀ b, B b → CcSim T (p.cc b) (q.cc b)
  length : p.length = q.length
  ffs : ∀ b, B b → p.ffs b = q.ffs b
  toll : ∀ b, B b → p.toll b = q.toll b

theorem LinkSim.refl (T : ℕ) (B : Bool → Prop) (q : Link) : LinkSim T B q q :=
  ⟨fun _ _ => .refl T _, rfl, fun _ _ => rfl, fun _ _ => rfl⟩
theorem LinkSim.symm {T : ℕ} {B : Bool → Prop} {p q : Link} (h : LinkSim T B p q) : LinkSim T B q p :=
  ⟨fun b hb => (h.cc b hb).symm, h.length.symm, fun b hb => (h.ffs b hb).symm, fun b hb => (h.toll b hb).symm⟩
theorem LinkSim.trans {T : ℕ} {B : Bool → Prop} {p q r : Link} (h : LinkSim T B p q) (h' : LinkSim T B q r) :
    LinkSim T B p r :=
  ⟨fun b hb => (h.cc b hb).trans (h'.cc b hb), h.length.trans h'.length,
    fun b hb => (h.ffs b hb).trans (h'.ffs b hb), fun b hb => (h.toll b hb).trans (h'.toll b hb)⟩

/-- Both classes. -/
def Both : Bool → Prop := fun _ => True

/-- States whose links queries about the classes `B` cannot tell apart. -/
def SimOn (T : ℕ) (B : Bool → Prop) (s t : State) : Prop :=
  ∀ l, (s.net l = none ∧ t.net l = none) ∨ ∃ p q, s.net l = some p ∧ t.net l = some q ∧ LinkSim T B p q

/-- States whose links queries cannot tell apart. -/
def Sim (T : ℕ) (s t : State) : Prop := SimOn T Both s t

theorem SimOn.refl (T : ℕ) (B : Bool → Prop) (s : State) : SimOn T B s s := fun l => by
  cases h : s.net l with
  | none => exact Or.inl ⟨rfl, rfl⟩
  | some q => exact Or.inr ⟨q, q, rfl, rfl, .refl T B q⟩

theorem Sim.refl (T : ℕ) (s : State) : Sim T s s := SimOn.refl T Both s

theorem SimOn.symm {T : ℕ} {B : Bool → Prop} {s t : State} (h : SimOn T B s t) : SimOn T B t s := fun l => by
  rcases h l with ⟨a, b⟩ | ⟨p, q, a, b, c⟩
  · exact Or.inl ⟨b, a⟩
  · exact Or.inr ⟨q, p, b, a, c.symm⟩

theorem SimOn.trans {T : ℕ} {B : Bool → Prop} {s t u : State} (h : SimOn T B s t) (h' : SimOn T B t u) :
    SimOn T B s u := fun l => by
  rcases h l with ⟨a, b⟩ | ⟨p, q, a, b, c⟩
  · rcases h' l with ⟨a', b'⟩ | ⟨p', q', a', b', c'⟩
    · exact Or.inl ⟨a, b'⟩
    · rw [b] at a'; cases a'
  · rcases h' l with ⟨a', b'⟩ | ⟨p', q', a', b', c'⟩
    · rw [b] at a'; cases a'
    · rw [b] at a'; cases a'
      exact Or.inr ⟨p, q', a, b', c.trans c'⟩

theorem Sim.trans {T : ℕ} {s t u : State} (h : Sim T s t) (h' : Sim T t u) : Sim T s u := SimOn.trans h h'

theorem Sim.on {T : ℕ} {B : Bool → Prop} {s t : State} (h : Sim T s t) : SimOn T B s t := fun l => by
  rcases h l with h | ⟨p, q, a, b, c⟩
  · exact Or.inl h
  · exact Or.inr ⟨p, q, a, b, ⟨fun b _ => c.cc b trivial, c.length, fun b _ => c.ffs b trivial, fun b _ => c.toll b trivial⟩⟩

theorem Sim.set {T : ℕ} {s : State} {l : ℤ} {p q : Link} (h : s.net l = some p) (hs : LinkSim T Both p q) :
    Sim T s (s.set l q) := by
  intro l'
  by_cases hl : l' = l
  · subst hl
    exact Or.inr ⟨p, q, h, by simp [State.set], hs⟩
  · simpa [State.set, hl] using Sim.refl T s l'

/-- A computation that cannot tell states apart, and leads to a state that one cannot tell from the one before. -/
structure Blind {A : Type} (T : ℕ) (B : Bool → Prop) (f : State → Res (A × State)) : Prop where
  val : ∀ s t, SimOn T B s t → ((f s).bind fun r => .ok r.1) = (f t).bind fun r => .ok r.1
  keep : ∀ s r, f s = .ok r → Sim T s r.2

theorem Blind.pure {A : Type} (T : ℕ) (B : Bool → Prop) (a : A) : Blind T B fun s => .ok (a, s) :=
  ⟨fun _ _ _ => rfl, fun s r h => by cases h; exact Sim.refl T s⟩

theorem Blind.bind {A C : Type} {T : ℕ} {B : Bool → Prop} {f : State → Res (A × State)} {g : A → State → Res (C × State)}
    (hf : Blind T B f) (hg : ∀ a, Blind T B (g a)) : Blind T B fun s => (f s).bind fun x => g x.1 x.2 := by
  constructor
  · intro s t h
    have e := hf.val s t h
    cases h1 : f s with
    | ok x =>
      cases h2 : f t with
      | ok y =>
        rw [h1, h2] at e
        simp only [Res.bind_ok', Res.ok.injEq] at e
        simp only [Res.bind_ok', e]
        exact (hg y.1).val _ _ (((hf.keep s x h1).on.symm.trans h).trans (hf.keep t y h2).on)
      | _ => rw [h1, h2] at e; cases e
    | throw m =>
      cases h2 : f t with
      | throw m' => rw [h1, h2] at e; simp only [Res.bind_throw', Res.throw.injEq] at e; simp only [Res.bind_throw', e]
      | _ => rw [h1, h2] at e; cases e
    | ub =>
      cases h2 : f t with
      | ub => rfl
      | _ => rw [h1, h2] at e; cases e
    | diverge =>
      cases h2 : f t with
      | diverge => rfl
      | _ => rw [h1, h2] at e; cases e
  · intro s r h
    rw [Res.bind_eq_ok'] at h
    obtain ⟨x, h1, h2⟩ := h
    exact (hf.keep s x h1).trans ((hg x.1).keep _ _ h2)

theorem Blind.check {A : Type} {T : ℕ} {B : Bool → Prop} (x : Res Unit) {f : State → Res (A × State)} (hf : Blind T B f) :
    Blind T B fun s => x.bind fun _ => f s := by
  cases x with
  | ok u => exact hf
  | _ => exact ⟨fun _ _ _ => rfl, fun s r h => by cases h⟩

theorem Blind.link {A : Type} {T : ℕ} {B : Bool → Prop} (l : ℤ) {f : Link → State → Res (A × State)}
    (h1 : ∀ p q, LinkSim T B p q → ∀ s t, s.net l = some p → t.net l = some q → SimOn T B s t →
      ((f p s).bind fun r => .ok r.1) = (f q t).bind fun r => .ok r.1)
    (h2 : ∀ q s r, s.net l = some q → f q s = .ok r → Sim T s r.2) :
    Blind T B fun s => (s.link l).bind fun q => f q s := by
  constructor
  · intro s t h
    unfold State.link
    rcases h l with ⟨a, b⟩ | ⟨p, q, a, b, c⟩
    · rw [a, b]; rfl
    · rw [a, b]; exact h1 p q c s t a b h
  · intro s r h
    unfold State.link at h
    cases e : s.net l with
    | none => rw [e] at h; cases h
    | some q => rw [e] at h; exact h2 q s r e h

theorem put_sim {T : ℕ} {cc : Bool → LinkCc} {b : Bool} {x : LinkCc} (h : CcSim T (cc b) x) (b' : Bool) :
    CcSim T (cc b') (put cc b x b') := by
  unfold put
  by_cases e : b' = b
  · subst e; rw [if_pos rfl]; exact h
  · rw [if_neg e]; exact CcSim.refl T _

theorem travelTime_blind (T : ℕ) {B : Bool → Prop} {b : Bool} (hb : B b) (l : ℤ) (start : ℚ) : Blind T B (travelTime T b l start) := by
  refine Blind.link l (f := fun q s => (getTravelTime (q.cc b) start T).bind fun r =>
    .ok (r.1, s.set l { q with cc := put q.cc b r.2 })) ?_ ?_
  · intro p q h s t _ _ _
    have := getTravelTime_sim (h.cc b hb) start
    rw [bind_assoc', bind_assoc']
    exact fst_congr this fun x => .ok x
  · intro q s r hq h
    rw [Res.bind_eq_ok'] at h
    obtain ⟨x, h1, h2⟩ := h
    cases h2
    exact Sim.set hq ⟨fun b _ => put_sim (getTravelTime_keep h1) b, rfl, fun _ _ => rfl, fun _ _ => rfl⟩

theorem robustSum_keep {T : ℕ} (start delta : ℚ) : ∀ (is : List ℕ) (cc : LinkCc) (r : ℚ × LinkCc),
    robustSum cc start delta T is = .ok r → CcSim T cc r.2
  | [], cc, r, h => by cases h; exact CcSim.refl T cc
  | i :: is, cc, r, h => by
    rw [robustSum, Res.bind_eq_ok'] at h
    obtain ⟨p, h1, h⟩ := h
    rw [Res.bind_eq_ok'] at h
    obtain ⟨q, h2, h3⟩ := h
    cases h3
    exact (getTravelTime_keep h1).trans (robustSum_keep start delta is p.2 q h2)

theorem robustSum_sim {T : ℕ} (start delta : ℚ) : ∀ (is : List ℕ) (a b : LinkCc), CcSim T a b →
    ((robustSum a start delta T is).bind fun r => .ok r.1) = (robustSum b start delta T is).bind fun r => .ok r.1
  | [], _, _, _ => rfl
  | i :: is, a, b, h => by
    rw [robustSum, robustSum]
    have e := getTravelTime_sim h (start + i * delta)
    cases h1 : getTravelTime a (start + i * delta) T with
    | ok x =>
      cases h2 : getTravelTime b (start + i * delta) T with
      | ok y =>
        rw [h1, h2] at e
        simp only [Res.bind_ok', Res.ok.injEq] at e
        have := robustSum_sim start delta is x.2 y.2
          (((getTravelTime_keep h1).symm.trans h).trans (getTravelTime_keep h2))
        simp only [Res.bind_ok', e]
        rw [bind_assoc', bind_assoc']
        exact fst_congr this fun v => .ok (y.1 + v)
      | _ => rw [h1, h2] at e; cases e
    | throw m =>
      cases h2 : getTravelTime b (start + i * delta) T with
      | throw m' => rw [h1, h2] at e; exact e
      | _ => rw [h1, h2] at e; cases e
    | ub =>
      cases h2 : getTravelTime b (start + i * delta) T with
      | ub => rfl
      | _ => rw [h1, h2] at e; cases e
    | diverge =>
      cases h2 : getTravelTime b (start + i * delta) T with
      | diverge => rfl
      | _ => rw [h1, h2] at e; cases e

theorem robust_keep {T : ℕ} {a b trials : _} {cc : LinkCc} {r : Option ℚ × LinkCc}
    (h : Curve.travelTimeRobust cc a b T trials = .ok r) : CcSim T cc r.2 := by
  unfold Curve.travelTimeRobust at h
  rw [Res.bind_eq_ok'] at h
  obtain ⟨d, _, h⟩ := h
  by_cases hz : (if trials > d then d else trials) = 0
  · rw [if_pos hz] at h; cases h; exact CcSim.refl T cc
  · rw [if_neg hz, Res.bind_eq_ok'] at h
    obtain ⟨x, h1, h2⟩ := h
    cases h2
    exact robustSum_keep _ _ _ _ _ h1

theorem robust_sim {T : ℕ} {c d : LinkCc} (h : CcSim T c d) (a b : ℚ) (trials : ℤ) :
    ((Curve.travelTimeRobust c a b T trials).bind fun r => .ok r.1)
      = (Curve.travelTimeRobust d a b T trials).bind fun r => .ok r.1 := by
  unfold Curve.travelTimeRobust
  cases toInt (b - a) with
  | ok k =>
    simp only [Res.bind_ok']
    by_cases hz : (if trials > k then k else trials) = 0
    · rw [if_pos hz, if_pos hz]; rfl
    · rw [if_neg hz, if_neg hz, bind_assoc', bind_assoc']
      exact fst_congr (robustSum_sim a _ _ c d h) fun x => .ok (some (x / ((if trials > k then k else trials : ℤ) : ℚ)))
  | _ => rfl

theorem travelTimeRobust_blind (T : ℕ) {B : Bool → Prop} {b : Bool} (hb : B b) (trials : ℤ) (l : ℤ) (p : ℚ × ℚ) :
    Blind T B (travelTimeRobust T b trials l p) := by
  refine Blind.link l (f := fun q s => (Curve.travelTimeRobust (q.cc b) p.1 p.2 T trials).bind fun r =>
    .ok (r.1, s.set l { q with cc := put q.cc b r.2 })) ?_ ?_
  · intro p' q h s t _ _ _
    have := robust_sim (h.cc b hb) p.1 p.2 trials
    rw [bind_assoc', bind_assoc']
    exact fst_congr this fun x => .ok x
  · intro q s r hq h
    rw [Res.bind_eq_ok'] at h
    obtain ⟨x, h1, h2⟩ := h
    cases h2
    exact Sim.set hq ⟨fun b _ => put_sim (robust_keep h1) b, rfl, fun _ _ => rfl, fun _ _ => rfl⟩

/-! ## Loops -/

theorem colLoop_blind {R A : Type} {T : ℕ} {B : Bool → Prop} {f : R → State → Res (A × State)} (hf : ∀ r, Blind T B (f r)) (cols t : ℕ) :
    ∀ (rs : List R) (i : ℕ) (a : Arr A), Blind T B (colLoop f cols t i rs a)
  | [], i, a => Blind.pure T B a
  | r :: rs, i, a => (hf r).bind (g := fun x s => colLoop f cols t (i + 1) rs (write a (i * cols + t) x) s)
      fun x => colLoop_blind hf cols t rs (i + 1) _

theorem gridLoop_blind {S R A : Type} {T : ℕ} {B : Bool → Prop} {check : S → Res Unit} {f : S → R → State → Res (A × State)}
    (hf : ∀ x r, Blind T B (f x r)) (cols : ℕ) (rs : List R) :
    ∀ (xs : List S) (t : ℕ) (a : Arr A), Blind T B (gridLoop check f cols rs t xs a)
  | [], t, a => Blind.pure T B a
  | x :: xs, t, a => by
    have h : Blind T B fun s => (colLoop (f x) cols t 0 rs a s).bind fun w =>
        gridLoop check f cols rs (t + 1) xs w.1 w.2 :=
      (colLoop_blind (hf x) cols t rs 0 a).bind fun w => gridLoop_blind hf cols rs xs (t + 1) w
    exact h.check (check x)

theorem grid_blind {S R A : Type} {T : ℕ} {B : Bool → Prop} {check : S → Res Unit} {f : S → R → State → Res (A × State)}
    (hf : ∀ x r, Blind T B (f x r)) (xs : List S) (rs : List R) : Blind T B (grid check f xs rs) :=
  gridLoop_blind hf _ rs xs 0 _

/-- Reading constant attributes of a link before a computation. -/
theorem Blind.attrs {A C : Type} {T : ℕ} {B : Bool → Prop} (l : ℤ) {g : State → Res (C × State)} (hg : Blind T B g) {h : Link → C → A}
    (hh : ∀ p q, LinkSim T B p q → h p = h q) :
    Blind T B fun s => (s.link l).bind fun q => (g s).bind fun r => .ok (h q r.1, r.2) := by
  refine Blind.link l (f := fun q s => (g s).bind fun r => .ok (h q r.1, r.2)) ?_ ?_
  · intro p q hpq s t _ _ hst
    have := hg.val s t hst
    rw [hh p q hpq, bind_assoc', bind_assoc']
    exact fst_congr this fun x => .ok (h q x)
  · intro q s r _ e
    rw [Res.bind_eq_ok'] at e
    obtain ⟨x, h1, h2⟩ := e
    cases h2
    exact hg.keep s x h1

theorem cap_sim {T : ℕ} {B : Bool → Prop} {p q : Link} (h : LinkSim T B p q) {b : Bool} (hb : B b) (inf : Bool) :
    cap p b inf = cap q b inf := by
  funext x; unfold cap; rw [h.length, h.ffs b hb]

theorem linkTtOne_blind (e : Env) {B : Bool → Prop} {b : Bool} (hb : B b) (inf : Bool) (start : ℚ) (l : ℤ) : Blind e.T B (linkTtOne e b inf start l) :=
  Blind.attrs l (travelTime_blind e.T hb l (start + 1)) (h := fun q r => some (cap q b inf (r * e.unit)))
    fun p q h => by rw [cap_sim h hb]

theorem robustOne_blind (e : Env) {B : Bool → Prop} {b : Bool} (hb : B b) (inf : Bool) (trials : ℤ) (p : ℚ × ℚ) (l : ℤ) :
    Blind e.T B (robustOne e b inf trials p l) :=
  Blind.attrs l (travelTimeRobust_blind e.T hb trials l (p.1 + 1, p.2 + 1))
    (h := fun q r => r.map fun x => cap q b inf (x * e.unit)) fun p q h => by rw [cap_sim h hb]

theorem speedOne_blind (e : Env) {B : Bool → Prop} {b : Bool} (hb : B b) (start : ℚ) (l : ℤ) : Blind e.T B (speedOne e b start l) :=
  Blind.attrs l (travelTime_blind e.T hb l (start + 1)) (h := fun q r => speedOf q.length (r * e.unit))
    fun p q h => by rw [h.length]

theorem inflowOne_blind (T : ℕ) {B : Bool → Prop} {b : Bool} (hb : B b) (p : ℚ × ℚ) (l : ℤ) : Blind T B (inflowOne b p l) := by
  refine Blind.link l (f := fun q s => (flowBetween (q.cc b).nIn p.1 p.2).bind fun x =>
    .ok (some ((x : ℚ) : WithTop ℚ), s)) ?_ ?_
  · intro p' q h s t _ _ _
    rw [(h.cc b hb).nIn]
    cases flowBetween (q.cc b).nIn p.1 p.2 <;> rfl
  · intro q s r _ h
    rw [Res.bind_eq_ok'] at h
    obtain ⟨x, h1, h2⟩ := h
    cases h2
    exact Sim.refl T s

theorem avgSum_blind (e : Env) {B : Bool → Prop} {b : Bool} (hb : B b) (l : ℤ) : ∀ (xs : List ℚ) (acc : ℚ), Blind e.T B (avgSum e b l xs acc)
  | [], acc => Blind.pure e.T B acc
  | x :: xs, acc => by
    have h : Blind e.T B fun s => (((s.link l).bind fun q => (travelTime e.T b l (x + 1) s).bind fun r =>
        .ok ((acc + if r.1 * e.unit > ttUpperBound * q.length / q.ffs b then ttUpperBound * q.length / q.ffs b
          else r.1 * e.unit : ℚ), r.2)) : Res (ℚ × State)).bind fun w => avgSum e b l xs w.1 w.2 :=
      (Blind.attrs l (travelTime_blind e.T hb l (x + 1)) (h := fun q r =>
        acc + if r * e.unit > ttUpperBound * q.length / q.ffs b then ttUpperBound * q.length / q.ffs b else r * e.unit)
        fun p q h => by rw [h.length, h.ffs b hb]).bind fun w => avgSum_blind e hb l xs w
    have h2 := h.check (checkStart (byClass b "get_avg_link_on_path_tt_car" "get_avg_link_on_path_tt_truck") e.T x)
    have e3 : avgSum e b l (x :: xs) acc = fun s =>
        (checkStart (byClass b "get_avg_link_on_path_tt_car" "get_avg_link_on_path_tt_truck") e.T x).bind fun _ =>
        ((((s.link l).bind fun q => (travelTime e.T b l (x + 1) s).bind fun r =>
        .ok ((acc + if r.1 * e.unit > ttUpperBound * q.length / q.ffs b then ttUpperBound * q.length / q.ffs b
          else r.1 * e.unit : ℚ), r.2)) : Res (ℚ × State)).bind fun w => avgSum e b l xs w.1 w.2) := by
      funext s
      rw [avgSum]
      congr 1
      funext _
      cases s.link l with
      | ok q =>
        simp only [Res.bind_ok']
        cases travelTime e.T b l (x + 1) s <;> rfl
      | _ => rfl
    rw [e3]; exact h2

theorem avgLoop_blind (e : Env) {B : Bool → Prop} {b : Bool} (hb : B b) (starts : List ℚ) : ∀ (ls : List ℤ) (i : ℕ) (a : Arr Val),
    Blind e.T B (avgLoop e b starts i ls a)
  | [], i, a => Blind.pure e.T B a
  | l :: ls, i, a => by
    have h : Blind e.T B fun s => (avgSum e b l starts 0 s).bind fun r => avgLoop e b starts (i + 1) ls
        (write a i (if starts.length = 0 then none else some ((r.1 / starts.length : ℚ) : WithTop ℚ))) r.2 :=
      (avgSum_blind e hb l starts 0).bind (g := fun r s => avgLoop e b starts (i + 1) ls
        (write a i (if starts.length = 0 then none else some ((r / starts.length : ℚ) : WithTop ℚ))) s)
        fun r => avgLoop_blind e hb starts ls (i + 1) _
    exact Blind.link l (f := fun _ s => (avgSum e b l starts 0 s).bind fun r => avgLoop e b starts (i + 1) ls
        (write a i (if starts.length = 0 then none else some ((r.1 / starts.length : ℚ) : WithTop ℚ))) r.2)
      (fun p q _ s t _ _ hst => h.val s t hst) (fun q s r _ hr => h.keep s r hr)

/-! ## Tables -/

theorem ttRows_keep {T : ℕ} : ∀ (is : List ℕ) (cc : Bool → LinkCc) (r : (List ℚ × List ℚ) × (Bool → LinkCc)),
    ttRows T cc is = .ok r → ∀ b, CcSim T (cc b) (r.2 b)
  | [], cc, r, h => by cases h; exact fun b => CcSim.refl T _
  | i :: is, cc, r, h => by
    rw [ttRows, Res.bind_eq_ok'] at h
    obtain ⟨x, h1, h⟩ := h
    rw [Res.bind_eq_ok'] at h
    obtain ⟨y, h2, h⟩ := h
    rw [Res.bind_eq_ok'] at h
    obtain ⟨w, h3, h4⟩ := h
    cases h4
    intro b
    have e1 := put_sim (b := false) (getTravelTime_keep h1) b
    have e2 : CcSim T (put cc false x.2 true) y.2 := by simpa [put] using getTravelTime_keep h2
    exact (e1.trans (put_sim e2 b)).trans (ttRows_keep is _ w h3 b)

theorem buildOne_keep {e : Env} {s s' : State} {l : ℤ} (h : buildOne e s l = .ok s') : Sim e.T s s' := by
  unfold buildOne State.link at h
  cases hq : s.net l with
  | none => rw [hq] at h; cases h
  | some q =>
    rw [hq] at h
    simp only [Res.bind_ok'] at h
    rw [Res.bind_eq_ok'] at h
    obtain ⟨r, h1, h⟩ := h
    rw [Res.bind_eq_ok'] at h
    obtain ⟨t0, _, h⟩ := h
    rw [Res.bind_eq_ok'] at h
    obtain ⟨c0, _, h⟩ := h
    rw [Res.bind_eq_ok'] at h
    obtain ⟨t1, _, h⟩ := h
    rw [Res.bind_eq_ok'] at h
    obtain ⟨c1, _, h⟩ := h
    cases h
    exact Sim.set hq ⟨fun b _ => ttRows_keep _ _ _ h1 b, rfl, fun _ _ => rfl, fun _ _ => rfl⟩

theorem build_keep {e : Env} {s s' : State} (h : build e s = .ok s') : Sim e.T s s' :=
  Res.foldlM_inv (P := fun t => Sim e.T s t) (fun b a b' h1 h2 => h1.trans (buildOne_keep h2)) e.ids s s'
    (Sim.refl _ s) h

theorem answer_blind (e : Env) (q : Ask) {B : Bool → Prop} {b : Bool} (hb : B b) (h : q.direct = some b) :
    Blind e.T B (answer e q) := by
  cases q with
  | linkTt b inf starts => cases h; exact grid_blind (fun x r => linkTtOne_blind e hb inf x r) starts e.reg
  | robust b inf trials periods =>
    cases h; exact grid_blind (fun x r => robustOne_blind e hb inf trials x r) periods e.reg
  | speed b starts => cases h; exact grid_blind (fun x r => speedOne_blind e hb x r) starts e.reg
  | inflow b periods => cases h; exact grid_blind (fun x r => inflowOne_blind e.T hb x r) periods e.reg
  | avg b links starts => cases h; exact avgLoop_blind e hb starts links 0 _
  | build => cases h
  | pathTt b links starts => cases h
  | regPathTt b starts => cases h

theorem grid_inv {S R A : Type} {check : S → Res Unit} {f : S → R → State → Res (A × State)} {P : State → Prop}
    (hf : ∀ x r s w, P s → f x r s = .ok w → P w.2) (cols : ℕ) (rs : List R) :
    ∀ (xs : List S) (t : ℕ) (a : Arr A) (s : State) (w : Arr A × State), P s →
      gridLoop check f cols rs t xs a s = .ok w → P w.2 := by
  have hcol : ∀ x (rs : List R) t i (a : Arr A) s w, P s → colLoop (f x) cols t i rs a s = .ok w → P w.2 := by
    intro x rs t
    induction rs with
    | nil => intro i a s w hP h; cases h; exact hP
    | cons r rs ih =>
      intro i a s w hP h
      rw [colLoop, Res.bind_eq_ok'] at h
      obtain ⟨y, h1, h2⟩ := h
      exact ih _ _ _ _ (hf _ _ _ _ hP h1) h2
  intro xs
  induction xs with
  | nil => intro t a s w hP h; cases h; exact hP
  | cons x xs ih =>
    intro t a s w hP h
    rw [gridLoop, Res.bind_eq_ok'] at h
    obtain ⟨_, _, h⟩ := h
    rw [Res.bind_eq_ok'] at h
    obtain ⟨y, h1, h2⟩ := h
    exact ih _ _ _ _ (hcol _ _ _ _ _ _ _ hP h1) h2

theorem answer_keep {e : Env} {q : Ask} {s : State} {r : Arr Val × State} (h : answer e q s = .ok r) :
    Sim e.T s r.2 := by
  cases hd : q.direct with
  | some b => exact (answer_blind e q (B := Both) (b := b) trivial hd).keep s r h
  | none =>
    cases q with
    | build =>
      simp only [answer] at h
      rw [Res.bind_eq_ok'] at h
      obtain ⟨s', h1, h2⟩ := h
      cases h2
      exact build_keep h1
    | pathTt b links starts =>
      simp only [answer, pathTt] at h
      split at h
      · rw [Res.bind_eq_ok'] at h
        obtain ⟨a, _, h2⟩ := h
        cases h2
        exact Sim.refl _ s
      · cases h
    | regPathTt b starts =>
      simp only [answer, grid] at h
      have : r.2 = s := grid_inv (P := fun t => t = s) (fun x p t w ht hw => by
        unfold regOne at hw
        rw [Res.bind_eq_ok'] at hw
        obtain ⟨a, _, h2⟩ := hw
        cases h2; exact ht) _ _ _ _ _ _ _ rfl h
      rw [this]; exact Sim.refl _ s
    | _ => cases hd

theorem session_keep {e : Env} : ∀ (qs : List Ask) (s s' : State), session e qs s = .ok s' → Sim e.T s s'
  | [], s, s', h => by cases h; exact Sim.refl _ s
  | q :: qs, s, s', h => by
    rw [session, Res.bind_eq_ok'] at h
    obtain ⟨r, h1, h2⟩ := h
    exact (answer_keep h1).trans (session_keep qs r.2 s' h2)

/-! ## Values -/

theorem getTravelTime_ccsim {σ : ℚ} {T : ℕ} {ins outs : List (ℕ × ℕ)} {c0 cc : LinkCc} (h : Loaded σ T ins outs c0)
    (hs : CcSim T c0 cc) (start : ℕ) :
    ∃ r cc', getTravelTime cc (start : ℚ) T = .ok (r, cc') ∧ CcSim T c0 cc' ∧ LinkTime T ins outs c0.fftt start r := by
  obtain ⟨r, cc', h1, h2, h3⟩ := getTravelTime_same h (Same.refl h) start
  have := getTravelTime_sim hs (start : ℚ)
  rw [h1, Res.bind_ok'] at this
  have := this.symm
  rw [Res.bind_eq_ok'] at this
  obtain ⟨x, h4, h5⟩ := this
  have h5 := Res.ok.inj h5
  exact ⟨x.1, x.2, h4, hs.trans (getTravelTime_keep h4), by rw [h5]; exact h3⟩

theorem sim_net {T : ℕ} {s0 s : State} {l : ℤ} {q : Link} (h : Sim T s0 s) (hq : s0.net l = some q) :
    ∃ q', s.net l = some q' ∧ LinkSim T Both q q' := by
  rcases h l with ⟨a, _⟩ | ⟨p, q', a, b, c⟩
  · rw [hq] at a; cases a
  · rw [hq] at a; cases a
    exact ⟨q', b, c⟩

theorem travelTime_eq {σ : ℚ} {T : ℕ} {ins outs : Bool → ℤ → List (ℕ × ℕ)} {s0 s : State} {ls : List ℤ} {q : ℤ → Link}
    (hL : LoadedNet σ T ins outs s0 ls q) (hs : Sim T s0 s) {l : ℤ} (hl : l ∈ ls) (b : Bool) (start : ℕ) :
    ∃ r s', travelTime T b l (start : ℚ) s = .ok (r, s') ∧ Sim T s0 s' ∧
      LinkTime T (ins b l) (outs b l) ((q l).cc b).fftt start r := by
  obtain ⟨h1, h2⟩ := hL l hl
  obtain ⟨q', h3, h4⟩ := sim_net hs h1
  obtain ⟨r, cc', h5, h6, h7⟩ := getTravelTime_ccsim (h2 b) (h4.cc b trivial) start
  have : travelTime T b l (start : ℚ) s = .ok (r, s.set l { q' with cc := put q'.cc b cc' }) := by
    unfold travelTime State.link
    rw [h3]
    show (getTravelTime (q'.cc b) (start : ℚ) T).bind _ = _
    rw [h5, Res.bind_ok']
  exact ⟨r, _, this, hs.trans ((travelTime_blind T (B := Both) (b := b) trivial l start).keep s _ this), h7⟩

theorem link_ok {s : State} {l : ℤ} {q : Link} (h : s.net l = some q) : s.link l = .ok q := by
  unfold State.link; rw [h]

theorem cap_eq (q : Link) (b inf : Bool) (x : ℚ) : cap q b inf x =
    if x ≤ 20 * (q.length / q.ffs b) then ((x : ℚ) : WithTop ℚ)
      else if inf then ⊤ else ((20 * (q.length / q.ffs b) : ℚ) : WithTop ℚ) := by
  unfold cap ttUpperBound
  simp only [mul_div_assoc]
  by_cases h : x ≤ 20 * (q.length / q.ffs b)
  · rw [if_neg (not_lt.2 h), if_pos h]
  · rw [if_pos (not_le.1 h), if_neg h]

theorem checkStart_ok {name : String} {T s : ℕ} (h : s < T) : checkStart name T (s : ℚ) = .ok () := by
  unfold checkStart
  rw [if_neg (by push Not; exact_mod_cast h)]

theorem checkPeriod_ok {name : String} {T : ℕ} {p : ℕ × ℕ} (h : p.1 < p.2 ∧ p.2 ≤ T) :
    checkPeriod name T ((p.1 : ℚ), (p.2 : ℚ)) = .ok () := by
  have h1 : (p.1 : ℚ) < p.2 := by exact_mod_cast h.1
  have h2 : (p.2 : ℚ) ≤ T := by exact_mod_cast h.2
  unfold checkPeriod
  rw [if_neg (not_le.2 h1), if_neg (not_le.2 (lt_of_lt_of_le h1 h2)), if_neg (not_lt.2 h2)]

theorem colLoop_eq {R A : Type} {f : R → State → Res (A × State)} {cols t : ℕ} {I : State → Prop} {V : R → A → Prop} :
    ∀ (rs : List R) (i : ℕ) (a : Arr A) (s : State), I s →
    (∀ r ∈ rs, ∀ s, I s → ∃ v s', f r s = .ok (v, s') ∧ I s' ∧ V r v) →
    ∃ w s', colLoop f cols t i rs a s = .ok (w, s') ∧ I s' ∧
      (∀ k (hk : k < rs.length), 0 < cols → ∃ v, w ((i + k) * cols + t) = some v ∧ V rs[k] v) ∧
      ∀ j, (∀ k < rs.length, j ≠ (i + k) * cols + t) → w j = a j := by
  intro rs
  induction rs with
  | nil => intro i a s hI _; exact ⟨a, s, rfl, hI, fun k hk => by simp at hk, fun j _ => rfl⟩
  | cons r rs ih =>
    intro i a s hI h
    obtain ⟨v, s1, h1, h2, h3⟩ := h r (by simp) s hI
    obtain ⟨w, s2, h4, h5, h6, h7⟩ := ih (i + 1) (write a (i * cols + t) v) s1 h2 (fun r hr => h r (by simp [hr]))
    refine ⟨w, s2, by rw [colLoop, h1, Res.bind_ok', h4], h5, ?_, ?_⟩
    · intro k hk hl
      rcases k with _ | k
      · refine ⟨v, ?_, by simpa using h3⟩
        rw [Nat.add_zero, h7]
        · simp [write]
        · intro k _ e
          have : (i + 1 + k) * cols = i * cols + (1 + k) * cols := by ring
          have : 0 < (1 + k) * cols := by positivity
          omega
      · obtain ⟨v, a1, a2⟩ := h6 k (by simpa using hk) hl
        exact ⟨v, by rw [show i + (k + 1) = i + 1 + k by omega]; exact a1, by simpa using a2⟩
    · intro j hj
      rw [h7 j]
      · have := hj 0 (by simp)
        simp only [Nat.add_zero] at this
        simp [write, this]
      · intro k hk e
        exact hj (k + 1) (by simpa using hk) (by rw [e]; congr 2; omega)

theorem gridLoop_eq {S R A : Type} {check : S → Res Unit} {f : S → R → State → Res (A × State)} {cols : ℕ}
    {I : State → Prop} {V : S → R → A → Prop} {rs : List R} :
    ∀ (xs : List S) (t : ℕ) (a : Arr A) (s : State), t + xs.length = cols → I s →
    (∀ x ∈ xs, check x = .ok ()) →
    (∀ x ∈ xs, ∀ r ∈ rs, ∀ s, I s → ∃ v s', f x r s = .ok (v, s') ∧ I s' ∧ V x r v) →
    ∃ w s', gridLoop check f cols rs t xs a s = .ok (w, s') ∧ I s' ∧
      (∀ m (hm : m < xs.length), ∀ k (hk : k < rs.length), ∃ v, w (k * cols + (t + m)) = some v ∧ V xs[m] rs[k] v) ∧
      ∀ j, (∀ m < xs.length, ∀ k < rs.length, j ≠ k * cols + (t + m)) → w j = a j := by
  intro xs
  induction xs with
  | nil => intro t a s _ hI _ _; exact ⟨a, s, rfl, hI, fun m hm => by simp at hm, fun j _ => rfl⟩
  | cons x xs ih =>
    intro t a s hl hI hc hf
    rw [List.length_cons] at hl
    obtain ⟨w, s1, h1, h2, h3, h4⟩ := colLoop_eq (cols := cols) (t := t) rs 0 a s hI (hf x (by simp))
    obtain ⟨w', s2, h5, h6, h7, h8⟩ := ih (t + 1) w s1 (by omega) h2
      (fun s hs => hc s (by simp [hs])) (fun s hs => hf s (by simp [hs]))
    refine ⟨w', s2, by rw [gridLoop, hc x (by simp), Res.bind_ok', h1, Res.bind_ok', h5], h6, ?_, ?_⟩
    · intro m hm k hk
      rcases m with _ | m
      · obtain ⟨v, b1, b2⟩ := h3 k hk (by omega)
        rw [Nat.zero_add] at b1
        refine ⟨v, ?_, b2⟩
        rw [Nat.add_zero, h8, b1]
        intro m' hm' k' _ e
        have e1 : (k * cols + t) % cols = t := by
          rw [Nat.add_comm, Nat.add_mul_mod_self_right, Nat.mod_eq_of_lt (by omega)]
        have e2 : (k' * cols + (t + 1 + m')) % cols = t + 1 + m' := by
          rw [Nat.add_comm, Nat.add_mul_mod_self_right, Nat.mod_eq_of_lt (by omega)]
        rw [e, e2] at e1
        omega
      · obtain ⟨v, b1, b2⟩ := h7 m (by simpa using hm) k hk
        exact ⟨v, by rw [show t + (m + 1) = t + 1 + m by omega]; exact b1, by simpa using b2⟩
    · intro j hj
      rw [h8 j, h4 j]
      · intro k hk e
        exact hj 0 (by simp) k (by omega) (by rw [e, Nat.zero_add, Nat.add_zero])
      · intro m hm k hk e
        exact hj (m + 1) (by simpa using hm) k hk (by rw [e]; omega)

theorem grid_eq {S R A : Type} {check : S → Res Unit} {f : S → R → State → Res (A × State)}
    {I : State → Prop} {V : S → R → A → Prop} {rs : List R} {xs : List S} {s : State} (hI : I s)
    (hc : ∀ x ∈ xs, check x = .ok ())
    (hf : ∀ x ∈ xs, ∀ r ∈ rs, ∀ s, I s → ∃ v s', f x r s = .ok (v, s') ∧ I s' ∧ V x r v) :
    ∃ w s', grid check f xs rs s = .ok (w, s') ∧ I s' ∧
      ∀ m (hm : m < xs.length), ∀ k (hk : k < rs.length), ∃ v, w (k * xs.length + m) = some v ∧ V xs[m] rs[k] v := by
  obtain ⟨w, s', h1, h2, h3, _⟩ := gridLoop_eq (cols := xs.length) xs 0 (fun _ => none) s (by omega) hI hc hf
  exact ⟨w, s', h1, h2, fun m hm k hk => by simpa using h3 m hm k hk⟩

theorem gridLoop_throw {S R A : Type} {check : S → Res Unit} {f : S → R → State → Res (A × State)} {cols : ℕ}
    {I : State → Prop} {rs : List R} {x : S} {m : String} {post : List S} (hx : check x = .throw m) :
    ∀ (xs : List S) (t : ℕ) (a : Arr A) (s : State), I s → (∀ x ∈ xs, check x = .ok ()) →
    (∀ x ∈ xs, ∀ r ∈ rs, ∀ s, I s → ∃ v s', f x r s = .ok (v, s') ∧ I s') →
    gridLoop check f cols rs t (xs ++ x :: post) a s = .throw m := by
  intro xs
  induction xs with
  | nil => intro t a s _ _ _; rw [List.nil_append, gridLoop, hx]; rfl
  | cons y ys ih =>
    intro t a s hI hc hf
    obtain ⟨w, s1, h1, h2, _, _⟩ := colLoop_eq (cols := cols) (t := t) (V := fun _ _ => True) rs 0 a s hI
      (fun r hr s hs => by
        obtain ⟨v, s', b1, b2⟩ := hf y (by simp) r hr s hs
        exact ⟨v, s', b1, b2, trivial⟩)
    rw [List.cons_append, gridLoop, hc y (by simp), Res.bind_ok', h1, Res.bind_ok']
    exact ih _ _ _ h2 (fun s hs => hc s (by simp [hs])) (fun s hs => hf s (by simp [hs]))

theorem linkTtOne_eq {σ : ℚ} {e : Env} {ins outs : Bool → ℤ → List (ℕ × ℕ)} {s0 s : State} {ls : List ℤ}
    {q : ℤ → Link} (hL : LoadedNet σ e.T ins outs s0 ls q) (hs : Sim e.T s0 s) {l : ℤ} (hl : l ∈ ls) (b inf : Bool)
    (start : ℕ) :
    ∃ v s', linkTtOne e b inf (start : ℚ) l s = .ok (v, s') ∧ Sim e.T s0 s' ∧ ∃ r,
      LinkTime e.T (ins b l) (outs b l) ((q l).cc b).fftt (start + 1) r ∧
      v = some (if r * e.unit ≤ 20 * ((q l).length / (q l).ffs b) then ((r * e.unit : ℚ) : WithTop ℚ)
           else if inf then ⊤ else ((20 * ((q l).length / (q l).ffs b) : ℚ) : WithTop ℚ)) := by
  obtain ⟨q', h3, h4⟩ := sim_net hs (hL l hl).1
  obtain ⟨r, s', h5, h6, h7⟩ := travelTime_eq hL hs hl b (start + 1)
  refine ⟨_, s', ?_, h6, r, h7, rfl⟩
  unfold linkTtOne
  have e1 : ((start : ℚ) + 1) = ((start + 1 : ℕ) : ℚ) := by push_cast; ring
  rw [link_ok h3, Res.bind_ok', e1, h5, Res.bind_ok', cap_eq, h4.length, h4.ffs b trivial]

theorem speedOne_eq {σ : ℚ} {e : Env} {ins outs : Bool → ℤ → List (ℕ × ℕ)} {s0 s : State} {ls : List ℤ}
    {q : ℤ → Link} (hL : LoadedNet σ e.T ins outs s0 ls q) (hs : Sim e.T s0 s) {l : ℤ} (hl : l ∈ ls) (b : Bool)
    (start : ℕ) :
    ∃ v s', speedOne e b (start : ℚ) l s = .ok (v, s') ∧ Sim e.T s0 s' ∧ ∃ r,
      LinkTime e.T (ins b l) (outs b l) ((q l).cc b).fftt (start + 1) r ∧
      (r * e.unit ≠ 0 → v = some (((q l).length / (r * e.unit) * (3600 / 1600) : ℚ) : WithTop ℚ)) := by
  obtain ⟨q', h3, h4⟩ := sim_net hs (hL l hl).1
  obtain ⟨r, s', h5, h6, h7⟩ := travelTime_eq hL hs hl b (start + 1)
  refine ⟨speedOf (q l).length (r * e.unit), s', ?_, h6, r, h7, ?_⟩
  · unfold speedOne
    have e1 : ((start : ℚ) + 1) = ((start + 1 : ℕ) : ℚ) := by push_cast; ring
    rw [link_ok h3, Res.bind_ok', e1, h5, Res.bind_ok', h4.length]
  · intro h
    unfold speedOf
    rw [if_neg h, mul_div_assoc]

theorem inflowOne_eq {σ : ℚ} {T : ℕ} {ins outs : Bool → ℤ → List (ℕ × ℕ)} {s0 s : State} {ls : List ℤ}
    {q : ℤ → Link} (hL : LoadedNet σ T ins outs s0 ls q) (hs : Sim T s0 s) {l : ℤ} (hl : l ∈ ls) (b : Bool)
    {p : ℕ × ℕ} (hp : p.1 < p.2 ∧ p.2 ≤ T) :
    inflowOne b ((p.1 : ℚ), (p.2 : ℚ)) l s =
      .ok (some (((upTo (ins b l) p.2 - upTo (ins b l) p.1) / σ : ℚ) : WithTop ℚ), s) := by
  obtain ⟨h1, h2⟩ := hL l hl
  obtain ⟨q', h3, h4⟩ := sim_net hs h1
  obtain ⟨c, hc, hh⟩ := run_holds (h2 b).scalar.1 (h2 b).time (h2 b).histIn
  have e : c = (q'.cc b).nIn := by
    have := (h2 b).nIn; rw [hc] at this; rw [← (h4.cc b trivial).nIn]; exact Res.ok.inj this
  have hT := (h2 b).time
  unfold inflowOne flowBetween
  rw [link_ok h3, Res.bind_ok', ← e]
  simp only [hh.get p.2 (by omega), hh.get p.1 (by omega), Res.bind_ok', sub_div]

theorem avgSum_eq {σ : ℚ} {e : Env} {ins outs : Bool → ℤ → List (ℕ × ℕ)} {s0 : State} {ls : List ℤ}
    {q : ℤ → Link} (hL : LoadedNet σ e.T ins outs s0 ls q) {l : ℤ} (hl : l ∈ ls) (b : Bool) :
    ∀ (starts : List ℕ) (acc : ℚ) (s : State), Sim e.T s0 s → (∀ x ∈ starts, x < e.T) →
    ∃ rs s', avgSum e b l (starts.map fun x : ℕ => (x : ℚ)) acc s =
        .ok (acc + (rs.map fun r => min (r * e.unit) (20 * ((q l).length / (q l).ffs b))).sum, s') ∧ Sim e.T s0 s' ∧
      List.Forall₂ (fun x r => LinkTime e.T (ins b l) (outs b l) ((q l).cc b).fftt (x + 1) r) starts rs := by
  intro starts
  induction starts with
  | nil => intro acc s hs _; exact ⟨[], s, by simp [avgSum], hs, .nil⟩
  | cons x xs ih =>
    intro acc s hs hx
    obtain ⟨q', h3, h4⟩ := sim_net hs (hL l hl).1
    obtain ⟨r, s1, h5, h6, h7⟩ := travelTime_eq hL hs hl b (x + 1)
    obtain ⟨rs, s2, h8, h9, h10⟩ := ih (acc + min (r * e.unit) (20 * ((q l).length / (q l).ffs b))) s1 h6
      (fun y hy => hx y (by simp [hy]))
    refine ⟨r :: rs, s2, ?_, h9, .cons h7 h10⟩
    have e1 : ((x : ℚ) + 1) = ((x + 1 : ℕ) : ℚ) := by push_cast; ring
    rw [List.map_cons, avgSum, checkStart_ok (hx x (by simp)), Res.bind_ok', link_ok h3, Res.bind_ok', e1, h5,
      Res.bind_ok', List.map_cons, List.sum_cons, ← add_assoc, ← h8]
    have e2 : (if r * e.unit > ttUpperBound * q'.length / q'.ffs b then ttUpperBound * q'.length / q'.ffs b else r * e.unit)
        = min (r * e.unit) (20 * ((q l).length / (q l).ffs b)) := by
      rw [← h4.length, ← h4.ffs b trivial, mul_div_assoc]
      unfold ttUpperBound
      by_cases h : r * e.unit ≤ 20 * ((q l).length / (q l).ffs b)
      · rw [if_neg (not_lt.2 h), min_eq_left h]
      · rw [if_pos (not_le.1 h), min_eq_right (not_le.1 h).le]
    simp only [e2]

theorem avgLoop_eq {σ : ℚ} {e : Env} {ins outs : Bool → ℤ → List (ℕ × ℕ)} {s0 : State} {ls : List ℤ}
    {q : ℤ → Link} (hL : LoadedNet σ e.T ins outs s0 ls q) (b : Bool) {starts : List ℕ} (hne : starts ≠ [])
    (hx : ∀ x ∈ starts, x < e.T) :
    ∀ (links : List ℤ) (i : ℕ) (a : Arr Val) (s : State), Sim e.T s0 s → (∀ l ∈ links, l ∈ ls) →
    ∃ w s', avgLoop e b (starts.map fun x : ℕ => (x : ℚ)) i links a s = .ok (w, s') ∧ Sim e.T s0 s' ∧
      (∀ j < i, w j = a j) ∧
      ∀ k (hk : k < links.length), ∃ rs,
        List.Forall₂ (fun x r => LinkTime e.T (ins b links[k]) (outs b links[k]) ((q links[k]).cc b).fftt (x + 1) r)
          starts rs ∧
        w (i + k) = some (some (((rs.map fun r => min (r * e.unit)
          (20 * ((q links[k]).length / (q links[k]).ffs b))).sum / starts.length : ℚ) : WithTop ℚ)) := by
  intro links
  induction links with
  | nil => intro i a s hs _; exact ⟨a, s, rfl, hs, fun _ _ => rfl, fun k hk => by simp at hk⟩
  | cons l links ih =>
    intro i a s hs hl
    obtain ⟨q', h3, h4⟩ := sim_net hs (hL l (hl l (by simp))).1
    obtain ⟨rs, s1, h5, h6, h7⟩ := avgSum_eq hL (hl l (by simp)) b starts 0 s hs hx
    obtain ⟨w, s2, h8, h9, h10, h11⟩ := ih (i + 1) (write a i (some (((rs.map fun r => min (r * e.unit)
          (20 * ((q l).length / (q l).ffs b))).sum / starts.length : ℚ) : WithTop ℚ))) s1 h6
      (fun x hx => hl x (by simp [hx]))
    refine ⟨w, s2, ?_, h9, ?_, ?_⟩
    · rw [avgLoop, link_ok h3, Res.bind_ok', h5, Res.bind_ok', List.length_map,
        if_neg (by simpa using hne), zero_add, h8]
    · intro j hj
      rw [h10 j (by omega)]
      simp [write]; omega
    · intro k hk
      rcases k with _ | k
      · refine ⟨rs, by simpa using h7, ?_⟩
        rw [Nat.add_zero, h10 i (by omega)]
        simp [write]
      · obtain ⟨rs, b1, b2⟩ := h11 k (by simpa using hk)
        exact ⟨rs, by simpa using b1, by rw [show i + (k + 1) = i + 1 + k by omega]; simpa using b2⟩

/-! ## Tables and paths -/

theorem ttRows_eq {σ : ℚ} {T : ℕ} {ins outs : Bool → List (ℕ × ℕ)} {c0 : Bool → LinkCc}
    (h : ∀ b, Loaded σ T (ins b) (outs b) (c0 b)) :
    ∀ (is : List ℕ) (cc : Bool → LinkCc), (∀ b, CcSim T (c0 b) (cc b)) → ∃ r0 r1 cc',
      ttRows T cc is = .ok ((r0, r1), cc') ∧ r0.length = is.length ∧ r1.length = is.length ∧
      (∀ k (hk : k < is.length), ∃ r, r0[k]? = some r ∧ LinkTime T (ins false) (outs false) (c0 false).fftt (is[k] + 1) r) ∧
      ∀ k (hk : k < is.length), ∃ r, r1[k]? = some r ∧ LinkTime T (ins true) (outs true) (c0 true).fftt (is[k] + 1) r := by
  intro is
  induction is with
  | nil => intro cc _; exact ⟨[], [], cc, rfl, rfl, rfl, fun k hk => by simp at hk, fun k hk => by simp at hk⟩
  | cons i is ih =>
    intro cc hs
    obtain ⟨x, c1, h1, h2, h3⟩ := getTravelTime_ccsim (h false) (hs false) (i + 1)
    obtain ⟨y, c2, h4, h5, h6⟩ := getTravelTime_ccsim (h true) (hs true) (i + 1)
    obtain ⟨r0, r1, cc', h7, h8, h9, h10, h11⟩ := ih (put (put cc false c1) true c2) (fun b => by
      cases b
      · simpa [put] using h2
      · simpa [put] using h5)
    have e1 : ((i : ℚ) + 1) = ((i + 1 : ℕ) : ℚ) := by push_cast; ring
    refine ⟨x :: r0, y :: r1, cc', ?_, by simp [h8], by simp [h9], ?_, ?_⟩
    · rw [ttRows, e1, h1, Res.bind_ok', h4, Res.bind_ok', h7, Res.bind_ok']
    · intro k hk
      rcases k with _ | k
      · exact ⟨x, rfl, by simpa using h3⟩
      · simpa using h10 k (by simpa using hk)
    · intro k hk
      rcases k with _ | k
      · exact ⟨y, rfl, by simpa using h6⟩
      · simpa using h11 k (by simpa using hk)

/-- Rows of tables are complete. -/
def Full (T : ℕ) (s : State) : Prop :=
  ∀ b l xs, (s.tt b l = some xs → T ≤ xs.length) ∧ (s.cost b l = some xs → T ≤ xs.length)

/-- The tables hold the travel times of the links and the costs. -/
def Held (e : Env) (ins outs : Bool → ℤ → List (ℕ × ℕ)) (q : ℤ → Link) (s : State) (l : ℤ) : Prop :=
  ∀ b, ∃ xs ys, s.tt b l = some xs ∧ s.cost b l = some ys ∧
    ∀ t < e.T, ∃ r, xs[t]? = some r ∧ LinkTime e.T (ins b l) (outs b l) ((q l).cc b).fftt (t + 1) r ∧
      ys[t]? = some (e.vot * e.unit * r + (q l).toll b)

theorem store_full {T : ℕ} {tab tab' : Tabs} {l : ℤ} {row : List ℚ} (h : store tab l row = .ok tab') (hr : row.length = T)
    (hf : ∀ l xs, tab l = some xs → T ≤ xs.length) : ∀ l xs, tab' l = some xs → T ≤ xs.length := by
  obtain ⟨t2, ys, h1, h2, h3, h4⟩ := store_ok (tab := tab) (l := l) (row := row) (fun xs hx => by rw [hr]; exact hf l xs hx)
  rw [h] at h1
  have e := Res.ok.inj h1
  subst e
  intro l' xs hx
  by_cases hl : l' = l
  · subst hl
    unfold store at h
    cases ht : tab l' with
    | none =>
      rw [ht] at h
      have := Res.ok.inj h
      rw [← this] at hx
      simp only [if_true, Option.some.injEq] at hx
      rw [← hx, hr]
    | some zs =>
      rw [ht] at h
      simp only [hf l' zs ht, hr, if_true] at h
      have := Res.ok.inj h
      rw [← this] at hx
      simp only [if_true, Option.some.injEq] at hx
      rw [← hx, List.length_append]; omega
  · rw [h4 l' hl] at hx
    exact hf l' xs hx

theorem buildOne_eq {σ : ℚ} {e : Env} {ins outs : Bool → ℤ → List (ℕ × ℕ)} {s0 s : State} {ls : List ℤ}
    {q : ℤ → Link} (hL : LoadedNet σ e.T ins outs s0 ls q) (hs : Sim e.T s0 s) {l : ℤ} (hl : l ∈ ls) (hf : Full e.T s) :
    ∃ s', buildOne e s l = .ok s' ∧ Full e.T s' ∧ Held e ins outs q s' l ∧
      ∀ l', l' ≠ l → ∀ b, s'.tt b l' = s.tt b l' ∧ s'.cost b l' = s.cost b l' := by
  obtain ⟨h1, h2⟩ := hL l hl
  obtain ⟨q', h3, h4⟩ := sim_net hs h1
  obtain ⟨r0, r1, cc', h5, l0, l1, h6, h7⟩ := ttRows_eq h2 (List.range e.T) q'.cc fun b => h4.cc b trivial
  rw [List.length_range] at l0 l1
  obtain ⟨t0, xs0, a1, a2, a3, a4⟩ := store_ok (tab := s.tt false) (l := l) (row := r0)
    (fun xs hx => by rw [l0]; exact (hf false l xs).1 hx)
  obtain ⟨c0, ys0, b1, b2, b3, b4⟩ := store_ok (tab := s.cost false) (l := l)
    (row := r0.map fun x => e.vot * e.unit * x + q'.toll false)
    (fun xs hx => by rw [List.length_map, l0]; exact (hf false l xs).2 hx)
  obtain ⟨t1, xs1, c1, c2, c3, c4⟩ := store_ok (tab := s.tt true) (l := l) (row := r1)
    (fun xs hx => by rw [l1]; exact (hf true l xs).1 hx)
  obtain ⟨k1, ys1, d1, d2, d3, d4⟩ := store_ok (tab := s.cost true) (l := l)
    (row := r1.map fun x => e.vot * e.unit * x + q'.toll true)
    (fun xs hx => by rw [List.length_map, l1]; exact (hf true l xs).2 hx)
  refine ⟨⟨(s.set l { q' with cc := cc' }).net, fun b => byClass b t0 t1, fun b => byClass b c0 k1⟩, ?_, ?_, ?_, ?_⟩
  · unfold buildOne
    rw [link_ok h3, Res.bind_ok', h5, Res.bind_ok', a1, Res.bind_ok', b1, Res.bind_ok', c1, Res.bind_ok', d1,
      Res.bind_ok']
  · intro b l' xs
    cases b
    · exact ⟨store_full a1 l0 (fun l xs => (hf false l xs).1) l' xs,
        store_full b1 (by simpa using l0) (fun l xs => (hf false l xs).2) l' xs⟩
    · exact ⟨store_full c1 l1 (fun l xs => (hf true l xs).1) l' xs,
        store_full d1 (by simpa using l1) (fun l xs => (hf true l xs).2) l' xs⟩
  · intro b
    cases b
    · refine ⟨xs0, ys0, a2, b2, fun t ht => ?_⟩
      obtain ⟨r, e1, e2⟩ := h6 t (by simpa using ht)
      refine ⟨r, by rw [a3 t (by omega), e1], by simpa using e2, ?_⟩
      rw [b3 t (by rw [List.length_map]; omega), List.getElem?_map, e1, h4.toll _ trivial]; rfl
    · refine ⟨xs1, ys1, c2, d2, fun t ht => ?_⟩
      obtain ⟨r, e1, e2⟩ := h7 t (by simpa using ht)
      refine ⟨r, by rw [c3 t (by omega), e1], by simpa using e2, ?_⟩
      rw [d3 t (by rw [List.length_map]; omega), List.getElem?_map, e1, h4.toll _ trivial]; rfl
  · intro l' hl b
    cases b
    · exact ⟨a4 l' hl, b4 l' hl⟩
    · exact ⟨c4 l' hl, d4 l' hl⟩

theorem buildFold_eq {σ : ℚ} {e : Env} {ins outs : Bool → ℤ → List (ℕ × ℕ)} {s0 : State} {q : ℤ → Link} {ls : List ℤ}
    (hL : LoadedNet σ e.T ins outs s0 ls q) : ∀ (ids done : List ℤ) (s : State), Sim e.T s0 s → Full e.T s →
    (∀ l ∈ ids, l ∈ ls) → (∀ l ∈ done, Held e ins outs q s l) →
    ∃ s', Res.foldlM (buildOne e) s ids = .ok s' ∧ Sim e.T s0 s' ∧ Full e.T s' ∧
      ∀ l ∈ ids ++ done, Held e ins outs q s' l := by
  intro ids
  induction ids with
  | nil => intro done s hs hf _ hd; exact ⟨s, rfl, hs, hf, hd⟩
  | cons l ids ih =>
    intro done s hs hf hl hd
    obtain ⟨s1, h1, h2, h3, h4⟩ := buildOne_eq hL hs (hl l (by simp)) hf
    obtain ⟨s2, h5, h6, h7, h8⟩ := ih (l :: done) s1 (hs.trans (buildOne_keep h1)) h2 (fun x hx => hl x (by simp [hx]))
      (fun x hx => by
        by_cases e : x = l
        · subst e; exact h3
        · have hx : x ∈ done := by
            rcases List.mem_cons.1 hx with h | h
            · exact absurd h e
            · exact h
          intro b
          rw [(h4 x e b).1, (h4 x e b).2]
          exact hd x hx b)
    refine ⟨s2, by rw [Res.foldlM_cons, h1, Res.ok_bind, h5], h6, h7, fun x hx => h8 x ?_⟩
    simp only [List.cons_append, List.mem_cons, List.mem_append] at hx ⊢
    tauto

theorem build_eq {σ : ℚ} {e : Env} {ins outs : Bool → ℤ → List (ℕ × ℕ)} {s0 s : State} {q : ℤ → Link}
    (hL : LoadedNet σ e.T ins outs s0 e.ids q) (hs : Sim e.T s0 s) (hf : Full e.T s) :
    ∃ s', build e s = .ok s' ∧ Full e.T s' ∧ ∀ l ∈ e.ids, Held e ins outs q s' l := by
  obtain ⟨s', h1, _, h3, h4⟩ := buildFold_eq hL e.ids [] s hs hf (fun l hl => hl) (fun l hl => by simp at hl)
  exact ⟨s', h1, h3, fun l hl => h4 l (by simpa using hl)⟩

/-- Calls other than building keep the tables. -/
theorem answer_tables {e : Env} {a : Ask} {s : State} {r : Arr Val × State} (ha : a ≠ .build)
    (h : answer e a s = .ok r) : r.2.tt = s.tt ∧ r.2.cost = s.cost := by
  have ht : ∀ b l x s w, travelTime e.T b l x s = .ok w → w.2.tt = s.tt ∧ w.2.cost = s.cost := by
    intro b l x s w h
    unfold travelTime at h
    simp only [Res.bind_eq_ok'] at h
    obtain ⟨_, _, _, _, h3⟩ := h
    cases h3; exact ⟨rfl, rfl⟩
  have hg : ∀ {S R : Type} {check : S → Res Unit} {f : S → R → State → Res (Val × State)} {xs : List S} {rs : List R},
      (∀ x r s w, f x r s = .ok w → w.2.tt = s.tt ∧ w.2.cost = s.cost) →
      grid check f xs rs s = .ok r → r.2.tt = s.tt ∧ r.2.cost = s.cost := by
    intro S R check f xs rs hf h
    exact grid_inv (P := fun t => t.tt = s.tt ∧ t.cost = s.cost) (fun x r t w h1 h2 =>
      ⟨(hf x r t w h2).1.trans h1.1, (hf x r t w h2).2.trans h1.2⟩) _ _ _ _ _ _ _ ⟨rfl, rfl⟩ h
  cases a with
  | linkTt b inf starts =>
    refine hg (fun x l s w h => ?_) h
    unfold linkTtOne at h
    simp only [Res.bind_eq_ok'] at h
    obtain ⟨_, _, y, h2, h3⟩ := h
    cases h3; exact ht _ _ _ _ _ h2
  | robust b inf trials periods =>
    refine hg (fun x l s w h => ?_) h
    unfold robustOne travelTimeRobust at h
    simp only [Res.bind_eq_ok'] at h
    obtain ⟨_, _, y, ⟨_, _, _, _, h2⟩, h3⟩ := h
    cases h3; cases h2; exact ⟨rfl, rfl⟩
  | speed b starts =>
    refine hg (fun x l s w h => ?_) h
    unfold speedOne at h
    simp only [Res.bind_eq_ok'] at h
    obtain ⟨_, _, y, h2, h3⟩ := h
    cases h3; exact ht _ _ _ _ _ h2
  | inflow b periods =>
    refine hg (fun x l s w h => ?_) h
    unfold inflowOne at h
    simp only [Res.bind_eq_ok'] at h
    obtain ⟨_, _, y, h2, h3⟩ := h
    cases h3; exact ⟨rfl, rfl⟩
  | avg b links starts =>
    have hsum : ∀ l (xs : List ℚ) acc s w, avgSum e b l xs acc s = .ok w → w.2.tt = s.tt ∧ w.2.cost = s.cost := by
      intro l xs
      induction xs with
      | nil => intro acc s w h; cases h; exact ⟨rfl, rfl⟩
      | cons x xs ih =>
        intro acc s w h
        rw [avgSum] at h
        simp only [Res.bind_eq_ok'] at h
        obtain ⟨_, _, _, _, y, h2, h3⟩ := h
        have a1 := ih _ _ _ h3
        have a2 := ht _ _ _ _ _ h2
        exact ⟨a1.1.trans a2.1, a1.2.trans a2.2⟩
    have hloop : ∀ (links : List ℤ) i a s w, avgLoop e b starts i links a s = .ok w → w.2.tt = s.tt ∧ w.2.cost = s.cost := by
      intro links
      induction links with
      | nil => intro i a s w h; cases h; exact ⟨rfl, rfl⟩
      | cons l links ih =>
        intro i a s w h
        rw [avgLoop] at h
        simp only [Res.bind_eq_ok'] at h
        obtain ⟨_, _, y, h2, h3⟩ := h
        have a1 := ih _ _ _ _ h3
        have a2 := hsum _ _ _ _ _ h2
        exact ⟨a1.1.trans a2.1, a1.2.trans a2.2⟩
    exact hloop _ _ _ _ _ h
  | build => exact absurd rfl ha
  | pathTt b links starts =>
    simp only [answer, pathTt] at h
    split at h
    · rw [Res.bind_eq_ok'] at h
      obtain ⟨a, _, h2⟩ := h
      cases h2
      exact ⟨rfl, rfl⟩
    · cases h
  | regPathTt b starts =>
    refine hg (fun x l s w h => ?_) h
    unfold regOne at h
    simp only [Res.bind_eq_ok'] at h
    obtain ⟨_, _, h3⟩ := h
    cases h3; exact ⟨rfl, rfl⟩

theorem answer_full {σ : ℚ} {e : Env} {ins outs : Bool → ℤ → List (ℕ × ℕ)} {s0 s : State} {q : ℤ → Link} {a : Ask}
    {r : Arr Val × State} (hL : LoadedNet σ e.T ins outs s0 e.ids q) (hs : Sim e.T s0 s) (hf : Full e.T s)
    (h : answer e a s = .ok r) : Full e.T r.2 := by
  by_cases ha : a = .build
  · subst ha
    simp only [answer] at h
    rw [Res.bind_eq_ok'] at h
    obtain ⟨s1, h1, h2⟩ := h
    cases h2
    obtain ⟨s2, h3, h4, _⟩ := build_eq hL hs hf
    rw [h1] at h3
    exact Res.ok.inj h3 ▸ h4
  · obtain ⟨h1, h2⟩ := answer_tables ha h
    unfold Full
    rw [h1, h2]; exact hf

theorem session_full {σ : ℚ} {e : Env} {ins outs : Bool → ℤ → List (ℕ × ℕ)} {s0 : State} {q : ℤ → Link}
    (hL : LoadedNet σ e.T ins outs s0 e.ids q) : ∀ (qs : List Ask) (s s' : State), Sim e.T s0 s → Full e.T s →
    session e qs s = .ok s' → Full e.T s'
  | [], s, s', _, hf, h => by cases h; exact hf
  | a :: qs, s, s', hs, hf, h => by
    rw [session, Res.bind_eq_ok'] at h
    obtain ⟨r, h1, h2⟩ := h
    exact session_full hL qs r.2 s' (hs.trans (answer_keep h1)) (answer_full hL hs hf h1) h2

theorem session_held {σ : ℚ} {e : Env} {ins outs : Bool → ℤ → List (ℕ × ℕ)} {s0 : State} {q : ℤ → Link}
    (hL : LoadedNet σ e.T ins outs s0 e.ids q) : ∀ (qs : List Ask) (s s' : State), Sim e.T s0 s → Full e.T s →
    (∀ l ∈ e.ids, Held e ins outs q s l) ∨ .build ∈ qs → session e qs s = .ok s' →
    ∀ l ∈ e.ids, Held e ins outs q s' l
  | [], s, s', _, _, hh, h => by
    cases h
    exact hh.resolve_right (by simp)
  | a :: qs, s, s', hs, hf, hh, h => by
    rw [session, Res.bind_eq_ok'] at h
    obtain ⟨r, h1, h2⟩ := h
    refine session_held hL qs r.2 s' (hs.trans (answer_keep h1)) (answer_full hL hs hf h1) ?_ h2
    by_cases ha : a = .build
    · subst ha
      left
      simp only [answer] at h1
      rw [Res.bind_eq_ok'] at h1
      obtain ⟨s1, h3, h4⟩ := h1
      cases h4
      obtain ⟨s2, h5, _, h6⟩ := build_eq hL hs hf
      rw [h3] at h5
      exact Res.ok.inj h5 ▸ h6
    · rcases hh with hh | hh
      · left
        obtain ⟨t1, t2⟩ := answer_tables ha h1
        intro l hl b
        rw [t1, t2]; exact hh l hl b
      · right
        rcases List.mem_cons.1 hh with e | e
        · exact absurd e.symm ha
        · exact e

theorem session_append {e : Env} : ∀ (p q : List Ask) (s : State),
    session e (p ++ q) s = (session e p s).bind fun t => session e q t
  | [], q, s => rfl
  | a :: p, q, s => by
    rw [List.cons_append, session, session, bind_assoc']
    congr 1
    funext r
    exact session_append p q r.2

end Verif.MQuery
