import Verif.Spec.Transit
import Mathlib.Logic.Relation
import Mathlib.Tactic

/-!
# Elementary steps of the passengers of a multimodal network

`Micro` lists the elementary changes of the state that loading makes, with what is known when it
makes them.  Every loading is a sequence of such steps (`Verif.Lemmas.TransitSim`), so that an
invariant of the loading is proved for one elementary step at a time.
-/

namespace Verif.Tr
open Ults Curve

/-- What `State.cross` does. -/
structure Crossed (c : Cfg) (ts p : ℕ) (src dst : Option ℕ) (s s' : State) : Prop where
  eq : s' = { s with
    nIn := s'.nIn, nOut := s'.nOut
    pax := upd s.pax p { s.pax p with cur := dst }
    log := s.log ++ [⟨ts, p, src, dst⟩] }
  inSame : ∀ l, dst ≠ some l → s'.nIn l = s.nIn l
  inAdd : ∀ l, dst = some l → addIncrement (s.nIn l) ((ts : ℚ) + 1, 1 / c.scalar) = .ok (s'.nIn l)
  outSame : ∀ l, src ≠ some l → s'.nOut l = s.nOut l
  outAdd : ∀ l, src = some l → addIncrement (s.nOut l) ((ts : ℚ) + 1, 1 / c.scalar) = .ok (s'.nOut l)

theorem noteInOpt_ok {c : Cfg} {ts : ℕ} {d : Option ℕ} {s s' : State}
    (h : s.noteInOpt c ts d = .ok s') :
    s' = { s with nIn := s'.nIn } ∧ (∀ l, d ≠ some l → s'.nIn l = s.nIn l) ∧
    ∀ l, d = some l → addIncrement (s.nIn l) ((ts : ℚ) + 1, 1 / c.scalar) = .ok (s'.nIn l) := by
  cases d with
  | none =>
    simp only [State.noteInOpt, Res.ok.injEq] at h
    subst h
    exact ⟨rfl, fun _ _ => rfl, fun _ e => by simp at e⟩
  | some d =>
    simp only [State.noteInOpt, State.noteIn, Res.bind_eq_ok', Res.ok.injEq] at h
    obtain ⟨k, hk, rfl⟩ := h
    refine ⟨rfl, fun l hl => ?_, fun l hl => ?_⟩
    · exact upd_other _ _ _ _ fun e => hl (by rw [e])
    · simp only [Option.some.injEq] at hl
      subst hl
      simpa using hk

theorem noteOutOpt_ok {c : Cfg} {ts : ℕ} {d : Option ℕ} {s s' : State}
    (h : s.noteOutOpt c ts d = .ok s') :
    s' = { s with nOut := s'.nOut } ∧ (∀ l, d ≠ some l → s'.nOut l = s.nOut l) ∧
    ∀ l, d = some l → addIncrement (s.nOut l) ((ts : ℚ) + 1, 1 / c.scalar) = .ok (s'.nOut l) := by
  cases d with
  | none =>
    simp only [State.noteOutOpt, Res.ok.injEq] at h
    subst h
    exact ⟨rfl, fun _ _ => rfl, fun _ e => by simp at e⟩
  | some d =>
    simp only [State.noteOutOpt, State.noteOut, Res.bind_eq_ok', Res.ok.injEq] at h
    obtain ⟨k, hk, rfl⟩ := h
    refine ⟨rfl, fun l hl => ?_, fun l hl => ?_⟩
    · exact upd_other _ _ _ _ fun e => hl (by rw [e])
    · simp only [Option.some.injEq] at hl
      subst hl
      simpa using hk

theorem cross_ok {c : Cfg} {ts p : ℕ} {src dst : Option ℕ} {check : State → Res Unit} {s s' : State}
    (h : s.cross c ts p src dst check = .ok s') : Crossed c ts p src dst s s' := by
  simp only [State.cross, Res.bind_eq_ok', Res.ok.injEq] at h
  obtain ⟨a, ha, _, _, b, hb, rfl⟩ := h
  obtain ⟨ea, a1, a2⟩ := noteOutOpt_ok ha
  obtain ⟨eb, b1, b2⟩ := noteInOpt_ok hb
  rw [eb, ea]
  rw [ea] at b1 b2
  exact ⟨rfl, b1, b2, a1, a2⟩

/-- The moves of a passenger between containers that are recorded, with the link left and the link
entered. -/
inductive Legal (c : Cfg) (strict : Prop) (s : State) (p : ℕ) :
    Place → Place → Option ℕ → Option ℕ → Prop where
  | origin (o l : ℕ) (next : (s.pax p).next = some l) :
      Legal c strict s p (.origin o) (.incoming l) none (some l)
  | lot (k l : ℕ) (next : (s.pax p).next = some l) :
      Legal c strict s p (.lot k) (.incoming l) none (some l)
  | walk (l n : ℕ) (next : (s.pax p).next = some n)
      (ne : strict → (s.pax p).adaptive = false → n ≠ l) :
      Legal c strict s p (.finished l) (.incoming n) (some l) (some n)
  | pass (l n : ℕ) (next : (s.pax p).next = some n) (ne : n ≠ l)
      (walk : (c.link n).kind.walking = true)
      (door : (c.link n).kind = .boarding ∨ ((c.link l).kind ≠ .normal ∧ (c.link l).kind ≠ .alighting)) :
      Legal c strict s p (.finished l) (.finished n) (some l) (some n)
  | arrive (l d : ℕ) (known : d ∈ c.destIds) (door : l ∈ (c.dest d).walkIn) (next : (s.pax p).next = none) :
      Legal c strict s p (.finished l) (.dest d) (some l) none
  | board (w b v n : ℕ) (next : (s.pax p).next = some n) (ne : n ≠ w)
      (kind : (c.link n).kind = .bus (c.busRoute b)) (board : (c.vstop v).boarding = some w)
      (out : (c.vstop v).busOut = some n) (at_ : b ∈ s.busQ v)
      (cap : ((s.loc (.bus b)).length : ℤ) < trunc (c.busCap * c.scalar)) :
      Legal c strict s p (.finished w) (.bus b) (some w) (some n)
  | alight (b v i n : ℕ) (next : (s.pax p).next = some n) (walk : (c.link n).kind.walking = true)
      (alight : (c.vstop v).alighting = some n) (in_ : (c.vstop v).busIn = some i)
      (at_ : b ∈ s.busQ v) :
      Legal c strict s p (.bus b) (.finished n) (some i) (some n)

/-- The queue of a place where passengers start. -/
def Place.starts : Place → Prop
  | .origin _ => True
  | .lot _ => True
  | _ => False

/-- The parts of an interval: passengers reach destinations only in the first part, the ends of bus
links only in the second, buses come and go only in the third, cars park only in the fourth; `any` stands for the whole interval.
`still` is the beginning of the first part, in which nobody walks. -/
inductive Phase where
  | still
  | early
  | late
  | bus
  | recv
  | final
  | any
deriving DecidableEq

/-- Passengers walk in this part of the interval. -/
def Phase.walks : Phase → Bool
  | .early => true
  | .any => true
  | _ => false

/-- Destinations and physical bus stops let passengers pass in this part of the interval. -/
def Phase.stops : Phase → Bool
  | .still => true
  | .early => true
  | .any => true
  | _ => false

/-- The elementary steps.  `R` gives the paths; with `strict`, passengers on fixed
routes do not move from a link to itself; the phase restricts what happens when. -/
inductive Micro (c : Cfg) (R : Routes) (strict : Prop) (ts : ℕ) :
    Phase → State → State → Prop where
  | release {ph s} (o : ℕ) (ad : Bool) (junk : ℚ) (d : ℕ) (assign : ℤ) :
      Micro c R strict ts ph s
        { s.makePax ts ad false junk o d none assign with
          loc := upd s.loc (.origin o) (s.loc (.origin o) ++ [s.num + 1]) }
  | park {ph s} (orc : Orc) (k : ℕ) (car : CarIn) (phase : ph = .recv ∨ ph = .any) :
      Micro c R strict ts ph s (parkCar orc ts k s car)
  | lotRec {ph s} (k : ℕ) (phase : ph = .recv ∨ ph = .any) : Micro c R strict ts ph s (lotRecord c ts k s)
  | path {ph s} (p q : ℕ) (ad : (s.pax p).adaptive = true) (o : ℕ) (mem : p ∈ s.loc (.origin o)) :
      Micro c R strict ts ph s { s with pax := upd s.pax p { s.pax p with path := some q } }
  | enroll {ph s} (p : ℕ) (a : Place) (q l : ℕ) (rest : List ℕ) (mem : p ∈ s.loc a)
      (start : a.starts) (fixed : (s.pax p).adaptive = false) (new : s.tracker p = none)
      (known : l ∈ c.linkIds) (chosen : Chosen c R (s.pax p) q) (path : R.links q = l :: rest) :
      Micro c R strict ts ph s { s with
        pax := upd s.pax p { s.pax p with path := some q, next := some l }
        tracker := upd s.tracker p (some rest) }
  | startNext {ph s} (p : ℕ) (a : Place) (l : ℕ) (mem : p ∈ s.loc a) (start : a.starts)
      (ad : (s.pax p).adaptive = true) :
      Micro c R strict ts ph s (s.setNext p (some l))
  | linkNext {ph s} (p l : ℕ) (n : Option ℕ) (mem : p ∈ s.loc (.finished l))
      (ad : (s.pax p).adaptive = true) :
      Micro c R strict ts ph s (s.setNext p n)
  | busNext {ph s} (p b v i n : ℕ) (mem : p ∈ s.loc (.bus b)) (ad : (s.pax p).adaptive = true)
      (at_ : b ∈ s.busQ v) (in_ : (c.vstop v).busIn = some i) (cur : (s.pax p).cur = some i) :
      Micro c R strict ts ph s (s.setNext p (some n))
  | fixNext {ph s} (p l a n : ℕ) (rest : List ℕ) (mem : p ∈ s.loc (.finished l))
      (fixed : (s.pax p).adaptive = false) (cur : (s.pax p).cur = some a)
      (next : (s.pax p).next = some a) (track : s.tracker p = some (n :: rest))
      (node : (c.dest (s.pax p).dest).node ≠ (c.link l).toNode) :
      Micro c R strict ts ph s
        { s.setNext p (some n) with tracker := upd s.tracker p (some rest) }
  | fixEnd {ph s} (p l : ℕ) (mem : p ∈ s.loc (.finished l))
      (fixed : (s.pax p).adaptive = false) (track : s.tracker p = some [])
      (node : (c.dest (s.pax p).dest).node = (c.link l).toNode) :
      Micro c R strict ts ph s (s.setNext p none)
  | fixBus {ph s} (p b v i n : ℕ) (rest : List ℕ) (mem : p ∈ s.loc (.bus b))
      (fixed : (s.pax p).adaptive = false) (at_ : b ∈ s.busQ v)
      (in_ : (c.vstop v).busIn = some i) (cur : (s.pax p).cur = some i)
      (next : (s.pax p).next = some i) (track : s.tracker p = some (n :: rest)) :
      Micro c R strict ts ph s
        { s.setNext p (some n) with tracker := upd s.tracker p (some rest) }
  | wait {ph s} (p : ℕ) (w : ℚ) (less : w ≤ 0 ∨ w ≤ (s.pax p).wait) : Micro c R strict ts ph s (s.setWait p w)
  | enterLink {ph s} (p l : ℕ) (mem : p ∈ s.loc (.incoming l)) (calm : (s.pax p).wait ≤ 0)
      (who : ph.walks = true ∨ (c.link l).kind ≠ .normal) :
      Micro c R strict ts ph s { s.shift p (.incoming l) (.walking l) with
        stamp := upd s.stamp l (upd (s.stamp l) p 0) }
  | stamp {ph s} (p l : ℕ) (mem : p ∈ s.loc (.walking l))
      (who : ph.walks = true ∨ (c.link l).kind ≠ .normal) :
      Micro c R strict ts ph s
        { s with stamp := upd s.stamp l (upd (s.stamp l) p (s.stamp l p + 1)) }
  | finishLink {ph s} (p l : ℕ) (mem : p ∈ s.loc (.walking l))
      (kind : ph = .late ∨ ph = .any ∨ (c.link l).kind.walking = true)
      (who : ph.walks = true ∨ (c.link l).kind ≠ .normal) :
      Micro c R strict ts ph s (s.shift p (.walking l) (.finished l))
  | move {ph s} (p : ℕ) (a b : Place) (src dst : Option ℕ) (s' : State) (mem : p ∈ s.loc a)
      (phase : (∃ d, b = .dest d) → ph.stops = true)
      (who : ph.stops = true ∨ ∀ l, (c.link l).kind = .normal → src ≠ some l ∧ (b = .incoming l → src = none))
      (legal : Legal c strict s p a b src dst) (cross : Crossed c ts p src dst (s.shift p a b) s') :
      Micro c R strict ts ph s s'
  | ride {ph s} (p b v i o : ℕ) (s' : State) (mem : p ∈ s.loc (.bus b)) (at_ : b ∈ s.busQ v)
      (in_ : (c.vstop v).busIn = some i) (out : (c.vstop v).busOut = some o)
      (next : (s.pax p).next = some o) (cur : (s.pax p).cur ≠ some o)
      (cross : Crossed c ts p (some i) (some o) s s') :
      Micro c R strict ts ph s s'
  | shuffle {ph s} (a : Place) (L : List ℕ) (perm : L.Perm (s.loc a)) :
      Micro c R strict ts ph s { s with loc := upd s.loc a L }
  | busIn {ph s} (phase : ph = .bus ∨ ph = .any) (v b : ℕ) (k : Curve) (known : v ∈ c.vstopIds)
      (route : (c.vstop v).route = c.busRoute b) (free : ∀ v', b ∉ s.busQ v')
      (add : addIncrement (s.bIn v) ((ts : ℚ) + 1, 1 / c.scalar) = .ok k) :
      Micro c R strict ts ph s
        { s with bIn := upd s.bIn v k, busQ := upd s.busQ v (s.busQ v ++ [b]) }
  | busOut {ph s} (phase : ph = .bus ∨ ph = .any) (v b : ℕ) (k : Curve) (at_ : b ∈ s.busQ v)
      (done : ∀ p ∈ s.loc (.bus b), (s.pax p).cur = (s.pax p).next)
      (add : addIncrement (s.bOut v) ((ts : ℚ) + 1, 1 / c.scalar) = .ok k) :
      Micro c R strict ts ph s
        { s with bOut := upd s.bOut v k, busQ := upd s.busQ v ((s.busQ v).erase b) }
  | book {ph s} (phase : ph = .bus ∨ ph = .any) (f g : ℕ → ℤ) : Micro c R strict ts ph s { s with counter := f, stopped := g }
  | leave {ph s} (p d : ℕ) (s' : State) (mem : p ∈ s.loc (.dest d))
      (h : receivePax c ts d s p = .ok s') : Micro c R strict ts ph s s'
  | record {ph s} (q : List ℕ) (e : List ℤ) (keep : ph ≠ .final → ph ≠ .any → e = s.enrouteNum)
      (keepQ : ph ≠ .late → ph ≠ .any → q = s.queueNum) :
      Micro c R strict ts ph s { s with queueNum := q, enrouteNum := e }

/-- Sequences of elementary steps. -/
def Steps (c : Cfg) (R : Routes) (strict : Prop) (ts : ℕ) (ph : Phase) :
    State → State → Prop :=
  Relation.ReflTransGen (Micro c R strict ts ph)

theorem Micro.mono {c : Cfg} {R : Routes} {strict : Prop} {ts : ℕ} {ph : Phase}
    {s s' : State} (h : Micro c R strict ts ph s s') : Micro c R strict ts .any s s' := by
  cases h with
  | release o ad junk d assign => exact .release o ad junk d assign
  | park orc k car _ => exact .park orc k car (.inr rfl)
  | lotRec k _ => exact .lotRec k (.inr rfl)
  | path p q ad o mem => exact .path p q ad o mem
  | enroll p a q l rest mem start fixed new known chosen path =>
    exact .enroll p a q l rest mem start fixed new known chosen path
  | startNext p a l mem start ad => exact .startNext p a l mem start ad
  | linkNext p l n mem ad => exact .linkNext p l n mem ad
  | busNext p b v i n mem ad at_ in_ cur => exact .busNext p b v i n mem ad at_ in_ cur
  | fixNext p l a n rest mem fixed cur next track node =>
    exact .fixNext p l a n rest mem fixed cur next track node
  | fixEnd p l mem fixed track node => exact .fixEnd p l mem fixed track node
  | fixBus p b v i n rest mem fixed at_ in_ cur next track =>
    exact .fixBus p b v i n rest mem fixed at_ in_ cur next track
  | wait p w less => exact .wait p w less
  | enterLink p l mem calm _ => exact .enterLink p l mem calm (.inl rfl)
  | stamp p l mem _ => exact .stamp p l mem (.inl rfl)
  | finishLink p l mem _ _ => exact .finishLink p l mem (.inr (.inl rfl)) (.inl rfl)
  | move p a b src dst s' mem phase _ legal cross => exact .move p a b src dst s' mem (fun _ => rfl) (.inl rfl) legal cross
  | ride p b v i o s' mem at_ in_ out next cur cross =>
    exact .ride p b v i o s' mem at_ in_ out next cur cross
  | shuffle a L perm => exact .shuffle a L perm
  | busIn _ v b k known route free add => exact .busIn (.inr rfl) v b k known route free add
  | busOut _ v b k at_ done add => exact .busOut (.inr rfl) v b k at_ done add
  | book _ f g => exact .book (.inr rfl) f g
  | leave p d s' mem h => exact .leave p d s' mem h
  | record q e _ _ => exact .record q e (fun _ h => absurd rfl h) fun _ h => absurd rfl h

theorem Steps.mono {c : Cfg} {R : Routes} {strict : Prop} {ts : ℕ} {ph : Phase}
    {s s' : State} (h : Steps c R strict ts ph s s') : Steps c R strict ts .any s s' := by
  induction h with
  | refl => exact .refl
  | tail _ st ih => exact .tail ih st.mono

/-- An invariant of one step is an invariant of sequences of steps. -/
theorem Steps.inv {c : Cfg} {R : Routes} {strict : Prop} {ts : ℕ} {ph : Phase}
    {P : State → Prop} (hP : ∀ s s', P s → Micro c R strict ts ph s s' → P s') {s s' : State}
    (h : Steps c R strict ts ph s s') (hs : P s) : P s' := by
  induction h with
  | refl => exact hs
  | tail _ st ih => exact hP _ _ ih st

/-! ### Everybody is somewhere -/

/-- Every passenger made is in exactly one container, once. -/
structure Placed (s : State) : Prop where
  nodup : ∀ a, (s.loc a).Nodup
  mem : ∀ p, (∃ a, p ∈ s.loc a) ↔ 1 ≤ p ∧ p ≤ s.num
  uniq : ∀ a b p, p ∈ s.loc a → p ∈ s.loc b → a = b

theorem Placed.of_eq {s s' : State} (h : Placed s) (hl : s'.loc = s.loc) (hn : s'.num = s.num) :
    Placed s' :=
  ⟨by rw [hl]; exact h.nodup, by rw [hl, hn]; exact h.mem, by rw [hl]; exact h.uniq⟩

theorem shift_loc (s : State) (p : ℕ) {a b : Place} (hab : a ≠ b) (x : Place) :
    (s.shift p a b).loc x =
      if x = b then s.loc b ++ [p] else if x = a then (s.loc a).erase p else s.loc x := by
  simp only [State.shift]
  by_cases h1 : x = b
  · subst h1
    simp [upd, Ne.symm hab]
  · rw [upd_other _ _ _ _ h1, if_neg h1]
    by_cases h2 : x = a
    · subst h2; simp
    · rw [upd_other _ _ _ _ h2, if_neg h2]

theorem Placed.shift_mem {s : State} (h : Placed s) {p : ℕ} {a b : Place} (hab : a ≠ b)
    (hp : p ∈ s.loc a) (q : ℕ) (x : Place) :
    q ∈ (s.shift p a b).loc x ↔ (q = p ∧ x = b) ∨ (q ≠ p ∧ q ∈ s.loc x) := by
  rw [shift_loc s p hab]
  by_cases hq : q = p
  · subst hq
    by_cases h1 : x = b
    · subst h1; simp
    · rw [if_neg h1]
      by_cases h2 : x = a
      · subst h2; simp [(h.nodup _).mem_erase_iff, h1]
      · rw [if_neg h2]
        simp only [h1, and_false, ne_eq, not_true_eq_false, false_and, or_self, iff_false]
        exact fun hx => h2 (h.uniq _ _ _ hx hp)
  · by_cases h1 : x = b
    · subst h1; simp [hq]
    · rw [if_neg h1]
      by_cases h2 : x = a
      · subst h2; simp [(h.nodup _).mem_erase_iff, hq]
      · rw [if_neg h2]; simp [hq]

theorem Placed.shift {s : State} (h : Placed s) {p : ℕ} {a b : Place} (hab : a ≠ b)
    (hp : p ∈ s.loc a) : Placed (s.shift p a b) := by
  have hm := h.shift_mem hab hp
  refine ⟨fun x => ?_, fun q => ?_, fun x y q hx hy => ?_⟩
  · rw [shift_loc s p hab]
    split
    · have hb : p ∉ s.loc b := fun hx => hab (h.uniq _ _ _ hp hx)
      rw [List.nodup_append]
      refine ⟨h.nodup b, by simp, fun x hx y hy e => ?_⟩
      simp only [List.mem_singleton] at hy
      exact hb (hy ▸ e ▸ hx)
    · split
      · exact (h.nodup a).erase p
      · exact h.nodup x
  · rw [show (s.shift p a b).num = s.num from rfl, ← h.mem]
    constructor
    · rintro ⟨x, hx⟩
      rcases (hm q x).1 hx with ⟨rfl, _⟩ | ⟨_, hx⟩
      · exact ⟨a, hp⟩
      · exact ⟨x, hx⟩
    · rintro ⟨x, hx⟩
      by_cases hq : q = p
      · exact ⟨b, (hm q b).2 (.inl ⟨hq, rfl⟩)⟩
      · exact ⟨x, (hm q x).2 (.inr ⟨hq, hx⟩)⟩
  · rcases (hm q x).1 hx with ⟨e, rfl⟩ | ⟨n, hx⟩ <;> rcases (hm q y).1 hy with ⟨e', rfl⟩ | ⟨n', hy⟩
    · rfl
    · exact absurd e n'
    · exact absurd e' n
    · exact h.uniq _ _ _ hx hy

/-- A new passenger. -/
theorem Placed.add {s s' : State} (h : Placed s) (a : Place) (hn : s'.num = s.num + 1)
    (hl : s'.loc = upd s.loc a (s.loc a ++ [s.num + 1])) : Placed s' := by
  have hnew : ∀ x, s.num + 1 ∉ s.loc x := fun x hx => by
    have := (h.mem (s.num + 1)).1 ⟨x, hx⟩
    omega
  have hm : ∀ q x, q ∈ s'.loc x ↔ (q = s.num + 1 ∧ x = a) ∨ q ∈ s.loc x := by
    intro q x
    rw [hl]
    by_cases hx : x = a
    · subst hx; simp [or_comm]
    · rw [upd_other _ _ _ _ hx]; simp [hx]
  refine ⟨fun x => ?_, fun q => ?_, fun x y q hx hy => ?_⟩
  · rw [hl]
    by_cases hx : x = a
    · subst hx
      rw [upd_same, List.nodup_append]
      refine ⟨h.nodup x, by simp, fun y hy z hz e => ?_⟩
      simp only [List.mem_singleton] at hz
      exact hnew x (hz ▸ e ▸ hy)
    · rw [upd_other _ _ _ _ hx]; exact h.nodup x
  · rw [hn]
    constructor
    · rintro ⟨x, hx⟩
      rcases (hm q x).1 hx with ⟨rfl, _⟩ | hx
      · omega
      · have := (h.mem q).1 ⟨x, hx⟩; omega
    · intro hq
      by_cases e : q = s.num + 1
      · exact ⟨a, (hm q a).2 (.inl ⟨e, rfl⟩)⟩
      · obtain ⟨x, hx⟩ := (h.mem q).2 (by omega)
        exact ⟨x, (hm q x).2 (.inr hx)⟩
  · rcases (hm q x).1 hx with ⟨e, rfl⟩ | hx <;> rcases (hm q y).1 hy with ⟨e', rfl⟩ | hy
    · rfl
    · exact absurd (e ▸ hy) (hnew _)
    · exact absurd (e' ▸ hx) (hnew _)
    · exact h.uniq _ _ _ hx hy

theorem Legal.ne {c : Cfg} {strict : Prop} {s : State} {p : ℕ} {a b : Place} {src dst : Option ℕ}
    (h : Legal c strict s p a b src dst) : a ≠ b := by
  cases h <;> simp
  all_goals (rename_i h _ _; exact fun e => h e.symm)

/-- What `receivePax` does. -/
theorem receivePax_ok {c : Cfg} {ts d : ℕ} {s s' : State} {p : ℕ}
    (h : receivePax c ts d s p = .ok s') :
    (c.dest (s.pax p).dest).node = (c.dest d).node ∧ p ∈ s.map ∧
    s' = { s.shift p (.dest d) .gone with
      pax := upd s.pax p { s.pax p with finish := ts }
      tracker := upd s.tracker p none
      map := s.map.erase p
      total := s.total + (((ts : ℤ) - (s.pax p).start : ℤ) : ℚ)
      finished := s.finished + 1
      enroute := s.enroute - 1
      finishedPnr := if (s.pax p).pnr then s.finishedPnr + 1 else s.finishedPnr
      enroutePnr := if (s.pax p).pnr then s.enroutePnr - 1 else s.enroutePnr } := by
  unfold receivePax at h
  split at h
  · simp at h
  · rename_i hd
    simp only [ne_eq, not_not] at hd
    simp only [State.removePax, State.shift] at h
    by_cases hm : p ∈ s.map
    · simp only [hm, if_true, Res.ok.injEq, upd_same] at h
      exact ⟨hd, hm, h ▸ rfl⟩
    · simp [hm] at h

theorem parkCar_num (orc : Orc) (ts k : ℕ) (s : State) (car : CarIn) :
    (car.pnr = false ∧ parkCar orc ts k s car = { s with parked := upd s.parked k (s.parked k + 1) }) ∨
    (car.pnr = true ∧ (parkCar orc ts k s car).num = s.num + 1 ∧
      (parkCar orc ts k s car).loc = upd s.loc (.lot k) (s.loc (.lot k) ++ [s.num + 1])) := by
  unfold parkCar
  cases h : car.pnr <;> simp [State.makePax]

theorem Placed.micro {c : Cfg} {R : Routes} {strict : Prop} {ts : ℕ} {ph : Phase}
    {s s' : State} (h : Placed s) (m : Micro c R strict ts ph s s') : Placed s' := by
  cases m with
  | release o ad junk d assign => exact h.add (.origin o) rfl rfl
  | park orc k car _ =>
    rcases parkCar_num orc ts k s car with ⟨_, e⟩ | ⟨_, e1, e2⟩
    · rw [e]; exact h.of_eq rfl rfl
    · exact h.add _ e1 e2
  | lotRec k _ => exact h.of_eq rfl rfl
  | path p q ad => exact h.of_eq rfl rfl
  | enroll p a q l rest mem start fixed new known chosen path => exact h.of_eq rfl rfl
  | startNext p a l mem start ad => exact h.of_eq rfl rfl
  | linkNext p l n mem ad => exact h.of_eq rfl rfl
  | busNext p b v i n mem ad at_ in_ cur => exact h.of_eq rfl rfl
  | fixNext p l a n rest mem fixed cur next track node => exact h.of_eq rfl rfl
  | fixEnd p l mem fixed track node => exact h.of_eq rfl rfl
  | fixBus p b v i n rest mem fixed at_ in_ cur next track => exact h.of_eq rfl rfl
  | wait p w _ => exact h.of_eq rfl rfl
  | enterLink p l mem _ _ => exact (h.shift (a := .incoming l) (b := .walking l) (by simp) mem).of_eq rfl rfl
  | stamp p l mem _ => exact h.of_eq rfl rfl
  | finishLink p l mem _ _ => exact h.shift (by simp) mem
  | move p a b src dst s' mem phase _ legal cross =>
    rw [cross.eq]
    exact (h.shift legal.ne mem).of_eq rfl rfl
  | ride p b v i o s' mem at_ in_ out next cur cross =>
    rw [cross.eq]
    exact h.of_eq rfl rfl
  | shuffle a L perm =>
    have hm : ∀ q x, q ∈ upd s.loc a L x ↔ q ∈ s.loc x := by
      intro q x
      by_cases hx : x = a
      · subst hx; simp [perm.mem_iff]
      · rw [upd_other _ _ _ _ hx]
    refine ⟨fun x => ?_, fun q => ?_, fun x y q hx hy => ?_⟩
    · by_cases hx : x = a
      · subst hx
        simp only [upd_same]
        exact perm.nodup_iff.2 (h.nodup x)
      · simp only [upd_other _ _ _ _ hx]
        exact h.nodup x
    · simp only [hm]; exact h.mem q
    · exact h.uniq x y q ((hm q x).1 hx) ((hm q y).1 hy)
  | busIn _ v b k known route free add => exact h.of_eq rfl rfl
  | busOut _ v b k at_ done add => exact h.of_eq rfl rfl
  | book _ f g => exact h.of_eq rfl rfl
  | leave p d s' mem hr =>
    obtain ⟨_, _, rfl⟩ := receivePax_ok hr
    exact (h.shift (by simp) mem).of_eq rfl rfl
  | record q e _ _ => exact h.of_eq rfl rfl

/-! ### Buses at stops -/

/-- A bus is at one stop of the network at most. -/
structure AtStops (c : Cfg) (s : State) : Prop where
  known : ∀ v b, b ∈ s.busQ v → v ∈ c.vstopIds
  uniq : ∀ v v' b, b ∈ s.busQ v → b ∈ s.busQ v' → v = v'
  nodup : ∀ v, (s.busQ v).Nodup

theorem AtStops.of_eq {c : Cfg} {s s' : State} (h : AtStops c s) (hl : s'.busQ = s.busQ) :
    AtStops c s' :=
  ⟨by rw [hl]; exact h.known, by rw [hl]; exact h.uniq, by rw [hl]; exact h.nodup⟩

theorem parkCar_busQ (orc : Orc) (ts k : ℕ) (s : State) (car : CarIn) :
    (parkCar orc ts k s car).busQ = s.busQ := by
  unfold parkCar
  cases h : car.pnr <;> simp [State.makePax]

theorem AtStops.micro {c : Cfg} {R : Routes} {strict : Prop} {ts : ℕ} {ph : Phase}
    {s s' : State} (h : AtStops c s) (m : Micro c R strict ts ph s s') : AtStops c s' := by
  cases m with
  | release o ad junk d assign => exact h.of_eq rfl
  | park orc k car _ => exact h.of_eq (parkCar_busQ orc ts k s car)
  | lotRec k _ => exact h.of_eq rfl
  | path p q ad => exact h.of_eq rfl
  | enroll p a q l rest mem start fixed new known chosen path => exact h.of_eq rfl
  | startNext p a l mem start ad => exact h.of_eq rfl
  | linkNext p l n mem ad => exact h.of_eq rfl
  | busNext p b v i n mem ad at_ in_ cur => exact h.of_eq rfl
  | fixNext p l a n rest mem fixed cur next track node => exact h.of_eq rfl
  | fixEnd p l mem fixed track node => exact h.of_eq rfl
  | fixBus p b v i n rest mem fixed at_ in_ cur next track => exact h.of_eq rfl
  | wait p w _ => exact h.of_eq rfl
  | enterLink p l mem _ _ => exact h.of_eq rfl
  | stamp p l mem _ => exact h.of_eq rfl
  | finishLink p l mem _ _ => exact h.of_eq rfl
  | move p a b src dst s' mem phase _ legal cross => rw [cross.eq]; exact h.of_eq rfl
  | ride p b v i o s' mem at_ in_ out next cur cross => rw [cross.eq]; exact h.of_eq rfl
  | shuffle a L perm => exact h.of_eq rfl
  | busIn _ v b k known route free add =>
    have hm : ∀ x w, x ∈ upd s.busQ v (s.busQ v ++ [b]) w ↔ (x = b ∧ w = v) ∨ x ∈ s.busQ w := by
      intro x w
      by_cases hw : w = v
      · subst hw; simp [or_comm]
      · rw [upd_other _ _ _ _ hw]; simp [hw]
    refine ⟨fun w x hx => ?_, fun w w' x hx hy => ?_, fun w => ?_⟩
    · rcases (hm x w).1 hx with ⟨_, rfl⟩ | hx
      · exact known
      · exact h.known w x hx
    · rcases (hm x w).1 hx with ⟨e, e1⟩ | h1 <;> rcases (hm x w').1 hy with ⟨e', e2⟩ | h2
      · rw [e1, e2]
      · rw [e] at h2; exact absurd h2 (free _)
      · rw [e'] at h1; exact absurd h1 (free _)
      · exact h.uniq _ _ _ h1 h2
    · by_cases hw : w = v
      · subst hw
        simp only [upd_same]
        rw [List.nodup_append]
        refine ⟨h.nodup w, by simp, fun y hy z hz e => ?_⟩
        simp only [List.mem_singleton] at hz
        exact free w (hz ▸ e ▸ hy)
      · simp only [upd_other _ _ _ _ hw]; exact h.nodup w
  | busOut _ v b k at_ done add =>
    have hm : ∀ x w, x ∈ upd s.busQ v ((s.busQ v).erase b) w → x ∈ s.busQ w := by
      intro x w hx
      by_cases hw : w = v
      · subst hw; simp only [upd_same] at hx; exact List.mem_of_mem_erase hx
      · rwa [upd_other _ _ _ _ hw] at hx
    refine ⟨fun w x hx => h.known w x (hm x w hx),
      fun w w' x hx hy => h.uniq w w' x (hm x w hx) (hm x w' hy), fun w => ?_⟩
    by_cases hw : w = v
    · subst hw; simp only [upd_same]; exact (h.nodup w).erase b
    · simp only [upd_other _ _ _ _ hw]; exact h.nodup w
  | book _ f g => exact h.of_eq rfl
  | leave p d s' mem hr =>
    obtain ⟨_, _, rfl⟩ := receivePax_ok hr
    exact h.of_eq rfl
  | record q e _ _ => exact h.of_eq rfl

end Verif.Tr
