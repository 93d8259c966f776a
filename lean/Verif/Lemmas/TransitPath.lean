import Verif.Lemmas.Transit

/-!
# Where passengers are, and the routes they follow: invariants of elementary steps
-/

namespace Verif.Tr
open Ults Curve

/-- The current link of a passenger in a container. -/
def Where (c : Cfg) (s : State) (p : ℕ) : Place → Prop
  | .origin _ => (s.pax p).cur = none
  | .lot _ => (s.pax p).cur = none
  | .incoming l => (s.pax p).cur = some l
  | .walking l => (s.pax p).cur = some l
  | .finished l => (s.pax p).cur = some l
  | .bus b => ∃ i, (s.pax p).cur = some i ∧ (c.link i).kind.walking = false ∧
      ((s.pax p).next = some i ∨ ∃ v, b ∈ s.busQ v ∧ (c.vstop v).busIn = some i)
  | .dest _ => (s.pax p).cur = none
  | .gone => (s.pax p).cur = none

/-- Every passenger's current link is the one of its container. -/
def Located (c : Cfg) (s : State) : Prop := ∀ a p, p ∈ s.loc a → Where c s p a

theorem Where.congr {c : Cfg} {s s' : State} {p : ℕ} {a : Place} (h : Where c s p a)
    (hb : ∀ v b, b ∈ s.busQ v → b ∈ s'.busQ v) (hc : (s'.pax p).cur = (s.pax p).cur)
    (hn : (s'.pax p).next = (s.pax p).next) : Where c s' p a := by
  cases a <;> simp only [Where] at h ⊢ <;> rw [hc] <;> try exact h
  obtain ⟨i, h1, h2, h3⟩ := h
  rw [hn]
  refine ⟨i, h1, h2, ?_⟩
  rcases h3 with h3 | ⟨v, h3, h4⟩
  · exact .inl h3
  · exact .inr ⟨v, hb v _ h3, h4⟩

theorem Located.frame {c : Cfg} {s s' : State} (h : Located c s)
    (hb : ∀ v b, b ∈ s.busQ v → b ∈ s'.busQ v)
    (hk : ∀ a q, q ∈ s'.loc a → Where c s' q a ∨
      (q ∈ s.loc a ∧ (s'.pax q).cur = (s.pax q).cur ∧ (s'.pax q).next = (s.pax q).next)) :
    Located c s' := by
  intro a q hq
  rcases hk a q hq with h1 | ⟨h1, h2, h3⟩
  · exact h1
  · exact (h a q h1).congr hb h2 h3

/-- Steps that leave containers, stops and the links of passengers alone. -/
theorem Located.same {c : Cfg} {s s' : State} (h : Located c s) (hb : s'.busQ = s.busQ)
    (hl : s'.loc = s.loc) (hc : ∀ q, (s'.pax q).cur = (s.pax q).cur)
    (hn : ∀ q, (s'.pax q).next = (s.pax q).next) : Located c s' :=
  h.frame (by rw [hb]; exact fun _ _ x => x) fun a q hq => .inr ⟨hl ▸ hq, hc q, hn q⟩

theorem upd_field {κ v w : Type} [DecidableEq κ] (f : κ → v) (g : v → w) (k : κ) (x : v)
    (h : g x = g (f k)) (q : κ) : g (upd f k x q) = g (f q) := by
  by_cases e : q = k
  · subst e; rw [upd_same, h]
  · rw [upd_other _ _ _ _ e]

theorem Crossed.field {c : Cfg} {ts p : ℕ} {src dst : Option ℕ} {s s' : State}
    (h : Crossed c ts p src dst s s') {α : Type} (g : Pax → α)
    (hg : g { s.pax p with cur := dst } = g (s.pax p)) (q : ℕ) : g (s'.pax q) = g (s.pax q) := by
  rw [h.eq]
  exact upd_field s.pax g p _ hg q

/-- Steps that set the next link of a passenger that is in a container other than a bus. -/
theorem Located.next {c : Cfg} {s s' : State} (h : Located c s) (hp : Placed s) (hb : s'.busQ = s.busQ)
    (hl : s'.loc = s.loc) {p : ℕ} {a : Place} (hm : p ∈ s.loc a) (ha : ∀ b, a ≠ .bus b)
    (hc : ∀ q, (s'.pax q).cur = (s.pax q).cur)
    (hn : ∀ q, q ≠ p → (s'.pax q).next = (s.pax q).next) : Located c s' := by
  refine h.frame (by rw [hb]; exact fun _ _ x => x) fun x q hq => ?_
  rw [hl] at hq
  by_cases e : q = p
  · subst e
    left
    have := hp.uniq _ _ _ hq hm
    subst this
    have hw := h x q hq
    cases x <;> simp only [Where] at hw ⊢ <;> first | (rw [hc]; exact hw) | exact absurd rfl (ha _)
  · exact .inr ⟨hq, hc q, hn q e⟩

/-- Steps that move a passenger without a record. -/
theorem Located.moved {c : Cfg} {s s' : State} (h : Located c s) (hp : Placed s) (hb : s'.busQ = s.busQ)
    {p : ℕ} {a b : Place} (hab : a ≠ b) (hm : p ∈ s.loc a) (hl : s'.loc = (s.shift p a b).loc)
    (hc : ∀ q, (s'.pax q).cur = (s.pax q).cur) (hn : ∀ q, (s'.pax q).next = (s.pax q).next)
    (hw : Where c s p a → Where c s' p b) : Located c s' := by
  refine h.frame (by rw [hb]; exact fun _ _ x => x) fun x q hq => ?_
  rw [hl] at hq
  rcases (hp.shift_mem hab hm q x).1 hq with ⟨rfl, rfl⟩ | ⟨_, hq⟩
  · exact .inl (hw (h a q hm))
  · exact .inr ⟨hq, hc q, hn q⟩

theorem parkCar_pax (orc : Orc) (ts k : ℕ) (s : State) (car : CarIn) {q : ℕ} (hq : q ≠ s.num + 1) :
    (parkCar orc ts k s car).pax q = s.pax q := by
  unfold parkCar
  cases h : car.pnr
  · simp
  · simp [State.makePax, upd_other _ _ _ _ hq]

theorem Located.micro {c : Cfg} (hc : c.Wf) {R : Routes} {strict : Prop} {ts : ℕ} {ph : Phase}
    {s s' : State} (h : Located c s) (hp : Placed s) (hs : AtStops c s)
    (m : Micro c R strict ts ph s s') : Located c s' := by
  have hnew : ∀ a, s.num + 1 ∉ s.loc a := fun a ha => by
    have := (hp.mem _).1 ⟨a, ha⟩
    omega
  cases m with
  | release o ad junk d assign =>
    refine h.frame (fun _ _ x => x) fun a q hq => ?_
    by_cases e : q = s.num + 1
    · subst e
      by_cases e' : a = .origin o
      · subst e'; left; simp [Where, State.makePax]
      · simp only [upd_other _ _ _ _ e'] at hq
        exact absurd hq (hnew a)
    · right
      refine ⟨?_, by simp [State.makePax, upd_other _ _ _ _ e], by simp [State.makePax, upd_other _ _ _ _ e]⟩
      by_cases e' : a = .origin o
      · subst e'; simpa [e] using hq
      · simpa only [upd_other _ _ _ _ e'] using hq
  | park orc k car _ =>
    rcases parkCar_num orc ts k s car with ⟨_, e⟩ | ⟨e0, e1, e2⟩
    · rw [e]; exact h.same rfl rfl (fun _ => rfl) (fun _ => rfl)
    · refine h.frame (by rw [parkCar_busQ]; exact fun _ _ x => x) fun a q hq => ?_
      rw [e2] at hq
      by_cases e : q = s.num + 1
      · subst e
        by_cases e' : a = .lot k
        · subst e'; left; simp [Where, parkCar, e0, State.makePax]
        · simp only [upd_other _ _ _ _ e'] at hq
          exact absurd hq (hnew a)
      · right
        rw [parkCar_pax orc ts k s car e]
        refine ⟨?_, rfl, rfl⟩
        by_cases e' : a = .lot k
        · subst e'; simpa [e] using hq
        · simpa only [upd_other _ _ _ _ e'] using hq
  | lotRec k _ => exact h.same rfl rfl (fun _ => rfl) (fun _ => rfl)
  | path p q ad => exact h.same rfl rfl (upd_field _ Pax.cur _ _ rfl) (upd_field _ Pax.next _ _ rfl)
  | enroll p a q l rest mem start fixed new known chosen path =>
    refine h.next hp rfl rfl mem (fun b e => ?_) (upd_field _ Pax.cur _ _ rfl)
      fun q hq => by simp [upd_other _ _ _ _ hq]
    subst e; exact start
  | startNext p a l mem start ad =>
    refine h.next hp rfl rfl mem (fun b e => ?_) (upd_field _ Pax.cur _ _ rfl)
      fun q hq => by simp [State.setNext, upd_other _ _ _ _ hq]
    subst e; exact start
  | linkNext p l n mem ad =>
    exact h.next hp rfl rfl mem (fun b e => by simp at e) (upd_field _ Pax.cur _ _ rfl)
      fun q hq => by simp [State.setNext, upd_other _ _ _ _ hq]
  | busNext p b v i n mem ad at_ in_ cur =>
    refine h.frame (fun _ _ x => x) fun a q hq => ?_
    by_cases e : q = p
    · subst e
      left
      have hq' : q ∈ s.loc a := hq
      obtain rfl := hp.uniq _ _ _ hq' mem
      obtain ⟨i', h1, h2, _⟩ := h (.bus b) q mem
      refine ⟨i', by simpa [State.setNext] using h1, h2, .inr ⟨v, at_, ?_⟩⟩
      rw [in_, ← h1, cur]
    · exact .inr ⟨hq, by simp [State.setNext, upd_other _ _ _ _ e], by simp [State.setNext, upd_other _ _ _ _ e]⟩
  | fixNext p l a n rest mem fixed cur next track node =>
    exact h.next hp rfl rfl mem (fun b e => by simp at e) (upd_field _ Pax.cur _ _ rfl)
      fun q hq => by simp [State.setNext, upd_other _ _ _ _ hq]
  | fixEnd p l mem fixed track node =>
    exact h.next hp rfl rfl mem (fun b e => by simp at e) (upd_field _ Pax.cur _ _ rfl)
      fun q hq => by simp [State.setNext, upd_other _ _ _ _ hq]
  | fixBus p b v i n rest mem fixed at_ in_ cur next track =>
    refine h.frame (fun _ _ x => x) fun a q hq => ?_
    by_cases e : q = p
    · subst e
      left
      have hq' : q ∈ s.loc a := hq
      obtain rfl := hp.uniq _ _ _ hq' mem
      obtain ⟨i', h1, h2, _⟩ := h (.bus b) q mem
      refine ⟨i', by simpa [State.setNext] using h1, h2, .inr ⟨v, at_, ?_⟩⟩
      rw [in_, ← h1, cur]
    · exact .inr ⟨hq, by simp [State.setNext, upd_other _ _ _ _ e], by simp [State.setNext, upd_other _ _ _ _ e]⟩
  | wait p w _ => exact h.same rfl rfl (upd_field _ Pax.cur _ _ rfl) (upd_field _ Pax.next _ _ rfl)
  | enterLink p l mem _ _ =>
    exact h.moved hp rfl (a := .incoming l) (b := .walking l) (by simp) mem rfl (fun _ => rfl)
      (fun _ => rfl) fun hw => hw
  | stamp p l mem _ => exact h.same rfl rfl (fun _ => rfl) (fun _ => rfl)
  | finishLink p l mem _ _ =>
    exact h.moved hp rfl (a := .walking l) (b := .finished l) (by simp) mem rfl (fun _ => rfl)
      (fun _ => rfl) fun hw => hw
  | move p a b src dst s' mem phase _ legal cross =>
    have hpx : ∀ q, q ≠ p → s'.pax q = s.pax q := fun q hq => by
      rw [cross.eq]; simp [State.shift, upd_other _ _ _ _ hq]
    have hcur : (s'.pax p).cur = dst := by rw [cross.eq]; simp
    have hnx : (s'.pax p).next = (s.pax p).next := by rw [cross.eq]; simp [State.shift]
    have hl : s'.loc = (s.shift p a b).loc := by rw [cross.eq]
    have hbq : s'.busQ = s.busQ := by rw [cross.eq]; rfl
    refine h.frame (by rw [hbq]; exact fun _ _ x => x) fun x q hq => ?_
    rw [hl] at hq
    rcases (hp.shift_mem legal.ne mem q x).1 hq with ⟨rfl, rfl⟩ | ⟨hne, hq⟩
    · left
      cases legal with
      | origin o l next => simp [Where, hcur]
      | lot k l next => simp [Where, hcur]
      | walk l n next ne => simp [Where, hcur]
      | pass l n next ne walk _ => simp [Where, hcur]
      | arrive l d known door next => simp [Where, hcur]
      | board w b v n next ne kind board out at_ cap =>
        exact ⟨n, hcur, by rw [kind]; rfl, .inl (by rw [hnx, next])⟩
      | alight b v i n next walk alight in_ at_ => simp [Where, hcur]
    · exact .inr ⟨hq, by rw [hpx q hne], by rw [hpx q hne]⟩
  | ride p b v i o s' mem at_ in_ out next cur cross =>
    have hpx : ∀ q, q ≠ p → s'.pax q = s.pax q := fun q hq => by
      rw [cross.eq]; simp [upd_other _ _ _ _ hq]
    have hcur : (s'.pax p).cur = some o := by rw [cross.eq]; simp
    have hnx : (s'.pax p).next = (s.pax p).next := by rw [cross.eq]; simp
    have hl : s'.loc = s.loc := by rw [cross.eq]
    have hbq : s'.busQ = s.busQ := by rw [cross.eq]
    refine h.frame (by rw [hbq]; exact fun _ _ x => x) fun x q hq => ?_
    rw [hl] at hq
    by_cases e : q = p
    · subst e
      left
      obtain rfl := hp.uniq _ _ _ hq mem
      exact ⟨o, hcur, by rw [hc.busOut v (hs.known v b at_) o out]; rfl, .inl (by rw [hnx, next])⟩
    · exact .inr ⟨hq, by rw [hpx q e], by rw [hpx q e]⟩
  | shuffle a L perm =>
    refine h.frame (fun _ _ x => x) fun x q hq => .inr ⟨?_, rfl, rfl⟩
    by_cases hx : x = a
    · subst hx; simpa [perm.mem_iff] using hq
    · simpa only [upd_other _ _ _ _ hx] using hq
  | busIn _ v b k known route free add =>
    refine h.frame (fun w x hx => ?_) fun x q hq => .inr ⟨hq, rfl, rfl⟩
    by_cases hw : w = v
    · subst hw; simp [hx]
    · simpa only [upd_other _ _ _ _ hw] using hx
  | busOut _ v b k at_ done add =>
    intro a p hpa
    have hw := h a p hpa
    cases a <;> simp only [Where] at hw ⊢ <;> try exact hw
    rename_i b'
    obtain ⟨i, h1, h2, h3⟩ := hw
    refine ⟨i, h1, h2, ?_⟩
    rcases h3 with h3 | ⟨v', h3, h4⟩
    · exact .inl h3
    · by_cases e : b' = b
      · subst e
        exact .inl (by rw [← done p hpa]; exact h1)
      · refine .inr ⟨v', ?_, h4⟩
        by_cases hv : v' = v
        · subst hv; simpa [List.mem_erase_of_ne e] using h3
        · simpa only [upd_other _ _ _ _ hv] using h3
  | book _ f g => exact h.same rfl rfl (fun _ => rfl) (fun _ => rfl)
  | leave p d s' mem hr =>
    obtain ⟨_, _, rfl⟩ := receivePax_ok hr
    exact h.moved hp rfl (a := .dest d) (b := .gone) (by simp) mem rfl (upd_field _ Pax.cur _ _ rfl)
      (upd_field _ Pax.next _ _ rfl) fun hw => by simpa [Where, State.shift] using hw
  | record q e _ _ => exact h.same rfl rfl (fun _ => rfl) (fun _ => rfl)

/-- In a move with record, the link left is the passenger's current link. -/
theorem Legal.src {c : Cfg} {strict : Prop} {s : State} {p : ℕ} {a b : Place} {src dst : Option ℕ}
    (h : Located c s) (hs : AtStops c s) (mem : p ∈ s.loc a) (l : Legal c strict s p a b src dst) :
    (s.pax p).cur = src := by
  have hw := h a p mem
  cases l with
  | origin o l next => exact hw
  | lot k l next => exact hw
  | walk l n next ne => exact hw
  | pass l n next ne walk _ => exact hw
  | arrive l d known door next => exact hw
  | board w b v n next ne kind board out at_ cap => exact hw
  | alight b v i n next walk alight in_ at_ =>
    obtain ⟨i', h1, h2, h3⟩ := hw
    rw [h1]
    rcases h3 with h3 | ⟨v', h3, h4⟩
    · rw [next] at h3
      simp only [Option.some.injEq] at h3
      rw [← h3, walk] at h2
      simp at h2
    · rw [hs.uniq v' v b h3 at_, in_] at h4
      exact h4.symm

/-- A passenger that rides on leaves its current link. -/
theorem ride_src {c : Cfg} {s : State} {p b v i o : ℕ} (h : Located c s) (hs : AtStops c s)
    (mem : p ∈ s.loc (.bus b)) (at_ : b ∈ s.busQ v) (in_ : (c.vstop v).busIn = some i)
    (next : (s.pax p).next = some o) (cur : (s.pax p).cur ≠ some o) : (s.pax p).cur = some i := by
  obtain ⟨i', h1, _, h3⟩ := h _ p mem
  rw [h1] at cur ⊢
  rcases h3 with h3 | ⟨v', h3, h4⟩
  · rw [next] at h3
    exact absurd h3.symm cur
  · rw [hs.uniq v' v b h3 at_, in_] at h4
    exact h4.symm

/-! ### Routes -/

theorem trav_append (log : List Net.Event) (e : Net.Event) (p : ℕ) :
    trav (log ++ [e]) p = trav log p ++ (if e.veh = p then e.dst.toList else []) := by
  unfold trav moves
  rw [List.filter_append, List.filterMap_append]
  by_cases h : e.veh = p
  · simp only [h, List.filter_cons, decide_true, if_true, List.filter_nil]
    cases hd : e.dst <;> simp [hd]
  · simp [List.filter_cons, h]

/-- Path `q` is the passenger's path. -/
def HasPath (c : Cfg) (R : Routes) (s : State) (p q : ℕ) : Prop :=
  (s.pax p).path = some q ∧ Chosen c R (s.pax p) q

/-- What a passenger on a fixed route has done when it is in a container. -/
def OnRoute (c : Cfg) (R : Routes) (s : State) (p : ℕ) : Place → Prop
  | .origin _ => trav s.log p = [] ∧ ((s.tracker p = none ∧ (s.pax p).next = none) ∨
      ∃ q l rest, HasPath c R s p q ∧ s.tracker p = some rest ∧ (s.pax p).next = some l ∧
        R.links q = l :: rest)
  | .lot _ => trav s.log p = [] ∧ ((s.tracker p = none ∧ (s.pax p).next = none) ∨
      ∃ q l rest, HasPath c R s p q ∧ s.tracker p = some rest ∧ (s.pax p).next = some l ∧
        R.links q = l :: rest)
  | .incoming l => ∃ q rest, HasPath c R s p q ∧ s.tracker p = some rest ∧
      (s.pax p).next = some l ∧ trav s.log p ++ rest = R.links q ∧ (trav s.log p).getLast? = some l
  | .walking l => ∃ q rest, HasPath c R s p q ∧ s.tracker p = some rest ∧
      (s.pax p).next = some l ∧ trav s.log p ++ rest = R.links q ∧ (trav s.log p).getLast? = some l
  | .finished l => ∃ q rest, HasPath c R s p q ∧ s.tracker p = some rest ∧
      (trav s.log p).getLast? = some l ∧
      (((s.pax p).next = some l ∧ trav s.log p ++ rest = R.links q) ∨
       (∃ n, n ≠ l ∧ (s.pax p).next = some n ∧ trav s.log p ++ n :: rest = R.links q ∧
         (c.dest (s.pax p).dest).node ≠ (c.link l).toNode) ∨
       ((s.pax p).next = none ∧ rest = [] ∧ trav s.log p = R.links q))
  | .bus _ => ∃ q rest i, HasPath c R s p q ∧ s.tracker p = some rest ∧ (s.pax p).cur = some i ∧
      (trav s.log p).getLast? = some i ∧
      (((s.pax p).next = some i ∧ trav s.log p ++ rest = R.links q) ∨
       (∃ n, n ≠ i ∧ (s.pax p).next = some n ∧ trav s.log p ++ n :: rest = R.links q))
  | .dest _ => ∃ q, HasPath c R s p q ∧ trav s.log p = R.links q
  | .gone => ∃ q, HasPath c R s p q ∧ trav s.log p = R.links q

/-- Passengers on fixed routes follow their paths. -/
def Follow (c : Cfg) (R : Routes) (s : State) : Prop :=
  ∀ a p, p ∈ s.loc a → (s.pax p).adaptive = false → OnRoute c R s p a

/-- Nothing that matters to the route of `p` differs. -/
structure SameRoute (s s' : State) (p : ℕ) : Prop where
  adaptive : (s'.pax p).adaptive = (s.pax p).adaptive
  pnr : (s'.pax p).pnr = (s.pax p).pnr
  cur : (s'.pax p).cur = (s.pax p).cur
  next : (s'.pax p).next = (s.pax p).next
  origin : (s'.pax p).origin = (s.pax p).origin
  dest : (s'.pax p).dest = (s.pax p).dest
  path : (s'.pax p).path = (s.pax p).path
  tracker : s'.tracker p = s.tracker p
  trav : trav s'.log p = trav s.log p

theorem SameRoute.hasPath {c : Cfg} {R : Routes} {s s' : State} {p : ℕ} (h : SameRoute s s' p) (q : ℕ) :
    HasPath c R s' p q ↔ HasPath c R s p q := by
  unfold HasPath Chosen
  rw [h.path, h.pnr, h.origin, h.dest]

theorem SameRoute.onRoute {c : Cfg} {R : Routes} {s s' : State} {p : ℕ} (h : SameRoute s s' p)
    {a : Place} (o : OnRoute c R s p a) : OnRoute c R s' p a := by
  cases a <;> simp only [OnRoute, h.hasPath, h.cur, h.next, h.dest, h.tracker, h.trav] at o ⊢ <;> exact o

theorem Follow.frame {c : Cfg} {R : Routes} {s s' : State} (h : Follow c R s)
    (hk : ∀ a q, q ∈ s'.loc a → (s'.pax q).adaptive = false →
      OnRoute c R s' q a ∨ (q ∈ s.loc a ∧ SameRoute s s' q)) : Follow c R s' := by
  intro a q hq ha
  rcases hk a q hq ha with h1 | ⟨h1, h2⟩
  · exact h1
  · exact h2.onRoute (h a q h1 (h2.adaptive ▸ ha))

/-- Steps that leave containers and routes alone. -/
theorem Follow.same {c : Cfg} {R : Routes} {s s' : State} (h : Follow c R s) (hl : s'.loc = s.loc)
    (hr : ∀ q, SameRoute s s' q) : Follow c R s' :=
  h.frame fun a q hq _ => .inr ⟨hl ▸ hq, hr q⟩

theorem SameRoute.of_eq {s s' : State} {p : ℕ} (h1 : s'.pax p = s.pax p)
    (h2 : s'.tracker p = s.tracker p) (h3 : s'.log = s.log) : SameRoute s s' p := by
  constructor <;> simp only [h1, h2, h3]

/-- Steps that change what is known of one passenger only, which stays where it is. -/
theorem Follow.one {c : Cfg} {R : Routes} {s s' : State} (h : Follow c R s) (hp : Placed s)
    {p : ℕ} {a : Place} (hm : p ∈ s.loc a) (hl : s'.loc = s.loc)
    (hr : ∀ q, q ≠ p → SameRoute s s' q)
    (ho : (s'.pax p).adaptive = false → OnRoute c R s' p a) : Follow c R s' := by
  refine h.frame fun x q hq ha => ?_
  rw [hl] at hq
  by_cases e : q = p
  · subst e
    obtain rfl := hp.uniq _ _ _ hq hm
    exact .inl (ho ha)
  · exact .inr ⟨hq, hr q e⟩

/-- Steps that move one passenger. -/
theorem Follow.moved {c : Cfg} {R : Routes} {s s' : State} (h : Follow c R s) (hp : Placed s)
    {p : ℕ} {a b : Place} (hab : a ≠ b) (hm : p ∈ s.loc a) (hl : s'.loc = (s.shift p a b).loc)
    (hr : ∀ q, q ≠ p → SameRoute s s' q)
    (ho : (s'.pax p).adaptive = false → OnRoute c R s' p b) : Follow c R s' := by
  refine h.frame fun x q hq ha => ?_
  rw [hl] at hq
  rcases (hp.shift_mem hab hm q x).1 hq with ⟨rfl, rfl⟩ | ⟨e, hq⟩
  · exact .inl (ho ha)
  · exact .inr ⟨hq, hr q e⟩

theorem ne_of_chain {L xs rest : List ℕ} {a n : ℕ} (hc : L.IsChain (· ≠ ·)) (h : xs ++ n :: rest = L)
    (ha : xs.getLast? = some a) : n ≠ a := by
  rw [← h, List.isChain_append] at hc
  exact (hc.2.2 a ha n (by simp)).symm

theorem Follow.micro {c : Cfg} (hc : c.Wf) {R : Routes} (hR : ∀ q, (R.links q).IsChain (· ≠ ·))
    {ts : ℕ} {ph : Phase} {s s' : State} (h : Follow c R s) (hlo : Located c s) (hp : Placed s)
    (hs : AtStops c s) (hlog : ∀ e ∈ s.log, e.veh ≤ s.num)
    (htr : ∀ p, s.num < p → s.tracker p = none)
    (m : Micro c R True ts ph s s') : Follow c R s' := by
  have hnew : ∀ a, s.num + 1 ∉ s.loc a := fun a ha => by
    have := (hp.mem _).1 ⟨a, ha⟩
    omega
  have htrav : trav s.log (s.num + 1) = [] := by
    unfold trav moves
    rw [List.filter_eq_nil_iff.2 fun e he => by have := hlog e he; simp; omega]
    rfl
  cases m with
  | release o ad junk d assign =>
    refine h.frame fun a q hq ha => ?_
    by_cases e : q = s.num + 1
    · subst e
      by_cases e' : a = .origin o
      · subst e'; left
        exact ⟨htrav, .inl ⟨htr _ (by omega), by simp [State.makePax]⟩⟩
      · simp only [upd_other _ _ _ _ e'] at hq
        exact absurd hq (hnew a)
    · right
      refine ⟨?_, .of_eq (by simp [State.makePax, upd_other _ _ _ _ e]) rfl rfl⟩
      by_cases e' : a = .origin o
      · subst e'; simpa [e] using hq
      · simpa only [upd_other _ _ _ _ e'] using hq
  | park orc k car _ =>
    have hlg : (parkCar orc ts k s car).log = s.log := by
      unfold parkCar; cases car.pnr <;> simp [State.makePax]
    have htk : (parkCar orc ts k s car).tracker = s.tracker := by
      unfold parkCar; cases car.pnr <;> simp [State.makePax]
    rcases parkCar_num orc ts k s car with ⟨_, e⟩ | ⟨e0, e1, e2⟩
    · rw [e]; exact h.same rfl fun _ => .of_eq rfl rfl rfl
    · refine h.frame fun a q hq ha => ?_
      rw [e2] at hq
      by_cases e : q = s.num + 1
      · subst e
        by_cases e' : a = .lot k
        · subst e'; left
          refine ⟨by rw [hlg]; exact htrav, .inl ⟨by rw [htk]; exact htr _ (by omega), ?_⟩⟩
          simp [parkCar, e0, State.makePax]
        · simp only [upd_other _ _ _ _ e'] at hq
          exact absurd hq (hnew a)
      · right
        refine ⟨?_, .of_eq (parkCar_pax orc ts k s car e) (by rw [htk]) hlg⟩
        by_cases e' : a = .lot k
        · subst e'; simpa [e] using hq
        · simpa only [upd_other _ _ _ _ e'] using hq
  | lotRec k _ => exact h.same rfl fun _ => .of_eq rfl rfl rfl
  | path p q ad =>
    refine h.frame fun a x hx ha => ?_
    by_cases e : x = p
    · subst e; simp [ad] at ha
    · exact .inr ⟨hx, .of_eq (by simp [upd_other _ _ _ _ e]) rfl rfl⟩
  | enroll p a q l rest mem start fixed new known chosen path =>
    refine h.one hp mem rfl (fun x hx => .of_eq (by simp [upd_other _ _ _ _ hx]) (by simp [upd_other _ _ _ _ hx]) rfl)
      fun _ => ?_
    have ho := h a p mem fixed
    have hpath : HasPath c R { s with
        pax := upd s.pax p { s.pax p with path := some q, next := some l }
        tracker := upd s.tracker p (some rest) } p q := by
      refine ⟨by simp, ?_⟩
      simp only [upd_same, Chosen]
      exact ⟨chosen.1, by simp⟩
    cases a <;> simp only [Place.starts] at start
    · exact ⟨ho.1, .inr ⟨q, l, rest, hpath, by simp, by simp, path⟩⟩
    · exact ⟨ho.1, .inr ⟨q, l, rest, hpath, by simp, by simp, path⟩⟩
  | startNext p a l mem start ad =>
    exact h.one hp mem rfl (fun x hx => .of_eq (by simp [State.setNext, upd_other _ _ _ _ hx]) rfl rfl)
      fun ha => by simp [State.setNext, ad] at ha
  | linkNext p l n mem ad =>
    exact h.one hp mem rfl (fun x hx => .of_eq (by simp [State.setNext, upd_other _ _ _ _ hx]) rfl rfl)
      fun ha => by simp [State.setNext, ad] at ha
  | busNext p b v i n mem ad at_ in_ cur =>
    exact h.one hp mem rfl (fun x hx => .of_eq (by simp [State.setNext, upd_other _ _ _ _ hx]) rfl rfl)
      fun ha => by simp [State.setNext, ad] at ha
  | fixNext p l a n rest mem fixed cur next track node =>
    refine h.one hp mem rfl (fun x hx => .of_eq (by simp [State.setNext, upd_other _ _ _ _ hx])
      (by simp [upd_other _ _ _ _ hx]) rfl) fun _ => ?_
    obtain ⟨q, r, hq, ht, hg, hcase⟩ := h _ p mem fixed
    have hl : (s.pax p).cur = some l := hlo _ p mem
    obtain rfl : a = l := by rw [cur] at hl; exact Option.some.inj hl
    rw [track] at ht
    obtain rfl := Option.some.inj ht
    have heq : trav s.log p ++ n :: rest = R.links q := by
      rcases hcase with ⟨_, e⟩ | ⟨n', hn', e, _⟩ | ⟨e, _⟩
      · exact e
      · rw [next] at e; exact absurd (Option.some.inj e).symm hn'
      · rw [next] at e; simp at e
    refine ⟨q, rest, ?_, by simp, hg, .inr (.inl ⟨n, ne_of_chain (hR q) heq hg, by simp [State.setNext], heq, ?_⟩)⟩
    · simpa [HasPath, Chosen, State.setNext] using hq
    · simpa [State.setNext] using node
  | fixEnd p l mem fixed track node =>
    refine h.one hp mem rfl (fun x hx => .of_eq (by simp [State.setNext, upd_other _ _ _ _ hx]) rfl rfl)
      fun _ => ?_
    obtain ⟨q, r, hq, ht, hg, hcase⟩ := h _ p mem fixed
    rw [track] at ht
    obtain rfl := Option.some.inj ht
    refine ⟨q, [], ?_, track, hg, .inr (.inr ⟨by simp [State.setNext], rfl, ?_⟩)⟩
    · simpa [HasPath, Chosen, State.setNext] using hq
    · rcases hcase with ⟨_, e⟩ | ⟨n', hn', _, _, e⟩ | ⟨_, _, e⟩
      · rw [List.append_nil] at e; exact e
      · exact absurd node e
      · exact e
  | fixBus p b v i n rest mem fixed at_ in_ cur next track =>
    refine h.one hp mem rfl (fun x hx => .of_eq (by simp [State.setNext, upd_other _ _ _ _ hx])
      (by simp [upd_other _ _ _ _ hx]) rfl) fun _ => ?_
    obtain ⟨q, r, i', hq, ht, hi, hg, hcase⟩ := h _ p mem fixed
    obtain rfl : i = i' := by rw [cur] at hi; exact Option.some.inj hi
    rw [track] at ht
    obtain rfl := Option.some.inj ht
    have heq : trav s.log p ++ n :: rest = R.links q := by
      rcases hcase with ⟨_, e⟩ | ⟨n', hn', e, _⟩
      · exact e
      · rw [next] at e; exact absurd (Option.some.inj e).symm hn'
    refine ⟨q, rest, i, ?_, by simp, by simpa [State.setNext] using cur, hg,
      .inr ⟨n, ne_of_chain (hR q) heq hg, by simp [State.setNext], heq⟩⟩
    simpa [HasPath, Chosen, State.setNext] using hq
  | wait p w _ =>
    refine h.same rfl fun q => ?_
    have : ∀ {α : Type} (g : Pax → α), g { s.pax p with wait := w } = g (s.pax p) →
      g ((s.setWait p w).pax q) = g (s.pax q) := fun g hg => upd_field _ g _ _ hg q
    exact ⟨this _ rfl, this _ rfl, this _ rfl, this _ rfl, this _ rfl, this _ rfl, this _ rfl, rfl, rfl⟩
  | enterLink p l mem _ _ =>
    exact h.moved hp (a := .incoming l) (b := .walking l) (by simp) mem rfl
      (fun _ _ => .of_eq rfl rfl rfl) fun ha => h _ p mem ha
  | stamp p l mem _ => exact h.same rfl fun _ => .of_eq rfl rfl rfl
  | finishLink p l mem _ _ =>
    refine h.moved hp (a := .walking l) (b := .finished l) (by simp) mem rfl
      (fun _ _ => .of_eq rfl rfl rfl) fun ha => ?_
    obtain ⟨q, rest, h1, h2, h3, h4, h5⟩ := h _ p mem ha
    exact ⟨q, rest, h1, h2, h5, .inl ⟨h3, h4⟩⟩
  | move p a b src dst s' mem phase _ legal cross =>
    have hpx : ∀ q, q ≠ p → s'.pax q = s.pax q := fun q hq => by
      rw [cross.eq]; simp [State.shift, upd_other _ _ _ _ hq]
    have hpp : s'.pax p = { s.pax p with cur := dst } := by rw [cross.eq]; simp [State.shift]
    have htk : s'.tracker = s.tracker := by rw [cross.eq]; rfl
    have hlg : s'.log = s.log ++ [⟨ts, p, src, dst⟩] := by rw [cross.eq]; rfl
    have htp : trav s'.log p = trav s.log p ++ dst.toList := by
      rw [hlg, trav_append]; simp
    have hto : ∀ q, q ≠ p → trav s'.log q = trav s.log q := fun q hq => by
      rw [hlg, trav_append]; simp [Ne.symm hq]
    refine h.moved hp legal.ne mem (by rw [cross.eq])
      (fun q hq => ⟨by rw [hpx q hq], by rw [hpx q hq], by rw [hpx q hq], by rw [hpx q hq], by rw [hpx q hq],
        by rw [hpx q hq], by rw [hpx q hq], by rw [htk], hto q hq⟩) fun ha => ?_
    have hfix : (s.pax p).adaptive = false := by rw [hpp] at ha; exact ha
    have ho := h a p mem hfix
    have hpath : ∀ q, HasPath c R s p q → HasPath c R s' p q := fun q hq => by
      simpa [HasPath, Chosen, hpp] using hq
    have hnx : (s'.pax p).next = (s.pax p).next := by rw [hpp]
    have hdd : (s'.pax p).dest = (s.pax p).dest := by rw [hpp]
    cases legal with
    | origin o l next =>
      obtain ⟨h0, hcase⟩ := ho
      rcases hcase with ⟨_, e⟩ | ⟨q, l', rest, h1, h2, h3, h4⟩
      · rw [next] at e; simp at e
      · obtain rfl : l = l' := by rw [next] at h3; exact Option.some.inj h3
        refine ⟨q, rest, hpath q h1, by rw [htk, h2], by rw [hnx, next], ?_, ?_⟩
        · rw [htp, h0, h4]; rfl
        · rw [htp, h0]; rfl
    | lot k l next =>
      obtain ⟨h0, hcase⟩ := ho
      rcases hcase with ⟨_, e⟩ | ⟨q, l', rest, h1, h2, h3, h4⟩
      · rw [next] at e; simp at e
      · obtain rfl : l = l' := by rw [next] at h3; exact Option.some.inj h3
        refine ⟨q, rest, hpath q h1, by rw [htk, h2], by rw [hnx, next], ?_, ?_⟩
        · rw [htp, h0, h4]; rfl
        · rw [htp, h0]; rfl
    | walk l n next ne =>
      obtain ⟨q, rest, h1, h2, _, hcase⟩ := ho
      have hnl := ne trivial hfix
      rcases hcase with ⟨e, _⟩ | ⟨n', _, e, h4, _⟩ | ⟨e, _⟩
      · rw [next] at e; exact absurd (Option.some.inj e) hnl
      · obtain rfl : n = n' := by rw [next] at e; exact Option.some.inj e
        refine ⟨q, rest, hpath q h1, by rw [htk, h2], by rw [hnx, next], ?_, ?_⟩
        · rw [htp, ← h4]; simp
        · rw [htp]; simp
      · rw [next] at e; simp at e
    | pass l n next ne walk _ =>
      obtain ⟨q, rest, h1, h2, _, hcase⟩ := ho
      rcases hcase with ⟨e, _⟩ | ⟨n', _, e, h4, _⟩ | ⟨e, _⟩
      · rw [next] at e; exact absurd (Option.some.inj e) ne
      · obtain rfl : n = n' := by rw [next] at e; exact Option.some.inj e
        refine ⟨q, rest, hpath q h1, by rw [htk, h2], ?_, .inl ⟨by rw [hnx, next], ?_⟩⟩
        · rw [htp]; simp
        · rw [htp, ← h4]; simp
      · rw [next] at e; simp at e
    | arrive l d known door next =>
      obtain ⟨q, rest, h1, h2, _, hcase⟩ := ho
      rcases hcase with ⟨e, _⟩ | ⟨n', _, e, h4, _⟩ | ⟨_, _, h4⟩
      · rw [next] at e; simp at e
      · rw [next] at e; simp at e
      · refine ⟨q, hpath q h1, ?_⟩
        rw [htp, ← h4]; simp
    | board w b v n next ne kind board out at_ cap =>
      obtain ⟨q, rest, h1, h2, _, hcase⟩ := ho
      rcases hcase with ⟨e, _⟩ | ⟨n', _, e, h4, _⟩ | ⟨e, _⟩
      · rw [next] at e; exact absurd (Option.some.inj e) ne
      · obtain rfl : n = n' := by rw [next] at e; exact Option.some.inj e
        refine ⟨q, rest, n, hpath q h1, by rw [htk, h2], by rw [hpp], ?_, .inl ⟨by rw [hnx, next], ?_⟩⟩
        · rw [htp]; simp
        · rw [htp, ← h4]; simp
      · rw [next] at e; simp at e
    | alight b v i n next walk alight in_ at_ =>
      obtain ⟨q, rest, i', h1, h2, h3, _, hcase⟩ := ho
      have hcur : (s.pax p).cur = some i :=
        Legal.src (strict := True) hlo hs mem (.alight b v i n next walk alight in_ at_)
      obtain rfl : i = i' := by rw [hcur] at h3; exact Option.some.inj h3
      have hni : n ≠ i := by
        rintro rfl
        obtain ⟨i', e1, e2, _⟩ := hlo _ p mem
        rw [hcur] at e1
        obtain rfl := Option.some.inj e1
        rw [walk] at e2; simp at e2
      rcases hcase with ⟨e, _⟩ | ⟨n', _, e, h4⟩
      · rw [next] at e; exact absurd (Option.some.inj e) hni
      · obtain rfl : n = n' := by rw [next] at e; exact Option.some.inj e
        refine ⟨q, rest, hpath q h1, by rw [htk, h2], ?_, .inl ⟨by rw [hnx, next], ?_⟩⟩
        · rw [htp]; simp
        · rw [htp, ← h4]; simp
  | ride p b v i o s' mem at_ in_ out next cur cross =>
    have hpx : ∀ q, q ≠ p → s'.pax q = s.pax q := fun q hq => by
      rw [cross.eq]; simp [upd_other _ _ _ _ hq]
    have hpp : s'.pax p = { s.pax p with cur := some o } := by rw [cross.eq]; simp
    have htk : s'.tracker = s.tracker := by rw [cross.eq]
    have hlg : s'.log = s.log ++ [⟨ts, p, some i, some o⟩] := by rw [cross.eq]
    have htp : trav s'.log p = trav s.log p ++ [o] := by
      rw [hlg, trav_append]; simp
    have hto : ∀ q, q ≠ p → trav s'.log q = trav s.log q := fun q hq => by
      rw [hlg, trav_append]; simp [Ne.symm hq]
    refine h.one hp mem (by rw [cross.eq])
      (fun q hq => ⟨by rw [hpx q hq], by rw [hpx q hq], by rw [hpx q hq], by rw [hpx q hq], by rw [hpx q hq],
        by rw [hpx q hq], by rw [hpx q hq], by rw [htk], hto q hq⟩) fun ha => ?_
    have hfix : (s.pax p).adaptive = false := by rw [hpp] at ha; exact ha
    obtain ⟨q, rest, i', h1, h2, h3, _, hcase⟩ := h _ p mem hfix
    have hcur := ride_src hlo hs mem at_ in_ next cur
    obtain rfl : i = i' := by rw [hcur] at h3; exact Option.some.inj h3
    rcases hcase with ⟨e, _⟩ | ⟨n', _, e, h4⟩
    · rw [next] at e
      rw [hcur] at cur
      exact absurd e.symm cur
    · obtain rfl : o = n' := by rw [next] at e; exact Option.some.inj e
      refine ⟨q, rest, o, ?_, by rw [htk, h2], by rw [hpp], ?_, .inl ⟨by rw [hpp, ← next], ?_⟩⟩
      · simpa [HasPath, Chosen, hpp] using h1
      · rw [htp]; simp
      · rw [htp, ← h4]; simp
  | shuffle a L perm =>
    refine h.frame fun x q hq _ => .inr ⟨?_, .of_eq rfl rfl rfl⟩
    by_cases hx : x = a
    · subst hx; simpa [perm.mem_iff] using hq
    · simpa only [upd_other _ _ _ _ hx] using hq
  | busIn _ v b k known route free add => exact h.same rfl fun _ => .of_eq rfl rfl rfl
  | busOut _ v b k at_ done add => exact h.same rfl fun _ => .of_eq rfl rfl rfl
  | book _ f g => exact h.same rfl fun _ => .of_eq rfl rfl rfl
  | leave p d s' mem hr =>
    obtain ⟨_, _, rfl⟩ := receivePax_ok hr
    refine h.moved hp (a := .dest d) (b := .gone) (by simp) mem rfl
      (fun q hq => .of_eq (by simp [upd_other _ _ _ _ hq]) (by simp [upd_other _ _ _ _ hq]) rfl) fun ha => ?_
    obtain ⟨q, h1, h2⟩ := h _ p mem (by simpa using ha)
    exact ⟨q, by simpa [HasPath, Chosen] using h1, h2⟩
  | record q e _ _ => exact h.same rfl fun _ => .of_eq rfl rfl rfl

/-! ### All invariants -/

/-- Only passengers that have been made are recorded. -/
structure Known (s : State) : Prop where
  log : ∀ e ∈ s.log, 1 ≤ e.veh ∧ e.veh ≤ s.num
  tracker : ∀ p, s.num < p → s.tracker p = none

theorem Known.same {s s' : State} (h : Known s) (h1 : s'.log = s.log) (h2 : s'.num = s.num)
    (h3 : s'.tracker = s.tracker) : Known s' :=
  ⟨by rw [h1, h2]; exact h.log, by rw [h2, h3]; exact h.tracker⟩

theorem Known.track {s s' : State} (h : Known s) (h1 : s'.log = s.log) (h2 : s'.num = s.num) {p : ℕ}
    (hp : p ≤ s.num) (h3 : ∀ q, q ≠ p → s'.tracker q = s.tracker q) : Known s' :=
  ⟨by rw [h1, h2]; exact h.log, fun q hq => by
    rw [h2] at hq; rw [h3 q (by omega)]; exact h.tracker q hq⟩

theorem Known.cross {c : Cfg} {ts p : ℕ} {src dst : Option ℕ} {s t s' : State} (h : Known s)
    (hp : 1 ≤ p ∧ p ≤ s.num) (h1 : t.log = s.log) (h2 : t.num = s.num) (h3 : t.tracker = s.tracker)
    (hc : Crossed c ts p src dst t s') : Known s' := by
  rw [hc.eq]
  refine ⟨fun e he => ?_, by simpa only [h2, h3] using h.tracker⟩
  simp only [h1, List.mem_append, List.mem_singleton] at he
  rcases he with he | rfl
  · simpa only [h2] using h.log e he
  · simpa only [h2] using hp

theorem Known.more {s s' : State} (h : Known s) (h1 : s'.log = s.log) (h2 : s'.num = s.num + 1)
    (h3 : s'.tracker = s.tracker) : Known s' :=
  ⟨by rw [h1, h2]; exact fun e he => by have := h.log e he; omega,
   by rw [h2, h3]; exact fun p hp => h.tracker p (by omega)⟩

theorem Known.micro {c : Cfg} {R : Routes} {strict : Prop} {ts : ℕ} {ph : Phase} {s s' : State}
    (h : Known s) (hp : Placed s) (m : Micro c R strict ts ph s s') : Known s' := by
  have hle : ∀ {p a}, p ∈ s.loc a → 1 ≤ p ∧ p ≤ s.num := fun hm => (hp.mem _).1 ⟨_, hm⟩
  cases m with
  | release o ad junk d assign => exact h.more rfl rfl rfl
  | park orc k car _ =>
    unfold parkCar
    cases car.pnr
    · exact h.same rfl rfl rfl
    · exact h.more rfl rfl rfl
  | lotRec k _ => exact h.same rfl rfl rfl
  | path p q ad => exact h.same rfl rfl rfl
  | enroll p a q l rest mem start fixed new known chosen path =>
    exact h.track rfl rfl (hle mem).2 fun q hq => by simp [upd_other _ _ _ _ hq]
  | startNext p a l mem start ad => exact h.same rfl rfl rfl
  | linkNext p l n mem ad => exact h.same rfl rfl rfl
  | busNext p b v i n mem ad at_ in_ cur => exact h.same rfl rfl rfl
  | fixNext p l a n rest mem fixed cur next track node =>
    exact h.track rfl rfl (hle mem).2 fun q hq => by simp [upd_other _ _ _ _ hq]
  | fixEnd p l mem fixed track node => exact h.same rfl rfl rfl
  | fixBus p b v i n rest mem fixed at_ in_ cur next track =>
    exact h.track rfl rfl (hle mem).2 fun q hq => by simp [upd_other _ _ _ _ hq]
  | wait p w _ => exact h.same rfl rfl rfl
  | enterLink p l mem _ _ => exact h.same rfl rfl rfl
  | stamp p l mem _ => exact h.same rfl rfl rfl
  | finishLink p l mem _ _ => exact h.same rfl rfl rfl
  | move p a b src dst s' mem phase _ legal cross => exact h.cross (t := s.shift p a b) (hle mem) rfl rfl rfl cross
  | ride p b v i o s' mem at_ in_ out next cur cross => exact h.cross (hle mem) rfl rfl rfl cross
  | shuffle a L perm => exact h.same rfl rfl rfl
  | busIn _ v b k known route free add => exact h.same rfl rfl rfl
  | busOut _ v b k at_ done add => exact h.same rfl rfl rfl
  | book _ f g => exact h.same rfl rfl rfl
  | leave p d s' mem hr =>
    obtain ⟨_, _, rfl⟩ := receivePax_ok hr
    exact h.track rfl rfl (hle mem).2 fun q hq => by simp [upd_other _ _ _ _ hq]
  | record q e _ _ => exact h.same rfl rfl rfl

/-- The invariants of elementary steps. -/
structure Inv (c : Cfg) (R : Routes) (strict : Prop) (s : State) : Prop where
  placed : Placed s
  stops : AtStops c s
  located : Located c s
  known : Known s
  follow : strict → Follow c R s

/-- What is assumed of the network, and of the paths. -/
structure Hyp (c : Cfg) (R : Routes) (strict : Prop) : Prop where
  wf : c.Wf
  chain : strict → ∀ q, (R.links q).IsChain (· ≠ ·)

theorem Inv.micro {c : Cfg} {R : Routes} {strict : Prop} (hy : Hyp c R strict) {ts : ℕ} {ph : Phase}
    {s s' : State} (h : Inv c R strict s) (m : Micro c R strict ts ph s s') : Inv c R strict s' := by
  refine ⟨h.placed.micro m, h.stops.micro m, h.located.micro hy.wf h.placed h.stops m,
    h.known.micro h.placed m, fun hst => ?_⟩
  obtain rfl : strict = True := eq_true hst
  exact (h.follow hst).micro hy.wf (hy.chain hst) h.located h.placed h.stops (fun e he => (h.known.log e he).2)
    h.known.tracker m

theorem Inv.steps {c : Cfg} {R : Routes} {strict : Prop} (hy : Hyp c R strict) {ts : ℕ} {ph : Phase}
    {s s' : State} (h : Inv c R strict s) (m : Steps c R strict ts ph s s') : Inv c R strict s' :=
  m.inv (fun _ _ h m => h.micro hy m) h

theorem Inv.init (c : Cfg) (R : Routes) (strict : Prop) : Inv c R strict (State.init c) := by
  refine ⟨⟨by simp [State.init], fun p => ?_, by simp [State.init]⟩, ⟨by simp [State.init], by simp [State.init],
    by simp [State.init]⟩, fun a p hp => by simp [State.init] at hp, ⟨by simp [State.init], by simp [State.init]⟩,
    fun _ a p hp => by simp [State.init] at hp⟩
  simp only [State.init, List.not_mem_nil, exists_false, false_iff]
  omega

/-! ### Passengers at the ends of bus links have been routed -/

/-- No passenger on a fixed route waits at the end of a bus link for the same link (for the links
and passengers of `D`). -/
def BusRouted (c : Cfg) (D : ℕ → ℕ → Prop) (s : State) : Prop :=
  ∀ l, (c.link l).kind.walking = false → ∀ p ∈ s.loc (.finished l), D l p →
    (s.pax p).adaptive = false → (s.pax p).next ≠ some l

theorem BusRouted.frame {c : Cfg} {D : ℕ → ℕ → Prop} {s s' : State} (h : BusRouted c D s)
    (hk : ∀ l, (c.link l).kind.walking = false → ∀ q ∈ s'.loc (.finished l), (s'.pax q).adaptive = false →
      (s'.pax q).next ≠ some l ∨ (q ∈ s.loc (.finished l) ∧ (s.pax q).adaptive = false ∧
        (s'.pax q).next = (s.pax q).next)) : BusRouted c D s' := by
  intro l hw q hq hl ha
  rcases hk l hw q hq ha with h1 | ⟨h1, h2, h3⟩
  · exact h1
  · rw [h3]; exact h l hw q h1 hl h2

theorem BusRouted.same {c : Cfg} {D : ℕ → ℕ → Prop} {s s' : State} (h : BusRouted c D s)
    (h1 : ∀ l, s'.loc (.finished l) = s.loc (.finished l))
    (h2 : ∀ q, (s'.pax q).adaptive = (s.pax q).adaptive) (h3 : ∀ q, (s'.pax q).next = (s.pax q).next) :
    BusRouted c D s' :=
  h.frame fun l _ q hq ha => .inr ⟨h1 l ▸ hq, h2 q ▸ ha, h3 q⟩

theorem BusRouted.moved {c : Cfg} {D : ℕ → ℕ → Prop} {s s' : State} (h : BusRouted c D s) (hp : Placed s) {p : ℕ} {a b : Place}
    (hab : a ≠ b) (hm : p ∈ s.loc a) (hl : s'.loc = (s.shift p a b).loc)
    (hb : ∀ l, b = .finished l → (c.link l).kind.walking = true)
    (h2 : ∀ q, (s'.pax q).adaptive = (s.pax q).adaptive) (h3 : ∀ q, (s'.pax q).next = (s.pax q).next) :
    BusRouted c D s' := by
  refine h.frame fun l hw q hq ha => ?_
  rw [hl] at hq
  rcases (hp.shift_mem hab hm q _).1 hq with ⟨_, e⟩ | ⟨_, hq⟩
  · have := hb l e.symm
    rw [hw] at this; simp at this
  · exact .inr ⟨hq, h2 q ▸ ha, h3 q⟩

theorem BusRouted.micro {c : Cfg} {D : ℕ → ℕ → Prop} {R : Routes} (hy : Hyp c R True) {ts : ℕ} {s s' : State}
    (h : BusRouted c D s) (hi : Inv c R True s) (m : Micro c R True ts .early s s') : BusRouted c D s' := by
  have hp := hi.placed
  have hnew : ∀ a, s.num + 1 ∉ s.loc a := fun a ha => by
    have := (hp.mem _).1 ⟨a, ha⟩
    omega
  have hf := (hi.micro hy m).follow trivial
  cases m with
  | release o ad junk d assign =>
    refine h.frame fun l hw q hq ha => .inr ?_
    have hq' : q ∈ s.loc (.finished l) := by simpa [upd] using hq
    have e : q ≠ s.num + 1 := fun e => hnew _ (e ▸ hq')
    simp only [State.makePax, upd_other _ _ _ _ e] at ha ⊢
    exact ⟨hq', ha, trivial⟩
  | park orc k car _ =>
    rcases parkCar_num orc ts k s car with ⟨_, e⟩ | ⟨e0, e1, e2⟩
    · rw [e]; exact h.same (fun _ => rfl) (fun _ => rfl) (fun _ => rfl)
    · refine h.frame fun l hw q hq ha => .inr ?_
      rw [e2] at hq
      have hq' : q ∈ s.loc (.finished l) := by simpa [upd] using hq
      have e : q ≠ s.num + 1 := fun e => hnew _ (e ▸ hq')
      rw [parkCar_pax orc ts k s car e] at ha ⊢
      exact ⟨hq', ha, rfl⟩
  | lotRec k _ => exact h.same (fun _ => rfl) (fun _ => rfl) (fun _ => rfl)
  | path p q ad =>
    exact h.same (fun _ => rfl) (upd_field _ Pax.adaptive _ _ rfl) (upd_field _ Pax.next _ _ rfl)
  | enroll p a q l rest mem start fixed new known chosen path =>
    refine h.frame fun l' hw x hx ha => .inr ?_
    have hx' : x ∈ s.loc (.finished l') := hx
    have e : x ≠ p := by
      rintro rfl
      have := hp.uniq _ _ _ hx' mem
      subst this
      exact start
    simp only [upd_other _ _ _ _ e] at ha ⊢
    exact ⟨hx', ha, trivial⟩
  | startNext p a l mem start ad =>
    refine h.frame fun l' hw x hx ha => .inr ?_
    have e : x ≠ p := by
      rintro rfl
      simp [State.setNext, ad] at ha
    simp only [State.setNext, upd_other _ _ _ _ e] at ha ⊢
    exact ⟨hx, ha, trivial⟩
  | linkNext p l n mem ad =>
    refine h.frame fun l' hw x hx ha => .inr ?_
    have e : x ≠ p := by
      rintro rfl
      simp [State.setNext, ad] at ha
    simp only [State.setNext, upd_other _ _ _ _ e] at ha ⊢
    exact ⟨hx, ha, trivial⟩
  | busNext p b v i n mem ad at_ in_ cur =>
    refine h.frame fun l' hw x hx ha => .inr ?_
    have e : x ≠ p := by
      rintro rfl
      simp [State.setNext, ad] at ha
    simp only [State.setNext, upd_other _ _ _ _ e] at ha ⊢
    exact ⟨hx, ha, trivial⟩
  | fixNext p l a n rest mem fixed cur next track node =>
    refine h.frame fun l' hw x hx ha => ?_
    by_cases e : x = p
    · subst e
      left
      have hxl : l' = l := by simpa using hp.uniq _ _ _ (show x ∈ s.loc (.finished l') from hx) mem
      subst hxl
      obtain ⟨q, r, hq, ht, hg, hcase⟩ := hi.follow trivial _ x mem fixed
      have hl : (s.pax x).cur = some l' := hi.located _ x mem
      obtain rfl : a = l' := by rw [cur] at hl; exact Option.some.inj hl
      rw [track] at ht
      obtain rfl := Option.some.inj ht
      have heq : trav s.log x ++ n :: rest = R.links q := by
        rcases hcase with ⟨_, e⟩ | ⟨n', hn', e, _⟩ | ⟨e, _⟩
        · exact e
        · rw [next] at e; exact absurd (Option.some.inj e).symm hn'
        · rw [next] at e; simp at e
      simpa [State.setNext] using ne_of_chain (hy.chain trivial q) heq hg
    · right
      simp only [State.setNext, upd_other _ _ _ _ e] at ha ⊢
      exact ⟨hx, ha, trivial⟩
  | fixEnd p l mem fixed track node =>
    refine h.frame fun l' hw x hx ha => ?_
    by_cases e : x = p
    · subst e; left; simp [State.setNext]
    · right
      simp only [State.setNext, upd_other _ _ _ _ e] at ha ⊢
      exact ⟨hx, ha, trivial⟩
  | fixBus p b v i n rest mem fixed at_ in_ cur next track =>
    refine h.frame fun l' hw x hx ha => .inr ?_
    have e : x ≠ p := by
      rintro rfl
      have := hp.uniq _ _ _ (show x ∈ s.loc (.finished l') from hx) mem
      simp at this
    simp only [State.setNext, upd_other _ _ _ _ e] at ha ⊢
    exact ⟨hx, ha, trivial⟩
  | wait p w _ =>
    exact h.same (fun _ => rfl) (upd_field _ Pax.adaptive _ _ rfl) (upd_field _ Pax.next _ _ rfl)
  | enterLink p l mem _ _ =>
    exact h.moved hp (a := .incoming l) (b := .walking l) (by simp) mem rfl (by simp) (fun _ => rfl)
      (fun _ => rfl)
  | stamp p l mem _ => exact h.same (fun _ => rfl) (fun _ => rfl) (fun _ => rfl)
  | finishLink p l mem kind _ =>
    refine h.moved hp (a := .walking l) (b := .finished l) (by simp) mem rfl (fun l' e => ?_) (fun _ => rfl)
      (fun _ => rfl)
    simp only [Place.finished.injEq] at e
    subst e
    rcases kind with e | e | e
    · simp at e
    · simp at e
    · exact e
  | move p a b src dst s' mem phase _ legal cross =>
    refine h.moved hp legal.ne mem (by rw [cross.eq]) (fun l e => ?_)
      (cross.field Pax.adaptive rfl)
      (cross.field Pax.next rfl)
    subst e
    cases legal with
    | pass l n next ne walk _ => exact walk
    | alight b v i n next walk alight in_ at_ => exact walk
  | ride p b v i o s' mem at_ in_ out next cur cross =>
    exact h.same (fun l => by rw [cross.eq])
      (cross.field Pax.adaptive rfl)
      (cross.field Pax.next rfl)
  | shuffle a L perm =>
    refine h.frame fun l hw q hq ha => .inr ⟨?_, ha, rfl⟩
    by_cases hx : Place.finished l = a
    · subst hx; simpa [perm.mem_iff] using hq
    · simpa only [upd_other _ _ _ _ hx] using hq
  | busIn _ v b k known route free add => exact h.same (fun _ => rfl) (fun _ => rfl) (fun _ => rfl)
  | busOut _ v b k at_ done add => exact h.same (fun _ => rfl) (fun _ => rfl) (fun _ => rfl)
  | book _ f g => exact h.same (fun _ => rfl) (fun _ => rfl) (fun _ => rfl)
  | leave p d s' mem hr =>
    obtain ⟨_, _, rfl⟩ := receivePax_ok hr
    exact h.moved hp (a := .dest d) (b := .gone) (by simp) mem rfl (by simp)
      (upd_field _ Pax.adaptive _ _ rfl) (upd_field _ Pax.next _ _ rfl)
  | record q e _ _ => exact h.same (fun _ => rfl) (fun _ => rfl) (fun _ => rfl)

end Verif.Tr
