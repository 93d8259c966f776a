import Verif.Lemmas.TransitSim
import Verif.Lemmas.History

/-!
# Cumulative curves, itineraries, buses and counters of a multimodal network
-/

namespace Verif.Tr
open Ults Curve

/-! ### What a step changes -/

/-- Nobody is made, moves from link to link, or leaves. -/
structure Quiet (s s' : State) : Prop where
  num : s'.num = s.num
  enroute : s'.enroute = s.enroute
  finished : s'.finished = s.finished
  total : s'.total = s.total
  numPnr : s'.numPnr = s.numPnr
  enroutePnr : s'.enroutePnr = s.enroutePnr
  finishedPnr : s'.finishedPnr = s.finishedPnr
  map : s'.map = s.map
  nIn : s'.nIn = s.nIn
  nOut : s'.nOut = s.nOut
  log : s'.log = s.log
  cur : ∀ q, (s'.pax q).cur = (s.pax q).cur
  start : ∀ q, (s'.pax q).start = (s.pax q).start
  finish : ∀ q, (s'.pax q).finish = (s.pax q).finish
  pnr : ∀ q, (s'.pax q).pnr = (s.pax q).pnr
  gone : (s'.loc .gone).Perm (s.loc .gone)

/-- A passenger is made. -/
structure Made (ts : ℕ) (s s' : State) : Prop where
  num : s'.num = s.num + 1
  enroute : s'.enroute = s.enroute + 1
  finished : s'.finished = s.finished
  total : s'.total = s.total
  numPnr : s'.numPnr = s.numPnr + if (s'.pax (s.num + 1)).pnr then 1 else 0
  enroutePnr : s'.enroutePnr = s.enroutePnr + if (s'.pax (s.num + 1)).pnr then 1 else 0
  finishedPnr : s'.finishedPnr = s.finishedPnr
  map : s'.map = s.map ++ [s.num + 1]
  nIn : s'.nIn = s.nIn
  nOut : s'.nOut = s.nOut
  log : s'.log = s.log
  old : ∀ q, q ≠ s.num + 1 → s'.pax q = s.pax q
  cur : (s'.pax (s.num + 1)).cur = none
  start : (s'.pax (s.num + 1)).start = ts
  finish : (s'.pax (s.num + 1)).finish = -1
  gone : s'.loc .gone = s.loc .gone

theorem icc_succ (n : ℕ) : Finset.Icc 1 (n + 1) = insert (n + 1) (Finset.Icc 1 n) := by
  ext x
  simp only [Finset.mem_insert, Finset.mem_Icc]
  omega

/-- A passenger leaves. -/
structure Left (ts p : ℕ) (s s' : State) : Prop where
  mem : p ∈ s.map
  num : s'.num = s.num
  enroute : s'.enroute = s.enroute - 1
  finished : s'.finished = s.finished + 1
  total : s'.total = s.total + (((ts : ℤ) - (s.pax p).start : ℤ) : ℚ)
  numPnr : s'.numPnr = s.numPnr
  enroutePnr : s'.enroutePnr = s.enroutePnr - if (s.pax p).pnr then 1 else 0
  finishedPnr : s'.finishedPnr = s.finishedPnr + if (s.pax p).pnr then 1 else 0
  map : s'.map = s.map.erase p
  nIn : s'.nIn = s.nIn
  nOut : s'.nOut = s.nOut
  log : s'.log = s.log
  other : ∀ q, q ≠ p → s'.pax q = s.pax q
  cur : (s'.pax p).cur = (s.pax p).cur
  start : (s'.pax p).start = (s.pax p).start
  finish : (s'.pax p).finish = ts
  pnr : (s'.pax p).pnr = (s.pax p).pnr
  gone : s'.loc .gone = s.loc .gone ++ [p]

theorem receivePax_left {c : Cfg} {ts d p : ℕ} {s s' : State} (h : receivePax c ts d s p = .ok s') :
    Left ts p s s' := by
  obtain ⟨_, hm, rfl⟩ := receivePax_ok h
  refine ⟨hm, rfl, rfl, rfl, rfl, rfl, ?_, ?_, rfl, rfl, rfl, rfl, fun q hq => ?_, ?_, ?_, ?_, ?_, ?_⟩
  · show (if _ then _ else _) = _
    split <;> simp
  · show (if _ then _ else _) = _
    split <;> simp
  · simp only [upd_other _ _ _ _ hq]
  · simp only [upd_same]
  · simp only [upd_same]
  · simp only [upd_same]
  · simp only [upd_same]
  · exact (shift_loc s p (a := .dest d) (b := .gone) (by simp) _).trans (if_pos rfl)

theorem Left.field {ts p : ℕ} {s s' : State} (h : Left ts p s s') :
    ∀ q, (s'.pax q).cur = (s.pax q).cur ∧ (s'.pax q).start = (s.pax q).start ∧
      (s'.pax q).pnr = (s.pax q).pnr := fun q => by
  by_cases e : q = p
  · subst e; exact ⟨h.cur, h.start, h.pnr⟩
  · rw [h.other q e]; exact ⟨rfl, rfl, rfl⟩

/-- The kinds of steps. -/
inductive Eff (c : Cfg) (ts : ℕ) (s s' : State) : Prop where
  | quiet (h : Quiet s s')
  | made (h : Made ts s s')
  | cross (p : ℕ) (a : Place) (src dst : Option ℕ) (t : State) (mem : p ∈ s.loc a)
      (cur : (s.pax p).cur = src) (quiet : Quiet s t) (h : Crossed c ts p src dst t s')
  | leave (p d : ℕ) (mem : p ∈ s.loc (.dest d)) (h : Left ts p s s')

theorem Quiet.of_pax {s s' : State} {f : ℕ → Pax} {tr : ℕ → Option (List ℕ)}
    (h : s' = { s with pax := f, tracker := tr }) (h1 : ∀ q, (f q).cur = (s.pax q).cur)
    (h2 : ∀ q, (f q).start = (s.pax q).start) (h3 : ∀ q, (f q).finish = (s.pax q).finish)
    (h4 : ∀ q, (f q).pnr = (s.pax q).pnr) : Quiet s s' := by
  subst h
  exact ⟨rfl, rfl, rfl, rfl, rfl, rfl, rfl, rfl, rfl, rfl, rfl, h1, h2, h3, h4, .refl _⟩

theorem Quiet.of_upd {s s' : State} {p : ℕ} {x : Pax} {tr : ℕ → Option (List ℕ)}
    (h : s' = { s with pax := upd s.pax p x, tracker := tr }) (h1 : x.cur = (s.pax p).cur)
    (h2 : x.start = (s.pax p).start) (h3 : x.finish = (s.pax p).finish) (h4 : x.pnr = (s.pax p).pnr) :
    Quiet s s' :=
  .of_pax h (upd_field _ Pax.cur _ _ h1) (upd_field _ Pax.start _ _ h2) (upd_field _ Pax.finish _ _ h3)
    (upd_field _ Pax.pnr _ _ h4)

theorem Quiet.of_loc {s : State} {f : Place → List ℕ} {st : ℕ → ℕ → ℤ}
    (h : (f .gone).Perm (s.loc .gone)) : Quiet s { s with loc := f, stamp := st } :=
  ⟨rfl, rfl, rfl, rfl, rfl, rfl, rfl, rfl, rfl, rfl, rfl, fun _ => rfl, fun _ => rfl, fun _ => rfl,
    fun _ => rfl, h⟩

theorem Quiet.shift (s : State) (p : ℕ) {a b : Place} (ha : a ≠ .gone) (hb : b ≠ .gone) :
    Quiet s (s.shift p a b) := by
  refine Quiet.of_loc (s := s) (st := s.stamp) ?_
  simp only [upd_other _ _ _ _ (Ne.symm hb), upd_other _ _ _ _ (Ne.symm ha)]
  exact .refl _

theorem Micro.eff {c : Cfg} {R : Routes} {strict : Prop} {ts : ℕ} {ph : Phase} {s s' : State}
    (hl : Located c s) (hs : AtStops c s) (m : Micro c R strict ts ph s s') : Eff c ts s s' := by
  cases m with
  | release o ad junk d assign =>
    refine .made ⟨rfl, rfl, rfl, rfl, ?_, ?_, rfl, rfl, rfl, rfl, rfl, ?_, ?_, ?_, ?_, ?_⟩
    · simp [State.makePax]
    · simp [State.makePax]
    · intro q hq; simp [State.makePax, upd_other _ _ _ _ hq]
    · simp [State.makePax]
    · simp [State.makePax]
    · simp [State.makePax]
    · simp [upd]
  | park orc k car _ =>
    cases hpnr : car.pnr
    · refine .quiet ?_
      simp only [parkCar, hpnr, Bool.false_eq_true, if_false]
      exact ⟨rfl, rfl, rfl, rfl, rfl, rfl, rfl, rfl, rfl, rfl, rfl, fun _ => rfl, fun _ => rfl, fun _ => rfl,
        fun _ => rfl, .refl _⟩
    · refine .made ?_
      simp only [parkCar, hpnr, if_true]
      refine ⟨rfl, rfl, rfl, rfl, ?_, ?_, rfl, rfl, rfl, rfl, rfl, ?_, ?_, ?_, ?_, ?_⟩
      · simp [State.makePax]
      · simp [State.makePax]
      · intro q hq; simp [State.makePax, upd_other _ _ _ _ hq]
      · simp [State.makePax]
      · simp [State.makePax]
      · simp [State.makePax]
      · simp [upd, State.makePax]
  | lotRec k _ =>
    exact .quiet ⟨rfl, rfl, rfl, rfl, rfl, rfl, rfl, rfl, rfl, rfl, rfl, fun _ => rfl, fun _ => rfl, fun _ => rfl,
        fun _ => rfl, .refl _⟩
  | path p q ad => exact .quiet (.of_upd rfl rfl rfl rfl rfl)
  | enroll p a q l rest mem start fixed new known chosen path => exact .quiet (.of_upd rfl rfl rfl rfl rfl)
  | startNext p a l mem start ad => exact .quiet (.of_upd rfl rfl rfl rfl rfl)
  | linkNext p l n mem ad => exact .quiet (.of_upd rfl rfl rfl rfl rfl)
  | busNext p b v i n mem ad at_ in_ cur => exact .quiet (.of_upd rfl rfl rfl rfl rfl)
  | fixNext p l a n rest mem fixed cur next track node => exact .quiet (.of_upd rfl rfl rfl rfl rfl)
  | fixEnd p l mem fixed track node => exact .quiet (.of_upd rfl rfl rfl rfl rfl)
  | fixBus p b v i n rest mem fixed at_ in_ cur next track => exact .quiet (.of_upd rfl rfl rfl rfl rfl)
  | wait p w _ => exact .quiet (.of_upd rfl rfl rfl rfl rfl)
  | enterLink p l mem _ _ =>
    exact .quiet (Quiet.of_loc (s := s) (f := (s.shift p (.incoming l) (.walking l)).loc) (Quiet.shift s p (by simp) (by simp)).gone)
  | stamp p l mem _ => exact .quiet (Quiet.of_loc (s := s) (f := s.loc) (.refl _))
  | finishLink p l mem _ _ => exact .quiet (.shift s p (by simp) (by simp))
  | move p a b src dst s' mem phase _ legal cross =>
    refine .cross p a src dst _ mem (legal.src hl hs mem) (.shift s p ?_ ?_) cross
    · cases legal <;> simp
    · cases legal <;> simp
  | ride p b v i o s' mem at_ in_ out next cur cross =>
    exact .cross p _ _ _ s mem (ride_src hl hs mem at_ in_ next cur)
      (Quiet.of_loc (s := s) (f := s.loc) (st := s.stamp) (.refl _)) cross
  | shuffle a L perm =>
    refine .quiet (Quiet.of_loc (s := s) (st := s.stamp) ?_)
    by_cases h : Place.gone = a
    · subst h; simpa using perm
    · rw [upd_other _ _ _ _ h]
  | busIn _ v b k known route free add =>
    exact .quiet ⟨rfl, rfl, rfl, rfl, rfl, rfl, rfl, rfl, rfl, rfl, rfl, fun _ => rfl, fun _ => rfl, fun _ => rfl,
        fun _ => rfl, .refl _⟩
  | busOut _ v b k at_ done add =>
    exact .quiet ⟨rfl, rfl, rfl, rfl, rfl, rfl, rfl, rfl, rfl, rfl, rfl, fun _ => rfl, fun _ => rfl, fun _ => rfl,
        fun _ => rfl, .refl _⟩
  | book _ f g =>
    exact .quiet ⟨rfl, rfl, rfl, rfl, rfl, rfl, rfl, rfl, rfl, rfl, rfl, fun _ => rfl, fun _ => rfl, fun _ => rfl,
        fun _ => rfl, .refl _⟩
  | leave p d s' mem h => exact .leave p d mem (receivePax_left h)
  | record q e _ _ =>
    exact .quiet ⟨rfl, rfl, rfl, rfl, rfl, rfl, rfl, rfl, rfl, rfl, rfl, fun _ => rfl, fun _ => rfl, fun _ => rfl,
        fun _ => rfl, .refl _⟩

/-! ### Itineraries -/

theorem moves_append (log : List Net.Event) (e : Net.Event) (p : ℕ) :
    moves (log ++ [e]) p = moves log p ++ (if e.veh = p then [e] else []) := by
  unfold moves
  rw [List.filter_append]
  by_cases h : e.veh = p <;> simp [h]

theorem Continuous.snoc {a b : Option ℕ} : ∀ {L : List Net.Event}, Continuous a b L → ∀ {e : Net.Event},
    e.src = b → Continuous a e.dst (L ++ [e])
  | [], h, e, he => ⟨he.trans h.symm, rfl⟩
  | _ :: _, h, _, he => ⟨h.1, Continuous.snoc h.2 he⟩

/-- Movements are continuous and end where the passenger is. -/
def Trips (s : State) : Prop := ∀ p, Continuous none (s.pax p).cur (moves s.log p)

theorem Trips.eff {c : Cfg} {ts : ℕ} {s s' : State} (h : Trips s) (hk : Known s) (m : Eff c ts s s') :
    Trips s' := by
  cases m with
  | quiet q => exact fun p => by rw [q.log, q.cur]; exact h p
  | made q =>
    intro p
    rw [q.log]
    by_cases e : p = s.num + 1
    · subst e
      rw [q.cur]
      have : moves s.log (s.num + 1) = [] := by
        refine List.filter_eq_nil_iff.2 fun x he => ?_
        have := (hk.log x he).2
        simp only [decide_eq_true_eq]
        omega
      rw [this]
      rfl
    · rw [q.old p e]; exact h p
  | cross p a src dst t mem cur q x =>
    intro r
    rw [x.eq]
    simp only [moves_append, q.log]
    by_cases e : r = p
    · subst e
      rw [upd_same, if_pos rfl]
      exact (h r).snoc (e := ⟨ts, r, src, dst⟩) cur.symm
    · rw [upd_other _ _ _ _ e, if_neg (Ne.symm e), List.append_nil, q.cur]
      exact h r
  | leave p d mem q =>
    intro r
    rw [q.log, (q.field r).1]
    exact h r

/-! ### Curves -/

theorem card_change {S : Finset ℕ} {p : ℕ} (hp : p ∈ S) {f g : ℕ → Option ℕ} (h : ∀ q, q ≠ p → g q = f q)
    (l : ℕ) : (S.filter fun q => g q = some l).card + (if f p = some l then 1 else 0) =
      (S.filter fun q => f q = some l).card + (if g p = some l then 1 else 0) := by
  have key : ∀ k : ℕ → Option ℕ, (S.filter fun q => k q = some l).card =
      ((S.erase p).filter fun q => k q = some l).card + (if k p = some l then 1 else 0) := by
    intro k
    conv_lhs => rw [← Finset.insert_erase hp, Finset.filter_insert]
    split
    · rw [Finset.card_insert_of_notMem (by simp)]
    · simp
  rw [key f, key g, Finset.filter_congr (q := fun q => f q = some l) fun q hq => by
    rw [h q (Finset.ne_of_mem_erase hq)]]
  omega

theorem entries_length (log : List Net.Event) (e : Net.Event) (l : ℕ) :
    (Net.entries (log ++ [e]) l).length = (Net.entries log l).length + if e.dst = some l then 1 else 0 := by
  rw [Net.entries_append, List.length_append]
  congr 1
  unfold Net.entries
  split <;> simp [*]

theorem exits_length (log : List Net.Event) (e : Net.Event) (l : ℕ) :
    (Net.exits (log ++ [e]) l).length = (Net.exits log l).length + if e.src = some l then 1 else 0 := by
  rw [Net.exits_append, List.length_append]
  congr 1
  unfold Net.exits
  split <;> simp [*]

/-- The curves record the movements. -/
structure Curves (c : Cfg) (ts : ℕ) (s : State) : Prop where
  nIn : ∀ l, Res.foldlM addIncrement install (Tt.flows c.scalar (Net.entries s.log l)) = .ok (s.nIn l)
  nOut : ∀ l, Res.foldlM addIncrement install (Tt.flows c.scalar (Net.exits s.log l)) = .ok (s.nOut l)
  time : ∀ e ∈ s.log, e.t ≤ ts
  order : s.log.Pairwise fun a b => a.t ≤ b.t
  count : ∀ l, (Net.entries s.log l).length = (Net.exits s.log l).length + onLink s l
  le : ∀ l t, Tt.upTo (Net.exits s.log l) t ≤ Tt.upTo (Net.entries s.log l) t

theorem flows_one (σ : ℚ) (ts : ℕ) : Tt.flows σ [(ts + 1, 1)] = [((ts : ℚ) + 1, 1 / σ)] := by
  simp [Tt.flows]

theorem Curves.eff {c : Cfg} {ts : ℕ} {s s' : State} (h : Curves c ts s) (hp : Placed s)
    (m : Eff c ts s s') : Curves c ts s' := by
  cases m with
  | quiet q =>
    refine ⟨by rw [q.log, q.nIn]; exact h.nIn, by rw [q.log, q.nOut]; exact h.nOut,
      by rw [q.log]; exact h.time, by rw [q.log]; exact h.order, fun l => ?_, by rw [q.log]; exact h.le⟩
    have : onLink s' l = onLink s l := by simp only [onLink, q.num, q.cur]
    rw [this, q.log]; exact h.count l
  | made q =>
    refine ⟨by rw [q.log, q.nIn]; exact h.nIn, by rw [q.log, q.nOut]; exact h.nOut,
      by rw [q.log]; exact h.time, by rw [q.log]; exact h.order, fun l => ?_, by rw [q.log]; exact h.le⟩
    have : onLink s' l = onLink s l := by
      unfold onLink
      rw [q.num, icc_succ, Finset.filter_insert, q.cur]
      simp only [reduceCtorEq, if_false]
      refine congrArg Finset.card (Finset.filter_congr fun x hx => ?_)
      rw [q.old x (by have := (Finset.mem_Icc.1 hx).2; omega)]
    rw [this, q.log]; exact h.count l
  | cross p a src dst t mem cur q x =>
    have elog : s'.log = s.log ++ [⟨ts, p, src, dst⟩] := by rw [x.eq, q.log]
    have hmem : p ∈ Finset.Icc 1 s.num := Finset.mem_Icc.2 ((hp.mem p).1 ⟨a, mem⟩)
    have htime : ∀ e ∈ s'.log, e.t ≤ ts := fun e he => by
      rw [elog] at he
      rcases List.mem_append.1 he with he | he
      · exact h.time e he
      · rw [List.mem_singleton.1 he]
    have hcount : ∀ l, (Net.entries s'.log l).length = (Net.exits s'.log l).length + onLink s' l := fun l => by
      rw [elog, entries_length, exits_length, h.count l]
      have := card_change hmem (f := fun r => (s.pax r).cur) (g := fun r => (s'.pax r).cur) (fun r hr => by
        rw [x.eq]; simp only [upd_other _ _ _ _ hr]; exact q.cur r) l
      have e1 : (s'.pax p).cur = dst := by rw [x.eq]; simp
      have e2 : s'.num = s.num := by rw [x.eq]; exact q.num
      simp only [e1, cur] at this
      unfold onLink
      rw [e2]
      simp only
      omega
    refine ⟨fun l => ?_, fun l => ?_, htime, ?_, hcount, fun l t => ?_⟩
    · rw [elog, Net.entries_append, Net.flows_append, Res.foldlM_append, h.nIn l, Res.ok_bind]
      by_cases hd : dst = some l
      · have := x.inAdd l hd
        rw [q.nIn] at this
        simp only [Net.entries, hd, List.filter_cons, decide_true, if_true, List.filter_nil, List.map_cons,
          List.map_nil, flows_one, Res.foldlM_cons, this, Res.foldlM_nil, Res.ok_bind]
      · have := x.inSame l hd
        rw [q.nIn] at this
        simp [Net.entries, hd, Tt.flows, this]
    · rw [elog, Net.exits_append, Net.flows_append, Res.foldlM_append, h.nOut l, Res.ok_bind]
      by_cases hd : src = some l
      · have := x.outAdd l hd
        rw [q.nOut] at this
        simp only [Net.exits, hd, List.filter_cons, decide_true, if_true, List.filter_nil, List.map_cons,
          List.map_nil, flows_one, Res.foldlM_cons, this, Res.foldlM_nil, Res.ok_bind]
      · have := x.outSame l hd
        rw [q.nOut] at this
        simp [Net.exits, hd, Tt.flows, this]
    · rw [elog, List.pairwise_append]
      refine ⟨h.order, by simp, fun x hx y hy => ?_⟩
      rw [List.mem_singleton.1 hy]
      exact h.time x hx
    · by_cases ht : ts + 1 ≤ t
      · rw [Net.upTo_all (h := Net.exits s'.log l), Net.upTo_all (h := Net.entries s'.log l)]
        · have := hcount l; omega
        · intro x hx
          simp only [Net.entries, List.mem_map, List.mem_filter] at hx
          obtain ⟨e, ⟨he, _⟩, rfl⟩ := hx
          have := htime e he
          exact ⟨rfl, by simp only; omega⟩
        · intro x hx
          simp only [Net.exits, List.mem_map, List.mem_filter] at hx
          obtain ⟨e, ⟨he, _⟩, rfl⟩ := hx
          have := htime e he
          exact ⟨rfl, by simp only; omega⟩
      · rw [elog, Net.exits_append, Net.entries_append, Net.upTo_append, Net.upTo_append,
          Net.upTo_late (h := Net.exits [_] l), Net.upTo_late (h := Net.entries [_] l)]
        · simpa using h.le l t
        · intro x hx
          simp only [Net.entries, List.mem_map, List.mem_filter, List.mem_singleton] at hx
          obtain ⟨e, ⟨rfl, _⟩, rfl⟩ := hx
          simp only; omega
        · intro x hx
          simp only [Net.exits, List.mem_map, List.mem_filter, List.mem_singleton] at hx
          obtain ⟨e, ⟨rfl, _⟩, rfl⟩ := hx
          simp only; omega
  | leave p d mem q =>
    refine ⟨by rw [q.log, q.nIn]; exact h.nIn, by rw [q.log, q.nOut]; exact h.nOut,
      by rw [q.log]; exact h.time, by rw [q.log]; exact h.order, fun l => ?_, by rw [q.log]; exact h.le⟩
    have : onLink s' l = onLink s l := by simp only [onLink, q.num, fun r => (q.field r).1]
    rw [this, q.log]; exact h.count l

/-! ### The passenger factory -/

/-- The counters of the factory. -/
structure Factory (s : State) : Prop where
  enroute : s.enroute = (s.num : ℤ) - (s.loc .gone).length
  finished : s.finished = (s.loc .gone).length
  nodup : s.map.Nodup
  map : ∀ p, p ∈ s.map ↔ (1 ≤ p ∧ p ≤ s.num) ∧ p ∉ s.loc .gone
  total : s.total = ((s.loc .gone).map fun p => (((s.pax p).finish - (s.pax p).start : ℤ) : ℚ)).sum
  numPnr : s.numPnr = (((Finset.Icc 1 s.num).filter fun p => (s.pax p).pnr = true).card : ℤ)
  finishedPnr : s.finishedPnr = ((s.loc .gone).countP fun p => (s.pax p).pnr : ℕ)
  enroutePnr : s.enroutePnr = s.numPnr - s.finishedPnr
  finish : ∀ p, p ∉ s.loc .gone → (s.pax p).finish = -1

/-- The counters and what they count do not change. -/
structure Still (s s' : State) : Prop where
  num : s'.num = s.num
  enroute : s'.enroute = s.enroute
  finished : s'.finished = s.finished
  total : s'.total = s.total
  numPnr : s'.numPnr = s.numPnr
  enroutePnr : s'.enroutePnr = s.enroutePnr
  finishedPnr : s'.finishedPnr = s.finishedPnr
  map : s'.map = s.map
  start : ∀ q, (s'.pax q).start = (s.pax q).start
  finish : ∀ q, (s'.pax q).finish = (s.pax q).finish
  pnr : ∀ q, (s'.pax q).pnr = (s.pax q).pnr
  gone : (s'.loc .gone).Perm (s.loc .gone)

theorem Quiet.still {s s' : State} (q : Quiet s s') : Still s s' :=
  ⟨q.num, q.enroute, q.finished, q.total, q.numPnr, q.enroutePnr, q.finishedPnr, q.map, q.start, q.finish,
    q.pnr, q.gone⟩

theorem Quiet.cross {c : Cfg} {ts p : ℕ} {src dst : Option ℕ} {s t s' : State} (q : Quiet s t)
    (x : Crossed c ts p src dst t s') : Still s s' := by
  have e1 : ∀ r, (s'.pax r).finish = (t.pax r).finish := x.field Pax.finish rfl
  have e2 : ∀ r, (s'.pax r).start = (t.pax r).start := x.field Pax.start rfl
  have e3 : ∀ r, (s'.pax r).pnr = (t.pax r).pnr := x.field Pax.pnr rfl
  refine ⟨?_, ?_, ?_, ?_, ?_, ?_, ?_, ?_, fun r => (e2 r).trans (q.start r), fun r => (e1 r).trans (q.finish r),
    fun r => (e3 r).trans (q.pnr r), ?_⟩
  · rw [x.eq]; exact q.num
  · rw [x.eq]; exact q.enroute
  · rw [x.eq]; exact q.finished
  · rw [x.eq]; exact q.total
  · rw [x.eq]; exact q.numPnr
  · rw [x.eq]; exact q.enroutePnr
  · rw [x.eq]; exact q.finishedPnr
  · rw [x.eq]; exact q.map
  · rw [x.eq]; exact q.gone

theorem Factory.eff {c : Cfg} {ts : ℕ} {s s' : State} (h : Factory s) (hp : Placed s)
    (m : Eff c ts s s') : Factory s' := by
  have hg : ∀ p ∈ s.loc .gone, 1 ≤ p ∧ p ≤ s.num := fun p hm => (hp.mem p).1 ⟨_, hm⟩
  have quiet : ∀ {t}, Still s t → Factory t := fun {t} q => by
    refine ⟨?_, ?_, ?_, ?_, ?_, ?_, ?_, ?_, ?_⟩
    · rw [q.enroute, q.num, q.gone.length_eq]; exact h.enroute
    · rw [q.finished, q.gone.length_eq]; exact h.finished
    · rw [q.map]; exact h.nodup
    · intro p; rw [q.map, q.num, q.gone.mem_iff]; exact h.map p
    · rw [q.total, h.total]
      simp only [q.finish, q.start]
      exact ((q.gone.map _).sum_eq).symm
    · rw [q.numPnr, q.num]; simp only [q.pnr]; exact h.numPnr
    · rw [q.finishedPnr, q.gone.countP_eq]; simp only [q.pnr]; exact h.finishedPnr
    · rw [q.enroutePnr, q.numPnr, q.finishedPnr]; exact h.enroutePnr
    · intro p hm; rw [q.finish]; exact h.finish p (by rwa [q.gone.mem_iff] at hm)
  cases m with
  | quiet q => exact quiet q.still
  | made q =>
    have hne : ∀ p ∈ s.loc .gone, p ≠ s.num + 1 := fun p hm => by have := hg p hm; omega
    refine ⟨?_, ?_, ?_, ?_, ?_, ?_, ?_, ?_, ?_⟩
    · rw [q.enroute, q.num, q.gone, h.enroute]; push_cast; ring
    · rw [q.finished, q.gone]; exact h.finished
    · rw [q.map, List.nodup_append]
      refine ⟨h.nodup, by simp, fun x hx y hy e => ?_⟩
      have := ((h.map x).1 hx).1
      rw [List.mem_singleton.1 hy] at e
      omega
    · intro p
      rw [q.map, q.num, q.gone, List.mem_append, h.map, List.mem_singleton]
      constructor
      · rintro (⟨h1, h2⟩ | rfl)
        · exact ⟨by omega, h2⟩
        · exact ⟨by omega, fun hm => hne _ hm rfl⟩
      · rintro ⟨h1, h2⟩
        by_cases e : p = s.num + 1
        · exact .inr e
        · exact .inl ⟨by omega, h2⟩
    · rw [q.total, h.total, q.gone]
      congr 1
      refine List.map_congr_left fun p hm => ?_
      rw [q.old p (hne p hm)]
    · rw [q.numPnr, q.num, icc_succ, Finset.filter_insert, h.numPnr]
      have e : (Finset.Icc 1 s.num).filter (fun p => (s'.pax p).pnr = true) =
          (Finset.Icc 1 s.num).filter (fun p => (s.pax p).pnr = true) :=
        Finset.filter_congr fun x hx => by
          rw [q.old x (by have := (Finset.mem_Icc.1 hx).2; omega)]
      rw [e]
      split
      · rw [Finset.card_insert_of_notMem (by simp)]; push_cast; ring
      · simp
    · rw [q.finishedPnr, q.gone, h.finishedPnr]
      congr 1
      exact List.countP_congr fun p hm => by rw [q.old p (hne p hm)]
    · rw [q.enroutePnr, q.numPnr, q.finishedPnr, h.enroutePnr]; ring
    · intro p hm
      rw [q.gone] at hm
      by_cases e : p = s.num + 1
      · rw [e]; exact q.finish
      · rw [q.old p e]; exact h.finish p hm
  | cross p a src dst t mem cur q x =>
    exact quiet (q.cross x)
  | leave p d mem q =>
    have hgone : p ∉ s.loc .gone := fun hx => by have := hp.uniq _ _ _ hx mem; simp at this
    have hne : ∀ q ∈ s.loc .gone, q ≠ p := fun q hq e => hgone (e ▸ hq)
    refine ⟨?_, ?_, ?_, ?_, ?_, ?_, ?_, ?_, ?_⟩
    · rw [q.enroute, q.num, q.gone, h.enroute]; simp; ring
    · rw [q.finished, q.gone, h.finished]; simp
    · rw [q.map]; exact h.nodup.erase p
    · intro r
      rw [q.map, q.num, q.gone, h.nodup.mem_erase_iff, h.map, List.mem_append, List.mem_singleton]
      tauto
    · rw [q.total, h.total, q.gone, List.map_append, List.sum_append]
      congr 1
      · congr 1
        refine List.map_congr_left fun r hm => ?_
        rw [q.other r (hne r hm)]
      · simp [q.finish, q.start]
    · rw [q.numPnr, q.num, h.numPnr]; simp only [fun r => (q.field r).2.2]
    · rw [q.finishedPnr, q.gone, h.finishedPnr, List.countP_append]
      simp only [fun r => (q.field r).2.2, List.countP_singleton]
      split <;> simp
    · rw [q.enroutePnr, q.numPnr, q.finishedPnr, h.enroutePnr]; ring
    · intro r hm
      rw [q.gone, List.mem_append, List.mem_singleton, not_or] at hm
      rw [q.other r hm.2]; exact h.finish r hm.1

/-! ### Buses -/

/-- Buses are at stops of their routes, are not overcrowded, and passengers on board ride on links of
the bus route. -/
structure Buses (c : Cfg) (s : State) : Prop where
  queue : ∀ v b, b ∈ s.busQ v → (c.vstop v).route = c.busRoute b
  cap : ∀ b, ((s.loc (.bus b)).length : ℤ) ≤ max 0 (trunc (c.busCap * c.scalar))
  ride : ∀ b p, p ∈ s.loc (.bus b) → ∃ i, (s.pax p).cur = some i ∧ (c.link i).kind = .bus (c.busRoute b)

theorem Buses.frame {c : Cfg} {s s' : State} (h : Buses c s) (hq : s'.busQ = s.busQ)
    (hl : ∀ b, (s'.loc (.bus b)).Perm (s.loc (.bus b)))
    (hc : ∀ b, ∀ q ∈ s.loc (.bus b), (s'.pax q).cur = (s.pax q).cur) : Buses c s' :=
  ⟨by rw [hq]; exact h.queue, fun b => by rw [(hl b).length_eq]; exact h.cap b, fun b p hp => by
    have hp := (hl b).mem_iff.1 hp
    rw [hc b p hp]; exact h.ride b p hp⟩

theorem Buses.same {c : Cfg} {s s' : State} (h : Buses c s) (hq : s'.busQ = s.busQ) (hl : s'.loc = s.loc)
    (hc : ∀ q, (s'.pax q).cur = (s.pax q).cur) : Buses c s' :=
  h.frame hq (fun b => by rw [hl]) fun _ q _ => hc q

theorem Buses.micro {c : Cfg} (hc : c.Wf) {R : Routes} {strict : Prop} {ts : ℕ} {ph : Phase} {s s' : State}
    (h : Buses c s) (hp : Placed s) (hs : AtStops c s) (m : Micro c R strict ts ph s s') : Buses c s' := by
  have hnew : ∀ b, ∀ q ∈ s.loc (.bus b), q ≠ s.num + 1 := fun b q hq => by
    have := (hp.mem _).1 ⟨_, hq⟩
    omega
  cases m with
  | release o ad junk d assign =>
    exact h.frame rfl (fun b => by simp [upd]) fun b q hq => by
      simp [State.makePax, upd_other _ _ _ _ (hnew b q hq)]
  | park orc k car _ =>
    refine h.frame (parkCar_busQ orc ts k s car) (fun b => ?_) fun b q hq => by
      rw [parkCar_pax orc ts k s car (hnew b q hq)]
    rcases parkCar_num orc ts k s car with ⟨_, e⟩ | ⟨_, _, e⟩
    · rw [e]
    · rw [e]; simp [upd]
  | lotRec k _ => exact h.frame rfl (fun _ => .refl _) fun _ _ _ => rfl
  | path p q ad => exact h.same rfl rfl (upd_field _ Pax.cur _ _ rfl)
  | enroll p a q l rest mem start fixed new known chosen path =>
    exact h.same rfl rfl (upd_field _ Pax.cur _ _ rfl)
  | startNext p a l mem start ad =>
    exact h.same rfl rfl (upd_field _ Pax.cur _ _ rfl)
  | linkNext p l n mem ad =>
    exact h.same rfl rfl (upd_field _ Pax.cur _ _ rfl)
  | busNext p b v i n mem ad at_ in_ cur =>
    exact h.same rfl rfl (upd_field _ Pax.cur _ _ rfl)
  | fixNext p l a n rest mem fixed cur next track node =>
    exact h.same rfl rfl (upd_field _ Pax.cur _ _ rfl)
  | fixEnd p l mem fixed track node =>
    exact h.same rfl rfl (upd_field _ Pax.cur _ _ rfl)
  | fixBus p b v i n rest mem fixed at_ in_ cur next track =>
    exact h.same rfl rfl (upd_field _ Pax.cur _ _ rfl)
  | wait p w _ => exact h.same rfl rfl (upd_field _ Pax.cur _ _ rfl)
  | enterLink p l mem _ _ =>
    refine h.frame rfl (fun b => ?_) fun _ _ _ => rfl
    show ((s.shift p (.incoming l) (.walking l)).loc (.bus b)).Perm _
    rw [shift_loc s p (by simp)]; simp
  | stamp p l mem _ => exact h.frame rfl (fun _ => .refl _) fun _ _ _ => rfl
  | finishLink p l mem _ _ =>
    refine h.frame rfl (fun b => ?_) fun _ _ _ => rfl
    rw [shift_loc s p (by simp)]; simp
  | move p a b src dst s' mem phase _ legal cross =>
    have eloc : s'.loc = (s.shift p a b).loc := by rw [cross.eq]
    have ebus : s'.busQ = s.busQ := by rw [cross.eq]; rfl
    have ecur : ∀ q, q ≠ p → (s'.pax q).cur = (s.pax q).cur := fun q hq => by
      rw [cross.eq]; simp only [upd_other _ _ _ _ hq]; rfl
    have eself : (s'.pax p).cur = dst := by rw [cross.eq]; simp
    have plain : (∀ x, a ≠ .bus x) → (∀ x, b ≠ .bus x) → Buses c s' := fun ha hb =>
      h.frame ebus (fun x => by
        rw [eloc, shift_loc s p legal.ne, if_neg (Ne.symm (hb x)), if_neg (Ne.symm (ha x))]) fun x q hq =>
          ecur q fun e => ha x (hp.uniq _ _ _ mem (e ▸ hq))
    cases legal with
    | origin o l next => exact plain (by simp) (by simp)
    | lot k l next => exact plain (by simp) (by simp)
    | walk l n next ne => exact plain (by simp) (by simp)
    | pass l n next ne walk _ => exact plain (by simp) (by simp)
    | arrive l d known door next => exact plain (by simp) (by simp)
    | board w b v n next ne kind board out at_ cap =>
      have hlen : ((s.shift p (.finished w) (.bus b)).loc (.bus b)).length = (s.loc (.bus b)).length + 1 := by
        rw [shift_loc s p (by simp)]; simp
      refine ⟨by rw [ebus]; exact h.queue, fun x => ?_, fun x q hq => ?_⟩
      · rw [eloc]
        by_cases e : x = b
        · subst e
          rw [hlen]
          have := le_max_right 0 (trunc (c.busCap * c.scalar))
          push_cast
          omega
        · rw [shift_loc s p (by simp), if_neg (by simpa using e), if_neg (by simp)]
          exact h.cap x
      · rw [eloc] at hq
        rcases (hp.shift_mem (by simp) mem q _).1 hq with ⟨rfl, e⟩ | ⟨e, hq⟩
        · obtain rfl : x = b := by simpa using e
          exact ⟨n, eself, kind⟩
        · rw [ecur q e]; exact h.ride x q hq
    | alight b v i n next walk alight in_ at_ =>
      refine ⟨by rw [ebus]; exact h.queue, fun x => ?_, fun x q hq => ?_⟩
      · rw [eloc, shift_loc s p (by simp), if_neg (by simp)]
        split
        · have := h.cap b
          have := List.length_erase_le (l := s.loc (.bus b)) (a := p)
          omega
        · exact h.cap x
      · rw [eloc] at hq
        rcases (hp.shift_mem (by simp) mem q _).1 hq with ⟨rfl, e⟩ | ⟨e, hq⟩
        · simp at e
        · rw [ecur q e]; exact h.ride x q hq
  | ride p b v i o s' mem at_ in_ out next cur cross =>
    have eloc : s'.loc = s.loc := by rw [cross.eq]
    have ebus : s'.busQ = s.busQ := by rw [cross.eq]
    refine ⟨by rw [ebus]; exact h.queue, by rw [eloc]; exact h.cap, fun x q hq => ?_⟩
    rw [eloc] at hq
    by_cases e : q = p
    · subst e
      obtain rfl : b = x := by simpa using hp.uniq _ _ _ mem hq
      refine ⟨o, by rw [cross.eq]; simp, ?_⟩
      rw [hc.busOut v (hs.known v b at_) o out, h.queue v b at_]
    · rw [cross.eq]; simp only [upd_other _ _ _ _ e]; exact h.ride x q hq
  | shuffle a L perm =>
    refine h.frame rfl (fun b => ?_) fun _ _ _ => rfl
    by_cases e : Place.bus b = a
    · subst e; simpa using perm
    · simp only [upd_other _ _ _ _ e]; exact .refl _
  | busIn _ v b k known route free add =>
    refine ⟨fun v' b' hb => ?_, h.cap, h.ride⟩
    by_cases e : v' = v
    · subst e
      simp only [upd_same, List.mem_append, List.mem_singleton] at hb
      rcases hb with hb | rfl
      · exact h.queue v' b' hb
      · exact route
    · simp only [upd_other _ _ _ _ e] at hb
      exact h.queue v' b' hb
  | busOut _ v b k at_ done add =>
    refine ⟨fun v' b' hb => ?_, h.cap, h.ride⟩
    by_cases e : v' = v
    · subst e
      simp only [upd_same] at hb
      exact h.queue v' b' (List.mem_of_mem_erase hb)
    · simp only [upd_other _ _ _ _ e] at hb
      exact h.queue v' b' hb
  | book _ f g => exact h.frame rfl (fun _ => .refl _) fun _ _ _ => rfl
  | leave p d s' mem hr =>
    obtain ⟨_, _, rfl⟩ := receivePax_ok hr
    refine h.frame rfl (fun b => ?_) fun b q hq => ?_
    · show ((s.shift p (.dest d) .gone).loc (.bus b)).Perm _
      rw [shift_loc s p (by simp)]; simp
    · exact upd_field s.pax Pax.cur p { s.pax p with finish := (ts : ℤ) } rfl q
  | record q e _ _ => exact h.frame rfl (fun _ => .refl _) fun _ _ _ => rfl

/-! ### All of it -/

/-- The invariants of this file. -/
structure More (c : Cfg) (ts : ℕ) (s : State) : Prop where
  trips : Trips s
  curves : Curves c ts s
  factory : Factory s
  buses : Buses c s

theorem More.micro {c : Cfg} {R : Routes} {strict : Prop} (hy : Hyp c R strict) {ts : ℕ} {ph : Phase}
    {s s' : State} (hi : Inv c R strict s) (h : More c ts s) (m : Micro c R strict ts ph s s') : More c ts s' := by
  have e := m.eff hi.located hi.stops
  exact ⟨h.trips.eff hi.known e, h.curves.eff hi.placed e, h.factory.eff hi.placed e,
    h.buses.micro hy.wf hi.placed hi.stops m⟩

theorem More.init (c : Cfg) : More c 0 (State.init c) := by
  refine ⟨fun p => rfl, ⟨fun l => rfl, fun l => rfl, by simp [State.init], by simp [State.init], fun l => ?_,
    fun l t => by simp [State.init, Net.exits, Net.entries]⟩, ⟨by simp [State.init], by simp [State.init], by simp [State.init], fun p => ?_, by simp [State.init],
      by simp [State.init], by simp [State.init], by simp [State.init], by simp [State.init]⟩,
    ⟨by simp [State.init], by simp [State.init], by simp [State.init]⟩⟩
  · simp [State.init, onLink, Net.entries, Net.exits]
  · simp only [State.init, List.not_mem_nil, not_false_eq_true, and_true, false_iff]; omega

/-- The invariants hold after every loading. -/
theorem load_inv {c : Cfg} {R : Routes} {strict : Prop} (hy : Hyp c R strict) {orcs : List Orc}
    (hok : ∀ o ∈ orcs, o.Ok R) {r : State × ℕ × ℕ} (h : loadMany c orcs 0 0 (State.init c) = .ok r) :
    Inv c R strict r.1 ∧ More c r.2.1 r.1 ∧ r.2.1 = orcs.length := by
  have := loadMany_inv hy (P := fun ts s => More c ts s) (fun ts s s' hi hm m => hm.micro hy hi m)
    (fun ts s hm => ⟨hm.trips, ⟨hm.curves.nIn, hm.curves.nOut, fun e he => Nat.le_succ_of_le (hm.curves.time e he),
      hm.curves.order, hm.curves.count, hm.curves.le⟩, hm.factory, hm.buses⟩) orcs 0 0 _ r hok (Inv.init c R strict)
    (More.init c) h
  exact ⟨this.1, this.2.1, by rw [this.2.2]; omega⟩

end Verif.Tr
