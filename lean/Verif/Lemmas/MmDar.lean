import Verif.Spec.MmDar
import Verif.Lemmas.TransitArrive
import Verif.Lemmas.Trees
import Verif.Lemmas.MDar

/-! # Lemmas about the trees of cumulative curves of passengers -/

namespace Verif.Tr
open Ults Curve Tab

/-! ### Paths and departure intervals do not change once a passenger has set out -/

/-- Passengers that have moved are not in the queues of origins and parking lots. -/
def Settled (s : State) : Prop := ∀ e ∈ s.log, ∀ a, e.veh ∈ s.loc a → ¬ a.starts

/-- The log goes on, and the passengers in it keep path and departure interval. -/
structure Kept (s s' : State) : Prop where
  log : s.log <+: s'.log
  pnr : ∀ e ∈ s.log, (s'.pax e.veh).pnr = (s.pax e.veh).pnr
  path : ∀ e ∈ s.log, (s'.pax e.veh).path = (s.pax e.veh).path
  assign : ∀ e ∈ s.log, (s'.pax e.veh).assign = (s.pax e.veh).assign

theorem Kept.refl (s : State) : Kept s s := ⟨List.prefix_refl _, fun _ _ => rfl, fun _ _ => rfl, fun _ _ => rfl⟩

theorem Kept.trans {s t u : State} (h : Kept s t) (k : Kept t u) : Kept s u := by
  have hm : ∀ e ∈ s.log, e ∈ t.log := fun e he => h.log.subset he
  exact ⟨h.log.trans k.log, fun e he => (k.pnr e (hm e he)).trans (h.pnr e he),
    fun e he => (k.path e (hm e he)).trans (h.path e he), fun e he => (k.assign e (hm e he)).trans (h.assign e he)⟩

theorem Kept.of_log {s s' : State} (h : s'.log = s.log)
    (h1 : ∀ e ∈ s.log, s'.pax e.veh = s.pax e.veh) : Kept s s' :=
  ⟨by rw [h], fun e he => by rw [h1 e he], fun e he => by rw [h1 e he], fun e he => by rw [h1 e he]⟩

theorem Kept.of_upd {s s' : State} (h : s'.log = s.log) {p : ℕ} {x : Pax} (h1 : s'.pax = upd s.pax p x)
    (h2 : x.pnr = (s.pax p).pnr) (h3 : x.path = (s.pax p).path) (h4 : x.assign = (s.pax p).assign) : Kept s s' := by
  refine ⟨by rw [h], fun e _ => ?_, fun e _ => ?_, fun e _ => ?_⟩ <;> rw [h1] <;> by_cases he : e.veh = p
  · rw [he, upd_same, h2]
  · rw [upd_other _ _ _ _ he]
  · rw [he, upd_same, h3]
  · rw [upd_other _ _ _ _ he]
  · rw [he, upd_same, h4]
  · rw [upd_other _ _ _ _ he]

theorem Settled.same {s s' : State} (h : Settled s) (h1 : s'.log = s.log) (h2 : s'.loc = s.loc) : Settled s' := by
  unfold Settled
  rw [h1, h2]
  exact h

theorem Settled.moved {s : State} (h : Settled s) (s' : State) (h1 : s'.log = s.log) {p : ℕ} {a b : Place} (hab : a ≠ b)
    (hb : ¬ b.starts) (h2 : s'.loc = (s.shift p a b).loc) : Settled s' := by
  intro e he x hx
  rw [h1] at he
  rw [h2, shift_loc s p hab] at hx
  split_ifs at hx with g1 g2
  · subst g1; exact hb
  · subst g2; exact h e he _ (List.mem_of_mem_erase hx)
  · exact h e he _ hx

theorem Legal.ends {c : Cfg} {strict : Prop} {s : State} {p : ℕ} {a b : Place} {src dst : Option ℕ}
    (h : Legal c strict s p a b src dst) : ¬ b.starts := by
  cases h <;> exact fun h => h

theorem Crossed.kept {c : Cfg} {ts p : ℕ} {src dst : Option ℕ} {s s' : State} (h : Crossed c ts p src dst s s') :
    Kept s s' := by
  have h1 : s'.pax = upd s.pax p { s.pax p with cur := dst } := by rw [h.eq]
  have k : Kept s { s with pax := s'.pax } := Kept.of_upd rfl h1 rfl rfl rfl
  refine ⟨?_, k.pnr, k.path, k.assign⟩
  rw [h.eq]
  exact List.prefix_append _ _

theorem Crossed.settled {c : Cfg} {ts p : ℕ} {src dst : Option ℕ} {s s' : State} (h : Crossed c ts p src dst s s')
    (hs : Settled s) (hp : ∀ a, p ∈ s.loc a → ¬ a.starts) : Settled s' := by
  have h1 : s'.log = s.log ++ [⟨ts, p, src, dst⟩] := by rw [h.eq]
  have h2 : s'.loc = s.loc := by rw [h.eq]
  intro e he a ha
  rw [h1, List.mem_append, List.mem_singleton] at he
  rw [h2] at ha
  rcases he with he | rfl
  · exact hs e he a ha
  · exact hp a ha

theorem Micro.settled {c : Cfg} {R : Routes} {strict : Prop} {ts : ℕ} {ph : Phase} {s s' : State} (hi : Inv c R strict s)
    (h : Settled s) (m : Micro c R strict ts ph s s') : Settled s' ∧ Kept s s' := by
  have hnew : ∀ e ∈ s.log, e.veh ≠ s.num + 1 := fun e he h => by have := (hi.known.log e he).2; omega
  have hout : ∀ {p a}, p ∈ s.loc a → a.starts → ∀ e ∈ s.log, e.veh ≠ p := fun {p a} hm ha e he hx => by
    subst hx; exact h e he a hm ha
  have hadd : ∀ {s' : State} {a : Place}, s'.log = s.log → s'.loc = upd s.loc a (s.loc a ++ [s.num + 1]) → Settled s' :=
    fun {s' a} h1 h2 e he x hx => by
      rw [h1] at he
      rw [h2] at hx
      by_cases hxa : x = a
      · subst hxa
        rw [upd_same, List.mem_append, List.mem_singleton] at hx
        exact h e he x (hx.resolve_right (hnew e he))
      · rw [upd_other _ _ _ _ hxa] at hx; exact h e he x hx
  cases m with
  | release o ad junk d assign =>
    refine ⟨hadd (a := .origin o) rfl rfl, .of_log rfl fun e he => ?_⟩
    simp [State.makePax, upd_other _ _ _ _ (hnew e he)]
  | park orc k car _ =>
    cases hc : car.pnr
    · simp only [parkCar, hc]
      exact ⟨h.same rfl rfl, .of_log rfl fun _ _ => rfl⟩
    · simp only [parkCar, hc, if_true]
      refine ⟨hadd (a := .lot k) rfl rfl, .of_log rfl fun e he => ?_⟩
      simp [State.makePax, upd_other _ _ _ _ (hnew e he)]
  | lotRec k _ => exact ⟨h.same rfl rfl, .of_log rfl fun _ _ => rfl⟩
  | path p q ad o mem =>
    exact ⟨h.same rfl rfl, .of_log rfl fun e he => upd_other _ _ _ _ (hout mem trivial e he)⟩
  | enroll p a q l rest mem start fixed new known chosen path =>
    exact ⟨h.same rfl rfl, .of_log rfl fun e he => upd_other _ _ _ _ (hout mem start e he)⟩
  | startNext p a l mem start ad => exact ⟨h.same rfl rfl, .of_upd rfl rfl rfl rfl rfl⟩
  | linkNext p l n mem ad => exact ⟨h.same rfl rfl, .of_upd rfl rfl rfl rfl rfl⟩
  | busNext p b v i n mem ad at_ in_ cur => exact ⟨h.same rfl rfl, .of_upd rfl rfl rfl rfl rfl⟩
  | fixNext p l a n rest mem fixed cur next track node => exact ⟨h.same rfl rfl, .of_upd rfl rfl rfl rfl rfl⟩
  | fixEnd p l mem fixed track node => exact ⟨h.same rfl rfl, .of_upd rfl rfl rfl rfl rfl⟩
  | fixBus p b v i n rest mem fixed at_ in_ cur next track => exact ⟨h.same rfl rfl, .of_upd rfl rfl rfl rfl rfl⟩
  | wait p w _ => exact ⟨h.same rfl rfl, .of_upd rfl rfl rfl rfl rfl⟩
  | enterLink p l mem _ _ =>
    exact ⟨h.moved _ rfl (a := .incoming l) (b := .walking l) (p := p) (by simp) (fun h => h) rfl, .of_log rfl fun _ _ => rfl⟩
  | stamp p l mem _ => exact ⟨h.same rfl rfl, .of_log rfl fun _ _ => rfl⟩
  | finishLink p l mem _ _ =>
    exact ⟨h.moved _ rfl (a := .walking l) (b := .finished l) (p := p) (by simp) (fun h => h) rfl, .of_log rfl fun _ _ => rfl⟩
  | move p a b src dst s' mem phase _ legal cross =>
    have k : Kept s (s.shift p a b) := .of_log rfl fun _ _ => rfl
    refine ⟨cross.settled (h.moved _ rfl legal.ne legal.ends rfl) fun x hx => ?_, k.trans cross.kept⟩
    have := (hi.placed.shift legal.ne mem).uniq x b p hx (by rw [shift_loc s p legal.ne]; simp)
    rw [this]; exact legal.ends
  | ride p b v i o s' mem at_ in_ out next cur cross =>
    refine ⟨cross.settled h fun x hx => ?_, cross.kept⟩
    rw [hi.placed.uniq x _ p hx mem]; exact fun h => h
  | shuffle a L perm =>
    refine ⟨fun e he x hx => ?_, .of_log rfl fun _ _ => rfl⟩
    by_cases hxa : x = a
    · subst hxa
      exact h e he x (perm.mem_iff.1 (by simpa using hx))
    · exact h e he x (by simpa [upd_other _ _ _ _ hxa] using hx)
  | busIn _ v b k known route free add => exact ⟨h.same rfl rfl, .of_log rfl fun _ _ => rfl⟩
  | busOut _ v b k at_ done add => exact ⟨h.same rfl rfl, .of_log rfl fun _ _ => rfl⟩
  | book _ f g => exact ⟨h.same rfl rfl, .of_log rfl fun _ _ => rfl⟩
  | leave p d s' mem hr =>
    obtain ⟨_, _, rfl⟩ := receivePax_ok hr
    exact ⟨h.moved _ rfl (a := .dest d) (b := .gone) (p := p) (by simp) (fun h => h) rfl, .of_upd rfl rfl rfl rfl rfl⟩
  | record q e _ _ => exact ⟨h.same rfl rfl, .of_log rfl fun _ _ => rfl⟩

theorem Steps.settled {c : Cfg} {R : Routes} {strict : Prop} (hy : Hyp c R strict) {ts : ℕ} {ph : Phase} {s s' : State}
    (st : Steps c R strict ts ph s s') (hi : Inv c R strict s) (h : Settled s) : Settled s' ∧ Kept s s' := by
  refine (Steps.inv (P := fun x => Inv c R strict x ∧ Settled x ∧ Kept s x) (fun a b hp m => ?_) st
    ⟨hi, h, .refl s⟩).2
  obtain ⟨h1, h2⟩ := m.settled hp.1 hp.2.1
  exact ⟨hp.1.micro hy m, h1, hp.2.2.trans h2⟩

/-- What holds at every moment of interval `ts`. -/
structure Going (c : Cfg) (R : Routes) (strict : Prop) (ts : ℕ) (s : State) : Prop where
  inv : Inv c R strict s
  more : More c ts s
  settled : Settled s

theorem Going.steps {c : Cfg} {R : Routes} {strict : Prop} (hy : Hyp c R strict) {ts : ℕ} {ph : Phase} {s s' : State}
    (h : Going c R strict ts s) (st : Steps c R strict ts ph s s') : Going c R strict ts s' ∧ Kept s s' := by
  obtain ⟨h1, h2⟩ := st.settled hy h.inv h.settled
  have := Steps.inv (P := fun x => Inv c R strict x ∧ More c ts x) (fun a b hp m =>
    ⟨hp.1.micro hy m, hp.2.micro hy hp.1 m⟩) st ⟨h.inv, h.more⟩
  exact ⟨⟨this.1, this.2, h1⟩, h2⟩

/-! ### Growing trees -/

/-- Movements onto link `l`. -/
def onto (l : ℕ) (e : Net.Event) : Bool := decide (e.dst = some l)

/-- The trees of the links in `ls` record movements of the log; those of links in `full` all of them. -/
structure Grown (σ : ℚ) (ls : List ℕ) (full : ℕ → Prop) (cd : ℕ → Net.Veh) (log : List Net.Event) (f : Grove) : Prop where
  none : ∀ l, l ∉ ls → f l = none
  tree : ∃ seen : List Net.Event, seen.Sublist log ∧ (∀ l, full l → seen.filter (onto l) = log.filter (onto l)) ∧
    ∀ l ∈ ls, ∃ tr, f l = some tr ∧ record (Net.itemsOf σ cd (onto l) seen) = .ok tr

theorem treeIn_ok {c : Cfg} (hσ : 0 < c.scalar) {pnr : ℕ → ℕ} {s : State} {ls : List ℕ} :
    ∀ (es seen : List Net.Event) (f : Grove), (∀ l, l ∉ ls → f l = none) →
      (∀ l ∈ ls, ∃ tr, f l = some tr ∧ record (Net.itemsOf c.scalar (card pnr s) (onto l) seen) = .ok tr) →
      (∀ x ∈ seen ++ es, x.t + 1 < 10000) → (seen ++ es).Pairwise (fun a b => a.t ≤ b.t) →
      ∃ f', Res.foldlM (treeIn c pnr s) f es = .ok f' ∧ (∀ l, l ∉ ls → f' l = none) ∧
        ∀ l ∈ ls, ∃ tr, f' l = some tr ∧ record (Net.itemsOf c.scalar (card pnr s) (onto l) (seen ++ es)) = .ok tr
  | [], seen, f, h0, h1, _, _ => ⟨f, rfl, h0, by rw [List.append_nil]; exact h1⟩
  | e :: es, seen, f, h0, h1, ht, hs => by
    have hap : seen ++ e :: es = (seen ++ [e]) ++ es := by simp
    rw [hap] at ht hs ⊢
    have hL := fun p => Net.itemsOf_legal hσ (card pnr s) p (fun x hx => ht x (List.mem_append_left es hx))
      (List.pairwise_append.1 hs).1
    have key : ∃ f1, treeIn c pnr s f e = .ok f1 ∧ (∀ l, l ∉ ls → f1 l = none) ∧
        ∀ l ∈ ls, ∃ tr, f1 l = some tr ∧
          record (Net.itemsOf c.scalar (card pnr s) (onto l) (seen ++ [e])) = .ok tr := by
      cases hd : e.dst with
      | none =>
        refine ⟨f, by unfold treeIn; rw [hd], h0, fun l hl => ?_⟩
        rw [Net.itemsOf_snoc, if_neg (by simp [onto, hd]), List.append_nil]; exact h1 l hl
      | some o =>
        by_cases ho : o ∈ ls
        · obtain ⟨tr, q1, q2⟩ := h1 o ho
          have hl := hL (onto o)
          rw [Net.itemsOf_snoc, if_pos (by simp [onto, hd])] at hl
          obtain ⟨tr', q3, q4⟩ := Net.treeFlow_ok q2 hl
          refine ⟨upd f o (some tr'), ?_, fun l hl => ?_, fun l hl => ?_⟩
          · unfold treeIn
            rw [hd]
            simp only [q1, q3, Res.bind_ok']
          · have : l ≠ o := fun h => hl (h ▸ ho)
            rw [upd_other _ _ _ _ this]; exact h0 l hl
          · by_cases h : l = o
            · subst h
              refine ⟨tr', by rw [upd_same], ?_⟩
              rw [Net.itemsOf_snoc, if_pos (by simp [onto, hd])]; exact q4
            · rw [upd_other _ _ _ _ h, Net.itemsOf_snoc, if_neg (by simp [onto, hd, Ne.symm h]), List.append_nil]
              exact h1 l hl
        · refine ⟨upd f o none, ?_, fun l hl => ?_, fun l hl => ?_⟩
          · unfold treeIn
            rw [hd]
            simp only [h0 o ho, Net.treeFlow, Res.bind_ok']
          · by_cases h : l = o
            · subst h; exact upd_same _ _ _
            · rw [upd_other _ _ _ _ h]; exact h0 l hl
          · have h : l ≠ o := fun h => ho (h ▸ hl)
            rw [upd_other _ _ _ _ h, Net.itemsOf_snoc, if_neg (by simp [onto, hd, Ne.symm h]), List.append_nil]
            exact h1 l hl
    obtain ⟨f1, k1, k2, k3⟩ := key
    obtain ⟨f2, k4, k5⟩ := treeIn_ok hσ es (seen ++ [e]) f1 k2 k3 ht hs
    exact ⟨f2, by rw [Res.foldlM_cons, k1, Res.ok_bind]; exact k4, k5⟩

theorem Kept.card {s s' : State} (h : Kept s s') (pnr : ℕ → ℕ) : ∀ e ∈ s.log,
    (card pnr s' e.veh).path = (card pnr s e.veh).path ∧ (card pnr s' e.veh).assign = (card pnr s e.veh).assign := by
  intro e he
  simp only [Tr.card, h.pnr e he, h.path e he, h.assign e he, and_self]

/-- Going through the movements of a part of an interval. -/
theorem regrow_ok {c : Cfg} (hσ : 0 < c.scalar) {pnr : ℕ → ℕ} {s s' : State} {ls : List ℕ} {full : ℕ → Prop} {f : Grove}
    {ts : ℕ} (hts : ts + 1 < 10000) (hm : More c ts s') (k : Kept s s') (g : Grown c.scalar ls full (card pnr s) s.log f) :
    ∃ f', regrow c pnr s s' f = .ok f' ∧ Grown c.scalar ls full (card pnr s') s'.log f' := by
  obtain ⟨es, hes⟩ := k.log
  obtain ⟨seen, g1, g2, g3⟩ := g.tree
  have hsub : (seen ++ es).Sublist s'.log := by rw [← hes]; exact g1.append (List.Sublist.refl _)
  obtain ⟨f', h1, h2, h3⟩ := treeIn_ok hσ (s := s') (pnr := pnr) es seen f g.none (fun l hl => by
      rw [Net.itemsOf_congr (vehs := card pnr s) _ fun e he => k.card pnr e (g1.subset he)]
      exact g3 l hl)
    (fun x hx => by have := hm.curves.time x (hsub.subset hx); omega) (hm.curves.order.sublist hsub)
  refine ⟨f', ?_, h2, seen ++ es, hsub, fun l hl => ?_, h3⟩
  · unfold regrow
    rw [← hes, List.drop_left]
    exact h1
  · rw [← hes, List.filter_append, List.filter_append, g2 l hl]

/-- A part of an interval that leaves the trees alone, in which nobody enters the links of `full`. -/
theorem Grown.skip {c : Cfg} {pnr : ℕ → ℕ} {s s' : State} {ls : List ℕ} {full : ℕ → Prop} {f : Grove}
    (k : Kept s s') (g : Grown c.scalar ls full (card pnr s) s.log f)
    (hn : ∀ l, full l → s'.log.filter (onto l) = s.log.filter (onto l)) :
    Grown c.scalar ls full (card pnr s') s'.log f := by
  obtain ⟨seen, g1, g2, g3⟩ := g.tree
  refine ⟨g.none, seen, g1.trans k.log.sublist, fun l hl => (g2 l hl).trans (hn l hl).symm, fun l hl => ?_⟩
  rw [Net.itemsOf_congr (vehs := card pnr s) _ fun e he => k.card pnr e (g1.subset he)]
  exact g3 l hl

theorem Grown.of_eq {σ : ℚ} {pnr : ℕ → ℕ} {s s' : State} {ls : List ℕ} {full : ℕ → Prop} {f : Grove}
    (g : Grown σ ls full (card pnr s) s.log f) (h1 : s'.log = s.log) (h2 : s'.pax = s.pax) :
    Grown σ ls full (card pnr s') s'.log f := by
  have : card pnr s' = card pnr s := by funext p; simp only [card, h2]
  rw [this, h1]; exact g

/-- Links out of parking lots are the only ones entered from destinations. -/
theorem destEvolve_onto {c : Cfg} {ts l : ℕ} (hl : ¬ c.outOfLot l) : ∀ (ds : List ℕ) (s s' : State), (∀ d ∈ ds, d ∈ c.destIds) →
    Res.foldlM (destEvolve c ts) s ds = .ok s' → s'.log.filter (onto l) = s.log.filter (onto l) := by
  have hpax : ∀ (d : ℕ), d ∈ c.destIds → ∀ (i : ℕ) (L : List ℕ) (s s' : State), Res.foldlM (destPax c ts d i) s L = .ok s' →
      s'.log.filter (onto l) = s.log.filter (onto l) := by
    intro d hd i L s s' h
    refine Res.foldlM_inv (P := fun x => x.log.filter (onto l) = s.log.filter (onto l)) ?_ L s s' rfl h
    intro a p b ha hb
    rw [← ha]
    unfold destPax at hb
    split at hb
    · rename_i n hn
      split at hb
      · simp at hb
      · rename_i k hk
        split at hb
        · simp at hb
        · rename_i hok
          push Not at hok
          have hx := cross_ok hb
          rw [hx.eq]
          have : n ≠ l := fun e => hl ⟨d, hd, k, hk, e ▸ hok.2.2⟩
          simp [onto, State.shift, this]
    · have hx := cross_ok hb
      rw [hx.eq]
      simp [onto, State.shift]
  intro ds s s' hds h
  refine Res.foldlM_inv_mem (P := fun x => x.log.filter (onto l) = s.log.filter (onto l)) ds ?_ s s' rfl h
  intro a d b hd ha hb
  unfold destEvolve at hb
  refine Res.foldlM_inv (P := fun x => x.log.filter (onto l) = s.log.filter (onto l)) ?_ _ a b ha hb
  intro a i b ha hb
  rw [← ha]
  exact hpax d (hds d hd) i _ _ _ hb

/-! ### Loading -/

theorem Going.tick {c : Cfg} {R : Routes} {strict : Prop} {ts : ℕ} {s : State} (h : Going c R strict ts s) :
    Going c R strict (ts + 1) s :=
  ⟨h.inv, ⟨h.more.trips, ⟨h.more.curves.nIn, h.more.curves.nOut,
    fun e he => Nat.le_succ_of_le (h.more.curves.time e he), h.more.curves.order, h.more.curves.count, h.more.curves.le⟩,
    h.more.factory, h.more.buses⟩, h.settled⟩

theorem loadOnceT_ok {c : Cfg} {R : Routes} {strict : Prop} (hy : Hyp c R strict) (hσ : 0 < c.scalar) {pnr : ℕ → ℕ}
    {orc : Orc} (ho : orc.Ok R) {ts assign : ℕ} (hts : ts + 1 < 10000) {s s' : State} {ls : List ℕ} {f : Grove}
    (hs : Going c R strict ts s) (g : Grown c.scalar ls (fun l => ¬ c.outOfLot l) (card pnr s) s.log f)
    (h : loadOnce c orc ts assign s = .ok s') :
    ∃ f', loadOnceT c pnr orc ts assign (s, f) = .ok (s', f') ∧ Going c R strict ts s' ∧
      Grown c.scalar ls (fun l => ¬ c.outOfLot l) (card pnr s') s'.log f' := by
  have h' := h
  simp only [loadOnce, Res.bind_eq_ok'] at h
  obtain ⟨w, hb, u, h8, ha⟩ := h
  simp only [beforeBuses, Res.bind_eq_ok', Res.ok.injEq] at hb
  obtain ⟨s1, h1, s2, h2, s3, h3, s4, h4, s5, h5, s6, h6, s7, h7, rfl⟩ := hb
  have a1 : Steps c R strict ts .early s s1 := stepRelease_steps ho hy hs.inv h1
  have i1 := hs.inv.steps hy a1
  obtain ⟨a2, r2⟩ := routing_steps (ts := ts) hy ho i1 h2
  have a3 : Steps c R strict ts .early s2 s3 :=
    steps_each hy (fun _ _ _ _ hi h => originEvolve_steps hy hi h) r2.1 h3
  have r3 := r2.steps hy a3
  obtain ⟨g3, k3⟩ := hs.steps hy ((a1.trans a2).trans a3)
  obtain ⟨f1, q1, q2⟩ := regrow_ok hσ hts g3.more k3 g
  have a4 : Steps c R strict ts .early s3 s4 :=
    steps_each hy (fun _ _ _ hd hi h => destEvolve_steps hy rfl hd hi h) r3.1 h4
  have r4 := r3.steps hy a4
  obtain ⟨g4, k4⟩ := g3.steps hy a4
  have q3 := q2.skip k4 fun l hl => destEvolve_onto hl _ _ _ (fun _ h => h) h4
  have a5 : Steps c R strict ts .early s4 s5 :=
    steps_each hy (fun _ _ _ hk hi h => stopEvolve_steps hy rfl hk hi h) r4.1 h5
  have r5 := r4.steps hy a5
  have a6 : Steps c R strict ts .early s5 s6 :=
    steps_each hy (fun _ _ _ _ hi h => walkStep_steps hy ho (.inl rfl) hi h) r5.1 h6
  have r6 := r5.steps hy a6
  obtain ⟨t, a7, a7'⟩ := implicitStep_steps hy ho r6 h7
  have a8 : Steps c R strict ts .any s4 (recordQueue c s7) := (Steps.mono ((a5.trans a6).trans a7)).trans
    (Steps.mono (a7'.tail (.record _ s7.enrouteNum (fun _ _ => rfl) fun h => absurd rfl h)))
  have i8 := r4.1.steps hy a8
  have a9 := buses_steps hy ho (fun _ h => h) i8 h8
  obtain ⟨v, _, b2, b3⟩ := afterBuses_phases hy ho (i8.steps hy a9) ha
  have a10 : Steps c R strict ts .any s4 s' := (a8.trans (Steps.mono a9)).trans ((Steps.mono b2).trans (Steps.mono b3))
  obtain ⟨g10, k10⟩ := g4.steps hy a10
  obtain ⟨f2, q4, q5⟩ := regrow_ok hσ hts g10.more k10 q3
  refine ⟨f2, ?_, g10, q5⟩
  simp only [loadOnceT, h1, h2, h3, q1, h4, h5, h6, h7, h8, ha, q4, Res.bind_ok']

theorem loadManyT_ok {c : Cfg} {R : Routes} {strict : Prop} (hy : Hyp c R strict) (hσ : 0 < c.scalar) {pnr : ℕ → ℕ}
    {ls : List ℕ} : ∀ (orcs : List Orc) (ts assign : ℕ) (s : State) (f : Grove) (r : State × ℕ × ℕ),
    (∀ o ∈ orcs, o.Ok R) → ts + orcs.length < 10000 → Going c R strict ts s →
    Grown c.scalar ls (fun l => ¬ c.outOfLot l) (card pnr s) s.log f → loadMany c orcs ts assign s = .ok r →
    ∃ f', loadManyT c pnr orcs ts assign (s, f) = .ok ((r.1, f'), r.2) ∧ Going c R strict r.2.1 r.1 ∧
      Grown c.scalar ls (fun l => ¬ c.outOfLot l) (card pnr r.1) r.1.log f'
  | [], ts, assign, s, f, r, _, _, hs, g, h => by
    simp only [loadMany, Res.ok.injEq] at h
    subst h
    exact ⟨f, rfl, hs, g⟩
  | o :: os, ts, assign, s, f, r, hok, hT, hs, g, h => by
    simp only [loadMany, Res.bind_eq_ok'] at h
    obtain ⟨s1, h1, h⟩ := h
    simp only [List.length_cons] at hT
    obtain ⟨f1, q1, q2, q3⟩ := loadOnceT_ok hy hσ (hok o (by simp)) (by omega) hs g h1
    obtain ⟨f2, q4, q5⟩ := loadManyT_ok hy hσ os (ts + 1) _ s1 f1 r (fun x hx => hok x (by simp [hx])) (by omega)
      q2.tick q3 h
    exact ⟨f2, by simp only [loadManyT, q1, Res.bind_ok']; exact q4, q5⟩

theorem loadOnceT_load {c : Cfg} {pnr : ℕ → ℕ} {orc : Orc} {ts assign : ℕ} {s : State × Grove} {r : State × Grove}
    (h : loadOnceT c pnr orc ts assign s = .ok r) : loadOnce c orc ts assign s.1 = .ok r.1 := by
  simp only [loadOnceT, Res.bind_eq_ok', Res.ok.injEq] at h
  obtain ⟨s1, h1, s2, h2, s3, h3, f1, _, s4, h4, s5, h5, s6, h6, s7, h7, s8, h8, s9, h9, f2, _, rfl⟩ := h
  simp only [loadOnce, beforeBuses, h1, h2, h3, h4, h5, h6, h7, h8, Res.bind_ok']
  exact h9

theorem loadManyT_load {c : Cfg} {pnr : ℕ → ℕ} : ∀ (orcs : List Orc) (ts assign : ℕ) (s : State × Grove)
    (r : (State × Grove) × ℕ × ℕ), loadManyT c pnr orcs ts assign s = .ok r →
    loadMany c orcs ts assign s.1 = .ok (r.1.1, r.2)
  | [], ts, assign, s, r, h => by
    simp only [loadManyT, Res.ok.injEq] at h
    subst h
    rfl
  | o :: os, ts, assign, s, r, h => by
    simp only [loadManyT, Res.bind_eq_ok'] at h
    obtain ⟨s1, h1, h⟩ := h
    simp only [loadMany, loadOnceT_load h1, Res.bind_ok']
    exact loadManyT_load os _ _ _ _ h

theorem grown_init (c : Cfg) (pnr : ℕ → ℕ) (ls : List ℕ) (full : ℕ → Prop) :
    Grown c.scalar ls full (card pnr (State.init c)) (State.init c).log (plant ls) := by
  refine ⟨fun l hl => by simp [plant, hl], [], by simp [State.init], by simp [State.init], fun l hl => ⟨[], by simp [plant, hl], rfl⟩⟩

end Verif.Tr
