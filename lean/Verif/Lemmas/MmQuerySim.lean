import Verif.Lemmas.MmQuery

/-! # Queries of travel times by bus do not disturb each other -/

namespace Verif.MmQ
open Curve Ults Tt MQuery

/-- Stops that queries cannot tell apart. -/
structure StopSim (a b : Stop) : Prop where
  nIn : a.nIn = b.nIn
  nOut : a.nOut = b.nOut
  last : stopLast a = stopLast b

/-- States that queries cannot tell apart. -/
structure Sim (T : ℕ) (s t : State) : Prop where
  stop : ∀ i, StopSim (s.stop i) (t.stop i)
  src : ∀ l, (s.bus l).src = (t.bus l).src
  dst : ∀ l, (s.bus l).dst = (t.bus l).dst
  parts : ∀ l, (s.bus l).parts = (t.bus l).parts
  bus : ∀ l, busLast (s.stop (s.bus l).src).nIn (s.stop (s.bus l).dst).nIn (s.bus l) =
    busLast (t.stop (t.bus l).src).nIn (t.stop (t.bus l).dst).nIn (t.bus l)
  drive : ∀ l, CcSim T (s.drive l) (t.drive l)
  walk : ∀ l, CcSim T (s.walk l) (t.walk l)

theorem StopSim.refl (a : Stop) : StopSim a a := ⟨rfl, rfl, rfl⟩
theorem StopSim.symm {a b : Stop} (h : StopSim a b) : StopSim b a := ⟨h.nIn.symm, h.nOut.symm, h.last.symm⟩
theorem StopSim.trans {a b c : Stop} (h : StopSim a b) (h' : StopSim b c) : StopSim a c :=
  ⟨h.nIn.trans h'.nIn, h.nOut.trans h'.nOut, h.last.trans h'.last⟩

theorem Sim.refl (T : ℕ) (s : State) : Sim T s s :=
  ⟨fun _ => .refl _, fun _ => rfl, fun _ => rfl, fun _ => rfl, fun _ => rfl, fun _ => .refl _ _, fun _ => .refl _ _⟩
theorem Sim.symm {T : ℕ} {s t : State} (h : Sim T s t) : Sim T t s :=
  ⟨fun i => (h.stop i).symm, fun l => (h.src l).symm, fun l => (h.dst l).symm, fun l => (h.parts l).symm,
    fun l => (h.bus l).symm, fun l => (h.drive l).symm, fun l => (h.walk l).symm⟩
theorem Sim.trans {T : ℕ} {s t u : State} (h : Sim T s t) (h' : Sim T t u) : Sim T s u :=
  ⟨fun i => (h.stop i).trans (h'.stop i), fun l => (h.src l).trans (h'.src l), fun l => (h.dst l).trans (h'.dst l),
    fun l => (h.parts l).trans (h'.parts l), fun l => (h.bus l).trans (h'.bus l),
    fun l => (h.drive l).trans (h'.drive l), fun l => (h.walk l).trans (h'.walk l)⟩

theorem resolve_keep {x : ℚ} {r : Res ℚ} {lv : ℚ} (h : (if x < 0 then r else .ok x) = .ok lv) :
    (if lv < 0 then r else .ok lv) = .ok lv := by
  by_cases hl : lv < 0
  · by_cases hc : x < 0
    · rw [if_pos hc] at h
      rw [if_pos hl]; exact h
    · rw [if_neg hc] at h
      cases h
      exact absurd hl hc
  · rw [if_neg hl]

theorem stopLast_keep {a : Stop} {lv : ℚ} (h : stopLast a = .ok lv) : StopSim a { a with last := lv } := by
  refine ⟨rfl, rfl, ?_⟩
  rw [h]
  exact (resolve_keep (r := lastValidBus a.nIn a.nOut) h).symm

/-- What a query of the waiting time does after the last valid time is known. -/
def waitBody (T : ℕ) (inf : Bool) (nIn nOut : Curve) (lv : ℚ) (start : ℚ) : Res (WithTop ℚ) :=
  if approxEq lv 0 tol then .ok (never T inf)
  else
    let time := cround start
    if (time : ℚ) + 1 > lv then .ok (never T inf)
    else
      (toInt lv).bind fun k =>
        let steps := (List.range (k - time).toNat).map (· + 1)
        (getResult nIn time).bind fun ccIn => (getResult nOut time).bind fun ccOut =>
          (toInt ccIn).bind fun fl =>
            let ceil : ℚ := (fl : ℚ) + 1
            if fl = 0 ∧ approxEq ccIn 1 tol = false then
              waitScan nIn time 1 ccIn (never T inf) steps
            else if approxLt ccOut ccIn tol then
              if approxEq ccIn fl tol then .ok 0
              else if approxEq ccIn ceil tol then .ok 0
              else
                (getTime nIn fl false).bind fun tmp => (getResult nIn tmp).bind fun flow =>
                  if approxEq flow fl tol then
                    waitScan nIn time ceil ccIn (never T inf) steps
                  else .ok 0
            else if approxEq ccOut ccIn tol then
              let level := if approxEq ccIn ceil tol then ceil + 1 else ceil
              waitScan nIn time level ccIn (never T inf) steps
            else .throw "Error, get_bus_waiting_time out cc larger than in cc"

theorem ite_bind {A B : Type} (p : Prop) [Decidable p] (x y : Res A) (f : A → Res B) :
    (if p then x else y).bind f = if p then x.bind f else y.bind f := by split <;> rfl

theorem throw_bind {A B : Type} (m : String) (f : A → Res B) : (Res.throw m : Res A).bind f = .throw m := rfl

theorem waiting_body (T : ℕ) (inf : Bool) (s : Stop) (start : ℚ) :
    waiting T inf s start = (back s.nIn).bind fun bi =>
      if s.nIn.length = 1 ∨ approxEq bi.2 0 tol then .ok (never T inf, s)
      else (stopLast s).bind fun lv =>
        (waitBody T inf s.nIn s.nOut lv start).bind fun w => .ok (w, { s with last := lv }) := by
  unfold waiting stopLast waitBody
  simp only [ite_bind, bind_assoc', throw_bind, Res.bind_ok']

/-- What a query of a ride does after the last valid time is known. -/
def rideBody (T : ℕ) (inf busTime : Bool) (nFrom nTo : Curve) (lv start wait : ℚ) : Res (WithTop ℚ) :=
  if start + wait > lv then .ok (never T inf)
  else
    (getResult nFrom (start + wait)).bind fun cc =>
      if cc ≤ dblEps then .throw "Error, get_travel_time_bus no bus, check get_bus_waiting_time"
      else
        (travelTimeFromCc (start + wait) nFrom nTo lv (-1) true).bind fun b =>
          if b < 0 then .throw "Error, get_travel_time_bus no bus, check get_bus_waiting_time"
          else if busTime then .ok (if wait = 0 then ((b : ℚ) : WithTop ℚ) else ((-1 : ℚ) : WithTop ℚ))
          else .ok (((wait + b : ℚ) : WithTop ℚ))

theorem ride_body (T : ℕ) (inf busTime : Bool) (nFrom nTo : Curve) (q : BusLink) (start wait : ℚ) :
    ride T inf busTime nFrom nTo q start wait = (busLast nFrom nTo q).bind fun lv =>
      (rideBody T inf busTime nFrom nTo lv start wait).bind fun v =>
        .ok (v, { q with lastBus := lv, last := if q.last < 0 then lv else q.last }) := by
  unfold ride busLast rideBody
  simp only [ite_bind, bind_assoc', throw_bind, Res.bind_ok']

/-! ## Results that agree -/

/-- Two results agree: the same value with states that cannot be told apart from `s0`, or the same failure. -/
inductive Same (T : ℕ) (s0 : State) {A : Type} : Res (A × State) → Res (A × State) → Prop
  | ok (a : A) (s t : State) (hs : Sim T s0 s) (ht : Sim T s0 t) : Same T s0 (.ok (a, s)) (.ok (a, t))
  | throw (m : String) : Same T s0 (.throw m) (.throw m)
  | ub : Same T s0 .ub .ub
  | diverge : Same T s0 .diverge .diverge

/-- A query that cannot tell states apart and leaves a state that cannot be told apart. -/
def Blind (T : ℕ) {A : Type} (f : State → Res (A × State)) : Prop :=
  ∀ s0 s t, Sim T s0 s → Sim T s0 t → Same T s0 (f s) (f t)

theorem Same.bind {T : ℕ} {s0 : State} {A B : Type} {x y : Res (A × State)} (h : Same T s0 x y)
    {f g : A × State → Res (B × State)}
    (hf : ∀ a s t, Sim T s0 s → Sim T s0 t → Same T s0 (f (a, s)) (g (a, t))) : Same T s0 (x.bind f) (y.bind g) := by
  cases h with
  | ok a s t hs ht => exact hf a s t hs ht
  | throw m => exact .throw m
  | ub => exact .ub
  | diverge => exact .diverge

theorem Same.pure {T : ℕ} {s0 : State} {A B : Type} (r : Res A) {f g : A → Res (B × State)}
    (hf : ∀ a, r = .ok a → Same T s0 (f a) (g a)) : Same T s0 (r.bind f) (r.bind g) := by
  cases r with
  | ok a => exact hf a rfl
  | throw m => exact .throw m
  | ub => exact .ub
  | diverge => exact .diverge

theorem sim_setStop {T : ℕ} {s0 s : State} (h : Sim T s0 s) {i : ℤ} {x : Stop} (hx : StopSim (s.stop i) x) :
    Sim T s0 (s.setStop i x) := by
  refine h.trans ⟨fun j => ?_, fun _ => rfl, fun _ => rfl, fun _ => rfl, fun l => ?_, fun _ => .refl _ _,
    fun _ => .refl _ _⟩
  · show StopSim (s.stop j) (if j = i then x else s.stop j)
    split
    · rename_i e; rw [e]; exact hx
    · exact .refl _
  · have hn : ∀ j, ((s.setStop i x).stop j).nIn = (s.stop j).nIn := by
      intro j
      show (if j = i then x else s.stop j).nIn = _
      split
      · rename_i e; rw [e]; exact hx.nIn.symm
      · rfl
    rw [hn, hn]; rfl

theorem sim_setDrive {T : ℕ} {s0 s : State} (h : Sim T s0 s) {i : ℤ} {x : LinkCc} (hx : CcSim T (s.drive i) x) :
    Sim T s0 (s.setDrive i x) := by
  refine h.trans ⟨fun _ => .refl _, fun _ => rfl, fun _ => rfl, fun _ => rfl, fun _ => rfl, fun j => ?_,
    fun _ => .refl _ _⟩
  show CcSim T (s.drive j) (if j = i then x else s.drive j)
  split
  · rename_i e; rw [e]; exact hx
  · exact .refl _ _

theorem sim_setWalk {T : ℕ} {s0 s : State} (h : Sim T s0 s) {i : ℤ} {x : LinkCc} (hx : CcSim T (s.walk i) x) :
    Sim T s0 (s.setWalk i x) := by
  refine h.trans ⟨fun _ => .refl _, fun _ => rfl, fun _ => rfl, fun _ => rfl, fun _ => rfl, fun _ => .refl _ _,
    fun j => ?_⟩
  show CcSim T (s.walk j) (if j = i then x else s.walk j)
  split
  · rename_i e; rw [e]; exact hx
  · exact .refl _ _

theorem sim_setBus {T : ℕ} {s0 s : State} (h : Sim T s0 s) {i : ℤ} {x : BusLink} {lv : ℚ}
    (hx : busLast (s.stop (s.bus i).src).nIn (s.stop (s.bus i).dst).nIn (s.bus i) = .ok lv)
    (h1 : x.src = (s.bus i).src) (h2 : x.dst = (s.bus i).dst) (h3 : x.parts = (s.bus i).parts) (h4 : x.lastBus = lv) :
    Sim T s0 (s.setBus i x) := by
  have hj : ∀ j, (s.setBus i x).bus j = if j = i then x else s.bus j := fun _ => rfl
  refine h.trans ⟨fun _ => .refl _, fun j => ?_, fun j => ?_, fun j => ?_, fun j => ?_, fun _ => .refl _ _,
    fun _ => .refl _ _⟩ <;> rw [hj] <;> split
  · rename_i e; rw [e, h1]
  · rfl
  · rename_i e; rw [e, h2]
  · rfl
  · rename_i e; rw [e, h3]
  · rfl
  · rename_i e
    rw [e, hx, h1, h2]
    unfold busLast
    rw [h4]
    exact (resolve_keep (r := lastValidBus _ _) hx).symm
  · rfl

theorem walkTt_blind (T : ℕ) (l : ℤ) (x : ℚ) : Blind T (walkTt T l x) := by
  intro s0 s t hs ht
  have hst := (hs.symm.trans ht).walk l
  unfold walkTt
  have h1 : (getTravelTime (s.walk l) x T).bind (fun r => .ok r.1) = (getTravelTime (t.walk l) x T).bind (fun r => .ok r.1) := by
    rw [getTravelTime_last, getTravelTime_last, hst.nIn, hst.nOut, hst.fftt, hst.last]
  rcases e1 : getTravelTime (s.walk l) x T with r | m | _ | _ <;>
    rcases e2 : getTravelTime (t.walk l) x T with r' | m' | _ | _ <;> rw [e1, e2] at h1 <;>
    simp only [Res.bind, Res.ok.injEq, Res.throw.injEq, reduceCtorEq] at h1
  · simp only [Res.bind, h1]
    exact .ok _ _ _ (sim_setWalk hs (getTravelTime_keep e1)) (sim_setWalk ht (getTravelTime_keep e2))
  · subst h1; exact .throw _
  all_goals first | exact .ub | exact .diverge

theorem drive_same {T : ℕ} {s0 s t : State} (hs : Sim T s0 s) (ht : Sim T s0 t) (l : ℤ) (x : ℚ) {B : Type}
    {f g : ℚ × LinkCc → Res (B × State)}
    (h : ∀ r r', r.1 = r'.1 → CcSim T (s.drive l) r.2 → CcSim T (t.drive l) r'.2 → Same T s0 (f r) (g r')) :
    Same T s0 ((getTravelTime (s.drive l) x T).bind f) ((getTravelTime (t.drive l) x T).bind g) := by
  have hst := (hs.symm.trans ht).drive l
  have h1 : (getTravelTime (s.drive l) x T).bind (fun r => .ok r.1) = (getTravelTime (t.drive l) x T).bind (fun r => .ok r.1) := by
    rw [getTravelTime_last, getTravelTime_last, hst.nIn, hst.nOut, hst.fftt, hst.last]
  rcases e1 : getTravelTime (s.drive l) x T with r | m | _ | _ <;>
    rcases e2 : getTravelTime (t.drive l) x T with r' | m' | _ | _ <;> rw [e1, e2] at h1 <;>
    simp only [Res.bind, Res.ok.injEq, Res.throw.injEq, reduceCtorEq] at h1
  · exact h r r' h1 (getTravelTime_keep e1) (getTravelTime_keep e2)
  · subst h1; exact .throw _
  all_goals first | exact .ub | exact .diverge

theorem along_blind (T : ℕ) : ∀ (ps : List Part) (x : ℚ), Blind T (along T ps x) := by
  intro ps
  induction ps with
  | nil => intro x s0 s t hs ht; exact .ok _ _ _ hs ht
  | cons p ps ih =>
    intro x s0 s t hs ht
    simp only [along]
    refine drive_same hs ht p.link x fun r r' h h1 h2 => ?_
    rw [h]
    exact ih _ s0 _ _ (sim_setDrive hs h1) (sim_setDrive ht h2)

theorem waiting_same {T : ℕ} {s0 s t : State} (hs : Sim T s0 s) (ht : Sim T s0 t) (i : ℤ) (inf : Bool) (x : ℚ) {B : Type}
    {f g : WithTop ℚ × Stop → Res (B × State)}
    (h : ∀ w a b, StopSim (s.stop i) a → StopSim (t.stop i) b → Same T s0 (f (w, a)) (g (w, b))) :
    Same T s0 ((waiting T inf (s.stop i) x).bind f) ((waiting T inf (t.stop i) x).bind g) := by
  have hst := (hs.symm.trans ht).stop i
  rw [waiting_body, waiting_body, hst.nIn, hst.nOut, hst.last]
  simp only [bind_assoc', ite_bind, Res.bind_ok']
  refine Same.pure _ fun bi _ => ?_
  split
  · exact h _ _ _ (.refl _) (.refl _)
  · refine Same.pure _ fun lv hlv => ?_
    refine Same.pure _ fun w _ => ?_
    exact h w _ _ (hst.trans (stopLast_keep hlv)) (stopLast_keep hlv)

theorem busTt_blind (e : Env) (inf busTime : Bool) (l : ℤ) (x : ℚ) : Blind e.T (busTt e inf busTime l x) := by
  intro s0 s t hs ht
  have hst := hs.symm.trans ht
  unfold busTt
  simp only [hst.src l, hst.parts l]
  split
  · refine waiting_same hs ht (t.bus l).src inf x fun w a b ha hb => ?_
    have hsa := sim_setStop hs ha
    have htb := sim_setStop ht hb
    rcases w with _ | w
    · exact .ok _ _ _ hsa htb
    · show Same e.T s0 (Res.bind (ride _ _ _ _ _ _ _ _) _) (Res.bind (ride _ _ _ _ _ _ _ _) _)
      rw [ride_body, ride_body]
      have hab := hsa.symm.trans htb
      rw [show (s.bus l).dst = (t.bus l).dst from hst.dst l, (hab.stop (t.bus l).src).nIn, (hab.stop (t.bus l).dst).nIn]
      have h1 := hab.bus l
      have h1' : busLast ((s.setStop (t.bus l).src a).stop (s.bus l).src).nIn
          ((s.setStop (t.bus l).src a).stop (s.bus l).dst).nIn (s.bus l) =
        busLast ((t.setStop (t.bus l).src b).stop (t.bus l).src).nIn
          ((t.setStop (t.bus l).src b).stop (t.bus l).dst).nIn (t.bus l) := h1
      rw [hst.src l, hst.dst l, (hab.stop (t.bus l).src).nIn, (hab.stop (t.bus l).dst).nIn] at h1'
      rw [h1']
      simp only [bind_assoc', Res.bind_ok']
      refine Same.pure _ fun lv hlv => ?_
      refine Same.pure _ fun v _ => ?_
      refine .ok _ _ _ (sim_setBus (lv := lv) hsa ?_ rfl (hst.dst l).symm rfl rfl) (sim_setBus htb hlv rfl rfl rfl rfl)
      show busLast ((s.setStop (t.bus l).src a).stop (s.bus l).src).nIn
          ((s.setStop (t.bus l).src a).stop (s.bus l).dst).nIn (s.bus l) = _
      rw [hst.src l, hst.dst l, (hab.stop (t.bus l).src).nIn, (hab.stop (t.bus l).dst).nIn, h1', hlv]
  · refine (along_blind e.T _ _ s0 s t hs ht).bind fun a s' t' hs' ht' => ?_
    exact .ok _ _ _ hs' ht'

theorem robustSum_blind (e : Env) (inf busTime : Bool) (l : ℤ) (x d : ℚ) :
    ∀ (is : List ℕ) (acc : WithTop ℚ) (n : ℕ), Blind e.T (robustBusSum e inf busTime l x d is acc n) := by
  intro is
  induction is with
  | nil => intro acc n s0 s t hs ht; exact .ok _ _ _ hs ht
  | cons i is ih =>
    intro acc n s0 s t hs ht
    simp only [robustBusSum]
    refine (busTt_blind e inf busTime l _ s0 s t hs ht).bind fun a s' t' hs' ht' => ?_
    dsimp only
    split
    · split
      · exact ih _ _ s0 s' t' hs' ht'
      · exact ih _ _ s0 s' t' hs' ht'
    · exact ih _ _ s0 s' t' hs' ht'

theorem robust_blind (e : Env) (trials : ℤ) (inf busTime : Bool) (l : ℤ) (p : ℚ × ℚ) :
    Blind e.T (busTtRobust e trials inf busTime l p) := by
  intro s0 s t hs ht
  unfold busTtRobust
  refine Same.pure _ fun d _ => ?_
  dsimp only
  generalize (if busTime = true then d else if trials > d then d else trials) = n
  split
  · exact .ok _ _ _ hs ht
  · refine (robustSum_blind e _ busTime l p.1 ((p.2 - p.1) / n) _ 0 0 s0 s t hs ht).bind fun a s' t' hs' ht' => ?_
    dsimp only
    split
    · exact .ok _ _ _ hs' ht'
    · exact .ok _ _ _ hs' ht'

theorem column_blind {T : ℕ} {A : Type} {f : ℤ → State → Res (A × State)} (hf : ∀ l, Blind T (f l)) :
    ∀ ls : List ℤ, Blind T (column f ls) := by
  intro ls
  induction ls with
  | nil => intro s0 s t hs ht; exact .ok _ _ _ hs ht
  | cons l ls ih =>
    intro s0 s t hs ht
    simp only [column]
    refine (hf l s0 s t hs ht).bind fun a s' t' hs' ht' => ?_
    refine (ih s0 s' t' hs' ht').bind fun a s'' t'' hs'' ht'' => ?_
    exact .ok _ _ _ hs'' ht''

theorem columns_blind {T : ℕ} {S A : Type} {check : S → Res Unit} {f : S → ℤ → State → Res (A × State)}
    (hf : ∀ x l, Blind T (f x l)) (ls : List ℤ) : ∀ xs : List S, Blind T (columns check f ls xs) := by
  intro xs
  induction xs with
  | nil => intro s0 s t hs ht; exact .ok _ _ _ hs ht
  | cons x xs ih =>
    intro s0 s t hs ht
    simp only [columns]
    refine Same.pure _ fun _ _ => ?_
    refine (column_blind (hf x) ls s0 s t hs ht).bind fun a s' t' hs' ht' => ?_
    refine (ih s0 s' t' hs' ht').bind fun a s'' t'' hs'' ht'' => ?_
    exact .ok _ _ _ hs'' ht''

theorem answer_blind (e : Env) (q : Ask) : Blind e.T (answer e q) := by
  cases q with
  | bus inf bt starts =>
    refine columns_blind (fun x l => ?_) _ _
    intro s0 s t hs ht
    unfold busOne
    exact (busTt_blind e inf bt l _ s0 s t hs ht).bind fun a s' t' hs' ht' => .ok _ _ _ hs' ht'
  | robust n inf bt periods =>
    refine columns_blind (fun x l => ?_) _ _
    intro s0 s t hs ht
    unfold robustOne
    exact (robust_blind e n inf bt l _ s0 s t hs ht).bind fun a s' t' hs' ht' => .ok _ _ _ hs' ht'
  | walk starts =>
    refine columns_blind (fun x l => ?_) _ _
    intro s0 s t hs ht
    unfold walkOne
    exact (walkTt_blind e.T l _ s0 s t hs ht).bind fun a s' t' hs' ht' => .ok _ _ _ hs' ht'

theorem Blind.keep {T : ℕ} {A : Type} {f : State → Res (A × State)} (hf : Blind T f) {s : State} {r : A × State}
    (h : f s = .ok r) : Sim T s r.2 := by
  have := hf s s s (.refl _ _) (.refl _ _)
  rw [h] at this
  cases this with
  | ok a s t hs ht => exact hs

theorem session_keep {e : Env} : ∀ (asks : List Ask) (s s' : State), session e asks s = .ok s' → Sim e.T s s' := by
  intro asks
  induction asks with
  | nil => intro s s' h; cases h; exact .refl _ _
  | cons a as ih =>
    intro s s' h
    simp only [session] at h
    rw [Res.bind_eq_ok'] at h
    obtain ⟨r, h1, h2⟩ := h
    exact ((answer_blind e a).keep h1).trans (ih _ _ h2)

/-! ## Values -/

theorem holds_of {T : ℕ} (hT : T < 10000) {h : List (ℕ × ℕ)} (hh : History T h) {c : Curve}
    (hc : Res.foldlM addIncrement install (flows 1 h) = .ok c) : Holds 1 T h c := by
  obtain ⟨c', h1, h2⟩ := run_holds one_pos hT hh
  rw [hc] at h1
  cases h1
  exact h2

theorem stop_wait {T : ℕ} {arr dep : List (ℕ × ℕ)} {a b : Stop} (ha : StopLoaded T arr dep a) (hab : StopSim a b) (inf : Bool)
    (x : ℕ) : ∃ L w b', LastOf T arr (upTo dep T) L ∧ Waits arr dep L x w ∧ waiting T inf b x = .ok (shown T inf w, b') ∧
      StopSim b b' := by
  have hi := holds_of ha.time ha.histIn ha.nIn
  have ho := holds_of ha.time ha.histOut ha.nOut
  have hbig : ∀ t, upTo arr t < 10000 := fun t => by
    have := upTo_le_total ha.histIn t
    have := ha.count
    omega
  obtain ⟨L, hL, hL'⟩ := lastValidBus_holds ha.time hi ho (upTo_zero ha.histIn) hbig (ha.le T)
  have hlast : stopLast b = .ok (L : ℚ) := by
    rw [← hab.last]
    unfold stopLast
    rw [ha.fresh, if_pos (by norm_num), hL']
  obtain ⟨w, b', h1, h2⟩ := waiting_eq ha.time (s := b) (by rw [← hab.nIn]; exact hi) (by rw [← hab.nOut]; exact ho)
    ha.histIn ha.count ha.le hL hlast inf x
  refine ⟨L, w, b', hL, h2, h1, ?_⟩
  rw [waiting_body, Res.bind_eq_ok'] at h1
  obtain ⟨bi, _, h1⟩ := h1
  split at h1
  · simp only [Res.ok.injEq, Prod.mk.injEq] at h1
    rw [← h1.2]; exact .refl _
  · rw [hlast, Res.bind_ok', Res.bind_eq_ok'] at h1
    obtain ⟨w', _, h1⟩ := h1
    simp only [Res.ok.injEq, Prod.mk.injEq] at h1
    rw [← h1.2]
    exact stopLast_keep hlast

/-- When the wait ends a bus is there, and it has not been at the next stop. -/
theorem waits_bus {arr dep next : List (ℕ × ℕ)} {L x i : ℕ} (hw : Waits arr dep L x (i : ℕ)) (hx : x < L)
    (hle : ∀ t, upTo dep t ≤ upTo arr t) (hn : ∀ t, upTo next t ≤ upTo dep t) :
    0 < upTo arr (x + i) ∧ ∀ a, upTo arr (x + i) ≤ upTo next a → x + i ≤ a := by
  rcases Nat.lt_or_ge (upTo dep x) (upTo arr x) with h | h
  · have h0 : i = 0 := by
      have := hw.2.1 hx h
      exact_mod_cast this
    subst h0
    refine ⟨by rw [Nat.add_zero]; omega, fun a ha => ?_⟩
    by_contra hcon
    have h1 := upTo_mono dep (show a ≤ x by omega)
    have h2 := hn a
    rw [Nat.add_zero] at ha
    omega
  · obtain ⟨i', hi', e⟩ := hw.2.2 hx (le_antisymm (hle x) h)
    have e : i = i' := by exact_mod_cast e
    subst e
    have h1 : upTo arr x < upTo arr (x + i) := hi'.1
    refine ⟨by omega, fun a ha => ?_⟩
    by_contra hcon
    have h2 := hn a
    have h3 := hle a
    rcases Nat.lt_or_ge a x with h4 | h4
    · have := upTo_mono arr h4.le
      omega
    · have := hi'.2 (show a - x ∈ {i | upTo arr x < upTo arr (x + i)} from by
        show upTo arr x < upTo arr (x + (a - x))
        rw [show x + (a - x) = a by omega]; omega)
      omega

theorem busTt_eq {e : Env} (he : e.explicitBus = true) {arr dep next : List (ℕ × ℕ)} {s t : State} {l : ℤ}
    (hl : BusLoaded e.T arr dep next s l) (hst : Sim e.T s t) (inf : Bool) {x : ℕ} (hx0 : 1 ≤ x) :
    ∃ L M w, LastOf e.T arr (upTo dep e.T) L ∧ LastOf e.T arr (upTo next e.T) M ∧ Waits arr dep L x w ∧
      ((w = ⊤ ∧ ∀ bt, ∃ t', busTt e inf bt l x t = .ok (shown e.T inf ⊤, t')) ∨
       ∃ i : ℕ, w = i ∧
        ((M < x + i ∧ ∀ bt, ∃ t', busTt e inf bt l x t = .ok (shown e.T inf ⊤, t')) ∨
         (x + i ≤ M ∧ ∃ a : ℕ, IsLeast {a | upTo arr (x + i) ≤ upTo next a} a ∧ x + i ≤ a ∧
          (∃ t', busTt e inf false l x t = .ok (((a - x : ℕ) : ℚ), t')) ∧
          (i = 0 → ∃ t', busTt e inf true l x t = .ok (((a - x : ℕ) : ℚ), t')) ∧
          (i ≠ 0 → ∃ t', busTt e inf true l x t = .ok (((-1 : ℚ) : WithTop ℚ), t'))))) := by
  have hT := hl.here.time
  obtain ⟨L, w, b', hL, hw, h1, h2⟩ := stop_wait hl.here (hst.stop (s.bus l).src) inf x
  have hi := holds_of hT hl.here.histIn hl.here.nIn
  have ho := holds_of hT hl.hist hl.nIn
  have hbig : ∀ t, upTo arr t < 10000 := fun t => by
    have := upTo_le_total hl.here.histIn t
    have := hl.here.count
    omega
  have hna : upTo next e.T ≤ upTo arr e.T := le_trans (hl.le _) (hl.here.le _)
  obtain ⟨M, hM, hM'⟩ := lastValidBus_holds hT hi ho (upTo_zero hl.here.histIn) hbig hna
  refine ⟨L, M, w, hL, hM, hw, ?_⟩
  have hsrc := hst.src l
  have hdst := hst.dst l
  rw [hsrc] at h1 h2
  have hsim := sim_setStop hst h2
  have hbt : ∀ bt, busTt e inf bt l x t = (match shown e.T inf w with
      | ⊤ => .ok (never e.T inf, t.setStop (t.bus l).src b')
      | (y : ℚ) => (ride e.T inf bt ((t.setStop (t.bus l).src b').stop (t.bus l).src).nIn
          ((t.setStop (t.bus l).src b').stop (t.bus l).dst).nIn (t.bus l) x y).bind fun r =>
          .ok (r.1, (t.setStop (t.bus l).src b').setBus l r.2)) := by
    intro bt
    unfold busTt
    rw [if_pos he, h1, Res.bind_ok']
    rfl
  have hlast : busLast ((t.setStop (t.bus l).src b').stop (t.bus l).src).nIn
      ((t.setStop (t.bus l).src b').stop (t.bus l).dst).nIn (t.bus l) = .ok (M : ℚ) := by
    have h3 := hsim.bus l
    have h4 : busLast (s.stop (s.bus l).src).nIn (s.stop (s.bus l).dst).nIn (s.bus l) = .ok (M : ℚ) := by
      unfold busLast
      rw [hl.fresh, if_pos (by norm_num), hM']
    rw [h4] at h3
    exact h3.symm
  have hi' : Holds 1 e.T arr ((t.setStop (t.bus l).src b').stop (t.bus l).src).nIn := by
    rw [← (hsim.stop _).nIn, ← hsrc]; exact hi
  have ho' : Holds 1 e.T next ((t.setStop (t.bus l).src b').stop (t.bus l).dst).nIn := by
    rw [← (hsim.stop _).nIn, ← hdst]; exact ho
  have hnev : ∀ t', ∃ t'', (Res.ok (never e.T inf, t') : Res (WithTop ℚ × State)) = .ok (shown e.T inf ⊤, t'') :=
    fun t' => ⟨t', rfl⟩
  rcases w with _ | i
  · left
    refine ⟨rfl, fun bt => ?_⟩
    rw [hbt]
    cases inf
    · -- the finite value for "no bus" is after the last valid time
      have hMT := hM.1.1
      show ∃ t', ((ride e.T false bt _ _ (t.bus l) x ((2 * e.T : ℚ))).bind _) = _
      rw [ride_body, hlast, Res.bind_ok']
      unfold rideBody
      have h0 : (x : ℚ) + 2 * e.T > M := by
        have h3 : M < x + 2 * e.T := by omega
        have h4 : (M : ℚ) < ((x + 2 * e.T : ℕ) : ℚ) := by exact_mod_cast h3
        push_cast at h4
        exact h4
      rw [if_pos h0]
      exact ⟨_, rfl⟩
    · exact hnev _
  · right
    refine ⟨i, rfl, ?_⟩
    have hx : x < L := by
      by_contra hcon
      have := hw.1 (not_lt.1 hcon)
      cases this
    obtain ⟨hp, ha⟩ := waits_bus hw hx hl.here.le hl.le
    have hb : ∀ bt, busTt e inf bt l x t = (ride e.T inf bt ((t.setStop (t.bus l).src b').stop (t.bus l).src).nIn
          ((t.setStop (t.bus l).src b').stop (t.bus l).dst).nIn (t.bus l) x i).bind fun r =>
          .ok (r.1, (t.setStop (t.bus l).src b').setBus l r.2) := fun bt => hbt bt
    rcases ride_eq hT hi' ho' hl.here.histIn hl.hist hl.here.count hna hM hlast inf hp ha with
      ⟨h3, h4⟩ | ⟨h3, a, h4, h5, ⟨q1, h6⟩, h7, h8⟩
    · left
      refine ⟨h3, fun bt => ?_⟩
      obtain ⟨q', h5⟩ := h4 bt
      rw [hb, h5, Res.bind_ok']
      exact hnev _
    · right
      refine ⟨h3, a, h4, h5, ⟨_, by rw [hb, h6, Res.bind_ok']⟩, fun h0 => ?_, fun h0 => ?_⟩
      · obtain ⟨q', h9⟩ := h7 h0
        exact ⟨_, by rw [hb, h9, Res.bind_ok']⟩
      · obtain ⟨q', h9⟩ := h8 h0
        exact ⟨_, by rw [hb, h9, Res.bind_ok']⟩

/-- The travel time by bus of a passenger who comes in interval `x`. -/
theorem busTt_rides {e : Env} (he : e.explicitBus = true) {arr dep next : List (ℕ × ℕ)} {s t : State} {l : ℤ}
    (hl : BusLoaded e.T arr dep next s l) (hst : Sim e.T s t) (inf : Bool) {x : ℕ} (hx0 : 1 ≤ x) :
    ∃ n t', Rides e.T arr dep next x n ∧ busTt e inf false l (x : ℚ) t = .ok (shown e.T inf n, t') := by
  obtain ⟨L, M, w, hL, hM, hw, hcase⟩ := busTt_eq he hl hst inf hx0
  rcases hcase with ⟨h3, h4⟩ | ⟨i, h3, h4⟩
  · obtain ⟨t', h5⟩ := h4 false
    exact ⟨⊤, t', ⟨L, M, w, hL, hM, hw, fun _ => rfl, fun _ _ _ => rfl, fun i hi => by rw [h3] at hi; cases hi⟩, h5⟩
  · rcases h4 with ⟨h4, h5⟩ | ⟨h4, a, h5, h6, ⟨t', h7⟩, _⟩
    · obtain ⟨t', h6⟩ := h5 false
      refine ⟨⊤, t', ⟨L, M, w, hL, hM, hw, fun _ => rfl, fun _ _ _ => rfl, fun j hj h7 => ?_⟩, h6⟩
      rw [h3] at hj
      have : i = j := by exact_mod_cast hj
      omega
    · refine ⟨((a - x : ℕ) : WithTop ℕ), t', ⟨L, M, w, hL, hM, hw, fun h => ?_, fun j hj h8 => ?_,
        fun j hj h8 => ?_⟩, h7⟩
      · rw [h3] at h; cases h
      · rw [h3] at hj
        have : i = j := by exact_mod_cast hj
        omega
      · rw [h3] at hj
        have : i = j := by exact_mod_cast hj
        subst this
        exact ⟨a, h5, h6, rfl⟩

theorem robustSum_rides {e : Env} (he : e.explicitBus = true) {arr dep next : List (ℕ × ℕ)} {s : State} {l : ℤ}
    (hl : BusLoaded e.T arr dep next s l) (inf : Bool) {x : ℕ} (hx0 : 1 ≤ x) :
    ∀ n k (acc : WithTop ℚ) m t, Sim e.T s t → ∃ ns t',
      List.Forall₂ (fun i v => Rides e.T arr dep next (x + i) v) (List.range' k n) ns ∧
      robustBusSum e inf false l x 1 (List.range' k n) acc m t =
        .ok ((acc + (ns.map (shown e.T inf)).sum, m + n), t') := by
  intro n
  induction n with
  | zero =>
    intro k acc m t ht
    exact ⟨[], t, by simp, by simp [robustBusSum]⟩
  | succ n ih =>
    intro k acc m t ht
    obtain ⟨v, t', h1, h2⟩ := busTt_rides he hl ht inf (x := x + k) (by omega)
    have h3 := ht.trans ((busTt_blind e inf false l _).keep h2)
    obtain ⟨ns, t'', h4, h5⟩ := ih (k + 1) (acc + shown e.T inf v) (m + 1) t' h3
    refine ⟨v :: ns, t'', ?_, ?_⟩
    · rw [List.range'_succ]; exact .cons h1 h4
    · rw [List.range'_succ]
      simp only [robustBusSum]
      rw [show (x : ℚ) + (k : ℚ) * 1 = ((x + k : ℕ) : ℚ) by push_cast; ring, h2, Res.bind_ok']
      simp only [Bool.false_and, Bool.false_eq_true, if_false]
      rw [h5, List.map_cons, List.sum_cons, add_assoc, show m + 1 + n = m + (n + 1) by omega]

/-! ## Tables -/

theorem column_values {T : ℕ} {A : Type} {f : ℤ → State → Res (A × State)} {V : ℤ → A → Prop} {s : State} (ls : List ℤ)
    (hb : ∀ l, Blind T (f l)) (hf : ∀ l ∈ ls, ∀ t, Sim T s t → ∃ v t', f l t = .ok (v, t') ∧ V l v) :
    ∀ t, Sim T s t → ∃ c t', column f ls t = .ok (c, t') ∧ List.Forall₂ V ls c ∧ Sim T s t' := by
  induction ls with
  | nil => intro t ht; exact ⟨[], t, rfl, .nil, ht⟩
  | cons l ls ih =>
    intro t ht
    obtain ⟨v, t', h1, h2⟩ := hf l (by simp) t ht
    have h3 := ht.trans ((hb l).keep h1)
    obtain ⟨c, t'', h4, h5, h6⟩ := ih (fun l' hl' => hf l' (List.mem_cons_of_mem _ hl')) t' h3
    refine ⟨v :: c, t'', ?_, .cons h2 h5, h6⟩
    simp only [column]
    rw [h1, Res.bind_ok', h4, Res.bind_ok']

theorem columns_values {T : ℕ} {S A : Type} {check : S → Res Unit} {f : S → ℤ → State → Res (A × State)}
    {V : S → ℤ → A → Prop} {s : State} (ls : List ℤ) (xs : List S)
    (hb : ∀ x l, Blind T (f x l)) (hc : ∀ x ∈ xs, check x = .ok ())
    (hf : ∀ x ∈ xs, ∀ l ∈ ls, ∀ t, Sim T s t → ∃ v t', f x l t = .ok (v, t') ∧ V x l v) :
    ∀ t, Sim T s t → ∃ c t', columns check f ls xs t = .ok (c, t') ∧
      List.Forall₂ (fun x col => List.Forall₂ (V x) ls col) xs c := by
  induction xs with
  | nil => intro t ht; exact ⟨[], t, rfl, .nil⟩
  | cons x xs ih =>
    intro t ht
    obtain ⟨c, t', h1, h2, h3⟩ := column_values ls (hb x) (hf x (by simp)) t ht
    obtain ⟨cs, t'', h4, h5⟩ := ih (fun x' hx' => hc x' (List.mem_cons_of_mem _ hx'))
      (fun x' hx' => hf x' (List.mem_cons_of_mem _ hx')) t' h3
    refine ⟨c :: cs, t'', ?_, .cons h2 h5⟩
    simp only [columns]
    rw [hc x (by simp), Res.bind_ok', h1, Res.bind_ok', h4, Res.bind_ok']

theorem busOne_blind (e : Env) (inf bt : Bool) (x : ℚ) (l : ℤ) : Blind e.T (busOne e inf bt x l) := by
  intro s0 s t hs ht
  unfold busOne
  exact (busTt_blind e inf bt l _ s0 s t hs ht).bind fun a s' t' hs' ht' => .ok _ _ _ hs' ht'

theorem robustOne_blind (e : Env) (n : ℤ) (inf bt : Bool) (x : ℚ × ℚ) (l : ℤ) : Blind e.T (robustOne e n inf bt x l) := by
  intro s0 s t hs ht
  unfold robustOne
  exact (robust_blind e n inf bt l _ s0 s t hs ht).bind fun a s' t' hs' ht' => .ok _ _ _ hs' ht'

theorem walkOne_blind (e : Env) (x : ℚ) (l : ℤ) : Blind e.T (walkOne e x l) := by
  intro s0 s t hs ht
  unfold walkOne
  exact (walkTt_blind e.T l _ s0 s t hs ht).bind fun a s' t' hs' ht' => .ok _ _ _ hs' ht'

theorem checkStart_nat {T x : ℕ} (h : x < T) : checkStart T (x : ℚ) = .ok () := by
  unfold checkStart
  rw [if_neg (by push Not; exact_mod_cast h)]

/-! ## Least times -/

theorem column_all {T : ℕ} {A : Type} {f : ℤ → State → Res (A × State)} {V : ℤ → A → Prop} {s : State} (ls : List ℤ)
    (hb : ∀ l, Blind T (f l)) (hf : ∀ l ∈ ls, ∀ t r, Sim T s t → f l t = .ok r → V l r.1) :
    ∀ t r, Sim T s t → column f ls t = .ok r → List.Forall₂ V ls r.1 ∧ Sim T s r.2 := by
  induction ls with
  | nil => intro t r ht h; cases h; exact ⟨.nil, ht⟩
  | cons l ls ih =>
    intro t r ht h
    simp only [column] at h
    rw [Res.bind_eq_ok'] at h
    obtain ⟨a, h1, h⟩ := h
    rw [Res.bind_eq_ok'] at h
    obtain ⟨w, h2, h3⟩ := h
    cases h3
    obtain ⟨h4, h5⟩ := ih (fun l' hl' => hf l' (List.mem_cons_of_mem _ hl')) a.2 w (ht.trans ((hb l).keep h1)) h2
    exact ⟨.cons (hf l (by simp) t a ht h1) h4, h5⟩

theorem columns_all {T : ℕ} {S A : Type} {check : S → Res Unit} {f : S → ℤ → State → Res (A × State)}
    {V : ℤ → A → Prop} {s : State} {ls : List ℤ} (hb : ∀ x l, Blind T (f x l))
    (hf : ∀ x, ∀ l ∈ ls, ∀ t r, Sim T s t → f x l t = .ok r → V l r.1) :
    ∀ (xs : List S) t r, Sim T s t → columns check f ls xs t = .ok r → ∀ col ∈ r.1, List.Forall₂ V ls col := by
  intro xs
  induction xs with
  | nil => intro t r ht h; cases h; intro col hc; cases hc
  | cons x xs ih =>
    intro t r ht h
    simp only [columns] at h
    rw [Res.bind_eq_ok'] at h
    obtain ⟨_, _, h⟩ := h
    rw [Res.bind_eq_ok'] at h
    obtain ⟨a, h1, h⟩ := h
    rw [Res.bind_eq_ok'] at h
    obtain ⟨w, h2, h3⟩ := h
    cases h3
    obtain ⟨h4, h5⟩ := column_all ls (hb x) (hf x) t a ht h1
    intro col hc
    rcases List.mem_cons.1 hc with rfl | hc
    · exact h4
    · exact ih a.2 w h5 h2 col hc

theorem getTravelTime_ge {cc : LinkCc} {x : ℚ} {T : ℤ} {r : ℚ × LinkCc} (h : getTravelTime cc x T = .ok r) :
    cc.fftt ≤ r.1 := by
  unfold getTravelTime at h
  simp only at h
  rw [Res.bind_eq_ok'] at h
  obtain ⟨lv, _, h⟩ := h
  rw [Res.bind_eq_ok'] at h
  obtain ⟨v, h, h'⟩ := h
  cases h'
  unfold travelTimeFromCc at h
  split at h
  · cases h; exact le_refl _
  · simp only at h
    generalize (if x > lv then lv else x) = x' at h
    rw [Res.bind_eq_ok'] at h
    obtain ⟨c, _, h⟩ := h
    split at h
    · cases h; exact le_refl _
    · rw [Res.bind_eq_ok'] at h
      obtain ⟨y, _, h⟩ := h
      split at h
      · cases h; exact le_refl _
      · rename_i hn
        cases h
        push Not at hn
        exact hn.2.2

theorem along_ge {T : ℕ} : ∀ (ps : List Part) (x : ℚ) (s : State) (r : ℚ × State), (∀ p ∈ ps, 0 ≤ p.portion) →
    along T ps x s = .ok r → x + (ps.map fun p => p.portion * (s.drive p.link).fftt).sum ≤ r.1 := by
  intro ps
  induction ps with
  | nil => intro x s r _ h; cases h; simp
  | cons p ps ih =>
    intro x s r hp h
    simp only [along] at h
    rw [Res.bind_eq_ok'] at h
    obtain ⟨a, h1, h2⟩ := h
    have h3 := ih _ _ r (fun p' hp' => hp p' (List.mem_cons_of_mem _ hp')) h2
    have h4 := getTravelTime_ge h1
    have h5 := hp p (by simp)
    have h6 : (ps.map fun p' => p'.portion * ((s.setDrive p.link a.2).drive p'.link).fftt) =
        ps.map fun p => p.portion * (s.drive p.link).fftt := by
      apply List.map_congr_left
      intro p' _
      congr 1
      show (if p'.link = p.link then a.2 else s.drive p'.link).fftt = _
      split
      · rename_i e; rw [e]; exact (getTravelTime_keep h1).fftt.symm
      · rfl
    rw [h6] at h3
    rw [List.map_cons, List.sum_cons]
    have h7 : p.portion * (s.drive p.link).fftt ≤ a.1 * p.portion := by
      rw [mul_comm]; exact mul_le_mul_of_nonneg_right h4 h5
    linarith

/-! ## Overtaking -/

/-- Nobody who comes later is faster: if a passenger who comes in interval `y` gets to the next stop,
so does a passenger who comes in interval `x ≤ y`, and not later. -/
theorem rides_mono {T : ℕ} {arr dep next : List (ℕ × ℕ)} (hle : ∀ t, upTo dep t ≤ upTo arr t) {x y : ℕ} (hxy : x ≤ y)
    {n m : WithTop ℕ} (hn : Rides T arr dep next x n) (hm : Rides T arr dep next y m) {b : ℕ} (hb : m = b) :
    ∃ a : ℕ, n = a ∧ x + a ≤ y + b := by
  obtain ⟨L, M, w, hL, hM, hw, h1, h2, h3⟩ := hn
  obtain ⟨L', M', w', hL', hM', hw', h1', h2', h3'⟩ := hm
  have e1 : L' = L := hL'.unique hL
  have e2 : M' = M := hM'.unique hM
  subst e1 e2
  rcases w' with _ | j
  · exact absurd (h1' rfl) (by rw [hb]; exact WithTop.coe_ne_top)
  have hyL : y < L' := by
    by_contra hcon
    have := hw'.1 (not_lt.1 hcon)
    cases this
  have hwx : ∃ i : ℕ, w = i ∧ x + i ≤ y + j := by
    rcases Nat.lt_or_ge (upTo dep x) (upTo arr x) with h | h
    · exact ⟨0, hw.2.1 (by omega) h, by omega⟩
    · have heq := le_antisymm (hle x) h
      obtain ⟨i, hi, e⟩ := hw.2.2 (by omega) heq
      refine ⟨i, e, ?_⟩
      by_contra hcon
      have hA : ∀ z, x ≤ z → z < x + i → upTo arr z = upTo arr x := by
        intro z h4 h5
        apply le_antisymm _ (upTo_mono arr h4)
        by_contra h6
        have := hi.2 (show z - x ∈ {i | upTo arr x < upTo arr (x + i)} from by
          show upTo arr x < upTo arr (x + (z - x))
          rw [show x + (z - x) = z by omega]; omega)
        omega
      have h4 := hA y hxy (by omega)
      have h5 : upTo dep y = upTo arr y := by
        have h6 := upTo_mono dep hxy
        have h7 := hle y
        omega
      obtain ⟨j', hj', e'⟩ := hw'.2.2 hyL h5
      have e' : j = j' := WithTop.coe_injective e'
      subst e'
      have h6 : upTo arr y < upTo arr (y + j) := hj'.1
      have h7 := hA (y + j) (by omega) (by omega)
      omega
  obtain ⟨i, ei, hij⟩ := hwx
  have hjM : y + j ≤ M' := by
    by_contra hcon
    have := h2' j rfl (by omega)
    rw [hb] at this
    cases this
  obtain ⟨a', ha', h5', h6'⟩ := h3' j rfl hjM
  obtain ⟨a, ha, h5, h6⟩ := h3 i ei (by omega)
  refine ⟨a - x, h6, ?_⟩
  have hb' : b = a' - y := by rw [hb] at h6'; exact_mod_cast h6'
  have haa : a ≤ a' := ha.2 (show upTo arr (x + i) ≤ upTo next a' from le_trans (upTo_mono arr hij) ha'.1)
  omega

end Verif.MmQ
