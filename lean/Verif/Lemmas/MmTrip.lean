import Verif.Spec.MmFleet
import Mathlib.Tactic.Common

/-! # Lemmas about the trips of vehicles with fixed paths in multimodal loadings -/

namespace Verif.MmF

theorem handles_iff {v : Veh} (h1 : v.route ≠ -1 → v.kind = .bus) (h2 : v.pnr = true → v.kind = .pnr) (r : Router) :
    r.handles v = true ↔ r = routerOf v.kind := by
  unfold Veh.kind at *
  by_cases e : v.truck = true <;> by_cases e2 : v.route = -1 <;> by_cases e3 : v.pnr = true <;>
    cases r <;> simp_all [Router.handles, routerOf]

/-- The stages of a trip along `π`. -/
inductive Stage (r : Router) (π : List ℤ) (g : ℤ) (t : Trip) : Prop
  | fresh (h1 : t.place = .queue) (h2 : t.next = none) (h3 : t.track r = none) (h4 : t.trace = [])
  | ready (l : ℤ) (τ : List ℤ) (h1 : t.place = .queue) (h2 : t.next = some l) (h3 : t.track r = some τ)
      (h4 : t.trace = []) (h5 : π = l :: τ) (h6 : r = .pnr → t.goal = some g)
  | driving (l : ℤ) (τ : List ℤ) (h1 : t.place = .on l) (h2 : t.next = some l) (h3 : t.track r = some τ)
      (h4 : t.trace.getLast? = some l) (h5 : π = t.trace ++ τ) (h6 : r = .pnr → t.goal = some g)
      (h7 : t.cur = some l)
  | arrived (l : ℤ) (τ : List ℤ) (h1 : t.place = .atEnd l) (h2 : t.next = some l) (h3 : t.track r = some τ)
      (h4 : t.trace.getLast? = some l) (h5 : π = t.trace ++ τ) (h6 : r = .pnr → t.goal = some g)
      (h7 : t.cur = some l)
  | routed (l m : ℤ) (τ : List ℤ) (h1 : t.place = .atEnd l) (h2 : t.next = some m) (h3 : t.track r = some τ)
      (h4 : t.trace.getLast? = some l) (h5 : π = t.trace ++ m :: τ) (h6 : r = .pnr → t.goal = some g)
      (h7 : t.cur = some l)
  | final (l : ℤ) (h1 : t.place = .atEnd l) (h2 : t.next = none) (h3 : t.track r = some [])
      (h4 : t.trace.getLast? = some l) (h5 : π = t.trace) (h6 : r = .pnr → t.goal = some g)
  | out (h1 : t.place = .out) (h5 : π = t.trace)

/-- The node a vehicle is heading for. -/
def target (w : Roads) (r : Router) (g : ℤ) : ℤ := if r = .pnr then g else w.dnode

theorem goal_target {w : Roads} {r : Router} {g : ℤ} {t : Trip} (h : r = .pnr → t.goal = some g) :
    (if r = .pnr then t.goal else some w.dnode) = some (target w r g) := by
  unfold target
  split_ifs with e
  · exact h e
  · rfl

theorem last_index {π tr τ : List ℤ} {l : ℤ} (h : tr.getLast? = some l) (hp : π = tr ++ τ) :
    π[tr.length - 1]? = some l ∧ 0 < tr.length := by
  have hne : tr ≠ [] := by rintro rfl; simp at h
  have hl : 0 < tr.length := List.length_pos_iff.2 hne
  refine ⟨?_, hl⟩
  rw [hp, List.getElem?_append_left (by omega), ← h, List.getLast?_eq_getElem?]

theorem atEnd_node {w : Roads} {π tr τ : List ℤ} {g : ℤ} {l : ℤ} (hπ : GoodPath w π g) (h : tr.getLast? = some l)
    (hp : π = tr ++ τ) : ∃ n, w.toNode l = some n ∧ (n = g ↔ τ = []) := by
  obtain ⟨hi, hl⟩ := last_index h hp
  obtain ⟨_, n, hn⟩ := hπ.links l (List.mem_of_getElem? hi)
  refine ⟨n, hn, ?_⟩
  have := hπ.last _ _ hi
  rw [hn, Option.some.injEq] at this
  rw [this, hp, List.length_append]
  constructor
  · intro e; exact List.length_eq_zero_iff.1 (by omega)
  · rintro rfl; simp; omega

theorem one_route {w : Roads} {v : Veh} {r : Router} {π : List ℤ} {g : ℤ} (hst : v.adaptive = false)
    (hh : r.handles v = true) (hreg : w.reg r = .ok (π, g)) (hπ : GoodPath w π (target w r g)) {t : Trip}
    (h : Stage r π g t) : ∃ t', Router.one w v t r = .ok t' ∧ Stage r π g t' ∧ t'.trace = t.trace ∧ t'.place = t.place ∧
      ((t.place = .queue ∨ ∃ l, t.place = .atEnd l) → t'.next = π[t.trace.length]?) := by
  cases h with
  | fresh h1 h2 h3 h4 =>
    obtain ⟨l, τ, rfl⟩ : ∃ l τ, π = l :: τ := by
      cases π with
      | nil => exact absurd rfl hπ.nonempty
      | cons l τ => exact ⟨l, τ, rfl⟩
    obtain ⟨_, n, hn⟩ := hπ.links l (by simp)
    simp only [Router.one, h1, atQueue, hh, if_true, hst, Bool.false_eq_true, if_false, h3, register, hreg, Res.bind,
      takeNext, upd_same, hn]
    refine ⟨_, rfl, .ready l τ rfl rfl (by simp [upd_same]) h4 rfl ?_, rfl, rfl, ?_⟩
    · intro e; simp [e]
    · simp [h4]
  | ready l τ h1 h2 h3 h4 h5 h6 =>
    simp only [Router.one, h1, atQueue, hh, if_true, hst, Bool.false_eq_true, if_false, h3]
    exact ⟨_, rfl, .ready l τ h1 h2 h3 h4 h5 h6, rfl, h1, fun _ => by simp [h2, h4, h5]⟩
  | driving l τ h1 h2 h3 h4 h5 h6 h7 =>
    simp only [Router.one, h1]
    exact ⟨_, rfl, .driving l τ h1 h2 h3 h4 h5 h6 h7, rfl, h1, fun e => by simp at e⟩
  | arrived l τ h1 h2 h3 h4 h5 h6 h7 =>
    obtain ⟨n, hn, hiff⟩ := atEnd_node hπ h4 h5
    simp only [Router.one, h1, atExit, hh, hst, Bool.not_false, Bool.and_self, if_true, hn, goal_target h6]
    cases τ with
    | nil =>
      have : n = target w r g := hiff.2 rfl
      rw [if_pos this.symm]
      simp only [h3]
      exact ⟨_, rfl, .final l rfl rfl h3 h4 (by simpa using h5) h6, rfl, rfl, fun _ => by simp [h5]⟩
    | cons m τ =>
      have : n ≠ target w r g := fun e => by simpa using hiff.1 e
      rw [if_neg (Ne.symm this)]
      have hm := hπ.links m (by rw [h5]; simp)
      obtain ⟨hm1, n', hn'⟩ := hm
      simp only [h3, h7, h2, if_true, List.head?_cons, Option.some.injEq, hm1, if_false, takeNext, hn']
      refine ⟨_, rfl, .routed l m τ h1 rfl (by simp [upd_same]) h4 h5 h6 (by simp), rfl, h1, fun _ => ?_⟩
      simp [h5]
  | routed l m τ h1 h2 h3 h4 h5 h6 h7 =>
    obtain ⟨n, hn, hiff⟩ := atEnd_node hπ h4 h5
    have : n ≠ target w r g := fun e => by simpa using hiff.1 e
    obtain ⟨hi, hl⟩ := last_index h4 h5
    have hne : l ≠ m := by
      refine hπ.differ _ l m hi ?_
      rw [Nat.sub_add_cancel hl, h5]
      simp
    simp only [Router.one, h1, atExit, hh, hst, Bool.not_false, Bool.and_self, if_true, hn, goal_target h6]
    rw [if_neg (Ne.symm this)]
    simp only [h3, h7, h2, Option.some.injEq, hne, if_false]
    exact ⟨_, rfl, .routed l m τ h1 h2 h3 h4 h5 h6 h7, rfl, h1, fun _ => by simp [h2, h5]⟩
  | final l h1 h2 h3 h4 h5 h6 =>
    obtain ⟨n, hn, hiff⟩ := atEnd_node hπ h4 (τ := []) (by simpa using h5)
    have : n = target w r g := hiff.2 rfl
    simp only [Router.one, h1, atExit, hh, hst, Bool.not_false, Bool.and_self, if_true, hn, goal_target h6]
    rw [if_pos this.symm]
    simp only [h3]
    exact ⟨_, rfl, .final l rfl rfl h3 h4 h5 h6, rfl, rfl, fun _ => by simp [h5]⟩
  | out h1 h5 =>
    simp only [Router.one, h1]
    exact ⟨_, rfl, .out h1 h5, rfl, h1, fun e => by simp at e⟩

theorem one_other {w : Roads} {v : Veh} {r : Router} (hh : r.handles v = false) (t : Trip) :
    Router.one w v t r = .ok t := by
  unfold Router.one
  split <;> simp [atQueue, atExit, hh]

theorem update_eq {w : Roads} {v : Veh} (h1 : v.route ≠ -1 → v.kind = .bus) (h2 : v.pnr = true → v.kind = .pnr)
    (hst : v.adaptive = false) (ad : Trip → Res Trip) (t : Trip) :
    updateRouting w v ad t = Router.one w v t (routerOf v.kind) := by
  have hh : ∀ r, r ≠ routerOf v.kind → r.handles v = false := by
    intro r hr
    rw [Bool.eq_false_iff]
    intro e
    exact hr ((handles_iff h1 h2 r).1 e)
  unfold updateRouting
  have aux : ∀ x : Res Trip, (x.bind fun t => if (v.adaptive && decide (v.route = -1)) = true then ad t else .ok t) = x := by
    intro x
    cases x <;> simp [Res.bind, hst]
  rw [aux]
  have bo : ∀ x : Res Trip, (x >>= fun t => Res.ok t) = x := by intro x; cases x <;> rfl
  simp only [Res.foldlM]
  cases e : routerOf v.kind
  · have a := fun t => one_other (w := w) (hh .truck (by rw [e]; decide)) t
    have b := fun t => one_other (w := w) (hh .bus (by rw [e]; decide)) t
    have c := fun t => one_other (w := w) (hh .pnr (by rw [e]; decide)) t
    simp only [a, b, c]
    exact bo _
  · have a := fun t => one_other (w := w) (hh .car (by rw [e]; decide)) t
    have b := fun t => one_other (w := w) (hh .bus (by rw [e]; decide)) t
    have c := fun t => one_other (w := w) (hh .pnr (by rw [e]; decide)) t
    simp only [a, b, c]
    exact bo _
  · have a := fun t => one_other (w := w) (hh .car (by rw [e]; decide)) t
    have b := fun t => one_other (w := w) (hh .truck (by rw [e]; decide)) t
    have c := fun t => one_other (w := w) (hh .pnr (by rw [e]; decide)) t
    simp only [a, b, c]
    exact bo _
  · have a := fun t => one_other (w := w) (hh .car (by rw [e]; decide)) t
    have b := fun t => one_other (w := w) (hh .truck (by rw [e]; decide)) t
    have c := fun t => one_other (w := w) (hh .bus (by rw [e]; decide)) t
    simp only [a, b, c]
    exact bo _

/-- The assumptions about a vehicle and its path. -/
structure Fixed (w : Roads) (v : Veh) (π : List ℤ) (g : ℤ) : Prop where
  h1 : v.route ≠ -1 → v.kind = .bus
  h2 : v.pnr = true → v.kind = .pnr
  st : v.adaptive = false
  reg : w.reg (routerOf v.kind) = .ok (π, g)
  good : GoodPath w π (target w (routerOf v.kind) g)

theorem step_stage {w : Roads} {v : Veh} {π : List ℤ} {g : ℤ} (hf : Fixed w v π g) {t : Trip}
    (h : Stage (routerOf v.kind) π g t) (m : Move) :
    ∃ t', step w v t m = .ok t' ∧ Stage (routerOf v.kind) π g t' := by
  have hh := (handles_iff hf.h1 hf.h2 (routerOf v.kind)).2 rfl
  cases m with
  | route ad =>
    obtain ⟨t', e, hs, _⟩ := one_route hf.st hh hf.reg hf.good h
    exact ⟨t', by rw [step, update_eq hf.h1 hf.h2 hf.st]; exact e, hs⟩
  | enter =>
    cases h with
    | fresh h1 h2 h3 h4 =>
      simp only [step, h1, h2]
      exact ⟨_, rfl, .fresh h1 h2 h3 h4⟩
    | ready l τ h1 h2 h3 h4 h5 h6 =>
      simp only [step, h1, h2]
      exact ⟨_, rfl, .driving l τ rfl (by simp [h2]) (by simp [h3]) (by simp [h4]) (by simp [h4, h5]) (by simpa using h6) rfl⟩
    | driving l τ h1 h2 h3 h4 h5 h6 h7 =>
      simp only [step, h1]
      exact ⟨_, rfl, .driving l τ h1 h2 h3 h4 h5 h6 h7⟩
    | arrived l τ h1 h2 h3 h4 h5 h6 h7 =>
      simp only [step, h1, h2, if_true]
      exact ⟨_, rfl, .arrived l τ h1 h2 h3 h4 h5 h6 h7⟩
    | routed l m τ h1 h2 h3 h4 h5 h6 h7 =>
      obtain ⟨hi, hl⟩ := last_index h4 h5
      have hne : l ≠ m := by
        refine hf.good.differ _ l m hi ?_
        rw [Nat.sub_add_cancel hl, h5]
        simp
      simp only [step, h1, h2, if_neg (Ne.symm hne)]
      exact ⟨_, rfl, .driving m τ rfl (by simp [h2]) (by simp [h3]) (by simp) (by simp [h5]) (by simpa using h6) rfl⟩
    | final l h1 h2 h3 h4 h5 h6 =>
      simp only [step, h1, h2]
      exact ⟨_, rfl, .out rfl h5⟩
    | out h1 h5 =>
      simp only [step, h1]
      exact ⟨_, rfl, .out h1 h5⟩
  | arrive =>
    cases h with
    | fresh h1 h2 h3 h4 =>
      simp only [step, h1]
      exact ⟨_, rfl, .fresh h1 h2 h3 h4⟩
    | ready l τ h1 h2 h3 h4 h5 h6 =>
      simp only [step, h1]
      exact ⟨_, rfl, .ready l τ h1 h2 h3 h4 h5 h6⟩
    | driving l τ h1 h2 h3 h4 h5 h6 h7 =>
      simp only [step, h1]
      exact ⟨_, rfl, .arrived l τ rfl h2 h3 h4 h5 h6 h7⟩
    | arrived l τ h1 h2 h3 h4 h5 h6 h7 =>
      simp only [step, h1]
      exact ⟨_, rfl, .arrived l τ h1 h2 h3 h4 h5 h6 h7⟩
    | routed l m τ h1 h2 h3 h4 h5 h6 h7 =>
      simp only [step, h1]
      exact ⟨_, rfl, .routed l m τ h1 h2 h3 h4 h5 h6 h7⟩
    | final l h1 h2 h3 h4 h5 h6 =>
      simp only [step, h1]
      exact ⟨_, rfl, .final l h1 h2 h3 h4 h5 h6⟩
    | out h1 h5 =>
      simp only [step, h1]
      exact ⟨_, rfl, .out h1 h5⟩

theorem start_stage (r : Router) (π : List ℤ) (g : ℤ) : Stage r π g Trip.start := .fresh rfl rfl rfl rfl

theorem run_stage {w : Roads} {v : Veh} {π : List ℤ} {g : ℤ} (hf : Fixed w v π g) {t : Trip}
    (h : Stage (routerOf v.kind) π g t) (ms : List Move) :
    ∃ t', run w v t ms = .ok t' ∧ Stage (routerOf v.kind) π g t' := by
  induction ms generalizing t with
  | nil => exact ⟨t, rfl, h⟩
  | cons m ms ih =>
    obtain ⟨t1, e1, h1⟩ := step_stage hf h m
    obtain ⟨t2, e2, h2⟩ := ih h1
    refine ⟨t2, ?_, h2⟩
    rw [run, Res.foldlM_cons, Res.bind_eq_ok]
    exact ⟨t1, e1, e2⟩

theorem run_append {w : Roads} {v : Veh} {t t1 : Trip} {ms : List Move} (h : run w v t ms = .ok t1) (ms' : List Move) :
    run w v t (ms ++ ms') = run w v t1 ms' := by
  induction ms generalizing t with
  | nil => simp only [run, Res.foldlM, Res.ok.injEq] at h; subst h; rfl
  | cons m ms ih =>
    rw [run, Res.foldlM_cons, Res.bind_eq_ok] at h
    obtain ⟨t2, h1, h2⟩ := h
    rw [List.cons_append, run, Res.foldlM_cons, h1]
    exact ih h2

/-- Routing, node, end of the link. -/
def leg (ad : Trip → Res Trip) : List Move := [.route ad, .enter, .arrive]

theorem first_leg {w : Roads} {v : Veh} {π : List ℤ} {g : ℤ} (hf : Fixed w v π g) {t : Trip}
    (h : Stage (routerOf v.kind) π g t) (hp : t.place = .queue ∨ ∃ l, t.place = .atEnd l)
    (hlt : t.trace.length < π.length) (ad : Trip → Res Trip) :
    ∃ t' l, run w v t (leg ad) = .ok t' ∧ Stage (routerOf v.kind) π g t' ∧ t'.place = .atEnd l ∧
      t'.trace.length = t.trace.length + 1 := by
  have hh := (handles_iff hf.h1 hf.h2 (routerOf v.kind)).2 rfl
  obtain ⟨t1, e1, h1, htr, hpl, hnx⟩ := one_route hf.st hh hf.reg hf.good h
  have hnx := hnx hp
  rw [List.getElem?_eq_getElem hlt] at hnx
  have e1' : step w v t (.route ad) = .ok t1 := by rw [step, update_eq hf.h1 hf.h2 hf.st]; exact e1
  have fin : ∀ l, step w v t1 .enter = .ok { t1 with place := .on l, cur := some l, trace := t1.trace ++ [l] } →
      ∃ t' l, run w v t (leg ad) = .ok t' ∧ Stage (routerOf v.kind) π g t' ∧ t'.place = .atEnd l ∧
        t'.trace.length = t.trace.length + 1 := by
    intro l e2
    obtain ⟨t3, e3, h3⟩ := run_stage hf h (leg ad)
    have e4 : run w v t (leg ad) =
        .ok { t1 with place := .atEnd l, cur := some l, trace := t1.trace ++ [l] } := by
      simp only [leg, run, Res.foldlM_cons, e1', Res.foldlM]
      show (step w v t1 .enter >>= fun s => step w v s .arrive >>= fun s => Res.ok s) = _
      rw [e2]
      rfl
    rw [e4, Res.ok.injEq] at e3
    subst e3
    exact ⟨_, l, e4, h3, rfl, by simp [htr]⟩
  rcases hp with hp | ⟨l, hp⟩
  · refine fin (π[t.trace.length]) ?_
    rw [hp] at hpl
    simp only [step, hpl, hnx]
  · rw [hp] at hpl
    refine fin (π[t.trace.length]) ?_
    simp only [step, hpl, hnx]
    rw [if_neg]
    -- the next link is not the one just left
    cases h with
    | fresh h1 => rw [hp] at h1; simp at h1
    | ready _ _ h1 => rw [hp] at h1; simp at h1
    | driving _ _ h1 => rw [hp] at h1; simp at h1
    | out h1 => rw [hp] at h1; simp at h1
    | final l' h1' h2 h3 h4 h5 => rw [h5] at hlt; omega
    | arrived l' τ h1' h2 h3 h4 h5 =>
      rw [hp, Place.atEnd.injEq] at h1'
      subst h1'
      obtain ⟨hi, hl⟩ := last_index h4 h5
      refine Ne.symm (hf.good.differ _ _ _ hi ?_)
      rw [Nat.sub_add_cancel hl]
      exact List.getElem?_eq_getElem hlt
    | routed l' m τ h1' h2 h3 h4 h5 =>
      rw [hp, Place.atEnd.injEq] at h1'
      subst h1'
      obtain ⟨hi, hl⟩ := last_index h4 h5
      refine Ne.symm (hf.good.differ _ _ _ hi ?_)
      rw [Nat.sub_add_cancel hl]
      exact List.getElem?_eq_getElem hlt

theorem legs_end {w : Roads} {v : Veh} {π : List ℤ} {g : ℤ} (hf : Fixed w v π g) (ad : Trip → Res Trip) (k : ℕ)
    (hk : k ≤ π.length) :
    ∃ t, run w v Trip.start (List.replicate k (leg ad)).flatten = .ok t ∧ Stage (routerOf v.kind) π g t ∧
      t.trace.length = k ∧ (t.place = .queue ∨ ∃ l, t.place = .atEnd l) := by
  induction k with
  | zero => exact ⟨_, rfl, start_stage _ _ _, rfl, Or.inl rfl⟩
  | succ k ih =>
    obtain ⟨t, e, h, hl, hp⟩ := ih (by omega)
    obtain ⟨t', l, e', h', hp', hl'⟩ := first_leg hf h hp (by omega) ad
    refine ⟨t', ?_, h', by omega, Or.inr ⟨l, hp'⟩⟩
    rw [List.replicate_succ', List.flatten_append]
    rw [run_append e]
    simpa using e'

end Verif.MmF
