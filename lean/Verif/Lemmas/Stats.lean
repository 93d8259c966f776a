import Verif.Model.Stats
import Mathlib.Tactic.Ring
import Mathlib.Tactic.Linarith
import Mathlib.Tactic.FieldSimp

/-! # Lemmas about the link records -/

namespace Verif.Stat

/-- `timestamp % m_n == 0 || timestamp == 0`. -/
def Rec (n t : ℤ) : Prop := t.tmod n = 0 ∨ t = 0

instance (n t : ℤ) : Decidable (Rec n t) := inferInstanceAs (Decidable (_ ∨ _))

theorem one_on (n t : ℤ) (q : Quantity) (l : ℤ) (x : ℚ) : (q.one n t l x).on = q.on := by
  unfold Quantity.one; split <;> rfl

theorem fold_other (n t : ℤ) (val : ℤ → ℚ) (l : ℤ) : ∀ (links : List ℤ) (q : Quantity), l ∉ links →
    let r := links.foldl (fun q l => q.one n t l (val l)) q
    r.load l = q.load l ∧ r.record l = q.record l ∧ r.toBe l = q.toBe l := by
  intro links
  induction links with
  | nil => intro q _; exact ⟨rfl, rfl, rfl⟩
  | cons k ks ih =>
    intro q h
    have hk : l ≠ k := fun e => h (by simp [e])
    obtain ⟨a, b, c⟩ := ih (q.one n t k (val k)) fun e => h (by simp [e])
    simp only [List.foldl_cons]
    rw [a, b, c]
    unfold Quantity.one
    split
    · exact ⟨upd_other _ _ _ _ hk, upd_other _ _ _ _ hk, upd_other _ _ _ _ hk⟩
    · exact ⟨upd_other _ _ _ _ hk, rfl, upd_other _ _ _ _ hk⟩

theorem fold_on (n t : ℤ) (val : ℤ → ℚ) : ∀ (links : List ℤ) (q : Quantity),
    (links.foldl (fun q l => q.one n t l (val l)) q).on = q.on := by
  intro links
  induction links with
  | nil => intro q; rfl
  | cons k ks ih => intro q; rw [List.foldl_cons, ih, one_on]

/-- What the loop does to the entries of the links. -/
theorem fold_mem (n t : ℤ) (val : ℤ → ℚ) (l : ℤ) : ∀ (links : List ℤ) (q : Quantity), links.Nodup → l ∈ links →
    let r := links.foldl (fun q l => q.one n t l (val l)) q
    r.load l = val l ∧
    (Rec n t → r.record l = (if t = 0 then val l else q.toBe l + val l / n) ∧ r.toBe l = 0) ∧
    (¬ Rec n t → r.record l = q.record l ∧ r.toBe l = q.toBe l + val l / n) := by
  intro links
  induction links with
  | nil => intro q _ h; simp at h
  | cons k ks ih =>
    intro q hn h
    simp only [List.foldl_cons]
    rw [List.nodup_cons] at hn
    by_cases hk : l = k
    · subst hk
      obtain ⟨a, b, c⟩ := fold_other n t val l ks (q.one n t l (val l)) hn.1
      rw [a, b, c]
      unfold Quantity.one
      split
      · rename_i hr
        exact ⟨upd_same _ _ _, fun _ => ⟨upd_same _ _ _, upd_same _ _ _⟩, fun h => absurd hr h⟩
      · rename_i hr
        exact ⟨upd_same _ _ _, fun h => absurd h hr, fun _ => ⟨rfl, upd_same _ _ _⟩⟩
    · have hm : l ∈ ks := by
        rw [List.mem_cons] at h
        exact h.resolve_left hk
      obtain ⟨a, b, c⟩ := ih (q.one n t k (val k)) hn.2 hm
      have h3 : (q.one n t k (val k)).toBe l = q.toBe l ∧ (q.one n t k (val k)).record l = q.record l := by
        unfold Quantity.one
        split
        · exact ⟨upd_other _ _ _ _ hk, upd_other _ _ _ _ hk⟩
        · exact ⟨upd_other _ _ _ _ hk, rfl⟩
      rw [h3.1] at b c
      rw [h3.2] at c
      exact ⟨a, b, c⟩

/-- One quantity and its two files. -/
structure Track where
  q : Quantity
  load : Option Sheet
  record : Option Sheet

/-- One call, for one quantity. -/
def Track.update (n t : ℤ) (links order : List ℤ) (val : ℤ → ℚ) (k : Track) : Track :=
  let v := k.q.all n t val links
  { q := v
    load := if v.on then k.load.map (Sheet.write t order v.load) else k.load
    record := if Rec n t ∧ v.on then k.record.map (Sheet.write t order v.record) else k.record }

def Track.run (n : ℤ) (links order : List ℤ) (val : ℤ → ℤ → ℚ) (k : Track) (ts : List ℤ) : Track :=
  ts.foldl (fun k t => k.update n t links order (val t)) k

def Stats.vol (s : Stats) : Track := ⟨s.volume, s.volumeLoad, s.volumeRecord⟩
def Stats.time (s : Stats) : Track := ⟨s.tt, s.ttLoad, s.ttRecord⟩

/-- The two quantities do not influence each other. -/
theorem run_tracks (links : List ℤ) (flow time : ℤ → ℤ → ℚ) : ∀ (ts : List ℤ) (s : Stats), s.n ≠ 0 →
    ∃ s', run links flow time s ts = .ok s' ∧ s'.vol = s.vol.run s.n links s.order flow ts ∧
      s'.time = s.time.run s.n links s.order time ts := by
  intro ts
  induction ts with
  | nil => intro s _; exact ⟨s, rfl, rfl, rfl⟩
  | cons t ts ih =>
    intro s hn
    unfold run
    rw [Res.foldlM_cons]
    unfold update
    rw [if_neg hn, Res.ok_bind]
    exact ih _ hn

/-- The sum of the values at `T, T - 1, …` (`m` of them). -/
def lastSum (val : ℤ → ℤ → ℚ) (T : ℤ) (m : ℕ) (l : ℤ) : ℚ :=
  ((List.range m).map fun (i : ℕ) => val (T - i) l).sum

theorem lastSum_succ (val : ℤ → ℤ → ℚ) (T : ℤ) (m : ℕ) (l : ℤ) :
    lastSum val (T + 1) (m + 1) l = val (T + 1) l + lastSum val T m l := by
  unfold lastSum
  rw [List.range_succ_eq_map, List.map_cons, List.sum_cons, List.map_map]
  have h0 : T + 1 - ((0 : ℕ) : ℤ) = T + 1 := by simp
  rw [h0]
  congr 2
  apply List.map_congr_left
  intro i _
  show val (T + 1 - ((i + 1 : ℕ) : ℤ)) l = _
  congr 1
  push_cast
  ring

/-- The rows of a record file after intervals `0 … T`. -/
def recRows (n : ℕ) (links : List ℤ) (val : ℤ → ℤ → ℚ) (T : ℕ) : List (ℤ × List ℚ) :=
  (if n = 1 then [(-1, links.map (val (-1)))] else []) ++
  (0, links.map (val 0)) ::
  (List.range (T / n)).map fun k =>
    ((((k + 1) * n : ℕ) : ℤ), links.map fun l => lastSum val (((k + 1) * n : ℕ) : ℤ) n l / n)

theorem rec_iff {n : ℕ} (_hn : 0 < n) (t : ℕ) : Rec n t ↔ t % n = 0 := by
  unfold Rec
  constructor
  · rintro (h | h)
    · have h2 := Int.ofNat_tmod t n
      exact_mod_cast h2.trans h
    · have : t = 0 := by exact_mod_cast h
      rw [this]; simp
  · intro h
    left
    have h2 := Int.ofNat_tmod t n
    rw [← h2, h]; rfl

theorem track_run {n : ℕ} (hn : 0 < n) {links : List ℤ} (hl : links.Nodup) (val : ℤ → ℤ → ℚ) (a b : Option Sheet)
    (ha : ∀ x ∈ a, x.rows = []) (hb : ∀ x ∈ b, x.rows = []) (T : ℕ) :
    let k := (Track.mk ⟨true, fun _ => 0, fun _ => 0, fun _ => 0⟩ a b).run n links links val (times T)
    k.q.on = true ∧
    (∀ l ∈ links, k.q.toBe l = lastSum val T (T % n) l / n) ∧
    k.load = a.map (fun s => { s with rows := (times T).map fun t => (t, links.map (val t)) }) ∧
    k.record = b.map (fun s => { s with rows := recRows n links val T }) := by
  have hn' : ((n : ℤ)) ≠ 0 := by exact_mod_cast hn.ne'
  have hnq : ((n : ℤ) : ℚ) = (n : ℚ) := by push_cast; rfl
  -- the file part of a call
  have hstep : ∀ (k : Track) (t : ℤ), k.q.on = true →
      (k.update n t links links (val t)).q.on = true ∧
      (∀ l ∈ links, (k.update n t links links (val t)).q.toBe l =
        if Rec n t then 0 else k.q.toBe l + val t l / n) ∧
      (k.update n t links links (val t)).load = k.load.map (Sheet.write t links (val t)) ∧
      (k.update n t links links (val t)).record = (if Rec n t then
        k.record.map (Sheet.write t links fun l => if t = 0 then val t l else k.q.toBe l + val t l / n)
        else k.record) := by
    intro k t hon
    have hall : k.q.all n t (val t) links = links.foldl (fun q l => q.one n t l (val t l)) k.q := by
      unfold Quantity.all; rw [if_pos hon]
    have hon' : (k.q.all n t (val t) links).on = true := by rw [hall, fold_on, hon]
    have hm := fun l (h : l ∈ links) => fold_mem n t (val t) l links k.q hl h
    refine ⟨hon', ?_, ?_, ?_⟩
    · intro l h
      obtain ⟨_, h1, h2⟩ := hm l h
      show (k.q.all n t (val t) links).toBe l = _
      rw [hall]
      split
      · rename_i hr; exact (h1 hr).2
      · rename_i hr; rw [(h2 hr).2, hnq]
    · show (if (k.q.all n t (val t) links).on = true then _ else _) = _
      rw [if_pos hon', hall]
      congr 1
      funext s
      unfold Sheet.write
      congr 3
      refine Prod.ext rfl ?_
      apply List.map_congr_left
      intro l h
      exact (hm l h).1
    · show (if Rec n t ∧ (k.q.all n t (val t) links).on = true then _ else _) = _
      by_cases hr : Rec n t
      · rw [if_pos ⟨hr, hon'⟩, if_pos hr, hall]
        congr 1
        funext s
        unfold Sheet.write
        congr 3
        refine Prod.ext rfl ?_
        apply List.map_congr_left
        intro l h
        rw [((hm l h).2.1 hr).1, hnq]
      · rw [if_neg (fun h => hr h.1), if_neg hr]
  induction T with
  | zero =>
    have e : times 0 = [-1, 0] := rfl
    rw [e]
    simp only [Track.run, List.foldl_cons, List.foldl_nil]
    obtain ⟨a1, a2, a3, a4⟩ := hstep (Track.mk ⟨true, fun _ => 0, fun _ => 0, fun _ => 0⟩ a b) (-1) rfl
    obtain ⟨b1, b2, b3, b4⟩ := hstep _ 0 a1
    have hr0 : Rec n 0 := Or.inr rfl
    have hrm : Rec n (-1) ↔ n = 1 := by
      unfold Rec
      constructor
      · rintro (h | h)
        · have h1 : ((n : ℤ)) ∣ -1 := Int.dvd_of_tmod_eq_zero h
          have h2 := Int.eq_one_of_dvd_one (by positivity) ((Int.dvd_neg).1 h1)
          exact_mod_cast h2
        · omega
      · rintro rfl; left; rfl
    refine ⟨b1, ?_, ?_, ?_⟩
    · intro l h
      rw [b2 l h, if_pos hr0]
      simp [lastSum]
    · rw [b3, a3]
      cases a with
      | none => rfl
      | some s =>
        have := ha s rfl
        simp only [Option.map_some, Sheet.write, this]
        rfl
    · rw [b4, if_pos hr0, a4]
      unfold recRows
      cases b with
      | none => simp
      | some s =>
        have := hb s rfl
        by_cases h1 : n = 1
        · rw [if_pos (hrm.2 h1), if_pos h1]
          subst h1
          simp [Sheet.write, this]
        · rw [if_neg (fun h => h1 (hrm.1 h)), if_neg h1]
          simp [Sheet.write, this]
  | succ T ih =>
    have e : times (T + 1) = times T ++ [((T + 1 : ℕ) : ℤ)] := by
      unfold times
      rw [List.range_succ (n := T + 1), List.map_append]
      rfl
    obtain ⟨c1, c2, c3, c4⟩ := ih
    have erun : (Track.mk ⟨true, fun _ => 0, fun _ => 0, fun _ => 0⟩ a b).run n links links val (times (T + 1)) =
        ((Track.mk ⟨true, fun _ => 0, fun _ => 0, fun _ => 0⟩ a b).run n links links val (times T)).update n
          ((T + 1 : ℕ) : ℤ) links links (val ((T + 1 : ℕ) : ℤ)) := by
      rw [e]
      unfold Track.run
      rw [List.foldl_append]
      rfl
    rw [erun]
    obtain ⟨d1, d2, d3, d4⟩ := hstep _ ((T + 1 : ℕ) : ℤ) c1
    have hrec := rec_iff hn (T + 1)
    have hcast : (((T + 1 : ℕ) : ℤ)) = (T : ℤ) + 1 := by push_cast; rfl
    refine ⟨d1, ?_, ?_, ?_⟩
    · intro l h
      rw [d2 l h]
      by_cases hr : (T + 1) % n = 0
      · rw [if_pos (hrec.2 hr), hr]
        simp [lastSum]
      · rw [if_neg (fun x => hr (hrec.1 x)), c2 l h]
        have : (T + 1) % n = T % n + 1 := by
          have h1 := Nat.mod_lt T hn
          rcases Nat.lt_or_ge (T % n + 1) n with h2 | h2
          · rw [Nat.add_mod, Nat.mod_eq_of_lt (show 1 < n by omega), Nat.mod_eq_of_lt h2]
          · exfalso
            apply hr
            have h3 : T % n + 1 = n := by omega
            have h4 := Nat.div_add_mod T n
            have : T + 1 = n * (T / n + 1) := by rw [Nat.mul_add, Nat.mul_one]; omega
            rw [this]; simp
        rw [this, hcast, lastSum_succ]
        ring
    · rw [d3, c3, e]
      cases a with
      | none => rfl
      | some s => simp [Sheet.write]
    · rw [d4, c4]
      by_cases hr : (T + 1) % n = 0
      · rw [if_pos (hrec.2 hr)]
        cases b with
        | none => rfl
        | some s =>
          have hdiv : (T + 1) / n = T / n + 1 := by
            rw [Nat.succ_div, if_pos (Nat.dvd_of_mod_eq_zero hr)]
          have hmul : (T / n + 1) * n = T + 1 := by
            rw [← hdiv, Nat.div_mul_cancel (Nat.dvd_of_mod_eq_zero hr)]
          have hmod : T % n + 1 = n := by
            have h4 := Nat.div_add_mod T n
            rw [Nat.add_mul, Nat.one_mul, Nat.mul_comm] at hmul
            omega
          have hne : (((T + 1 : ℕ) : ℤ)) ≠ 0 := by omega
          simp only [Option.map_some, Sheet.write]
          congr 2
          unfold recRows
          rw [hdiv, List.range_succ, List.map_append, List.map_singleton, hmul, List.append_assoc,
            List.cons_append]
          congr 4
          refine Prod.ext rfl ?_
          apply List.map_congr_left
          intro l h
          rw [if_neg hne, c2 l h]
          have h5 := lastSum_succ val T (T % n) l
          rw [hmod, ← hcast] at h5
          rw [h5]
          ring
      · rw [if_neg (fun x => hr (hrec.1 x))]
        have hdiv : (T + 1) / n = T / n := by
          rw [Nat.succ_div, if_neg (fun h => hr (Nat.mod_eq_zero_of_dvd h))]
          rfl
        unfold recRows
        rw [hdiv]

end Verif.Stat
