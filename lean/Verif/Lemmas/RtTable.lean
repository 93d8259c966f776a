import Verif.Spec.Realtime
import Verif.Props.Path

/-!
# Lemmas on path portions
-/

namespace Verif.Rt

theorem setP_map (f : Pth → ℚ) (ps : List Pth) : setP ps (ps.map f) = ps.map fun P => { P with p := f P } := by
  induction ps with
  | nil => rfl
  | cons P ps ih => simp only [List.map_cons, setP, ih]

/-- Normalising numbers that are not negative. -/
theorem normalize_map (f : Pth → ℚ) (ps : List Pth) (h : ∀ P ∈ ps, 0 ≤ f P) :
    ∃ c : Pth → ℚ, ((Path.normalizeP (ps.map f)).bind fun qs => .ok (setP ps qs)) =
        .ok (ps.map fun P => { P with p := c P }) ∧ (ps ≠ [] → (∀ P ∈ ps, 0 ≤ c P) ∧ (ps.map c).sum = 1) ∧
        ((ps.map f).sum ≠ 0 → ∀ P, c P = f P / (ps.map f).sum) := by
  have h' : ∀ q ∈ ps.map f, 0 ≤ q := by
    intro q hq
    obtain ⟨P, hP, rfl⟩ := List.mem_map.1 hq
    exact h P hP
  by_cases hs : (ps.map f).sum = 0
  · by_cases hne : ps = []
    · subst hne
      exact ⟨fun _ => 0, rfl, fun h => absurd rfl h, fun h => absurd rfl h⟩
    · refine ⟨fun _ => 1 / ((ps.map f).length : ℚ), ?_, fun _ => ⟨fun P _ => by positivity, ?_⟩, fun h => absurd hs h⟩
      · have hz : ∀ q ∈ ps.map f, q = 0 := fun q hq => by
          have h1 := List.single_le_sum h' q hq
          have h2 := h' q hq
          linarith
        obtain ⟨qs, hq, hl, hv, _⟩ := C32_uniform (ps.map f) hz (by simpa using hne)
        have : qs = ps.map fun _ => 1 / ((ps.map f).length : ℚ) := by
          refine List.ext_getElem (by rw [hl]; simp) fun i h1 h2 => ?_
          rw [hv _ (List.getElem_mem h1)]
          simp
        rw [hq, this]
        exact congrArg Res.ok (setP_map _ _)
      · have : (ps.length : ℚ) ≠ 0 := by simpa using hne
        simp only [List.length_map, List.map_const', List.sum_replicate, nsmul_eq_mul]
        field_simp
  · obtain ⟨e, a, b⟩ := C32_normalized (ps.map f) h' hs
    refine ⟨fun P => f P / (ps.map f).sum, ?_, fun _ => ⟨fun P hP => ?_, ?_⟩, fun _ _ => rfl⟩
    · rw [e]
      simp only [Res.bind, List.map_map]
      exact congrArg Res.ok (setP_map _ _)
    · exact a _ (by simpa using ⟨P, hP, rfl⟩)
    · rw [List.map_map] at b
      exact b

/-- The factor a portion is changed by. -/
def factor (step g : ℚ) : ℚ := if g > 0 then 1 / (1 + step) else 1 + step

theorem factor_bounds {step : ℚ} (h : 0 ≤ step) (g : ℚ) : 1 / (1 + step) ≤ factor step g ∧ factor step g ≤ 1 + step := by
  have h1 : 1 / (1 + step) ≤ 1 + step := by
    rw [div_le_iff₀ (by linarith)]
    nlinarith
  unfold factor
  split
  · exact ⟨le_rfl, h1⟩
  · exact ⟨h1, le_rfl⟩

theorem factor_pos {step : ℚ} (h : 0 ≤ step) (g : ℚ) : 0 < factor step g :=
  lt_of_lt_of_le (by positivity) (factor_bounds h g).1

theorem stepP_eq {step p : ℚ} (h0 : 0 ≤ step) (h1 : step ≤ 9999) (hp : 0 ≤ p) (hp1 : p ≤ 1) (g : ℚ) :
    stepP step g p = p * factor step g := by
  have hb := factor_bounds h0 g
  have hf := factor_pos h0 g
  have e : (if g > 0 then p / (1 + step) else p * (1 + step)) = p * factor step g := by
    unfold factor
    split
    · rw [div_eq_mul_one_div]
    · rfl
  unfold stepP
  rw [e, max_eq_left, min_eq_left]
  · nlinarith
  · nlinarith [mul_nonneg hp hf.le]

theorem portions_le {ps : List Pth} (h : Portions ps) : ∀ P ∈ ps, P.p ≤ 1 := by
  intro P hP
  rw [← h.2]
  refine List.single_le_sum (fun q hq => ?_) _ (List.mem_map_of_mem hP)
  obtain ⟨Q, hQ, rfl⟩ := List.mem_map.1 hq
  exact h.1 Q hQ

theorem sum_between (ps : List Pth) (h : ∀ P ∈ ps, 0 ≤ P.p) (f : Pth → ℚ) (lo hi : ℚ)
    (hf : ∀ P ∈ ps, lo ≤ f P ∧ f P ≤ hi) :
    lo * (ps.map Pth.p).sum ≤ (ps.map fun P => P.p * f P).sum ∧
      (ps.map fun P => P.p * f P).sum ≤ hi * (ps.map Pth.p).sum := by
  induction ps with
  | nil => simp
  | cons P ps ih =>
    obtain ⟨a, b⟩ := ih (fun Q hQ => h Q (by simp [hQ])) fun Q hQ => hf Q (by simp [hQ])
    have h1 := h P (by simp)
    have h2 := hf P (by simp)
    simp only [List.map_cons, List.sum_cons]
    constructor <;> nlinarith

/-- The update of a set, in closed form. -/
theorem updateSet_eq (grad : Pth → ℚ) {step : ℚ} (h0 : 0 ≤ step) (h1 : step ≤ 9999) {ps : List Pth}
    (h : Portions ps) :
    ∃ S : ℚ, S = (ps.map fun P => P.p * factor step (grad P)).sum ∧ 0 < S ∧ 1 / (1 + step) ≤ S ∧ S ≤ 1 + step ∧
      updateSet grad step ps = .ok (ps.map fun P => { P with p := P.p * factor step (grad P) / S }) := by
  have hb := sum_between ps h.1 (fun P => factor step (grad P)) (1 / (1 + step)) (1 + step)
    fun P _ => factor_bounds h0 _
  rw [h.2, mul_one, mul_one] at hb
  have hpos : 0 < (ps.map fun P => P.p * factor step (grad P)).sum := lt_of_lt_of_le (by positivity) hb.1
  refine ⟨_, rfl, hpos, hb.1, hb.2, ?_⟩
  have e : (ps.map fun P => stepP step (grad P) P.p) = ps.map fun P => P.p * factor step (grad P) :=
    List.map_congr_left fun P hP => stepP_eq h0 h1 (h.1 P hP) (portions_le h P hP) _
  unfold updateSet
  rw [if_neg (by linarith), e]
  obtain ⟨c, hc, _, hc2⟩ := normalize_map (fun P => P.p * factor step (grad P)) ps
    fun P hP => mul_nonneg (h.1 P hP) (factor_pos h0 _).le
  rw [hc]
  congr 2
  funext P
  rw [hc2 hpos.ne']

theorem updateSet_portions (grad : Pth → ℚ) {step : ℚ} (h0 : 0 ≤ step) (h1 : step ≤ 9999) {ps : List Pth}
    (h : Portions ps) : ∃ ps', updateSet grad step ps = .ok ps' ∧ Portions ps' := by
  obtain ⟨S, hS, hp, _, _, e⟩ := updateSet_eq grad h0 h1 h
  refine ⟨_, e, ?_, ?_⟩
  · intro Q hQ
    obtain ⟨P, hP, rfl⟩ := List.mem_map.1 hQ
    exact div_nonneg (mul_nonneg (h.1 P hP) (factor_pos h0 _).le) hp.le
  · rw [List.map_map]
    have : (Pth.p ∘ fun P : Pth => { P with p := P.p * factor step (grad P) / S })
        = fun P => (P.p * factor step (grad P)) * S⁻¹ := by
      funext P
      simp only [Function.comp, div_eq_mul_inv]
    rw [this, List.sum_map_mul_right, ← hS]
    exact mul_inv_cancel₀ hp.ne'

theorem eachSet_nil_paths {f : List Pth → Res (List Pth)} {Q R : List Pth → Prop}
    (hf : ∀ ps, Q ps → ∃ ps', f ps = .ok ps' ∧ R ps') : ∀ tbl : List Od, (∀ e ∈ tbl, Q e.paths) →
    ∃ t', eachSet f tbl = .ok t' ∧
      List.Forall₂ (fun e e' => e'.o = e.o ∧ e'.d = e.d ∧ f e.paths = .ok e'.paths ∧ R e'.paths) tbl t' := by
  intro tbl
  induction tbl with
  | nil => exact fun _ => ⟨_, rfl, .nil⟩
  | cons e es ih =>
    intro h
    obtain ⟨ps, h1, h2⟩ := hf _ (h e (by simp))
    obtain ⟨t, h3, h4⟩ := ih fun x hx => h x (by simp [hx])
    exact ⟨{ e with paths := ps } :: t, by unfold eachSet; rw [h1]; simp only [Res.bind, h3], .cons ⟨rfl, rfl, h1, h2⟩ h4⟩

theorem forall₂_right {α β : Type} {R : α → β → Prop} {S : β → Prop} {xs : List α} {ys : List β}
    (h : List.Forall₂ R xs ys) (hs : ∀ x y, R x y → S y) : ∀ y ∈ ys, S y := by
  induction h with
  | nil => simp
  | cons a b ih =>
    intro y hy
    rcases List.mem_cons.1 hy with rfl | hy
    · exact hs _ _ a
    · exact ih y hy

/-- Empty sets stay empty, others keep portions. -/
theorem updateSet_any (grad : Pth → ℚ) {step : ℚ} (h0 : 0 ≤ step) (h1 : step ≤ 9999) (ps : List Pth)
    (h : ps ≠ [] → Portions ps) : ∃ ps', updateSet grad step ps = .ok ps' ∧ (ps' ≠ [] → Portions ps') := by
  by_cases hn : ps = []
  · subst hn
    refine ⟨[], ?_, fun h => absurd rfl h⟩
    unfold updateSet
    rw [if_neg (by linarith)]
    rfl
  · obtain ⟨ps', a, b⟩ := updateSet_portions grad h0 h1 (h hn)
    exact ⟨ps', a, fun _ => b⟩

theorem normalizeSet_any (ps : List Pth) (h : ∀ P ∈ ps, 0 ≤ P.p) :
    ∃ ps', ((Path.normalizeP (ps.map Pth.p)).bind fun qs => .ok (setP ps qs)) = .ok ps' ∧
      (ps' ≠ [] → Portions ps') := by
  obtain ⟨c, a, b, _⟩ := normalize_map Pth.p ps h
  refine ⟨_, a, fun hne => ?_⟩
  have hn : ps ≠ [] := by
    rintro rfl
    exact hne rfl
  obtain ⟨b1, b2⟩ := b hn
  refine ⟨fun Q hQ => ?_, ?_⟩
  · obtain ⟨P, hP, rfl⟩ := List.mem_map.1 hQ
    exact b1 P hP
  · rw [List.map_map]
    exact b2

theorem normalizeTable_any (tbl : List Od) (h : ∀ e ∈ tbl, ∀ P ∈ e.paths, 0 ≤ P.p) :
    ∃ t', normalizeTable tbl = .ok t' ∧ AllPortions t' := by
  obtain ⟨t', a, b⟩ := eachSet_nil_paths normalizeSet_any tbl h
  exact ⟨t', a, forall₂_right b fun _ _ h => h.2.2.2⟩

/-- Portions are left as they are by normalising. -/
theorem normalizeSet_id {ps : List Pth} (h : ps ≠ [] → Portions ps) :
    ((Path.normalizeP (ps.map Pth.p)).bind fun qs => .ok (setP ps qs)) = .ok ps := by
  by_cases hn : ps = []
  · subst hn; rfl
  · obtain ⟨h1, h2⟩ := h hn
    obtain ⟨c, a, _, b⟩ := normalize_map Pth.p ps h1
    rw [a]
    have : (fun P : Pth => { P with p := c P }) = id := by
      funext P
      rw [b (by rw [h2]; exact one_ne_zero), h2, div_one]
      rfl
    rw [this, List.map_id]

theorem normalizeTable_id : ∀ {tbl : List Od}, AllPortions tbl → normalizeTable tbl = .ok tbl := by
  intro tbl
  induction tbl with
  | nil => exact fun _ => rfl
  | cons e es ih =>
    intro h
    have h1 := normalizeSet_id (h e (by simp))
    have h2 := ih fun x hx => h x (by simp [hx])
    unfold normalizeTable at h2 ⊢
    unfold eachSet
    rw [h1]
    change (eachSet _ es).bind _ = _
    rw [h2]
    rfl

theorem modify_mem {α : Type} (f : α → α) : ∀ (l : List α) (i : ℕ), ∀ x ∈ l.modify i f, x ∈ l ∨ ∃ y ∈ l, x = f y := by
  intro l
  induction l with
  | nil => intro i x hx; simp at hx
  | cons a l ih =>
    intro i x hx
    cases i with
    | zero =>
      rw [List.modify_zero_cons] at hx
      rcases List.mem_cons.1 hx with rfl | hx
      · exact .inr ⟨a, by simp, rfl⟩
      · exact .inl (by simp [hx])
    | succ i =>
      rw [List.modify_succ_cons] at hx
      rcases List.mem_cons.1 hx with rfl | hx
      · exact .inl (by simp)
      · rcases ih i x hx with h | ⟨y, hy, rfl⟩
        · exact .inl (by simp [h])
        · exact .inr ⟨y, by simp [hy], rfl⟩

/-- No negative numbers. -/
def NonNeg (tbl : List Od) : Prop := ∀ e ∈ tbl, ∀ P ∈ e.paths, 0 ≤ P.p

theorem modPath_nonneg {f : Pth → Pth} (hf : ∀ P, 0 ≤ P.p → 0 ≤ (f P).p) {tbl : List Od} (h : NonNeg tbl)
    (ij : ℕ × ℕ) : NonNeg (modPath f tbl ij) := by
  intro e he P hP
  unfold modPath at he
  rcases modify_mem _ _ _ _ he with h1 | ⟨e', h1, rfl⟩
  · exact h e h1 P hP
  · rcases modify_mem _ _ _ _ hP with h2 | ⟨Q, h2, rfl⟩
    · exact h e' h1 P h2
    · exact hf Q (h e' h1 Q h2)

theorem foldl_inv {α β : Type} {f : β → α → β} {I : β → Prop} (hf : ∀ b a, I b → I (f b a)) :
    ∀ (as : List α) (b : β), I b → I (as.foldl f b) := by
  intro as
  induction as with
  | nil => exact fun _ h => h
  | cons a as ih => exact fun b h => ih _ (hf b a h)

theorem thinSign_nonneg {tbl : List Od} {s : Sign} (hs : 0 ≤ s.ratio) (h : NonNeg tbl) : NonNeg (thinSign tbl s) := by
  unfold thinSign
  refine foldl_inv (I := NonNeg) (fun t a ht => ?_) _ _ h
  split
  · exact foldl_inv (I := NonNeg) (fun t ij ht => modPath_nonneg (fun P hP => mul_nonneg hP hs) ht ij) _ _ ht
  · exact ht

theorem thinSigns_nonneg : ∀ (signs : List Sign) {tbl : List Od}, (∀ s ∈ signs, 0 ≤ s.ratio) → NonNeg tbl →
    NonNeg (signs.foldl thinSign tbl) := by
  intro signs
  induction signs with
  | nil => exact fun _ h => h
  | cons s signs ih =>
    intro tbl hs h
    exact ih (fun x hx => hs x (by simp [hx])) (thinSign_nonneg (hs s (by simp)) h)

theorem modify_id {α : Type} (l : List α) (i : ℕ) : l.modify i (fun x => x) = l := by
  induction l generalizing i with
  | nil => simp
  | cons a l ih =>
    cases i with
    | zero => rfl
    | succ i => rw [List.modify_succ_cons, ih]

theorem thinSign_one {tbl : List Od} {s : Sign} (hs : s.ratio = 1) : thinSign tbl s = tbl := by
  have hm : ∀ (t : List Od) ij, modPath (fun P => { P with p := P.p * s.ratio }) t ij = t := by
    intro t ij
    have : (fun P : Pth => { P with p := P.p * s.ratio }) = fun P => P := by
      funext P
      rw [hs, mul_one]
    unfold modPath
    simp only [this, modify_id]
  have hg : ∀ (ijs : List (ℕ × ℕ)) (t : List Od),
      ijs.foldl (modPath fun P => { P with p := P.p * s.ratio }) t = t := by
    intro ijs
    induction ijs with
    | nil => exact fun _ => rfl
    | cons ij ijs ih =>
      intro t
      rw [List.foldl_cons, hm, ih]
  unfold thinSign
  generalize s.alts = alts
  induction alts with
  | nil => rfl
  | cons a alts ih =>
    rw [List.foldl_cons, hg, ite_self]
    exact ih

theorem nonneg_of_all {tbl : List Od} (h : AllPortions tbl) : NonNeg tbl := by
  intro e he P hP
  exact (h e he (List.ne_nil_of_mem hP)).1 P hP

theorem mapPaths_portions {f : Pth → Pth} (hf : ∀ P, (f P).p = P.p) {tbl : List Od} (h : AllPortions tbl) :
    AllPortions (mapPaths f tbl) := by
  intro e he hne
  unfold mapPaths at he
  obtain ⟨e', he', rfl⟩ := List.mem_map.1 he
  have h' : e'.paths ≠ [] := by
    rintro h0
    simp [h0] at hne
  obtain ⟨h1, h2⟩ := h e' he' h'
  refine ⟨fun Q hQ => ?_, ?_⟩
  · obtain ⟨P, hP, rfl⟩ := List.mem_map.1 hQ
    rw [hf]
    exact h1 P hP
  · simp only [List.map_map, Function.comp_def, hf]
    exact h2

theorem initRunning_ok (tbl : List Od) : ∃ t', initRunning tbl = .ok t' ∧ AllPortions t' := by
  refine normalizeTable_any _ ?_
  intro e he P hP
  unfold mapPaths at he
  obtain ⟨e', _, rfl⟩ := List.mem_map.1 he
  obtain ⟨Q, _, rfl⟩ := List.mem_map.1 hP
  exact le_rfl

end Verif.Rt
