import Verif.Lemmas.Transit

/-!
# Bus stops without simulated buses
-/

namespace Verif.Tr
open Ults Curve

variable {c : Cfg} {ts : ℕ}

/-- The passengers `L` have moved from link `i` to their next links. -/
structure Moved (c : Cfg) (ts i : ℕ) (L : List ℕ) (s s' : State) : Prop where
  log : s'.log = s.log ++ L.map fun p => ⟨ts, p, some i, (s.pax p).next⟩
  next : ∀ p, (s'.pax p).next = (s.pax p).next
  loc : ∀ w, w ≠ i → (c.link w).kind.walking = true →
    s'.loc (.finished w) = s.loc (.finished w) ++ L.filter fun p => decide ((s.pax p).next = some w)
  known : ∀ p ∈ L, (s.pax p).next ≠ none

theorem Moved.refl (s : State) {i : ℕ} : Moved c ts i [] s s := ⟨by simp, fun _ => rfl, by simp, by simp⟩

theorem Moved.cons {i p n : ℕ} {L : List ℕ} {s t s' : State} (h : Moved c ts i L t s')
    (hn : (s.pax p).next = some n) {b : Place} (hx : Crossed c ts p (.some i) (.some n) (s.shift p (.finished i) b) t)
    (hb : (b = .incoming n ∧ (c.link n).kind.walking = false) ∨ (b = .finished n ∧ n ≠ i)) :
    Moved c ts i (p :: L) s s' := by
  have h1 : ∀ q, (t.pax q).next = (s.pax q).next := fun q => by
    rw [hx.eq]
    by_cases e : q = p
    · subst e; simp [State.shift, upd]
    · simp [State.shift, upd, e]
  have h2 : t.log = s.log ++ [⟨ts, p, .some i, .some n⟩] := by rw [hx.eq]; rfl
  refine ⟨?_, fun q => (h.next q).trans (h1 q), fun w hw hk => ?_, ?_⟩
  · rw [h.log, h2]
    simp [h1, hn]
  · rw [h.loc w hw hk]
    have : t.loc (.finished w) = s.loc (.finished w) ++ if n = w then [p] else [] := by
      rw [hx.eq]
      rcases hb with ⟨rfl, hb⟩ | ⟨rfl, hb⟩
      · have : n ≠ w := by rintro rfl; rw [hb] at hk; cases hk
        simp [State.shift, upd, hw, this]
      · by_cases e : n = w
        · subst e; simp [State.shift, upd, hw]
        · simp [State.shift, upd, hw, e, Ne.symm e]
    rw [this]
    simp only [h1, List.filter_cons, hn, Option.some.injEq, List.append_assoc]
    split <;> simp_all
  · intro q hq
    rcases List.mem_cons.1 hq with rfl | hq
    · simp [hn]
    · rw [← h1]; exact h.known q hq

theorem rideLoop_serves {st : VStop} {i : ℕ} :
    ∀ (L : List ℕ) (k : ℤ) (s s' : State), rideLoop c ts st i k L s = .ok s' → ∃ fst rest, L = fst ++ rest ∧
      Moved c ts i fst s s' ∧
      k + fst.countP (fun p => !ridesNext c s p) ≤ max k (st.maxAlight * trunc c.scalar) ∧
      ∀ q ∈ rest.head?, ridesNext c s q = false ∧
        st.maxAlight * trunc c.scalar ≤ k + fst.countP (fun p => !ridesNext c s p)
  | [], k, s, s', h => by
    simp only [rideLoop, Res.ok.injEq] at h
    subst h
    exact ⟨[], [], rfl, .refl _, by simp, by simp⟩
  | p :: L, k, s, s', h => by
    unfold rideLoop at h
    split at h
    · simp at h
    · rename_i n hn
      split at h
      · rename_i hk
        simp only [Res.bind_eq_ok'] at h
        obtain ⟨t, h1, h⟩ := h
        have hx := cross_ok h1
        obtain ⟨fst, rest, e, m, h3, h4⟩ := rideLoop_serves L _ t s' h
        have m' := m.cons hn hx (.inl ⟨rfl, hk⟩)
        have hr : ridesNext c t = ridesNext c s := by
          funext q; unfold ridesNext; rw [← m.next, m'.next]
        have hp : ridesNext c s p = true := by simp [ridesNext, hn, hk]
        rw [hr] at h3 h4
        exact ⟨p :: fst, rest, by rw [e]; rfl, m', by simpa [hp] using h3, by simpa [hp] using h4⟩
      · rename_i hk
        have hp : ridesNext c s p = false := by simpa [ridesNext, hn] using hk
        split at h
        · rename_i hl
          simp only [Res.ok.injEq] at h
          subst h
          exact ⟨[], p :: L, rfl, .refl _, by simp, by simp [hp]; exact hl⟩
        · rename_i hl
          split at h
          · simp at h
          · rename_i hne
            simp only [Res.bind_eq_ok'] at h
            obtain ⟨t, h1, h⟩ := h
            have hx := cross_ok h1
            obtain ⟨fst, rest, e, m, h3, h4⟩ := rideLoop_serves L _ t s' h
            have m' := m.cons hn hx (.inr ⟨rfl, hne⟩)
            have hr : ridesNext c t = ridesNext c s := by
              funext q; unfold ridesNext; rw [← m.next, m'.next]
            rw [hr] at h3 h4
            refine ⟨p :: fst, rest, by rw [e]; rfl, m', ?_, fun q hq => ?_⟩
            · simp only [hp, List.countP_cons, Bool.not_false, if_true]
              push_cast
              omega
            · obtain ⟨a, b⟩ := h4 q hq
              refine ⟨a, ?_⟩
              simp only [hp, List.countP_cons, Bool.not_false, if_true]
              push_cast
              omega

theorem enterLoop_serves {st : VStop} {i : ℕ} :
    ∀ (L : List ℕ) (k : ℤ) (s s' : State), enterLoop c ts st i k L s = .ok s' → ∃ fst rest, L = fst ++ rest ∧
      Moved c ts i fst s s' ∧
      k + fst.countP (ridesNext c s) ≤ max k (st.maxBoard * trunc c.scalar) ∧
      ∀ q ∈ rest.head?, ridesNext c s q = true ∧
        st.maxBoard * trunc c.scalar ≤ k + fst.countP (ridesNext c s)
  | [], k, s, s', h => by
    simp only [enterLoop, Res.ok.injEq] at h
    subst h
    exact ⟨[], [], rfl, .refl _, by simp, by simp⟩
  | p :: L, k, s, s', h => by
    unfold enterLoop at h
    split at h
    · simp at h
    · rename_i n hn
      split at h
      · rename_i hk
        have hp : ridesNext c s p = true := by simp [ridesNext, hn, hk]
        split at h
        · rename_i hl
          simp only [Res.ok.injEq] at h
          subst h
          exact ⟨[], p :: L, rfl, .refl _, by simp, by simp [hp]; exact hl⟩
        · rename_i hl
          simp only [Res.bind_eq_ok'] at h
          obtain ⟨t, h1, h⟩ := h
          have hx := cross_ok h1
          obtain ⟨fst, rest, e, m, h3, h4⟩ := enterLoop_serves L _ t s' h
          have m' := m.cons hn hx (.inl ⟨rfl, hk⟩)
          have hr : ridesNext c t = ridesNext c s := by
            funext q; unfold ridesNext; rw [← m.next, m'.next]
          rw [hr] at h3 h4
          refine ⟨p :: fst, rest, by rw [e]; rfl, m', ?_, fun q hq => ?_⟩
          · simp only [hp, List.countP_cons, if_true]
            push_cast
            omega
          · obtain ⟨a, b⟩ := h4 q hq
            refine ⟨a, ?_⟩
            simp only [hp, List.countP_cons, if_true]
            push_cast
            omega
      · rename_i hk
        have hp : ridesNext c s p = false := by simpa [ridesNext, hn] using hk
        split at h
        · simp at h
        · rename_i hne
          simp only [Res.bind_eq_ok'] at h
          obtain ⟨t, h1, h⟩ := h
          have hx := cross_ok h1
          obtain ⟨fst, rest, e, m, h3, h4⟩ := enterLoop_serves L _ t s' h
          have m' := m.cons hn hx (.inr ⟨rfl, hne⟩)
          have hr : ridesNext c t = ridesNext c s := by
            funext q; unfold ridesNext; rw [← m.next, m'.next]
          rw [hr] at h3 h4
          exact ⟨p :: fst, rest, by rw [e]; rfl, m', by simpa [hp] using h3, by simpa [hp] using h4⟩

end Verif.Tr
