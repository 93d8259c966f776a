import Verif.Lemmas.FlowFiles
import Verif.Model.EvRecords

/-!
# Records of charging stations
-/

namespace Verif.EvRec
open Text Io Rd FlowF

def csvRow (a b : Str) : Str := a ++ ',' :: b

theorem digit_ne {c : Char} (h : c.isDigit = true) : c ≠ ',' ∧ c ≠ '\n' := by
  constructor <;> rintro rfl <;> simp at h

theorem toStr_plain (n : ℤ) : ',' ∉ toStr n ∧ '\n' ∉ toStr n ∧ toStr n ≠ [] := by
  obtain ⟨ds, e1, e2, _, e4⟩ := toStr_spec n
  rw [e4]
  split
  · refine ⟨?_, ?_, by simp⟩ <;> simp only [List.mem_cons, not_or]
    · exact ⟨by decide, fun h => (digit_ne (e2 _ h)).1 rfl⟩
    · exact ⟨by decide, fun h => (digit_ne (e2 _ h)).2 rfl⟩
  · exact ⟨fun h => (digit_ne (e2 _ h)).1 rfl, fun h => (digit_ne (e2 _ h)).2 rfl, e1⟩

theorem dec_plain (x : ℚ) : ',' ∉ dec x ∧ '\n' ∉ dec x ∧ dec x ≠ [] := by
  obtain ⟨ip, e1, e2, e3, _⟩ := decGo_spec (near (|x| * 1000000) / 1000000 + 1) (near (|x| * 1000000) / 1000000) [] (by omega)
  obtain ⟨_, f2, _⟩ := fix_spec 6 (near (|x| * 1000000) % 1000000)
  rw [List.append_nil] at e1
  have key : ∀ c ∈ dec x, c = '-' ∨ c = '.' ∨ c.isDigit = true := by
    intro c hc
    unfold dec at hc
    simp only at hc
    rw [e1] at hc
    rcases List.mem_append.1 hc with hc | hc
    · split at hc
      · exact Or.inl (List.mem_singleton.1 hc)
      · simp at hc
    · rcases List.mem_append.1 hc with hc | hc
      · exact Or.inr (Or.inr (e3 c hc))
      · rcases List.mem_cons.1 hc with hc | hc
        · exact Or.inr (Or.inl hc)
        · exact Or.inr (Or.inr (f2 c hc))
  refine ⟨fun h => ?_, fun h => ?_, (dec_word x).1.1⟩
  · rcases key _ h with h | h | h <;> simp at h
  · rcases key _ h with h | h | h <;> simp at h

theorem split_csv {a b : Str} (ha : ',' ∉ a) (hb : ',' ∉ b) (ha' : a ≠ []) (hb' : b ≠ []) : split (csvRow a b) ',' = [a, b] := by
  unfold split csvRow
  rw [splitGo_eq ',' _ _ (by omega), List.splitOn_append_cons_self_of_not_mem ha, List.splitOn_eq_singleton hb]
  simp [ha', hb']

/-- Lines without newline between them. -/
theorem linesOf_join (h : Str) (ls : List Str) (hh : '\n' ∉ h) (hl : ∀ l ∈ ls, '\n' ∉ l) :
    linesOf ((h ++ '\n' :: ls.flatMap fun l => l ++ ['\n']).dropLast) = h :: ls := by
  have key : ∀ (ls : List Str) (h : Str), '\n' ∉ h → (∀ l ∈ ls, '\n' ∉ l) →
      ∃ body, (h ++ '\n' :: ls.flatMap fun l => l ++ ['\n']) = body ++ ['\n'] ∧ linesOf body = h :: ls := by
    intro ls
    induction ls with
    | nil =>
      intro h hh _
      exact ⟨h, by simp, by unfold linesOf; rw [List.splitOn_eq_singleton hh]⟩
    | cons l ls ih =>
      intro h hh hl
      obtain ⟨body, e1, e2⟩ := ih l (hl l (by simp)) (fun x hx => hl x (by simp [hx]))
      refine ⟨h ++ '\n' :: body, ?_, ?_⟩
      · rw [List.flatMap_cons, List.append_assoc, List.singleton_append, e1]
        simp
      · unfold linesOf at e2 ⊢
        rw [List.splitOn_append_cons_self_of_not_mem hh, e2]
  obtain ⟨body, e1, e2⟩ := key ls h hh hl
  rw [e1, List.dropLast_concat, e2]

theorem find_key {rec : List (ℤ × ℤ)} (hn : (rec.map (·.1)).Nodup) {k w : ℤ} (h : (k, w) ∈ rec) :
    rec.find? (fun x => decide (x.1 = k)) = some (k, w) := by
  induction rec with
  | nil => simp at h
  | cons x rec ih =>
    rw [List.map_cons, List.nodup_cons] at hn
    rcases List.mem_cons.1 h with rfl | h
    · simp
    · have : x.1 ≠ k := fun e => hn.1 (e ▸ List.mem_map.2 ⟨_, h, rfl⟩)
      rw [List.find?_cons_of_neg (by simpa using this)]
      exact ih hn.2 h

theorem waitRows {unit : ℤ} {rec : List (ℤ × ℤ)} (hn : (rec.map (·.1)).Nodup)
    (hb : ∀ x ∈ rec, IntOk (x.2 * unit)) : ∀ (xs : List (ℤ × ℤ)) (acc : Str), (∀ x ∈ xs, x ∈ rec) →
    Res.foldlM (waitRow unit rec) acc (xs.map (·.1)) =
      .ok (acc ++ (xs.map fun x => csvRow (toStr x.1) (toStr (x.2 * unit))).flatMap fun l => l ++ ['\n']) := by
  intro xs
  induction xs with
  | nil => intro acc _; simp
  | cons x xs ih =>
    intro acc h
    have e : waitRow unit rec acc x.1 = .ok (acc ++ (toStr x.1 ++ ',' :: (toStr (x.2 * unit) ++ ['\n']))) := by
      unfold waitRow
      rw [find_key hn (k := x.1) (w := x.2) (h x (by simp))]
      exact if_pos (hb x (h x (by simp)))
    rw [List.map_cons, Res.foldlM_cons, e, Res.ok_bind, ih _ fun y hy => h y (by simp [hy])]
    simp [csvRow]

end Verif.EvRec
