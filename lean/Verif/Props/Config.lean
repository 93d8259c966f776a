import Verif.Lemmas.Config
import Verif.Lemmas.Ults

/-! # C49: configuration files

`Says line item` in `Verif.Spec.Config` gives the meaning of a line; `lastValue items sec key` is the
value of the last assignment to `key` in section `sec`. -/

namespace Verif
open Text

/-- Every line means something, so the next theorem is about every file. -/
theorem C49_every_line_means_something (line : Str) : ∃ item, Says line item := exists_says line

/-- C49, as far as it is true.  Reading a configuration file always ends, and afterwards looking up a
key in a section returns the value of the last assignment to it in that section, and raises
`std::invalid_argument` if there is none.  Section names do not contain `/`.  Missing from C49: a lookup
with a default does not return the default (`C49_default_never_used`), and with `/` in a section name
different keys are confused (`C49_slash_confuses`). -/
theorem C49_lookup_partial (content : Str) (items : List Item) (h : List.Forall₂ Says (linesOf content) items)
    (hs : ∀ n, .section n ∈ items → '/' ∉ n) (fuel : ℕ) (hf : (linesOf content).length < fuel) :
    ∃ m, parseConf fuel content = .ok m ∧ ∀ sec key, '/' ∉ sec →
      getString m sec key =
        match lastValue items sec key with
        | some v => .ok v
        | none => .throw "invalid_argument" := by
  refine ⟨_, parseConf_eq h fuel hf, ?_⟩
  intro sec key hk
  have := fold_get items ⟨[], []⟩ (by simp) hs sec key hk
  have hn : Store.get ([] : Store Str Str) (sec ++ '/' :: key) = none := rfl
  simp only [hn, Option.or_none] at this
  unfold getString confValue
  rw [this]
  unfold lastValue
  cases Option.map (fun a => a.2.2)
    (List.find? (fun a => decide (a.1 = sec ∧ a.2.1 = key)) (assigned [] items).reverse) <;> rfl

/-- C49 for numbers: an `int` written in decimal is read back as this `int`, and a decimal number as
this number. -/
theorem C49_numbers (m : Store Str Str) (sec key : Str) :
    (∀ n : ℤ, -2147483648 ≤ n → n ≤ 2147483647 → getString m sec key = .ok (toStr n) →
      getInt m sec key = .ok n ∧ getFloat m sec key = .ok (n : ℚ)) ∧
    (∀ (n : ℕ) (fp : Str), (∀ c ∈ fp, c.isDigit = true) → getString m sec key = .ok (toStr n ++ '.' :: fp) →
      getFloat m sec key = .ok (n + (digitsVal fp : ℚ) / 10 ^ fp.length)) := by
  refine ⟨fun n h1 h2 h => ?_, fun n fp hfp h => ?_⟩
  · unfold getString at h
    unfold getInt getFloat
    rw [h]
    simp only [Res.bind_ok', atof_toStr, and_true]
    refine Ults.toInt_ok_iff.2 ⟨?_, h1, h2⟩
    unfold Ults.trunc
    split <;> simp
  · unfold getString at h
    unfold getFloat
    rw [h]
    simp only [Res.bind_ok', atof_decimal n fp hfp]

/-- C49 is false of the code for lookups with a default: a missing key raises although a default is
given, whatever it is. -/
theorem C49_default_never_used (m : Store Str Str) (sec key : Str) (dflt : Str)
    (h : getString m sec key = .throw "invalid_argument") :
    confValueDefault m sec key dflt = .throw "invalid_argument" := by
  unfold getString at h
  unfold confValueDefault
  rw [h]
  rfl

/-- With `/` in a section name, the key `c` of section `a/b` overwrites the key `b/c` of section `a`. -/
theorem C49_slash_confuses :
    ((parseConf 9 "[a]\nb/c=1\n[a/b]\nc=2".toList).bind fun m =>
      (getString m "a".toList "b/c".toList)) = .ok "2".toList := by
  decide +kernel

/-- A typical file. -/
example :
    ((parseConf 20 "# comment\n[DTA]\nunit_time = 5\nflow_scalar=1.5\n\n[STAT]\nunit_time = 6\n[DTA]\nunit_time=7\n".toList).bind
      fun m => (getInt m "DTA".toList "unit_time".toList).bind fun a =>
        (getInt m "STAT".toList "unit_time".toList).bind fun b =>
          (getFloat m "DTA".toList "flow_scalar".toList).bind fun c => .ok [(a : ℚ), b, c]) = .ok [7, 6, 3 / 2] := by
  decide +kernel

/-- The hypotheses of C49 hold for a file with a comment, a section and an assignment. -/
example : List.Forall₂ Says (linesOf "# x\n[DTA]\n unit = 5 \n".toList)
    [.skip, .section "DTA".toList, .entry "unit".toList "5".toList, .skip] := by
  have e : linesOf "# x\n[DTA]\n unit = 5 \n".toList =
      [[] ++ '#' :: " x".toList, [] ++ '[' :: ([] ++ "DTA".toList ++ [] ++ ']' :: []),
        [' '] ++ ("unit".toList ++ ([' '] ++ '=' :: ([' '] ++ "5".toList ++ [' ']))), []] := by decide +kernel
  rw [e]
  refine .cons (.comment _ _ _ (by simp [Blank]) (by simp)) (.cons (.section _ _ _ _ _ (by simp [Blank])
    (by simp [Blank]) (by simp [Blank]) ⟨by simp, by simp⟩ (by simp)) (.cons (.entry _ _ _ _ _ _ (by simp [Blank])
    (by simp [Blank]) (by simp [Blank]) (by simp [Blank]) ⟨by simp, by simp⟩ ⟨by simp, by simp⟩ (by simp) (by simp))
    (.cons (.blank _ (by simp [Blank])) .nil)))

example : lastValue [.skip, .section "DTA".toList, .entry "unit".toList "5".toList, .skip]
    "DTA".toList "unit".toList = some "5".toList := by decide +kernel

end Verif
