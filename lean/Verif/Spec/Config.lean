import Verif.Model.Config
import Verif.Spec.Text

/-! # What a configuration file says -/

namespace Verif.Text

/-- Blanks of a configuration line. -/
def Blank (s : Str) : Prop := ∀ c ∈ s, c ∈ [' ', '\t', '\r', '\n']

/-- A text that neither starts nor ends with a blank. -/
def Clean (s : Str) : Prop :=
  (∀ c, s.head? = some c → c ∉ [' ', '\t', '\r', '\n']) ∧
  (∀ c, s.getLast? = some c → c ∉ [' ', '\t', '\r', '\n'])

/-- The meaning of a line. -/
inductive Item where
  | skip
  | section (name : Str)
  | entry (key value : Str)
deriving DecidableEq

/-- `Says line item`: the line has this meaning. -/
inductive Says : Str → Item → Prop
  /-- a blank line -/
  | blank (p : Str) : Blank p → Says p .skip
  /-- `# …` or `; …` -/
  | comment (p r : Str) (c : Char) : Blank p → c = '#' ∨ c = ';' → Says (p ++ c :: r) .skip
  /-- `[ name ] …` -/
  | section (p p1 p2 name r : Str) : Blank p → Blank p1 → Blank p2 → Clean name → ']' ∉ name →
      Says (p ++ '[' :: (p1 ++ name ++ p2 ++ ']' :: r)) (.section name)
  /-- `[ name` without the closing bracket -/
  | sectionOpen (p p1 p2 name : Str) : Blank p → Blank p1 → Blank p2 → Clean name → ']' ∉ name →
      Says (p ++ '[' :: (p1 ++ name ++ p2)) (.section name)
  /-- `key = value` -/
  | entry (p p1 p2 p3 key value : Str) : Blank p → Blank p1 → Blank p2 → Blank p3 → Clean key →
      Clean value → '=' ∉ key → key.head? ∉ [some '#', some ';', some '['] →
      Says (p ++ (key ++ (p1 ++ '=' :: (p2 ++ value ++ p3)))) (.entry key value)
  /-- a line without `=` stands for itself -/
  | bare (p p1 text : Str) : Blank p → Blank p1 → Clean text → text ≠ [] → '=' ∉ text →
      text.head? ∉ [some '#', some ';', some '['] → Says (p ++ text ++ p1) (.entry text text)

/-- The assignments `(section, key, value)` made by a list of items, starting in a section. -/
def assigned : Str → List Item → List (Str × Str × Str)
  | _, [] => []
  | s, .skip :: is => assigned s is
  | _, .section n :: is => assigned n is
  | s, .entry k v :: is => (s, k, v) :: assigned s is

/-- The value of the last assignment to a key in a section. -/
def lastValue (items : List Item) (sec key : Str) : Option Str :=
  ((assigned [] items).reverse.find? fun a => a.1 = sec ∧ a.2.1 = key).map fun a => a.2.2

end Verif.Text
