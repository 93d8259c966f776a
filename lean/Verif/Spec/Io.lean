import Verif.Model.Io
import Verif.Spec.Text
import Verif.Spec.Graph
import Verif.Spec.ShortestPath

/-! # What input files are meant to say -/

namespace Verif.Io
open Text Graph

/-- A line made of words. -/
def lineOf (ws : List Str) : Str := [' '].intercalate ws

/-- A file made of rows of words: words separated by one space, every row ended by a newline. -/
def textOf (rows : List (List Str)) : Str := rows.flatMap fun ws => lineOf ws ++ ['\n']

/-- A word: not empty, without blanks. -/
def WordOk (w : Str) : Prop := w ≠ [] ∧ ∀ c ∈ w, isSpace c = false

/-- A row: at least one word, and the first one does not start a comment. -/
def RowOk (ws : List Str) : Prop :=
  (∀ w ∈ ws, WordOk w) ∧ ∃ w r, ws = w :: r ∧ w.head? ≠ some '#'

/-- A number of type `int`. -/
def IntOk (n : ℤ) : Prop := -2147483648 ≤ n ∧ n ≤ 2147483647

/-- How a node type is written in a node file. -/
def NodeKind.word : NodeKind → Str
  | .fwj => "FWJ".toList
  | .grj => "GRJ".toList
  | .origin => "DMOND".toList
  | .dest => "DMDND".toList

/-- How a link type is written in a link file. -/
def kindWord : Lnk.LinkKind → Str
  | .pq => "PQ".toList
  | .ctm => "CTM".toList
  | .lq => "LQ".toList
  | .ltm => "LTM".toList

/-- A row of a link file: number, type, length (miles), free flow speed (miles per hour), lane capacity
(vehicles per hour), lane jam density (vehicles per mile) as decimal numbers, number of lanes. -/
structure LinkLine where
  id : ℤ
  kind : Lnk.LinkKind
  length : Str
  ffs : Str
  cap : Str
  hold : Str
  lanes : ℤ

/-- Its words. -/
def LinkLine.words (r : LinkLine) : List Str :=
  [toStr r.id, kindWord r.kind, r.length, r.ffs, r.cap, r.hold, toStr r.lanes]

/-- The words of the row that are decimal numbers denote these numbers. -/
def LinkLine.Denotes (r : LinkLine) (length ffs cap hold : ℚ) : Prop :=
  IntOk r.id ∧ IntOk r.lanes ∧
  WordOk r.length ∧ stod r.length = .ok length ∧ WordOk r.ffs ∧ stod r.ffs = .ok ffs ∧
  WordOk r.cap ∧ stod r.cap = .ok cap ∧ WordOk r.hold ∧ stod r.hold = .ok hold

/-- A row of a demand file: origin, destination and, for each interval, a decimal number. -/
structure DemandLine where
  o : ℤ
  d : ℤ
  values : List Str

/-- Its words. -/
def DemandLine.words (r : DemandLine) : List Str := toStr r.o :: toStr r.d :: r.values

/-- The paths of a table from `o` to `d`. -/
def PTable.pathsFor (t : PTable) (o d : ℤ) : List PathRec :=
  (t.filter fun e => e.1 = o).flatMap fun e => (e.2.filter fun f => f.1 = d).flatMap fun f => f.2

/-- A path that can be written and read back: a walk from `o` to `d` with at least one link and its
node sequence, whose links have no parallel link, and whose node numbers are of type `int`. -/
structure PathOk (g : G) (o d : ℤ) (p : PathRec) : Prop where
  walk : Sp.Walk g o p.links d
  long : p.links ≠ []
  nodes : p.nodes = Sp.walkNodes g o p.links
  single : ∀ l ∈ p.links, ∀ l', getEndpoints g l' = getEndpoints g l → l' = l
  range : ∀ n ∈ p.nodes, IntOk n

end Verif.Io
