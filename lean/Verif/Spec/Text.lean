import Verif.Model.Text

/-! # What input files say: lines, rows, words -/

namespace Verif.Text

/-- Without the blanks at both ends. -/
def strip (s : Str) : Str :=
  ((s.reverse.dropWhile fun c => c ∈ [' ', '\t', '\n', '\x0b', '\x0c', '\r']).reverse).dropWhile
    fun c => c ∈ [' ', '\t', '\n', '\x0b', '\x0c', '\r']

/-- A line that counts: not blank, not a comment. -/
def isRow (l : Str) : Bool := decide (l ≠ [] ∧ l.head? ≠ some '#')

/-- The lines of a text.  After a final newline there is one more line, which is empty. -/
def linesOf (content : Str) : List Str := content.splitOn '\n'

/-- The rows of a text: its lines without blanks at the ends, comments and blank lines left out. -/
def rowsOf (content : Str) : List Str := ((linesOf content).map strip).filter isRow

/-- The last line of a text (empty when the text ends with a newline), without blanks at the ends. -/
def lastLine (content : Str) : Str := strip ((linesOf content).getLastD [])

/-- The words of a line. -/
def wordsOf (s : Str) : List Str := (s.splitOn ' ').filter (· ≠ [])

end Verif.Text
