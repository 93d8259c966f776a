import Verif.Model.MNet

/-!
# Model of the spillback indicator of the two-class object

`macposts/_ext/mcdta.cpp:1482-1495` and `src/multiclass.cpp:4755-4771`.  The flag itself is set by
`evolve` of the links (`Model/MLink.lean`).
-/

namespace Verif.Spill
open MNet

/-- `multiclass.cpp:4755-4771` `get_is_spillback`. -/
def isSpillback (s : State) (l : ℕ) : ℤ := if (s.links l).link.com.spill then 1 else 0

/-- `mcdta.cpp:1482-1495` `get_link_spillback`; `regs` are the registered links. -/
def linkSpillback (s : State) (regs : List ℕ) : List ℤ := regs.map (isSpillback s)

end Verif.Spill
