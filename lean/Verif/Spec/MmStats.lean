import Verif.Model.MmStats

/-!
# What the queries about waiting passengers should say (C207)
-/

namespace Verif.Tr

/-- How many passengers have walked to the end of a walking link and wait there. -/
def atEnds (c : Cfg) (s : State) : ℕ :=
  ((c.linkIds.filter fun l => (c.link l).kind.walking).map fun l => (s.loc (.finished l)).length).sum

/-- `w` is the state of interval `i` of a loading when the buses begin to move. -/
def BeforeBuses (c : Cfg) (orcs : List Orc) (i : ℕ) (w : State) : Prop :=
  ∃ o s a, orcs[i]? = some o ∧ loadMany c (orcs.take i) 0 0 (State.init c) = .ok (s, i, a) ∧
    beforeBuses c o i a s = .ok w

end Verif.Tr
