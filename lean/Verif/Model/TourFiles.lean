import Verif.Model.Readers

/-!
# Model of `MNM_IO_Delivery::build_demand_multi_OD_seq`, `delivery_traffic.cpp:712-818`

The trips of tours are in one file and their demands in another one.  `Assert` and `printf` do nothing.
-/

namespace Verif.TourF
open Text Rd

/-- A tour as it is given to its first origin (`delivery_traffic.cpp:205-217` `add_multi_OD_seq_demand`): the number of that
origin, the pairs of origin and destination, and the demand of each interval. -/
structure Rec where
  origin : ℤ
  trips : List (ℤ × ℤ)
  demand : List ℚ
deriving DecidableEq

/-- `delivery_traffic.cpp:775-784`: the words are read in pairs; with an odd number of them, the last step reads outside of
the vector. -/
def readTrips (os ds : List ℤ) : List Str → Res (List (ℤ × ℤ))
  | [] => .ok []
  | [w] => (stoi w).bind fun _ => .ub
  | w0 :: w1 :: ws =>
    (stoi w0).bind fun o => (stoi w1).bind fun d =>
      if o ∉ os then .throw noOrigin
      else if d ∉ ds then .throw noDest
      else (readTrips os ds ws).bind fun r => .ok ((o, d) :: r)

/-- `delivery_traffic.cpp:764-805`, one line of each file; without words, the first one is read outside of the vector. -/
def row (m : ℤ) (os ds : List ℤ) (s : List Rec) (tl dl : Str) : Res (List Rec) :=
  (readTrips os ds (split tl ' ')).bind fun trips =>
    match trips with
    | [] => .ub
    | t :: ts =>
      let ws := split dl ' '
      if (ws.length : ℤ) = m then (stods ws).bind fun v => .ok (s ++ [⟨t.1, t :: ts, v⟩])
      else .throw "Error, MNM_IO_Delivery::build_demand_multi_OD_seq, multi-OD sequence demand's length is NOT equal to max_interval"

/-- `delivery_traffic.cpp:763-806`: a line of each file at a time. -/
def loop2 {σ : Type} (body : σ → Str → Str → Res σ) : ℕ → In → In → σ → Res σ
  | 0, _, _, s => .ok s
  | n + 1, i, j, s =>
    (body s (getline i).line (getline j).line).bind fun s' => loop2 body n (getline i) (getline j) s'

/-- The whole function: the tours in the order in which they are added.  `num` is `multi_OD_seq` (`none` when it is not
configured), `m` is `max_interval`; `os` and `ds` are the origins and destinations that exist. -/
def tours (num : Option ℤ) (m : ℤ) (os ds : List ℤ) (trips demand : Option Str) : Res (List Rec) :=
  match num with
  | none => .ok []
  | some n =>
    match trips, demand with
    | some a, some b => loop2 (row m os ds) n.toNat (getline (In.open a)) (getline (In.open b)) []
    | _, _ => .ok []

end Verif.TourF
