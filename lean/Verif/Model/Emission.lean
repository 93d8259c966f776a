import Verif.Model.Link

/-! # Model of `emission.cpp`, `MNM_Cumulative_Emission` -/

namespace Verif.Emis
open Lnk

variable {V : Type}

/-- `emission.cpp:31-41` `calculate_fuel_rate`, the fuel economy in miles per gallon. -/
def fuelEco (v : ℚ) : ℚ :=
  1.19102380 * (1 / 10 ^ 7) * v ^ 5 - 2.67383161 * (1 / 10 ^ 5) * v ^ 4 + 2.35409750 * (1 / 10 ^ 3) * v ^ 3
    - 1.11752399 * (1 / 10) * v ^ 2 + 2.96137050 * v - 1.51623933

/-- `emission.cpp:31-41` `calculate_fuel_rate`; `none`: a division by zero. -/
def fuelRate (v : ℚ) : Option ℚ := if fuelEco v = 0 then none else some (max (1 / fuelEco v) 0)

/-- `emission.cpp:59-65` `calculate_CO2_rate`. -/
def co2Rate (v : ℚ) : Option ℚ := (fuelRate v).map fun r => max (r * 8887) 0

/-- `emission.cpp:75-86` `calculate_HC_rate`. -/
def hcRate (v : ℚ) : ℚ :=
  max (1.61479076909784 / 10 ^ 13 * v ^ 8 - 1.27884474982285 / 10 ^ 10 * v ^ 7
    + 2.92924270300974 / 10 ^ 8 * v ^ 6 - 3.23670086149171 / 10 ^ 6 * v ^ 5
    + 0.000201135990745703 * v ^ 4 - 0.00737871178398462 * v ^ 3
    + 0.15792241257931 * v ^ 2 - 1.82687242201925 * v + 9.84559996919605) 0

/-- `emission.cpp:88-100` `calculate_CO_rate`. -/
def coRate (v : ℚ) : ℚ :=
  max (-(1.08317411174986) / 10 ^ 12 * v ^ 8 + 2.53340626614398 / 10 ^ 10 * v ^ 7
    - 2.12944112670644 / 10 ^ 8 * v ^ 6 + 5.97070024385679 / 10 ^ 7 * v ^ 5
    + 1.79281854904105 / 10 ^ 5 * v ^ 4 - 0.00170366500109581 * v ^ 3
    + 0.047711166912908 * v ^ 2 - 0.615061016205463 * v + 4.12900319568868) 0

/-- `emission.cpp:102-114` `calculate_NOX_rate`. -/
def noxRate (v : ℚ) : ℚ :=
  max (-(6.52009367269462) / 10 ^ 13 * v ^ 8 + 1.25335312366681 / 10 ^ 10 * v ^ 7
    - 4.67202313364846 / 10 ^ 9 * v ^ 6 - 6.63892272105462 / 10 ^ 7 * v ^ 5
    + 8.01942113220463 / 10 ^ 5 * v ^ 4 - 0.00374632777368871 * v ^ 3
    + 0.0895029037098895 * v ^ 2 - 1.07265851515536 * v + 6.06514023873933) 0

/-- `m_length`. -/
def len : Link V → ℚ
  | .pq l => l.length
  | .ctm l => l.length
  | .lq l => l.length
  | .ltm l => l.length

/-- `get_link_flow_emission` (`dlink.cpp:406-438, 600-631, 808-839, 1346-1377`): vehicles of other
labels and vehicles with the label of electric vehicles, travelling or at the exit, divided by the flow
scalar.  `isEv` tells whether a vehicle has that label. -/
def flowEmission (isEv : V → Bool) (l : Link V) : ℚ × ℚ :=
  (((l.travelling.filter fun v => !isEv v).length + (l.finished.filter fun v => !isEv v).length : ℕ) / l.scalar,
    ((l.travelling.filter isEv).length + (l.finished.filter isEv).length : ℕ) / l.scalar)

/-- The seven totals. -/
structure Totals where
  fuel : ℚ
  co2 : ℚ
  hc : ℚ
  co : ℚ
  nox : ℚ
  vmt : ℚ
  vmtEv : ℚ
deriving DecidableEq

/-- `emission.cpp:8-14`, and the reset `emission.cpp:160-166`. -/
def Totals.zero : Totals := ⟨0, 0, 0, 0, 0, 0, 0⟩

/-- `emission.cpp:124-152`, one link; `none` when a division by zero occurs. -/
def addLink (isEv : V → Bool) (unit : ℚ) (s : Totals) (l : Link V) : Option Totals :=
  match l.tt with
  | none => none
  | some tt =>
    if tt = 0 then none
    else
      let v := len l / tt
      let vc := min (max (v * 3600 / 1600) 5) 65
      let n := flowEmission isEv l
      let d := v * unit / 1600
      (fuelRate vc).bind fun f => (co2Rate vc).bind fun c =>
        some { fuel := s.fuel + f * d * n.1
               co2 := s.co2 + c * d * n.1
               hc := s.hc + hcRate vc * d * n.1
               co := s.co + coRate vc * d * n.1
               nox := s.nox + noxRate vc * d * n.1
               vmt := s.vmt + d * (n.1 + n.2)
               vmtEv := s.vmtEv + d * n.2 }

/-- The accumulator: totals and `m_counter`. -/
structure Em where
  tot : Totals
  counter : ℤ

/-- `emission.cpp:116-170` `update`: the new accumulator and the totals printed by `output ()`, if any. -/
def update (isEv : V → Bool) (unit : ℚ) (freq : ℤ) (links : List (Link V)) (s : Em) :
    Option (Em × Option Totals) :=
  (links.foldlM (addLink isEv unit) s.tot).bind fun t =>
    if s.counter + 1 = freq then some (⟨.zero, 0⟩, some t) else some (⟨t, s.counter + 1⟩, none)

/-- A whole run: the registered links at each interval; the totals printed, in order. -/
def runUpdates (isEv : V → Bool) (unit : ℚ) (freq : ℤ) : List (List (Link V)) → Em →
    Option (Em × List Totals)
  | [], s => some (s, [])
  | ls :: rest, s =>
    (update isEv unit freq ls s).bind fun r =>
      (runUpdates isEv unit freq rest r.1).bind fun q => some (q.1, r.2.toList ++ q.2)

end Verif.Emis
