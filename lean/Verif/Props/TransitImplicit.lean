import Verif.Lemmas.TransitImplicit
import Verif.Props.TransitExample

/-!
# C114: bus stops without simulated buses
-/

namespace Verif
open Tr Ults Curve

/-- C114: in an interval of a loading without simulated buses a stop first serves the passengers at the end of the
bus link that leads to it, in order: those who ride on go to the next bus link, and as many as the alighting limit
says get off; somebody who cannot get off keeps back everybody behind them.  Then it serves those at the end of its
boarding link in the same way, up to the boarding limit.  Everybody served moves to the next link of their path. -/
theorem C114_stops_serve_in_order (c : Cfg) (hc : c.Wf) (ts v : ℕ) (hv : v ∈ c.vstopIds) (x x' : State)
    (h : virtualEvolve c ts x v = .ok x') :
    ∃ off on : List ℕ,
      ServedInOrder (fun p => !ridesNext c x p) ((c.vstop v).maxAlight * trunc c.scalar).toNat
        (atEndOf x (c.vstop v).busIn) off ∧
      ServedInOrder (ridesNext c x) ((c.vstop v).maxBoard * trunc c.scalar).toNat
        (atEndOf x (c.vstop v).boarding ++ off.filter fun p => decide ((x.pax p).next = (c.vstop v).boarding)) on ∧
      x'.log = x.log ++ (off.map fun p => ⟨ts, p, (c.vstop v).busIn, (x.pax p).next⟩) ++
        on.map (fun p => ⟨ts, p, (c.vstop v).boarding, (x.pax p).next⟩) ∧
      ∀ p ∈ off ++ on, (x.pax p).next ≠ none := by
  simp only [virtualEvolve, Res.bind_eq_ok'] at h
  obtain ⟨s, h1, h2⟩ := h
  obtain ⟨off, s1, l1, n1, k1, g1⟩ : ∃ off, ServedInOrder (fun p => !ridesNext c x p)
      ((c.vstop v).maxAlight * trunc c.scalar).toNat (atEndOf x (c.vstop v).busIn) off ∧
      s.log = x.log ++ (off.map fun p => ⟨ts, p, (c.vstop v).busIn, (x.pax p).next⟩) ∧
      (∀ p, (s.pax p).next = (x.pax p).next) ∧ (∀ p ∈ off, (x.pax p).next ≠ none) ∧
      ∀ w, (c.link w).kind = .boarding → s.loc (.finished w) = x.loc (.finished w) ++
        off.filter fun p => decide ((x.pax p).next = some w) := by
    cases hi : (c.vstop v).busIn with
    | none =>
      simp only [virtualRide, hi, Res.ok.injEq] at h1
      subst h1
      exact ⟨[], ⟨[], rfl, by simp, by simp⟩, by simp, fun _ => rfl, by simp, by simp⟩
    | some i =>
      simp only [virtualRide, hi] at h1
      obtain ⟨off, r1, e1, m1, n1, q1⟩ := rideLoop_serves _ _ _ _ h1
      refine ⟨off, ⟨r1, e1, by omega, fun q hq => ?_⟩, m1.log, m1.next, m1.known, fun w hk => ?_⟩
      · obtain ⟨a, b⟩ := q1 q hq
        exact ⟨by simp [a], by omega⟩
      · have hki := (hc.busIn v hv i hi).1
        exact m1.loc w (by rintro rfl; simp [hk, Kind.walking] at hki) (by rw [hk]; rfl)
  have hr : ridesNext c s = ridesNext c x := by funext q; unfold ridesNext; rw [n1]
  cases hw : (c.vstop v).boarding with
  | none =>
    simp only [virtualEnter, hw, Res.ok.injEq] at h2
    subst h2
    refine ⟨off, [], s1, ⟨[], ?_, by simp, by simp⟩, by simp [l1], by simpa using k1⟩
    simpa [atEndOf] using k1
  | some w =>
    simp only [virtualEnter, hw] at h2
    obtain ⟨on, r2, e2, m2, n2, q2⟩ := enterLoop_serves _ _ _ _ h2
    rw [g1 w (hc.boarding v hv w hw)] at e2
    rw [hr] at n2 q2
    refine ⟨off, on, s1, ⟨r2, e2, by omega, fun q hq => ?_⟩, ?_, ?_⟩
    · obtain ⟨a, b⟩ := q2 q hq
      exact ⟨a, by omega⟩
    · rw [m2.log, l1]; simp [n1]
    · intro p hp
      rcases List.mem_append.1 hp with hp | hp
      · exact k1 p hp
      · rw [← n1]; exact m2.known p hp

/-- The network without simulated buses, where one passenger can get on in an interval. -/
private def narrow : Cfg :=
  { Ex.cfg false with
    vstop := fun v => if v = 0 then ⟨7, none, some 2, some 1, none, 1, 1⟩ else ⟨7, some 2, none, none, some 3, 1, 1⟩ }

/-- The loading up to the stops in the third interval. -/
private def upToStops : Res State :=
  (loadMany narrow (Ex.quiet.take 2) 0 0 (State.init narrow)).bind fun r =>
  (stepRelease narrow (Ex.orc [] []) 2 r.2.2 r.1).bind fun s =>
  (routing narrow (Ex.orc [] []) s).bind fun s =>
  (Res.foldlM (originEvolve narrow 2) s narrow.originIds).bind fun s =>
  (Res.foldlM (destEvolve narrow 2) s narrow.destIds).bind fun s =>
  (Res.foldlM (stopEvolve narrow 2) s narrow.pstopIds).bind fun s =>
  Res.foldlM (walkStep narrow (Ex.orc [] [])) s narrow.linkIds

set_option synthInstance.maxSize 1024 in
example : narrow.Wf ∧ 0 ∈ narrow.vstopIds ∧ (narrow.vstop 0).maxBoard * trunc narrow.scalar = 1 ∧
    (upToStops.bind fun x => (virtualEvolve narrow 2 x 0).bind fun x' =>
      .ok (atEndOf x (narrow.vstop 0).boarding, atEndOf x' (narrow.vstop 0).boarding,
        (x'.log.drop x.log.length).map fun e : Net.Event => (e.t, e.veh, e.src, e.dst)))
      = .ok ([1, 2], [2], [(2, 1, some 1, some 2)]) := by
  refine ⟨?_, by decide, by decide +kernel, by decide +kernel⟩
  refine ⟨?_, ?_, ?_, ?_, ?_, ?_, ?_⟩ <;> simp [narrow, Ex.cfg, Ex.link, Kind.walking]

end Verif
