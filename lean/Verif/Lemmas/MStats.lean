import Verif.Model.MStats
import Verif.Lemmas.Stats

/-! # Lemmas about the link records of two classes -/

namespace Verif.MStat
open Stat

/-- Three quantities that are kept together behave like three that are kept apart. -/
def Group.tracks (g : Group) : Three Track :=
  ⟨⟨g.q.all, g.load.all, g.record.all⟩, ⟨g.q.car, g.load.car, g.record.car⟩,
   ⟨g.q.truck, g.load.truck, g.record.truck⟩⟩

/-- The switch is the same for all three, and files are open together. -/
structure Group.Ok (g : Group) : Prop where
  on0 : g.q.all.on = g.on
  on1 : g.q.car.on = g.on
  on2 : g.q.truck.on = g.on
  load1 : g.load.car.isSome = g.load.all.isSome
  load2 : g.load.truck.isSome = g.load.all.isSome
  record1 : g.record.car.isSome = g.record.all.isSome
  record2 : g.record.truck.isSome = g.record.all.isSome

theorem fold_three (n t : ℤ) (v0 v1 v2 : ℤ → ℚ) : ∀ (links : List ℤ) (q : Three Quantity),
    links.foldl (fun (q : Three Quantity) l => ⟨q.all.one n t l (v0 l), q.car.one n t l (v1 l), q.truck.one n t l (v2 l)⟩) q =
    ⟨links.foldl (fun q l => q.one n t l (v0 l)) q.all, links.foldl (fun q l => q.one n t l (v1 l)) q.car,
     links.foldl (fun q l => q.one n t l (v2 l)) q.truck⟩ := by
  intro links
  induction links with
  | nil => intro q; rfl
  | cons l ls ih => intro q; rw [List.foldl_cons, ih]; rfl

theorem write_eq (on : Bool) (t : ℤ) (order : List ℤ) (m : Three (ℤ → ℚ)) (f : Three (Option Sheet))
    (h1 : f.car.isSome = f.all.isSome) (h2 : f.truck.isSome = f.all.isSome) :
    write on t order m f =
      ⟨if on then f.all.map (Sheet.write t order m.all) else f.all,
       if on then f.car.map (Sheet.write t order m.car) else f.car,
       if on then f.truck.map (Sheet.write t order m.truck) else f.truck⟩ := by
  obtain ⟨x, y, z⟩ := f
  cases on <;> cases x <;> cases y <;> cases z <;> first | rfl | simp at h1 h2

/-- One call. -/
theorem group_update (n t : ℤ) (links order : List ℤ) (v0 v1 v2 : ℤ → ℚ) (g : Group) (hg : g.Ok) :
    let g' := g.update (fun (q : Three Quantity) l =>
      ⟨q.all.one n t l (v0 l), q.car.one n t l (v1 l), q.truck.one n t l (v2 l)⟩) (decide (Rec n t)) t links order
    g'.Ok ∧ g'.tracks = ⟨g.tracks.all.update n t links order v0, g.tracks.car.update n t links order v1,
      g.tracks.truck.update n t links order v2⟩ := by
  intro g'
  have hq : g'.q = ⟨g.q.all.all n t v0 links, g.q.car.all n t v1 links, g.q.truck.all n t v2 links⟩ := by
    show (if g.on then _ else _) = _
    unfold Quantity.all
    rw [hg.on0, hg.on1, hg.on2, fold_three]
    cases g.on <;> rfl
  have ho : ∀ (q : Quantity) (v : ℤ → ℚ), (q.all n t v links).on = q.on := by
    intro q v
    unfold Quantity.all
    split
    · exact fold_on n t v links q
    · rfl
  have hon : g'.on = g.on := rfl
  have hl : g'.load = write g.on t order (loads g'.q) g.load := rfl
  have hr : g'.record = if Rec n t then write g.on t order (records g'.q) g.record else g.record := by
    show (if decide (Rec n t) = true then _ else _) = _
    by_cases h : Rec n t
    · rw [if_pos h, if_pos (by simpa using h)]
      rfl
    · rw [if_neg h, if_neg (by simpa using h)]
  rw [write_eq _ _ _ _ _ hg.load1 hg.load2] at hl
  rw [write_eq _ _ _ _ _ hg.record1 hg.record2] at hr
  have hs : ∀ (b : Prop) [Decidable b] (o : Option Sheet) (f : Sheet → Sheet), (if b then o.map f else o).isSome = o.isSome := by
    intro b _ o f
    split
    · cases o <;> rfl
    · rfl
  constructor
  · refine ⟨?_, ?_, ?_, ?_, ?_, ?_, ?_⟩
    · rw [hq, hon]; exact (ho _ _).trans hg.on0
    · rw [hq, hon]; exact (ho _ _).trans hg.on1
    · rw [hq, hon]; exact (ho _ _).trans hg.on2
    · rw [hl]; exact (hs _ _ _).trans (hg.load1.trans (hs _ _ _).symm)
    · rw [hl]; exact (hs _ _ _).trans (hg.load2.trans (hs _ _ _).symm)
    · rw [hr]; split
      · exact (hs _ _ _).trans (hg.record1.trans (hs _ _ _).symm)
      · exact hg.record1
    · rw [hr]; split
      · exact (hs _ _ _).trans (hg.record2.trans (hs _ _ _).symm)
      · exact hg.record2
  · have hb : ∀ (p : Prop) [Decidable p] (b : Bool) (x y : Option Sheet),
        (if p then (if b = true then x else y) else y) = if p ∧ b = true then x else y := by
      intro p _ b x y
      by_cases hp : p <;> cases b <;> simp [hp]
    have hc : ∀ (p : Prop) [Decidable p] (x y : Three (Option Sheet)),
        (if p then x else y) = ⟨if p then x.all else y.all, if p then x.car else y.car, if p then x.truck else y.truck⟩ := by
      intro p _ x y
      split <;> rfl
    rw [hc] at hr
    simp only [hb] at hr
    unfold Group.tracks
    rw [hl, hr, hq]
    simp only [Track.update, ho, hg.on0, hg.on1, hg.on2, loads, records]

/-- A whole loading. -/
theorem run_three (links : List ℤ) (a : ℤ → Answers) : ∀ (ts : List ℤ) (s : Stats), s.n ≠ 0 → s.volume.Ok → s.tt.Ok →
    ∃ s', run links a s ts = .ok s' ∧
      s'.volume.tracks =
        ⟨s.volume.tracks.all.run s.n links s.order (fun t => (a t).flow) ts,
         s.volume.tracks.car.run s.n links s.order (fun t => (a t).car) ts,
         s.volume.tracks.truck.run s.n links s.order (fun t => (a t).truck) ts⟩ ∧
      s'.tt.tracks =
        ⟨s.tt.tracks.all.run s.n links s.order (fun t => (a t).tt) ts,
         s.tt.tracks.car.run s.n links s.order (fun t l => (a t).ttOfCar l ((a t).car l)) ts,
         s.tt.tracks.truck.run s.n links s.order (fun t l => (a t).ttOfTruck l ((a t).truck l)) ts⟩ := by
  intro ts
  induction ts with
  | nil => intro s _ _ _; exact ⟨s, rfl, rfl, rfl⟩
  | cons t ts ih =>
    intro s hn hv ht
    obtain ⟨v1, v2⟩ := group_update s.n t links s.order (a t).flow (a t).car (a t).truck s.volume hv
    obtain ⟨w1, w2⟩ := group_update s.n t links s.order (a t).tt (fun l => (a t).ttOfCar l ((a t).car l))
      (fun l => (a t).ttOfTruck l ((a t).truck l)) s.tt ht
    obtain ⟨s', h1, h2, h3⟩ := ih ⟨s.n, s.volume.update (oneVolume s.n t (a t)) (decide (Rec s.n t)) t links s.order,
      s.tt.update (oneTt s.n t (a t)) (decide (Rec s.n t)) t links s.order, s.order⟩ hn v1 w1
    have hu : update links t (a t) s = .ok ⟨s.n, s.volume.update (oneVolume s.n t (a t)) (decide (Rec s.n t)) t links s.order,
      s.tt.update (oneTt s.n t (a t)) (decide (Rec s.n t)) t links s.order, s.order⟩ := by
      unfold update
      rw [if_neg hn]
      rfl
    refine ⟨s', ?_, ?_, ?_⟩
    · unfold run
      rw [Res.foldlM_cons, hu, Res.ok_bind]
      exact h1
    · rw [h2]
      refine (congrArg (fun k : Three Track => (⟨k.all.run s.n links s.order (fun t => (a t).flow) ts,
        k.car.run s.n links s.order (fun t => (a t).car) ts,
        k.truck.run s.n links s.order (fun t => (a t).truck) ts⟩ : Three Track)) v2).trans ?_
      rfl
    · rw [h3]
      refine (congrArg (fun k : Three Track => (⟨k.all.run s.n links s.order (fun t => (a t).tt) ts,
        k.car.run s.n links s.order (fun t l => (a t).ttOfCar l ((a t).car l)) ts,
        k.truck.run s.n links s.order (fun t l => (a t).ttOfTruck l ((a t).truck l)) ts⟩ : Three Track)) w2).trans ?_
      rfl

theorem init_ok (s : Switches) (n : ℤ) (links : List ℤ) : (init s n links).volume.Ok ∧ (init s n links).tt.Ok :=
  ⟨⟨rfl, rfl, rfl, rfl, rfl, rfl, rfl⟩, ⟨rfl, rfl, rfl, rfl, rfl, rfl, rfl⟩⟩

end Verif.MStat
