/-!
# Outcomes and stores shared by all models

Conventions (see DESIGN.md): a C++ exception is `Res.throw`, undefined behaviour is
`Res.ub`, and a loop that is still running when the fuel is used up is `Res.diverge`.
-/

namespace Verif

/-- Outcome of a modelled C++ call.  Not a definition of the source; it is the type in which
all of `/repo/src` is modelled: normal return, exception (with the text or the standard
exception class), undefined behaviour, non-termination (fuel exhausted). -/
inductive Res (α : Type) where
  | ok (a : α)
  | throw (msg : String)
  | ub
  | diverge
deriving DecidableEq, Repr

namespace Res

/-- Sequencing: an exception, undefined behaviour or non-termination ends the computation. -/
def bind {α β : Type} : Res α → (α → Res β) → Res β
  | ok a, f => f a
  | throw m, _ => throw m
  | ub, _ => ub
  | diverge, _ => diverge

instance : Monad Res where
  pure := ok
  bind := bind

@[simp] theorem pure_eq {α : Type} (a : α) : (pure a : Res α) = ok a := rfl
@[simp] theorem ok_bind {α β : Type} (a : α) (f : α → Res β) : (ok a >>= f) = f a := rfl
@[simp] theorem throw_bind {α β : Type} (m : String) (f : α → Res β) :
    ((throw m : Res α) >>= f) = throw m := rfl
@[simp] theorem ub_bind {α β : Type} (f : α → Res β) : ((ub : Res α) >>= f) = ub := rfl
@[simp] theorem diverge_bind {α β : Type} (f : α → Res β) :
    ((diverge : Res α) >>= f) = diverge := rfl

@[simp] theorem bind_ok' {α β : Type} (a : α) (f : α → Res β) : (ok a).bind f = f a := rfl
@[simp] theorem bind_throw' {α β : Type} (m : String) (f : α → Res β) :
    (throw m : Res α).bind f = throw m := rfl
@[simp] theorem bind_ub' {α β : Type} (f : α → Res β) : (ub : Res α).bind f = ub := rfl
@[simp] theorem bind_diverge' {α β : Type} (f : α → Res β) :
    (diverge : Res α).bind f = diverge := rfl

theorem bind_eq_ok' {α β : Type} {x : Res α} {f : α → Res β} {b : β} :
    x.bind f = ok b ↔ ∃ a, x = ok a ∧ f a = ok b := by
  cases x <;> simp

theorem bind_eq_ok {α β : Type} {x : Res α} {f : α → Res β} {b : β} :
    (x >>= f) = ok b ↔ ∃ a, x = ok a ∧ f a = ok b := by
  cases x <;> simp

/-- Did the call return normally? -/
def isOk {α : Type} : Res α → Bool
  | ok _ => true
  | _ => false

/-- The state after a call that either returns a new state or fails and leaves the old one. -/
def stateOr {α : Type} (r : Res α) (old : α) : α :=
  match r with
  | ok a => a
  | _ => old

/-- Monadic left fold; models a `for` loop whose body may fail. -/
def foldlM {α β : Type} (f : β → α → Res β) : β → List α → Res β
  | b, [] => ok b
  | b, a :: as => (f b a).bind fun b' => foldlM f b' as

@[simp] theorem foldlM_nil {α β : Type} (f : β → α → Res β) (b : β) :
    foldlM f b [] = ok b := rfl

theorem foldlM_cons {α β : Type} (f : β → α → Res β) (b : β) (a : α) (as : List α) :
    foldlM f b (a :: as) = (f b a >>= fun b' => foldlM f b' as) := rfl

theorem foldlM_append {α β : Type} (f : β → α → Res β) (b : β) (as bs : List α) :
    foldlM f b (as ++ bs) = (foldlM f b as >>= fun b' => foldlM f b' bs) := by
  induction as generalizing b with
  | nil => rfl
  | cons a as ih =>
    simp only [List.cons_append, foldlM_cons]
    cases h : f b a <;> simp [ih]

/-- Invariant rule for loops. -/
theorem foldlM_inv {α β : Type} {f : β → α → Res β} {P : β → Prop}
    (step : ∀ b a b', P b → f b a = ok b' → P b') :
    ∀ (as : List α) (b b' : β), P b → foldlM f b as = ok b' → P b' := by
  intro as
  induction as with
  | nil => intro b b' hb h; simp at h; exact h ▸ hb
  | cons a as ih =>
    intro b b' hb h
    rw [foldlM_cons, bind_eq_ok] at h
    obtain ⟨c, hc, h⟩ := h
    exact ih c b' (step b a c hb hc) h

/-- Invariant rule for loops that uses membership of the element. -/
theorem foldlM_inv_mem {α β : Type} {f : β → α → Res β} {P : β → Prop} (as : List α)
    (step : ∀ b a b', a ∈ as → P b → f b a = ok b' → P b') :
    ∀ (b b' : β), P b → foldlM f b as = ok b' → P b' := by
  induction as with
  | nil => intro b b' hb h; simp at h; exact h ▸ hb
  | cons a as ih =>
    intro b b' hb h
    rw [foldlM_cons, bind_eq_ok] at h
    obtain ⟨c, hc, h⟩ := h
    exact ih (fun b a b' ha => step b a b' (List.mem_cons_of_mem _ ha)) c b'
      (step b a c (List.mem_cons_self) hb hc) h

end Res

/-- A finite map as an association list; models `std::unordered_map` (iteration order of the
C++ container is unspecified, here it is the list order, and theorems are order independent
or quantify over the list). -/
abbrev Store (κ v : Type) := List (κ × v)

namespace Store
variable {κ v : Type} [DecidableEq κ]

/-- `find`/`at`: the value stored under a key. -/
def get : Store κ v → κ → Option v
  | [], _ => none
  | (k', x) :: s, k => if k' = k then some x else get s k

/-- `count(k) > 0`. -/
def has (s : Store κ v) (k : κ) : Bool := (s.get k).isSome

/-- Update the value under an existing key (no effect when absent). -/
def modify (s : Store κ v) (k : κ) (f : v → v) : Store κ v :=
  s.map fun p => if p.1 = k then (p.1, f p.2) else p

/-- `m[k] = x`: overwrite or insert. -/
def set (s : Store κ v) (k : κ) (x : v) : Store κ v :=
  if s.has k then s.modify k (fun _ => x) else s ++ [(k, x)]

/-- `m.insert({k, x})`: insert only when absent. -/
def insert (s : Store κ v) (k : κ) (x : v) : Store κ v :=
  if s.has k then s else s ++ [(k, x)]

/-- `m.erase(k)`. -/
def erase (s : Store κ v) (k : κ) : Store κ v := s.filter fun p => p.1 ≠ k

/-- The keys in iteration order. -/
def keys (s : Store κ v) : List κ := s.map Prod.fst

@[simp] theorem get_nil (k : κ) : get ([] : Store κ v) k = none := rfl

theorem get_cons (k' : κ) (x : v) (s : Store κ v) (k : κ) :
    get ((k', x) :: s) k = if k' = k then some x else get s k := rfl

theorem get_append (s t : Store κ v) (k : κ) :
    get (s ++ t) k = (get s k).or (get t k) := by
  induction s with
  | nil => simp
  | cons p s ih =>
    obtain ⟨k', x⟩ := p
    simp only [List.cons_append, get_cons]
    split <;> simp [ih]

theorem get_modify (s : Store κ v) (k k' : κ) (f : v → v) :
    get (s.modify k f) k' = if k = k' then (get s k').map f else get s k' := by
  induction s with
  | nil => simp [modify]
  | cons p s ih =>
    obtain ⟨q, x⟩ := p
    unfold modify at ih
    simp only [modify, List.map_cons]
    by_cases hq : q = k
    · subst hq
      simp only [if_true, get_cons, ih]
      by_cases h : q = k' <;> simp [h]
    · simp only [if_neg hq, get_cons, ih]
      by_cases h : q = k'
      · subst h; simp [Ne.symm hq]
      · simp [h]

theorem keys_modify (s : Store κ v) (k : κ) (f : v → v) : (s.modify k f).keys = s.keys := by
  simp only [keys, modify, List.map_map]
  apply List.map_congr_left
  intro p _
  simp only [Function.comp]
  split <;> rfl

theorem length_modify (s : Store κ v) (k : κ) (f : v → v) :
    (s.modify k f).length = s.length := by simp [modify]

theorem get_isSome_iff (s : Store κ v) (k : κ) : (get s k).isSome ↔ k ∈ s.keys := by
  induction s with
  | nil => simp [keys]
  | cons p s ih =>
    obtain ⟨q, x⟩ := p
    simp only [keys] at ih
    simp only [get_cons, keys, List.map_cons, List.mem_cons]
    by_cases h : q = k
    · simp [h]
    · simp [h, ih, Ne.symm h]

theorem has_iff (s : Store κ v) (k : κ) : s.has k = true ↔ k ∈ s.keys := get_isSome_iff s k

theorem get_eq_none_iff (s : Store κ v) (k : κ) : get s k = none ↔ k ∉ s.keys := by
  rw [← get_isSome_iff]; cases get s k <;> simp

theorem mem_of_get {s : Store κ v} {k : κ} {x : v} (h : get s k = some x) : (k, x) ∈ s := by
  induction s with
  | nil => simp at h
  | cons p s ih =>
    obtain ⟨q, y⟩ := p
    rw [get_cons] at h
    split at h
    · rename_i hq; subst hq; simp at h; simp [h]
    · exact List.mem_cons_of_mem _ (ih h)

theorem get_of_mem {s : Store κ v} {k : κ} {x : v} (hn : s.keys.Nodup) (h : (k, x) ∈ s) :
    get s k = some x := by
  induction s with
  | nil => simp at h
  | cons p s ih =>
    obtain ⟨q, y⟩ := p
    simp only [keys, List.map_cons, List.nodup_cons] at hn
    rw [get_cons]
    rcases List.mem_cons.1 h with h | h
    · cases h; simp
    · have : q ≠ k := fun e => hn.1 (e ▸ List.mem_map_of_mem (f := Prod.fst) h)
      simp [this, ih hn.2 h]

end Store

/-- Function update, used for per-key state such as the vehicle heap. -/
def upd {κ v : Type} [DecidableEq κ] (f : κ → v) (k : κ) (x : v) : κ → v :=
  fun k' => if k' = k then x else f k'

@[simp] theorem upd_same {κ v : Type} [DecidableEq κ] (f : κ → v) (k : κ) (x : v) :
    upd f k x k = x := by simp [upd]

theorem upd_other {κ v : Type} [DecidableEq κ] (f : κ → v) (k k' : κ) (x : v) (h : k' ≠ k) :
    upd f k x k' = f k' := by simp [upd, h]

end Verif
