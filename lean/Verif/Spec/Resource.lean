import Verif.Model.Deref

/-!
# Specification vocabulary for resources

Histories of registrations, handle creations and accesses, and which registration a handle refers to.
-/

namespace Plotline

variable {Ty : Type} [Ord Ty] [DecidableEq Ty] {Val : Ty → Type}

/-- One step of a program using resources. Handles are numbered in order of creation. The function of a `write` gives the
value left in place and whether the closure panics. -/
inductive ResEvent (Val : Ty → Type) where
  | register (t : Ty) (v : Val t)
  | take (t : Ty)
  | write (h : Nat) (t : Ty) (f : Val t → Val t × Bool)

/-- The resource set, its cells, and the handles taken so far. -/
structure ResState (Val : Ty → Type) where
  set : ResourceSet Ty
  heap : Heap Val
  handles : List ((t : Ty) × Res t)

/-- The handle number `h`, if there is one and it is of type `t` (Rust's types make sure of that). -/
def ResState.handle (s : ResState Val) (h : Nat) (t : Ty) : Option (Res t) :=
  match s.handles[h]? with
  | none => none
  | some ⟨t', r⟩ => if e : t' = t then some (e ▸ r) else none

def ResState.step (s : ResState Val) : ResEvent Val → ResState Val
  | .register t v => let r := s.set.withResource s.heap t v; { s with set := r.1, heap := r.2 }
  | .take t => { s with handles := s.handles ++ [⟨t, s.set.res t⟩] }
  | .write h t f =>
    match s.handle h t with
    | none => s
    | some r => { s with heap := (r.withMut s.heap fun v => ((f v).1, if (f v).2 then none else some ())).2 }

/-- The state after a history. -/
def ResState.run (es : List (ResEvent Val)) : ResState Val := es.foldl ResState.step ⟨ResourceSet.empty, [], []⟩

/-- The types registered by a history, in order. -/
def registrations : List (ResEvent Val) → List Ty
  | [] => []
  | .register t _ :: es => t :: registrations es
  | .take _ :: es => registrations es
  | .write _ _ _ :: es => registrations es

/-- The number of handles a history takes. -/
def taken : List (ResEvent Val) → Nat
  | [] => 0
  | .take _ :: es => taken es + 1
  | .register _ _ :: es => taken es
  | .write _ _ _ :: es => taken es

/-- Registration number `r` is the last one of type `t` in `ts`. -/
def IsLast (ts : List Ty) (t : Ty) (r : Nat) : Prop := ts[r]? = some t ∧ ∀ j, r < j → ts[j]? ≠ some t

/-- Handle number `h`, of type `t`, refers to registration number `r`: that was the last registration of the type when the
handle was taken. -/
def Refers (es : List (ResEvent Val)) (h : Nat) (t : Ty) (r : Nat) : Prop :=
  ∃ pre post, es = pre ++ .take t :: post ∧ taken pre = h ∧ IsLast (registrations pre) t r

/-- Handle number `h`, of type `t`, refers to nothing: no value of the type had been registered when it was taken. -/
def Dangling (es : List (ResEvent Val)) (h : Nat) (t : Ty) : Prop :=
  ∃ pre post, es = pre ++ .take t :: post ∧ taken pre = h ∧ t ∉ registrations pre

/-- What handle number `h` of type `t` reads after a history. -/
def reads (es : List (ResEvent Val)) (h : Nat) (t : Ty) : Option (Val t) :=
  match (ResState.run es).handle h t with
  | none => none
  | some r => r.peek (ResState.run es).heap

end Plotline

namespace Plotline

variable {Ty : Type} [Ord Ty] [DecidableEq Ty] {Val : Ty → Type}

/-- Every member of the tuple is available, and `vs` are their values in order. -/
inductive Handles.Read (heap : Heap Val) : {ts : List Ty} → Handles ts → Values Val ts → Prop where
  | nil : Handles.Read heap .nil .nil
  | cons {t : Ty} {ts : List Ty} {r : Res t} {rs : Handles ts} {v : Val t} {vs : Values Val ts} :
      r.peek heap = some v → Handles.Read heap rs vs → Handles.Read heap (.cons r rs) (.cons v vs)

/-- No member of the tuple is available. -/
inductive Handles.Dead (heap : Heap Val) : {ts : List Ty} → Handles ts → Prop where
  | nil : Handles.Dead heap .nil
  | cons {t : Ty} {ts : List Ty} {r : Res t} {rs : Handles ts} :
      r.peek heap = none → Handles.Dead heap rs → Handles.Dead heap (.cons r rs)

/-- The cells the members refer to. -/
def Handles.cells : {ts : List Ty} → Handles ts → List Nat
  | _, .nil => []
  | _, .cons r rs => r.lock.toList ++ Handles.cells rs

/-- The lock of the cell can be taken: nobody panicked while writing it. -/
def Healthy (heap : Heap Val) (p : Nat) : Prop := ∃ cell, heap[p]? = some cell ∧ cell.poisoned = false

/-- Two members refer to the same healthy cell. -/
def Handles.Clash (heap : Heap Val) {ts : List Ty} (hs : Handles ts) : Prop :=
  ∃ (i j p : Nat), i < j ∧ hs.cells[i]? = some p ∧ hs.cells[j]? = some p ∧ Healthy heap p

end Plotline
