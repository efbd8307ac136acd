import Verif.Model.Resource

/-!
# Model of `plotline/src/deref.rs`: scoped access to tuples

The macro `impl_with!` (deref.rs:89-139) is instantiated for 2 to 6 members; the model is for any number of members. Members
are resources; the other lockable member type of the crate, `Target` (transaction.rs:193-311), has the same shape (an
optional pointer to a lock, unavailable when absent or poisoned), so it is a cell of the same heap here.
-/

namespace Plotline

variable {Ty : Type} [Ord Ty] [DecidableEq Ty] {Val : Ty → Type}

/-- The members of a tuple of handles. -/
inductive Handles : List Ty → Type where
  | nil : Handles []
  | cons {t : Ty} {ts : List Ty} (r : Res t) (rs : Handles ts) : Handles (t :: ts)

/-- A tuple of values, one for each member. -/
inductive Values (Val : Ty → Type) : List Ty → Type where
  | nil : Values Val []
  | cons {t : Ty} {ts : List Ty} (v : Val t) (vs : Values Val ts) : Values Val (t :: ts)

/-- What `with` / `with_mut` on a tuple does: as for one member, or block for ever on a lock already held. -/
inductive TupleAccess (R : Type) where
  | unavailable
  | ran (r : R)
  | panicked
  | stuck
deriving DecidableEq, Repr

/-- The guards acquired, in order: for every member the locked cell, or `none` if there is no lock or it is poisoned. -/
abbrev Guards := List (Option Nat)

/-- `self.$i.write()` for all members in order (deref.rs:128; schema/resource.rs:138-153). `none` when a member's lock is
already held by an earlier member: `RwLock::write` then never returns. A poisoned lock is released at once. -/
def writeGuards (heap : Heap Val) : {ts : List Ty} → Handles ts → (held : List Nat) → Option Guards
  | _, .nil, _ => some []
  | _, .cons r rs, held =>
    match r.lock with
    | none => (writeGuards heap rs held).map (none :: ·)
    | some p =>
      if held.contains p then none
      else match heap[p]? with
        | none => (writeGuards heap rs held).map (none :: ·)
        | some cell =>
          if cell.poisoned then (writeGuards heap rs held).map (none :: ·)
          else (writeGuards heap rs (p :: held)).map (some p :: ·)

/-- `ReadOnly for Res::read` (schema/resource.rs:78-93): the locked cell, if any. -/
def Res.readGuard {t : Ty} (r : Res t) (heap : Heap Val) : Option Nat :=
  match r.lock with
  | none => none
  | some p =>
    match heap[p]? with
    | none => none
    | some cell => if cell.poisoned then none else some p

/-- `self.$i.read()` for all members in order (deref.rs:103): readers do not exclude each other. -/
def readGuards (heap : Heap Val) : {ts : List Ty} → Handles ts → Guards
  | _, .nil => []
  | _, .cons r rs => r.readGuard heap :: readGuards heap rs

/-- `try_deref()?` / `try_deref_mut()?` on all guards in order (deref.rs:105-107, 130-132; schema/resource.rs:66-68,
126-128). -/
def derefAll (heap : Heap Val) : (ts : List Ty) → Guards → Option (Values Val ts)
  | [], _ => some .nil
  | _ :: _, [] => none
  | _ :: _, none :: _ => none
  | t :: ts, some p :: gs =>
    match heap[p]? with
    | none => none
    | some cell =>
      match cell.val.downcast t with
      | none => none
      | some v => (derefAll heap ts gs).map (.cons v)

/-- What the closure leaves behind the guards; on a panic the unwinding guards poison their locks. -/
def writeBack (poison : Bool) : {ts : List Ty} → Guards → Values Val ts → Heap Val → Heap Val
  | _, some p :: gs, .cons (t := t) v vs, heap => writeBack poison gs vs (heap.set p ⟨⟨t, v⟩, poison⟩)
  | _, none :: gs, .cons _ vs, heap => writeBack poison gs vs heap
  | _, [], _, heap => heap
  | _, _ :: _, .nil, heap => heap

/-- `With for ($($t,)*)` (deref.rs:91-112). -/
def Handles.with {R : Type} {ts : List Ty} (hs : Handles ts) (heap : Heap Val) (f : Values Val ts → Option R) :
    TupleAccess R :=
  match derefAll heap ts (readGuards heap hs) with
  | none => .unavailable
  | some vs => match f vs with
    | some r => .ran r
    | none => .panicked

/-- `WithMut for ($($t,)*)` (deref.rs:114-137). The closure leaves values in place and returns (`some`) or panics
(`none`). -/
def Handles.withMut {R : Type} {ts : List Ty} (hs : Handles ts) (heap : Heap Val)
    (f : Values Val ts → Values Val ts × Option R) : TupleAccess R × Heap Val :=
  match writeGuards heap hs [] with
  | none => (.stuck, heap)
  | some gs =>
    match derefAll heap ts gs with
    | none => (.unavailable, heap)
    | some vs =>
      match f vs with
      | (vs', some r) => (.ran r, writeBack false gs vs' heap)
      | (vs', none) => (.panicked, writeBack true gs vs' heap)

end Plotline
