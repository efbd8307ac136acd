import Verif.Model.Graph

/-!
# Model of `plotline/src/schema/resource.rs` and of the lock cells it shares with `transaction.rs`

Types are codes `t : Ty` (Rust's `TypeId`), values of the type coded by `t` are `Val t`. `Arc` pointers are indices
into a heap of lock cells that only grows (cells are never reused, so aliasing is exact; deallocation is not modelled).
-/

namespace Plotline

/-- `std::sync::RwLock`: the protected value and the poison flag. Lock acquisition itself is modelled where it can
block (`Model/Deref.lean`, `Model/Interleave.lean`); within one closure the guard is released when the closure ends. -/
structure Lock (α : Type) where
  val : α
  poisoned : Bool
deriving DecidableEq, Repr

/-- `Box<dyn Any>`: a value together with its `TypeId`. -/
def Dyn {Ty : Type} (Val : Ty → Type) := (t : Ty) × Val t

/-- `Any::downcast_ref::<t>` / `downcast_mut`. -/
def Dyn.downcast {Ty : Type} [DecidableEq Ty] {Val : Ty → Type} (t : Ty) (d : Dyn Val) : Option (Val t) :=
  if h : d.1 = t then some (h ▸ d.2) else none

/-- The heap of `Arc<RwLock<Box<dyn Any>>>` cells. -/
abbrev Heap {Ty : Type} (Val : Ty → Type) := List (Lock (Dyn Val))

/-- `struct ResourceSet` (schema/resource.rs:19-21): from `TypeId` to `Arc` pointer. -/
structure ResourceSet (Ty : Type) where
  resources : BTreeMap Ty Nat

/-- `Default for ResourceSet` (schema/resource.rs:18). -/
def ResourceSet.empty {Ty : Type} : ResourceSet Ty := ⟨BTreeMap.empty⟩

/-- `struct Res` (schema/resource.rs:40-43): the pointer, if the resource was found. -/
structure Res {Ty : Type} (t : Ty) where
  lock : Option Nat

/-- What a scoped access (`with` / `with_mut`, deref.rs:59-87) gives back: `None` without running the closure, the
closure's result, or the closure's panic. -/
inductive Access (R : Type) where
  | unavailable
  | ran (r : R)
  | panicked
deriving DecidableEq, Repr

section
variable {Ty : Type} [Ord Ty] [DecidableEq Ty] {Val : Ty → Type}

/-- `ResourceSet::with_resource` (schema/resource.rs:28-36), also `Schema::with_resource` (schema/mod.rs:63-69):
allocates a fresh cell and maps the type to it. -/
def ResourceSet.withResource (set : ResourceSet Ty) (heap : Heap Val) (t : Ty) (v : Val t) :
    ResourceSet Ty × Heap Val :=
  (⟨(set.resources.insert t heap.length).1⟩, heap ++ [⟨⟨t, v⟩, false⟩])

/-- `From<&ResourceSet> for Res` (schema/resource.rs:170-175), also `From<&Context> for Res` (:183-185). -/
def ResourceSet.res (set : ResourceSet Ty) (t : Ty) : Res t := ⟨set.resources.get t⟩

/-- `ReadOnly for Res::read` followed by `TryDeref` (schema/resource.rs:66-68, 78-93): `None` without a lock, on a
poisoned lock, or on a failed downcast. -/
def Res.peek {t : Ty} (r : Res t) (heap : Heap Val) : Option (Val t) :=
  match r.lock with
  | none => none
  | some p =>
    match heap[p]? with
    | none => none
    | some cell => if cell.poisoned then none else cell.val.downcast t

/-- `With::with` on a resource (deref.rs:66-71). The closure sees the value and either returns (`some`) or panics
(`none`). A panicking reader does not poison an `RwLock`. -/
def Res.with {t : Ty} {R : Type} (r : Res t) (heap : Heap Val) (f : Val t → Option R) : Access R :=
  match r.peek heap with
  | none => .unavailable
  | some v => match f v with
    | some x => .ran x
    | none => .panicked

/-- `WithMut::with_mut` on a resource (deref.rs:81-86; schema/resource.rs:126-128, 138-153). The closure leaves a
value in place and returns (`some`) or panics (`none`); a panicking writer poisons the lock, keeping what it wrote. -/
def Res.withMut {t : Ty} {R : Type} (r : Res t) (heap : Heap Val) (f : Val t → Val t × Option R) :
    Access R × Heap Val :=
  match r.lock with
  | none => (.unavailable, heap)
  | some p =>
    match heap[p]? with
    | none => (.unavailable, heap)
    | some cell =>
      if cell.poisoned then (.unavailable, heap)
      else match cell.val.downcast t with
        | none => (.unavailable, heap)
        | some v =>
          match f v with
          | (v', some x) => (.ran x, heap.set p ⟨⟨t, v'⟩, false⟩)
          | (v', none) => (.panicked, heap.set p ⟨⟨t, v'⟩, true⟩)

/-- `Res::exists` (schema/resource.rs:161-163). -/
def Res.exists {t : Ty} (r : Res t) (heap : Heap Val) : Bool :=
  match r.with heap (fun _ => some true) with
  | .ran b => b
  | _ => false

end

end Plotline
