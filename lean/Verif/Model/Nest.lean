import Verif.Model.Holdings

/-!
# Resources that own handles (plotline/src/schema/resource.rs)

A `Res` may be moved into the value of a resource, be it its own. A value that loses its last owner is destroyed, and the handles in
it are dropped, whereby others may lose theirs. `Model/Holdings` leaves this out.

Simplifications, besides those of `Model/Holdings`: of values only the handles in them are followed, and they are dropped in the order
they were taken in. Closures move one handle, in or out. When a second destructor panics the process is aborted, so what that call does
to the rest is not told.
-/

namespace Plotline

/-- Who has a handle. -/
inductive Place where
  /-- the program -/
  | outside
  /-- the value of that registration -/
  | inside (r : Nat)
  | dropped
  | forgotten
deriving DecidableEq, Repr

/-- A `Res` (schema/resource.rs:40-43), and who has it. -/
structure PlacedHandle (Ty : Type) where
  type : Ty
  cell : Option Nat
  place : Place

/-- The resources of a schema, whether their locks are poisoned, handles on them, and what was destroyed, first one first. -/
structure Nest (Ty : Type) where
  /-- `none`: the schema is gone. -/
  set : Option (ResourceSet Ty)
  poisoned : List Bool
  handles : List (PlacedHandle Ty)
  drops : List Nat

/-- What is done with resources. Registrations and handles are numbered. -/
inductive NestCall (Ty : Type) where
  /-- `schema.with_resource(v)`, where handles were moved into `v` -/
  | register (t : Ty) (own : List Nat)
  /-- `Res::<t>::from(schema.resources())` -/
  | take (t : Ty)
  /-- `h.with_mut(|v| v.push(k))`, whose closure may panic after that -/
  | put (h k : Nat) (panics : Bool)
  /-- `h.with_mut(|v| v.remove(..))`, which gives back `k` -/
  | pull (h k : Nat)
  /-- `drop(k)` -/
  | dropHandle (k : Nat)
  /-- `std::mem::forget(k)` -/
  | forgetHandle (k : Nat)
  /-- `drop(schema)` -/
  | dropSchema

/-- How it ends. -/
inductive NestAnswer where
  | none
  /-- Whether `with_mut` called its closure, which returned. -/
  | ran (b : Bool)
  | panic
  /-- The process is aborted. -/
  | abort
deriving DecidableEq, Repr

section
variable {Ty : Type} [Ord Ty] [DecidableEq Ty]

/-- The strong count of the `Arc` of a cell is positive. -/
def Nest.owned (s : Nest Ty) (p : Nat) : Bool :=
  (match s.set with
    | none => false
    | some set => set.resources.entries.any fun e => e.2 == p) ||
  s.handles.any fun x => x.place != .dropped && x.cell == some p

/-- Handle number `k` goes there. -/
def Nest.move (s : Nest Ty) (k : Nat) (q : Place) : Nest Ty :=
  { s with handles := s.handles.modify k fun x => { x with place := q } }

/-- The handles in a value. -/
def Nest.within (s : Nest Ty) (p : Nat) : List Nat :=
  (List.range s.handles.length).filter fun k => s.handles[k]?.any fun x => x.place == .inside p

/-- An owner of the cell is gone: if it was the last, the value is destroyed. The handles in it are to be dropped then. -/
def Nest.letGo (s : Nest Ty) (p : Nat) : List Nat × Nest Ty :=
  if s.owned p then ([], s) else (s.within p, { s with drops := s.drops ++ [p] })

/-- These handles are dropped, with all that goes with them, one after another. As many handles as there are suffice for the bound. -/
def Nest.dropAll : Nat → List Nat → Nest Ty → Nest Ty
  | 0, _, s => s
  | _, [], s => s
  | n + 1, k :: ks, s =>
    let s1 := s.move k .dropped
    match (s.handles[k]?).bind PlacedHandle.cell with
    | none => s1.dropAll n ks
    | some p => (s1.letGo p).2.dropAll n ((s1.letGo p).1 ++ ks)

/-- An owner of the cell is gone, with all that goes with it. -/
def Nest.release (s : Nest Ty) (p : Nat) : Nest Ty :=
  (s.letGo p).2.dropAll s.handles.length (s.letGo p).1

/-- A handle is dropped. -/
def Nest.dropOne (s : Nest Ty) (k : Nat) : Nest Ty := s.dropAll s.handles.length [k]

/-- The resources of the schema are dropped, entry by entry. -/
def Nest.dropSet : List (Ty × Nat) → Nest Ty → Nest Ty
  | [], s => { s with set := none }
  | e :: es, s => ({ s with set := some ⟨⟨es⟩⟩ }.release e.2).dropSet es

/-- How many destructors panicked from then on. `D n`: does the `n`-th destructor that is run panic? -/
def Nest.panics (D : Nat → Bool) (s s' : Nest Ty) : Nat :=
  (List.range' s.drops.length (s'.drops.length - s.drops.length)).countP D

/-- How a call ends that leads from there to here. -/
def Nest.ending (D : Nat → Bool) (s s' : Nest Ty) (a : NestAnswer) : NestAnswer :=
  match s.panics D s' with
  | 0 => a
  | 1 => .panic
  | _ => .abort

/-- The program has the handle. -/
def Nest.has (s : Nest Ty) (k : Nat) : Bool := s.handles[k]?.any fun x => x.place == .outside

/-- What `with_mut` on the handle gives its closure: the cell, unless there is none or its lock is poisoned
(schema/resource.rs:138-153). -/
def Nest.opens (s : Nest Ty) (k : Nat) : Option Nat :=
  match (s.handles[k]?).bind PlacedHandle.cell with
  | none => none
  | some p => if s.poisoned[p]? = some false then some p else none

/-- One call. `none`: there is no such call. -/
def Nest.step (D : Nat → Bool) (s : Nest Ty) : NestCall Ty → Option (NestAnswer × Nest Ty)
  | .register t own =>
    match s.set with
    | none => none
    | some set =>
      if own.Nodup ∧ own.all s.has then
        let n := s.poisoned.length
        let s1 := own.foldl (fun s k => s.move k (.inside n))
          { s with set := some ⟨(set.resources.insert t n).1⟩, poisoned := s.poisoned ++ [false] }
        match set.resources.get t with
        | none => some (.none, s1)
        | some p =>
          -- if that panics, unwinding drops the schema (see `Holdings.step`)
          let s2 := s1.release p
          if s.panics D s2 = 0 then some (.none, s2)
          else
            let s3 := s2.dropSet ((s2.set.map fun set => set.resources.entries).getD [])
            some (s.ending D s3 .none, s3)
      else none
  | .take t =>
    match s.set with
    | none => none
    | some set => some (.none, { s with handles := s.handles ++ [⟨t, set.resources.get t, .outside⟩] })
  | .put h k panics =>
    if h ≠ k ∧ s.has h = true ∧ s.has k = true then
      match s.opens h with
      | some p =>
        let s1 := s.move k (.inside p)
        if panics then some (.panic, { s1 with poisoned := s1.poisoned.set p true }) else some (.ran true, s1)
      | none =>
        -- the closure is dropped, and the handle with it (deref.rs:86)
        some (s.ending D (s.dropOne k) (.ran false), s.dropOne k)
    else none
  | .pull h k =>
    match (s.handles[h]?).bind PlacedHandle.cell with
    | none => none
    | some p =>
      if s.has h = true ∧ k ∈ s.within p then
        match s.opens h with
        | some _ => some (.ran true, s.move k .outside)
        | none => some (.ran false, s)
      else none
  | .dropHandle k => if s.has k then some (s.ending D (s.dropOne k) .none, s.dropOne k) else none
  | .forgetHandle k => if s.has k then some (.none, s.move k .forgotten) else none
  | .dropSchema =>
    match s.set with
    | none => none
    | some set => some (s.ending D (s.dropSet set.resources.entries) .none, s.dropSet set.resources.entries)

/-- A schema without resources (schema/mod.rs:39-45). -/
def Nest.start : Nest Ty := ⟨some ResourceSet.empty, [], [], []⟩

end

end Plotline
