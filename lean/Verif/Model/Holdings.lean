import Verif.Model.Drops

/-!
# When resources are destroyed (plotline/src/schema/resource.rs)

What owns the value of a registration: the schema, until another of the type is registered or the schema is dropped; and handles
(`Res`, which has no lifetime, so that it may be kept for longer than the schema). What loses its last owner is destroyed then and
there. Destructors are user code, that may panic.

Simplifications: registrations are numbered, and so are the cells of the heap. `Res` has no `Clone`; a handle taken from a context,
or from the parameters of a trigger, is one taken from the schema. Guards are left out: they borrow from handles. The graph and the
triggers go with the schema; only resources are followed. Values that own handles are in `Model/Nest`. What a destructor does apart from
panicking is not modelled.
-/

namespace Plotline

/-- A `Res` (schema/resource.rs:40-43), and whether there still is one. -/
structure ResHandle (Ty : Type) where
  type : Ty
  cell : Option Nat
  status : CtxEnd

/-- The resources of a schema, handles on them, and what was destroyed. -/
structure Holdings {Ty : Type} (Val : Ty → Type) where
  /-- `none`: the schema is gone. -/
  set : Option (ResourceSet Ty)
  heap : Heap Val
  handles : List (ResHandle Ty)
  /-- The registrations whose value was destroyed, first one first, with that value. -/
  drops : List (Nat × Dyn Val)

/-- What is done with resources. Handles are numbered as they are taken. -/
inductive HoldCall {Ty : Type} (Val : Ty → Type) where
  /-- `schema.with_resource(v)` -/
  | register (t : Ty) (v : Val t)
  /-- `Res::<t>::from(schema.resources())` -/
  | take (t : Ty)
  /-- `h.with(..)` -/
  | read (h : Nat) (t : Ty)
  /-- `h.with_mut(f)`: `f` leaves a value and panics if the flag is `true`. -/
  | write (h : Nat) (t : Ty) (f : Val t → Val t × Bool)
  /-- `drop(h)` -/
  | dropHandle (h : Nat)
  /-- `std::mem::forget(h)` -/
  | forgetHandle (h : Nat)
  /-- `drop(schema)` -/
  | dropSchema

/-- How it ends. -/
inductive HoldAnswer {Ty : Type} (Val : Ty → Type) where
  | none
  /-- What `with` found. -/
  | value (t : Ty) (v : Option (Val t))
  /-- Whether `with_mut` called its closure, which returned. -/
  | ran (b : Bool)
  | panic
  /-- The process is aborted. -/
  | abort

section
variable {Ty : Type} [Ord Ty] [DecidableEq Ty] {Val : Ty → Type}

/-- The strong count of the `Arc` of a cell: the entry of the schema, and handles. -/
def Holdings.strongCount (s : Holdings Val) (p : Nat) : Nat :=
  (match s.set with
    | none => 0
    | some set => set.resources.entries.countP fun e => e.2 == p) +
  s.handles.countP fun x => x.status != .dropped && x.cell == some p

/-- An owner of the cell is gone. `D n`: does the `n`-th destructor that is run panic? -/
def Holdings.letGo (D : Nat → Bool) (unwinding : Bool) (p : Nat) (s : Holdings Val) : Demise × Holdings Val :=
  if s.strongCount p = 0 then
    match s.heap[p]? with
    | none => (.calm, s)
    | some c =>
      let s' := { s with drops := s.drops ++ [(p, c.val)] }
      if D s.drops.length then (if unwinding then .aborted else .panicking, s') else (.calm, s')
  else (.calm, s)

/-- The resources of the schema are dropped, entry by entry (`BTreeMap`'s drop): when a destructor panics the rest is dropped by
unwinding, and one more panic aborts the process. -/
def Holdings.dropSet (D : Nat → Bool) : Bool → List (Ty × Nat) → Holdings Val → Demise × Holdings Val
  | _, [], s => (.calm, { s with set := none })
  | unwinding, e :: es, s =>
    let r := { s with set := some ⟨⟨es⟩⟩ }.letGo D unwinding e.2
    match r.1 with
    | .calm => r.2.dropSet D unwinding es
    | .panicking =>
      let r' := r.2.dropSet D true es
      (if r'.1 = .aborted then .aborted else .panicking, r'.2)
    | .aborted => (.aborted, r.2)

/-- How a call ends that ends so unless a destructor panics. -/
def Demise.answer (a : HoldAnswer Val) : Demise → HoldAnswer Val
  | .calm => a
  | .panicking => .panic
  | .aborted => .abort

/-- The handle, if it can be used. -/
def Holdings.handle (s : Holdings Val) (h : Nat) : Option (ResHandle Ty) :=
  match s.handles[h]? with
  | none => none
  | some x => if x.status = .live then some x else none

/-- One call. `none`: the program would not compile. -/
def Holdings.step (D : Nat → Bool) (s : Holdings Val) : HoldCall Val → Option (HoldAnswer Val × Holdings Val)
  | .register t v =>
    -- `BTreeMap::insert` gives back the old `Arc`, which is dropped (schema/resource.rs:33-34); if that panics, unwinding drops the
    -- set with the new one in it (`self`, :28), and the rest of the schema (schema/mod.rs:63-69)
    match s.set with
    | none => none
    | some set =>
      let r := set.withResource s.heap t v
      let s1 := { s with set := some r.1, heap := r.2 }
      match (set.res t).lock with
      | none => some (.none, s1)
      | some p =>
        let q := s1.letGo D false p
        match q.1 with
        | .calm => some (.none, q.2)
        | _ =>
          let q' := q.2.dropSet D true r.1.resources.entries
          some (if q'.1 = .aborted then .abort else .panic, q'.2)
  | .take t =>
    match s.set with
    | none => none
    | some set => some (.none, { s with handles := s.handles ++ [⟨t, (set.res t).lock, .live⟩] })
  | .read h t =>
    match s.handle h with
    | none => none
    | some x => if x.type = t then some (.value t ((Res.mk (t := t) x.cell).peek s.heap), s) else none
  | .write h t f =>
    match s.handle h with
    | none => none
    | some x =>
      if x.type = t then
        match (Res.mk (t := t) x.cell).withMut s.heap fun v => ((f v).1, if (f v).2 then none else some ()) with
        | (.unavailable, _) => some (.ran false, s)
        | (.ran _, heap') => some (.ran true, { s with heap := heap' })
        | (.panicked, heap') => some (.panic, { s with heap := heap' })
      else none
  | .dropHandle h =>
    match s.handle h with
    | none => none
    | some x =>
      let s1 := { s with handles := s.handles.modify h fun x => { x with status := .dropped } }
      match x.cell with
      | none => some (.none, s1)
      | some p =>
        let q := s1.letGo D false p
        some (q.1.answer .none, q.2)
  | .forgetHandle h =>
    match s.handle h with
    | none => none
    | some _ => some (.none, { s with handles := s.handles.modify h fun x => { x with status := .forgotten } })
  | .dropSchema =>
    match s.set with
    | none => none
    | some set =>
      let q := s.dropSet D false set.resources.entries
      some (q.1.answer .none, q.2)

/-- A schema without resources (schema/mod.rs:39-45). -/
def Holdings.start : Holdings Val := ⟨some ResourceSet.empty, [], [], []⟩

end

end Plotline
