import Verif.Model.Contexts

/-!
# A program using a schema (schema/mod.rs:49-111, guard.rs, resource.rs, transaction.rs)

All values the library hands out may be kept and used in any order the borrow checker lets pass: guards of the graph
(`schema.read()`, `schema.write()`), transactions with their contexts, subtransactions and targets (`World`), handles of resources
and the guards made from those (`ReadOnly::read`, `ReadWrite::write`, deref.rs:19-42, which `with` and `with_mut` hold while the
closure runs). One thread makes the calls, as a sequence; triggers and closures make calls like any other code. Values are named
by the order in which they are made, each kind by itself.

A call that waits for a lock never returns, since nobody else can release it. A panic is seen here by what it drops while
unwinding. A value passed to `std::mem::forget` keeps its lock.
-/

namespace Plotline

/-- `SchemaReadGuard` or `SchemaWriteGuard` (guard.rs:13-18, 49-54). -/
structure GuardVal where
  excl : Bool
  status : CtxEnd
deriving DecidableEq, Repr

/-- What `schema.transaction()` returns. -/
structure TxOwner (σ : Sig) where
  /-- Since its first context was made, and with it the write guard (transaction.rs:410). -/
  world : Option (World σ)
  status : CtxEnd

/-- `ResReadGuard` or `ResWriteGuard` (resource.rs:46-49, 95-98), with the cell if there is one to be locked. -/
structure ResGuardVal (Ty : Type) where
  type : Ty
  excl : Bool
  cell : Option Nat
  status : CtxEnd

/-- A schema and all that was made from it. -/
structure App (σ : Sig) where
  schema : Schema σ
  guards : List GuardVal
  txs : List (TxOwner σ)
  handles : List ((t : σ.Ty) × Res t)
  resGuards : List (ResGuardVal σ.Ty)

/-- A change of what a node has inside of it, as can be made through a shared reference: the id stays. -/
abbrev Inner (σ : Sig) := { f : σ.T → σ.T // ∀ n, Plotline.id (f n) = Plotline.id n }

/-- A call. The names of new values are given, so that calls can be read on their own. -/
inductive AppCall (σ : Sig) where
  /-- `let g = schema.read()` -/
  | read (g : Nat)
  /-- `let g = schema.write()` -/
  | write (g : Nat)
  /-- `g.get(&i)` -/
  | guardGet (g : Nat) (i : σ.K)
  /-- `g.contains(&i)` -/
  | guardContains (g : Nat) (i : σ.K)
  /-- `g.into_iter()` -/
  | guardIter (g : Nat)
  /-- The node with the id is changed inside, through the reference that iterating over `*g` gives; nothing if there is none. -/
  | touch (g : Nat) (i : σ.K) (f : Inner σ)
  /-- `g.insert(n)` -/
  | insert (g : Nat) (n : σ.T)
  /-- `g.remove(&i)` -/
  | remove (g : Nat) (i : σ.K)
  /-- `std::mem::replace(&mut *g, Graph::from_iter(nodes))`, and the iterator over what was there. -/
  | replace (g : Nat) (nodes : List σ.T)
  /-- The guard is dropped, while unwinding if `panicked`. -/
  | dropGuard (g : Nat) (panicked : Bool)
  /-- `std::mem::forget(g)` -/
  | forgetGuard (g : Nat)
  /-- `let x = schema.transaction()` -/
  | transaction (x : Nat)
  /-- A call on `x` (which is transaction `0` there) or on a value made from it. -/
  | inTx (x : Nat) (c : Call σ)
  /-- `x` is dropped while unwinding. -/
  | unwindTx (x : Nat)
  /-- `std::mem::forget(x)` -/
  | forgetTx (x : Nat)
  /-- `let schema = schema.with_resource(v)` -/
  | register (t : σ.Ty) (v : σ.Val t)
  /-- `let k = Res::<t>::from(schema.resources())`, also `Res::from(&ctx)`. -/
  | resource (t : σ.Ty) (k : Nat)
  /-- `let g = k.read()`, or `k.write()` if `excl`. -/
  | lockRes (k : Nat) (excl : Bool) (g : Nat)
  /-- `g.try_deref()`, where the type of the resource is `t`. -/
  | peekRes (t : σ.Ty) (g : Nat)
  /-- `if let Some(x) = g.try_deref_mut() { *x = v }` -/
  | assignRes (g : Nat) (t : σ.Ty) (v : σ.Val t)
  /-- The guard of a resource is dropped, while unwinding if `panicked`. -/
  | dropRes (g : Nat) (panicked : Bool)
  /-- `std::mem::forget(g)` on the guard of a resource. -/
  | forgetRes (g : Nat)

/-- What a call returns. -/
inductive AppAnswer (σ : Sig) where
  | none
  | node (n : Option σ.T)
  | nodes (l : List σ.T)
  | bool (b : Bool)
  | value (t : σ.Ty) (v : Option (σ.Val t))
  | panic
  /-- The call never returns. -/
  | stuck

section
variable {σ : Sig}

/-- What a call on a value of a transaction returns. -/
def Answer.lift : Answer σ.T → AppAnswer σ
  | .none => .none
  | .node n => .node n
  | .bool b => .bool b
  | .panic => .panic
  | .stuck => .stuck

/-- The lock of the graph is held by this transaction: forgotten, it holds it for ever. -/
def TxOwner.holds (x : TxOwner σ) : Bool := x.world.isSome && x.status != .dropped

/-- The lock of the graph is held: `RwLock::write` waits. -/
def App.locked (a : App σ) : Bool := a.guards.any (fun g => g.status != .dropped) || a.txs.any TxOwner.holds

/-- The lock of the graph is held exclusively: `RwLock::read` waits. -/
def App.exclusive (a : App σ) : Bool := a.guards.any (fun g => g.excl && g.status != .dropped) || a.txs.any TxOwner.holds

/-- Nothing borrows the schema any more, so that it can be moved. -/
def App.unborrowed (a : App σ) : Bool := a.guards.all (fun g => g.status != .live) && a.txs.all (fun x => x.status != .live)

/-- The guard of the graph, if it can still be used. -/
def App.guard (a : App σ) (g : Nat) : Option GuardVal :=
  match a.guards[g]? with
  | some x => if x.status = .live then some x else none
  | none => none

/-- The same if it is a write guard. -/
def App.writer (a : App σ) (g : Nat) : Option GuardVal :=
  match a.guard g with
  | some x => if x.excl then some x else none
  | none => none

/-- The guard of a resource, if it can still be used. -/
def App.resGuard (a : App σ) (g : Nat) : Option (ResGuardVal σ.Ty) :=
  match a.resGuards[g]? with
  | some x => if x.status = .live then some x else none
  | none => none

/-- The lock of the cell is held in a way this access has to wait for. -/
def App.resLocked (a : App σ) (p : Nat) (excl : Bool) : Bool :=
  a.resGuards.any fun l => l.cell == some p && l.status != .dropped && (excl || l.excl)

/-- The guard of the graph is given up. -/
def App.endGuard (a : App σ) (g : Nat) (status : CtxEnd) : App σ :=
  { a with guards := a.guards.modify g fun x => { x with status := status } }

/-- The transaction goes on as `x`. -/
def App.setTx (a : App σ) (n : Nat) (x : TxOwner σ) : App σ := { a with txs := a.txs.set n x }

/-- The transaction is given up: of what was made from it only targets remain. -/
def App.endTx (a : App σ) (n : Nat) (status : CtxEnd) : Option (App σ) :=
  match a.txs[n]? with
  | some ⟨none, .live⟩ => some (a.setTx n ⟨none, status⟩)
  | some ⟨some w, .live⟩ => (w.step (.abandon 0)).map fun r => a.setTx n ⟨some r.2, status⟩
  | _ => none

/-- One call. `none`: the program would not compile. -/
def App.step (a : App σ) : AppCall σ → Option (AppAnswer σ × App σ)
  | .read g =>
    -- `From<&Schema> for SchemaReadGuard` (guard.rs:31-46)
    if g = a.guards.length then
      if a.exclusive then some (.stuck, a) else some (.none, { a with guards := a.guards ++ [⟨false, .live⟩] })
    else none
  | .write g =>
    -- `From<&Schema> for SchemaWriteGuard` (guard.rs:76-91)
    if g = a.guards.length then
      if a.locked then some (.stuck, a) else some (.none, { a with guards := a.guards ++ [⟨true, .live⟩] })
    else none
  | .guardGet g i => (a.guard g).map fun _ => (.node (a.schema.guard.get i), a)
  | .guardContains g i => (a.guard g).map fun _ => (.bool (a.schema.guard.contains i), a)
  | .guardIter g => (a.guard g).map fun _ => (.nodes a.schema.guard.iter, a)
  | .touch g i f => (a.guard g).map fun _ => (.none, { a with schema := { a.schema with graph := a.schema.guard.touch i f.1 } })
  | .insert g n =>
    -- `DerefMut for SchemaWriteGuard` (guard.rs:67-74)
    (a.writer g).map fun _ =>
      let r := a.schema.guard.insert n
      (.node r.2, { a with schema := { a.schema with graph := r.1 } })
  | .remove g i =>
    (a.writer g).map fun _ =>
      let r := a.schema.guard.remove i
      (.node r.2, { a with schema := { a.schema with graph := r.1 } })
  | .replace g nodes =>
    (a.writer g).map fun _ => (.nodes a.schema.guard.iter, { a with schema := { a.schema with graph := Graph.fromIter nodes } })
  | .dropGuard g panicked =>
    (a.guard g).map fun x =>
      (.none, { a.endGuard g .dropped with schema := { a.schema with poisoned := a.schema.poisoned || (x.excl && panicked) } })
  | .forgetGuard g => (a.guard g).map fun _ => (.none, a.endGuard g .forgotten)
  | .transaction x =>
    -- `Schema::transaction` (schema/mod.rs:98-100), `From<&Schema> for Background` (transaction.rs:34-45)
    if x = a.txs.length then some (.none, { a with txs := a.txs ++ [⟨none, .live⟩] }) else none
  | .inTx x c =>
    match a.txs[x]? with
    | none => none
    | some ⟨none, status⟩ =>
      if status = .live then
        match c with
        | .context 0 _ =>
          -- `tx.guard.get_or_init(|| tx.schema.write())` (transaction.rs:410)
          match (World.start a.schema.guard).step c with
          | none => none
          | some (r, w) => if a.locked then some (.stuck, a) else some (r.lift, a.setTx x ⟨some w, .live⟩)
        | .abandon 0 => some (.none, a.setTx x ⟨none, .dropped⟩)
        | _ => none
      else none
    | some ⟨some w, status⟩ =>
      match w.step c with
      | none => none
      | some (r, w') =>
        match c with
        | .commit 0 => some (r.lift, { a.setTx x ⟨some w', .dropped⟩ with schema := { a.schema with graph := w'.graph } })
        | .abandon 0 => some (r.lift, a.setTx x ⟨some w', .dropped⟩)
        | _ => some (r.lift, a.setTx x ⟨some w', status⟩)
  | .unwindTx x =>
    -- the guard in `guard: OnceLock<SchemaWriteGuard>` (transaction.rs:30) is dropped with it
    match a.txs[x]? with
    | none => none
    | some tx => (a.endTx x .dropped).map fun b =>
      (.none, { b with schema := { b.schema with poisoned := b.schema.poisoned || tx.world.isSome } })
  | .forgetTx x => (a.endTx x .forgotten).map fun b => (.none, b)
  | .register t v =>
    -- `Schema::with_resource` (schema/mod.rs:63-69)
    if a.unborrowed then some (.none, { a with schema := a.schema.withResource t v }) else none
  | .resource t k =>
    -- `From<&ResourceSet> for Res` (resource.rs:166-175)
    if k = a.handles.length then some (.none, { a with handles := a.handles ++ [⟨t, a.schema.env.resources.res t⟩] }) else none
  | .lockRes k excl g =>
    -- `ReadOnly for Res`, `ReadWrite for Res` (resource.rs:71-93, 131-153)
    if g = a.resGuards.length then
      match a.handles[k]? with
      | none => none
      | some ⟨t, ⟨none⟩⟩ => some (.none, { a with resGuards := a.resGuards ++ [⟨t, excl, none, .live⟩] })
      | some ⟨t, ⟨some p⟩⟩ =>
        if a.resLocked p excl then some (.stuck, a)
        else match a.schema.heap[p]? with
          | none => none
          | some l =>
            some (.none, { a with resGuards := a.resGuards ++ [⟨t, excl, if l.poisoned then none else some p, .live⟩] })
    else none
  | .peekRes t g =>
    -- `TryDeref for ResReadGuard`, `TryDeref for ResWriteGuard` (resource.rs:60-69, 109-118)
    match a.resGuard g with
    | none => none
    | some x =>
      if x.type = t then
        match x.cell with
        | none => some (.value t none, a)
        | some p =>
          match a.schema.heap[p]? with
          | none => none
          | some l => some (.value t (l.val.downcast t), a)
      else none
  | .assignRes g t v =>
    -- `TryDerefMut for ResWriteGuard` (resource.rs:120-129)
    match a.resGuard g with
    | none => none
    | some x =>
      if x.type = t ∧ x.excl = true then
        match x.cell with
        | none => some (.bool false, a)
        | some p =>
          match a.schema.heap[p]? with
          | none => none
          | some l =>
            match l.val.downcast t with
            | none => some (.bool false, a)
            | some _ =>
              some (.bool true, { a with schema := { a.schema with heap := a.schema.heap.set p { l with val := ⟨t, v⟩ } } })
      else none
  | .dropRes g panicked =>
    match a.resGuard g with
    | none => none
    | some x =>
      let b := { a with resGuards := a.resGuards.modify g fun x => { x with status := .dropped } }
      match x.cell with
      | none => some (.none, b)
      | some p =>
        some (.none, { b with
          schema := { a.schema with
            heap := if panicked && x.excl then a.schema.heap.modify p fun l => { l with poisoned := true } else a.schema.heap } })
  | .forgetRes g =>
    match a.resGuard g with
    | none => none
    | some _ => some (.none, { a with resGuards := a.resGuards.modify g fun x => { x with status := .forgotten } })

/-- A schema just made (`Schema::from`, schema/mod.rs:35-47). -/
def App.start (g : Graph σ.K σ.T) : App σ := ⟨Schema.fromGraph g, [], [], [], []⟩

end

end Plotline
