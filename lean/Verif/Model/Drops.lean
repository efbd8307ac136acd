import Verif.Model.Contexts

/-!
# When nodes are destroyed (transaction.rs:25-472)

What owns nodes: the graph; the operations of a log, while a transaction or a context has it; and targets, while a context or a
handle (`Target`, which has no lifetime, so that it may be kept for longer than the transaction) has them. What loses its last
owner is destroyed then and there: the destructor of each of its nodes runs. Destructors are user code, that may panic, and may
use the schema, which never returns if the thread holds the lock of the graph.

Simplifications: the calls are those of `World`; `c.target()`, that borrows from `c`, is a handle dropped before `c` is. The nodes
in the graph when the transaction begins, those given to `save`, `with_target` or to closures of targets, and those taken out of
targets by closures are followed; clones that `get` and `with` give away are new nodes, the caller's. Destructors of ids are left
out: they do not panic. What a destructor does apart from panicking is not modelled, only whether it runs with the lock held.
-/

namespace Plotline

/-- Everything, and which nodes were destroyed. -/
structure Estate (σ : Sig) where
  world : World σ
  /-- What the target handles hold; `none` if dropped. -/
  held : List (Option (Option Nat))
  /-- The handles the guards in `world.guards` borrow from. -/
  via : List Nat
  /-- The lock of the graph (schema/mod.rs:36) is poisoned. -/
  poisoned : Bool
  /-- The nodes whose destructor ran, first one first, with whether the lock of the graph was held. -/
  drops : List (σ.T × Bool)

/-- A call, or one that ends a target handle. -/
inductive DropCall (σ : Sig) where
  | call (c : Call σ)
  /-- `drop(h)` -/
  | dropHandle (h : Nat)

/-- How destroying values ends. -/
inductive Demise where
  | calm
  /-- A destructor panicked. -/
  | panicking
  /-- A destructor panicked while unwinding, which ends the process. -/
  | aborted
deriving DecidableEq, Repr

/-- How a call ends. -/
inductive Ended (T : Type) where
  | answer (a : Answer T)
  /-- The process is aborted. -/
  | abort
deriving DecidableEq, Repr

section
variable {σ : Sig}

/-- The nodes that operations own. -/
def opNodes : List (Operation σ.K σ.T) → List σ.T
  | [] => []
  | .save n :: ops => n :: opNodes ops
  | .delete _ :: ops => opNodes ops

/-- The lock of the graph is held: `Background::guard` (transaction.rs:30) goes with the outermost transaction. -/
def Estate.locked (e : Estate σ) : Bool :=
  match e.world.tx 0 with
  | some _ => true
  | none => false

/-- Destroys nodes, one after another, as drop glue does: when a destructor panics the rest is destroyed by unwinding, and one more
panic aborts the process. `D n`: does the `n`-th destructor that is run panic? -/
def Estate.destroy (D : Nat → Bool) (locked : Bool) : Bool → List σ.T → Estate σ → Demise × Estate σ
  | _, [], e => (.calm, e)
  | unwinding, n :: ns, e =>
    let e' := { e with drops := e.drops ++ [(n, locked)] }
    if D e.drops.length then
      if unwinding then (.aborted, e')
      else
        let r := e'.destroy D locked true ns
        (if r.1 = .aborted then .aborted else .panicking, r.2)
    else e'.destroy D locked unwinding ns

/-- The strong count of the `Arc` of a target: contexts and handles that have it. -/
def Estate.strongCount (e : Estate σ) (p : Nat) : Nat :=
  e.world.ctxs.countP (fun x => x.status != .dropped && x.target == some p) + e.held.countP (fun h => h == some (some p))

/-- An owner of the target is gone (transaction.rs:198-200). -/
def Estate.letGo (D : Nat → Bool) (unwinding : Bool) (target : Option Nat) (e : Estate σ) : Demise × Estate σ :=
  match target with
  | none => (.calm, e)
  | some p =>
    if e.strongCount p = 0 then
      match e.world.cells[p]? with
      | some l => e.destroy D e.locked unwinding [l.val]
      | none => (.calm, e)
    else (.calm, e)

/-- What `guard.insert(node)` or `guard.remove(&node_id)` returns, which is dropped (transaction.rs:88-95). -/
def Graph.displaced {K T : Type} [Ord K] [Identify T K] (g : Graph K T) : Operation K T → Option T
  | .save node => (g.insert node).2
  | .delete i => (g.remove i).2

/-- The loop of `Background::commit` (transaction.rs:88-95). `guard` is a local variable, that goes last: the lock of the graph is
held all along, and when a destructor panics the operations that remain are destroyed before it is let go. -/
def Estate.apply (D : Nat → Bool) : List (Operation σ.K σ.T) → Estate σ → Demise × Estate σ
  | [], e => (.calm, e)
  | op :: ops, e =>
    let r := { e with world := { e.world with graph := e.world.graph.applyOp op } }.destroy D true false
      (e.world.graph.displaced op).toList
    match r.1 with
    | .calm => r.2.apply D ops
    | _ =>
      let r' := r.2.destroy D true true (opNodes ops)
      (if r'.1 = .aborted then .aborted else .panicking, r'.2)

/-- The end of a call that answers `a` unless a destructor panics. -/
def Demise.ended (a : Answer σ.T) : Demise → Ended σ.T
  | .calm => .answer a
  | .panicking => .answer .panic
  | .aborted => .abort

/-- The call as in `World`: it destroys nothing. -/
def Estate.plainly (e : Estate σ) (x : Call σ) : Option (Ended σ.T × Estate σ) :=
  (e.world.step x).map fun r => (.answer r.1, { e with world := r.2 })

/-- The handle was not dropped. -/
def Estate.holds (e : Estate σ) (h : Nat) : Bool :=
  match e.held[h]? with
  | some (some _) => true
  | _ => false

/-- One call; it is part of unwinding if `unwinding`. `none`: the program would not compile, or there is no such call. -/
def Estate.step (D : Nat → Bool) (e : Estate σ) (unwinding : Bool) : DropCall σ → Option (Ended σ.T × Estate σ)
  | .call (.dropCtx c) =>
    -- fields are dropped in the order they are declared in (transaction.rs:352-361)
    match e.world.ctx c, e.world.step (.dropCtx c) with
    | some x, some (a, w) =>
      let r := { e with world := w }.letGo D unwinding x.target
      some (r.1.ended a, r.2)
    | _, _ => none
  | .call (.abandon t) =>
    -- `Background` and `Foreground` are dropped; `guard` is declared before `operations` (transaction.rs:25-32, 99-106)
    match e.world.tx t, e.world.step (.abandon t) with
    | some tx, some (a, w) =>
      let e' := { e with world := w, poisoned := e.poisoned || (unwinding && t == 0) }
      if tx.owners = 1 then
        let r := e'.destroy D (t != 0) unwinding (opNodes tx.log)
        some (r.1.ended a, r.2)
      else some (.answer a, e')
    | _, _ => none
  | .dropHandle h =>
    match e.held[h]? with
    | some (some target) =>
      if e.via.contains h then none
      else
        let r := { e with held := e.held.set h none }.letGo D unwinding target
        some (r.1.ended .none, r.2)
    | _ => none
  | .call (.leave j panicked) =>
    if panicked = unwinding then
      (e.world.step (.leave j panicked)).map fun r => (.answer r.1, { e with world := r.2, via := e.via.eraseIdx j })
    else none
  | .call x =>
    if unwinding then none
    else
      match x with
      | .withTarget c n =>
        -- `with_target` takes the context (transaction.rs:449-452); the old target goes when the new one is there (:309-311)
        if e.world.unborrowed c then
          match e.world.ctx c, e.world.step (.withTarget c n) with
          | some y, some (a, w) =>
            let r := { e with world := w }.letGo D false y.target
            match r.1 with
            | .calm => some (.answer a, r.2)
            | _ =>
              -- by unwinding, the context is dropped, and the new target with it
              match r.2.world.step (.dropCtx c) with
              | some (_, w') =>
                let r' := { r.2 with world := w' }.letGo D true (some e.world.cells.length)
                some (if r'.1 = .aborted then .abort else .answer .panic, r'.2)
              | none => none
          | _, _ => none
        else none
      | .handle c h =>
        match e.world.ctx c, e.world.step (.handle c h) with
        | some y, some (a, w) => some (.answer a, { e with world := w, held := e.held ++ [some y.target] })
        | _, _ => none
      | .cloneHandle h h' =>
        match e.held[h]?, e.world.step (.cloneHandle h h') with
        | some (some target), some (a, w) => some (.answer a, { e with world := w, held := e.held ++ [some target] })
        | _, _ => none
      | .readTarget h => if e.holds h then e.plainly x else none
      | .writeTarget h _ => if e.holds h then e.plainly x else none
      | .enter h excl =>
        if e.holds h then
          (e.world.step (.enter h excl)).map fun r => (.answer r.1, { e with
            world := r.2
            via := if r.2.guards.length = e.world.guards.length then e.via else h :: e.via })
        else none
      | .commit t =>
        match e.world.tx t with
        | some tx =>
          if tx.context = none ∧ tx.owners = 1 then
            if e.world.unused t then
              let r := { e with world := { e.world with txs := e.world.txs.modify t fun tx => { tx with live := false } } }.apply D tx.log
              match r.1 with
              | .calm => some (.answer .none, r.2)
              -- the guard is dropped while the thread panics
              | .panicking => some (.answer .panic, { r.2 with poisoned := true })
              | .aborted => some (.abort, r.2)
            else none
          else e.plainly x
        | none => none
      | x => e.plainly x

/-- `schema.transaction()` (schema/mod.rs:98-100) on a schema with this graph. -/
def Estate.start (g : Graph σ.K σ.T) : Estate σ := ⟨World.start g, [], [], false, []⟩

end

end Plotline
