import Verif.Model.Drops
import Verif.Spec.Contexts

/-!
# Which nodes should be destroyed, when, and once
-/

namespace Plotline

variable {σ : Sig}

/-- `with_mut` called its closure. -/
def Answer.wrote {T : Type} : Answer T → Bool
  | .bool b => b
  | .panic => true
  | _ => false

/-- The nodes the call `x`, that answered `a`, gives to the library. -/
def Estate.given (e : Estate σ) (x : DropCall σ) (a : Answer σ.T) : List σ.T :=
  match x with
  | .call (.save _ n) => [n]
  | .call (.withTarget _ n) => [n]
  | .call (.assign _ n) => [n]
  | .call (.touch j f) =>
    match e.world.guards[j]? with
    | some (p, _) => (e.world.cells[p]?.map fun l => f l.val).toList
    | none => []
  | .call (.writeTarget h f) =>
    match e.world.handles[h]? with
    | some (some p) => if a.wrote then (e.world.cells[p]?.map fun l => (f l.val).1).toList else []
    | _ => []
  | _ => []

/-- The nodes the call `x`, that answered `a`, takes out of the library: those that were in the targets it writes to. -/
def Estate.taken (e : Estate σ) (x : DropCall σ) (a : Answer σ.T) : List σ.T :=
  match x with
  | .call (.assign j _) =>
    match e.world.guards[j]? with
    | some (p, _) => (e.world.cells[p]?.map fun l => l.val).toList
    | none => []
  | .call (.touch j _) =>
    match e.world.guards[j]? with
    | some (p, _) => (e.world.cells[p]?.map fun l => l.val).toList
    | none => []
  | .call (.writeTarget h _) =>
    match e.world.handles[h]? with
    | some (some p) => if a.wrote then (e.world.cells[p]?.map fun l => l.val).toList else []
    | _ => []
  | _ => []

/-- Calls possible on a new transaction on the graph `g`, that have all returned or panicked, lead to `e`; they gave the nodes `i` to
the library and took the nodes `o` out of it. -/
inductive Outlived (D : Nat → Bool) (g : Graph σ.K σ.T) : (i o : List σ.T) → Estate σ → Prop where
  | start : Outlived D g [] [] (Estate.start g)
  | call {i o : List σ.T} {e e' : Estate σ} {u : Bool} {x : DropCall σ} {a : Answer σ.T} : Outlived D g i o e →
      e.step D u x = some (.answer a, e') → a ≠ .stuck → Outlived D g (i ++ e.given x a) (o ++ e.taken x a) e'

/-- The log of the transaction `t` has an owner: the transaction, or a context that was not dropped. -/
def Estate.logOwned (e : Estate σ) (t : Nat) : Bool :=
  (match e.world.txs[t]? with
  | some tx => tx.live
  | none => false) || e.world.ctxs.any fun x => x.status != .dropped && x.chain.head? == some t

/-- The target has an owner: a context or a handle that was not dropped. -/
def Estate.targetOwned (e : Estate σ) (p : Nat) : Bool :=
  (e.world.ctxs.any fun x => x.status != .dropped && x.target == some p) || e.held.any fun h => h == some (some p)

/-- The nodes of logs that have an owner. -/
def Estate.pendingNodes (e : Estate σ) : List σ.T :=
  (List.range e.world.txs.length).flatMap fun t => if e.logOwned t then opNodes (e.world.log t) else []

/-- The nodes of targets that have an owner. -/
def Estate.targetNodes (e : Estate σ) : List σ.T :=
  (List.range e.world.cells.length).flatMap fun p => if e.targetOwned p then (e.world.cells[p]?.map (·.val)).toList else []

/-- All nodes that something has. -/
def Estate.nodes (e : Estate σ) : List σ.T := e.world.graph.iter ++ e.pendingNodes ++ e.targetNodes

/-- The nodes destroyed so far. -/
def Estate.destroyed (e : Estate σ) : List σ.T := e.drops.map (·.1)

/-- The nodes that operations put out of a graph, in order: of each, the one that was there under its id just before. -/
def putOut {K T : Type} [Ord K] [Identify T K] (g : Graph K T) (ops : List (Operation K T)) : List T :=
  (List.range ops.length).filterMap fun k => ops[k]?.bind fun op => (g.commit (ops.take k)).get op.id

/-- The transaction is over: nothing of it is left but contexts that were forgotten, if any, and target handles. -/
def Estate.over (e : Estate σ) : Prop := e.world.tx 0 = none

/-- No context was forgotten. -/
def Estate.tidy (e : Estate σ) : Prop := ∀ x ∈ e.world.ctxs, x.status ≠ .forgotten

/-- All target handles were dropped. -/
def Estate.letLoose (e : Estate σ) : Prop := ∀ x ∈ e.held, x = none

/-- Calls in a row, first one first, each with whether it is part of unwinding. -/
def Estate.script (D : Nat → Bool) (e : Estate σ) : List (Bool × DropCall σ) → Option (List (Ended σ.T) × Estate σ)
  | [] => some ([], e)
  | (u, x) :: xs =>
    match e.step D u x with
    | none => none
    | some (a, e') => (e'.script D xs).map fun y => (a :: y.1, y.2)

/-- How many of the destructors that ran, `n` of them from the `a`-th on, panicked. -/
def panicsWithin (D : Nat → Bool) (a n : Nat) : Nat := (List.range' a n).countP D

/-- Is this the call that gives the transaction up? -/
def DropCall.givesUp : DropCall σ → Bool
  | .call (.abandon t) => t == 0
  | _ => false

/-- Calls that end an owner of nodes, or store what is pending. -/
def DropCall.ends : DropCall σ → Bool
  | .dropHandle _ => true
  | .call (.dropCtx _) => true
  | .call (.withTarget _ _) => true
  | .call (.abandon _) => true
  | .call (.commit t) => t == 0
  | _ => false

/-- The target handle that the call uses. -/
def Call.handleUsed : Call σ → Option Nat
  | .cloneHandle h _ => some h
  | .readTarget h => some h
  | .writeTarget h _ => some h
  | .enter h _ => some h
  | _ => none

/-- The node of the target, if there is a target and nothing has it. -/
def Estate.ownerless (e : Estate σ) (target : Option Nat) : List σ.T :=
  match target with
  | none => []
  | some p => if e.targetOwned p then [] else (e.world.cells[p]?.map (·.val)).toList

end Plotline
