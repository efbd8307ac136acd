import Verif.Model.Transaction

/-!
# Contexts and subtransactions held side by side (transaction.rs:25-472)

`Context::from(&tx)` and `ctx.transaction()` hand out values that can be kept: any number of contexts of one transaction, and
any number of subtransactions of one context, may exist at a time and be ended in any order in which nothing outlives what it
borrows. Here the calls a client makes on such values are a sequence, whoever makes them: `tx.with(f)` is making a context, the
calls `f` makes, dropping the context, and committing or abandoning `tx`.

Values are named by the order in which they are made. Logs are shared between a transaction and its contexts, so that of each
log the number of owners (`Arc`) is tracked; also targets are shared with the handles made from them.

The closure of `with` or `with_mut` of a target may make any calls: entering it, what it does to the target, and leaving it are
calls here. A call that waits for a lock which only its own caller could release never returns.

Not modelled here: resources, triggers (they make calls like any other code).
-/

namespace Plotline

/-- `Background` (transaction.rs:25-32), made from no context, or `Foreground` (transaction.rs:99-106), made from one. -/
structure TxVal (K T : Type) where
  context : Option Nat
  log : List (Operation K T)
  /-- The strong count of `operations`. -/
  owners : Nat
  /-- Not yet committed or dropped. -/
  live : Bool

/-- What has become of a context. -/
inductive CtxEnd where
  | live
  | dropped
  | forgotten
deriving DecidableEq, Repr

/-- `Context` (transaction.rs:352-361). -/
structure CtxVal where
  /-- The transactions whose `operations` are those of this context, of its parent, of the parent's parent, and so on: the
  references `parent` never change. -/
  chain : List Nat
  /-- `target.lock`, as the index of the cell. -/
  target : Option Nat
  status : CtxEnd
deriving DecidableEq, Repr

/-- All there is: the graph behind the guard, transactions (`0` is the `Background`), contexts, target cells, target handles,
and the target locks held by closures that run, innermost first, with whether exclusively. -/
structure World (σ : Sig) where
  graph : Graph σ.K σ.T
  txs : List (TxVal σ.K σ.T)
  ctxs : List CtxVal
  cells : List (Lock σ.T)
  handles : List (Option Nat)
  guards : List (Nat × Bool)

/-- A call. The names of new values are given, so that calls can be read on their own. -/
inductive Call (σ : Sig) where
  /-- `let c = Context::from(&t)` -/
  | context (t c : Nat)
  /-- `let t = c.transaction()` -/
  | transaction (c t : Nat)
  /-- `c.save(n)` -/
  | save (c : Nat) (n : σ.T)
  /-- `c.delete(i)` -/
  | delete (c : Nat) (i : σ.K)
  /-- `c.get(&i)` -/
  | get (c : Nat) (i : σ.K)
  /-- `c.contains(&i)` -/
  | contains (c : Nat) (i : σ.K)
  /-- `let c = c.with_target(n)` -/
  | withTarget (c : Nat) (n : σ.T)
  /-- `let h = Target::from(&c)`, also the reference `c.target()`. -/
  | handle (c h : Nat)
  /-- `let h' = h.clone()` -/
  | cloneHandle (h h' : Nat)
  /-- `h.with(|n| n.clone())` -/
  | readTarget (h : Nat)
  /-- `h.with_mut(f)`: `f` leaves a value and panics if the flag is `true`. -/
  | writeTarget (h : Nat) (f : σ.T → σ.T × Bool)
  /-- The call of `h.with` (`h.with_mut` if `excl`), up to the call of the closure if it is called. -/
  | enter (h : Nat) (excl : Bool)
  /-- `*target = n` in a closure of `with_mut`, `j` closures further out, or through a guard kept as a value. -/
  | assign (j : Nat) (n : σ.T)
  /-- What the target has inside of it is changed through a shared reference, in a closure of `with` or `with_mut` or through a guard. -/
  | touch (j : Nat) (f : σ.T → σ.T)
  /-- The closure that is `j` closures further out than the innermost returns, or panics; also `drop` of a guard that was kept as a
  value (`Target::read`, `Target::write`), which may be done in any order. -/
  | leave (j : Nat) (panicked : Bool)
  /-- `drop(c)` -/
  | dropCtx (c : Nat)
  /-- `std::mem::forget(c)` -/
  | forgetCtx (c : Nat)
  /-- `t` is committed: the end of `t.with(f)` if `f` returned `Ok`. -/
  | commit (t : Nat)
  /-- `drop(t)`, also the end of `t.with(f)` if `f` failed or panicked. -/
  | abandon (t : Nat)

/-- What a call returns. -/
inductive Answer (T : Type) where
  | none
  | node (n : Option T)
  | bool (b : Bool)
  | panic
  /-- The call never returns. -/
  | stuck
deriving DecidableEq, Repr

section
variable {σ : Sig}

/-- The log of a transaction. -/
def World.log (w : World σ) (t : Nat) : List (Operation σ.K σ.T) :=
  match w.txs[t]? with
  | some tx => tx.log
  | none => []

/-- `Source for Context::get` (transaction.rs:370-384), along the references `parent`. -/
def World.get (w : World σ) : List Nat → σ.K → Option σ.T
  | [], i => w.graph.get i
  | t :: parents, i =>
    match (w.log t).reverse.find? (fun op => op.id == i) with
    | some (.save n) => some n
    | some (.delete _) => none
    | none => w.get parents i

/-- `Source for Context::contains` (transaction.rs:386-400). -/
def World.contains (w : World σ) : List Nat → σ.K → Bool
  | [], i => w.graph.contains i
  | t :: parents, i =>
    match (w.log t).reverse.find? (fun op => op.id == i) with
    | some (.save _) => true
    | some (.delete _) => false
    | none => w.contains parents i

/-- Pushes operations on the log of a transaction. -/
def World.push (w : World σ) (t : Nat) (ops : List (Operation σ.K σ.T)) : World σ :=
  { w with txs := w.txs.modify t fun tx => { tx with log := tx.log ++ ops } }

/-- The context, if it can still be used. -/
def World.ctx (w : World σ) (c : Nat) : Option CtxVal :=
  match w.ctxs[c]? with
  | some x => if x.status = .live then some x else none
  | none => none

/-- The transaction, if it can still be used. -/
def World.tx (w : World σ) (t : Nat) : Option (TxVal σ.K σ.T) :=
  match w.txs[t]? with
  | some x => if x.live then some x else none
  | none => none

/-- No transaction made from the context is left. -/
def World.unborrowed (w : World σ) (c : Nat) : Bool := w.txs.all fun tx => !(tx.live && tx.context == some c)

/-- No context of the transaction is left. -/
def World.unused (w : World σ) (t : Nat) : Bool := w.ctxs.all fun x => !(x.status = .live && x.chain.head? = some t)

/-- The logs along the parents of a new context (transaction.rs:413, 428). -/
def World.parents (w : World σ) (context : Option Nat) : List Nat :=
  match context with
  | none => []
  | some c =>
    match w.ctxs[c]? with
    | some x => x.chain
    | none => []

/-- A lock on the target is held that this access has to wait for. -/
def World.blocked (w : World σ) (p : Nat) (excl : Bool) : Bool := w.guards.any fun l => l.1 == p && (excl || l.2)

/-- One call. `none`: the program would not compile. -/
def World.step (w : World σ) : Call σ → Option (Answer σ.T × World σ)
  | .context t c =>
    -- `From<&Background> for Context`, `From<&Foreground> for Context` (transaction.rs:402-431)
    match w.tx t with
    | some tx =>
      if c = w.ctxs.length then
        some (.none, { w with
          txs := w.txs.modify t fun tx => { tx with owners := tx.owners + 1 }
          ctxs := w.ctxs ++ [⟨t :: w.parents tx.context, none, .live⟩] })
      else none
    | none => none
  | .transaction c t =>
    -- `Context::transaction`, `From<&Context> for Foreground` (transaction.rs:491-493, 108-118)
    match w.ctx c with
    | some _ => if t = w.txs.length then some (.none, { w with txs := w.txs ++ [⟨some c, [], 1, true⟩] }) else none
    | none => none
  | .save c n =>
    -- `Context::save` (transaction.rs:455-462)
    match w.ctx c with
    | some x => some (.none, w.push (x.chain.headD 0) [.save n])
    | none => none
  | .delete c i =>
    -- `Context::delete` (transaction.rs:465-472)
    match w.ctx c with
    | some x => some (.none, w.push (x.chain.headD 0) [.delete i])
    | none => none
  | .get c i => (w.ctx c).map fun x => (.node (w.get x.chain i), w)
  | .contains c i => (w.ctx c).map fun x => (.bool (w.contains x.chain i), w)
  | .withTarget c n =>
    -- `Context::with_target`, `Target::set` (transaction.rs:449-452, 309-311)
    match w.ctx c with
    | some _ => some (.none, { w with
        cells := w.cells ++ [⟨n, false⟩]
        ctxs := w.ctxs.modify c fun x => { x with target := some w.cells.length } })
    | none => none
  | .handle c h =>
    -- `From<&Context> for Target` (transaction.rs:342-349), `Clone for Target` (:206-212)
    match w.ctx c with
    | some x => if h = w.handles.length then some (.none, { w with handles := w.handles ++ [x.target] }) else none
    | none => none
  | .cloneHandle h h' =>
    -- `Clone for Target` (transaction.rs:206-212)
    match w.handles[h]? with
    | some cell => if h' = w.handles.length then some (.none, { w with handles := w.handles ++ [cell] }) else none
    | none => none
  | .readTarget h =>
    -- `ReadOnly for Target`, `TryDeref for TargetReadGuard` (transaction.rs:234-255, 226-232)
    match w.handles[h]? with
    | some none => some (.node none, w)
    | some (some p) =>
      match w.cells[p]? with
      | some l =>
        if w.blocked p false then some (.stuck, w) else some (.node (if l.poisoned then none else some l.val), w)
      | none => none
    | none => none
  | .writeTarget h f =>
    -- `ReadWrite for Target`, `TryDerefMut for TargetWriteGuard` (transaction.rs:284-305, 278-282)
    match w.handles[h]? with
    | some none => some (.bool false, w)
    | some (some p) =>
      match w.cells[p]? with
      | some l =>
        if w.blocked p true then some (.stuck, w)
        else if l.poisoned then some (.bool false, w)
        else match f l.val with
          | (n, false) => some (.bool true, { w with cells := w.cells.set p ⟨n, false⟩ })
          | (n, true) => some (.panic, { w with cells := w.cells.set p ⟨n, true⟩ })
      | none => none
    | none => none
  | .enter h excl =>
    -- `read` or `write` and `try_deref` (deref.rs:66-71, 81-86; transaction.rs:234-255, 284-305)
    match w.handles[h]? with
    | some none => some (.node none, w)
    | some (some p) =>
      match w.cells[p]? with
      | some l =>
        if w.blocked p excl then some (.stuck, w)
        else if l.poisoned then some (.node none, w)
        else some (.node (some l.val), { w with guards := (p, excl) :: w.guards })
      | none => none
    | none => none
  | .assign j n =>
    match w.guards[j]? with
    | some (p, true) => some (.none, { w with cells := w.cells.modify p fun l => { l with val := n } })
    | _ => none
  | .touch j f =>
    match w.guards[j]? with
    | some (p, _) => some (.none, { w with cells := w.cells.modify p fun l => { l with val := f l.val } })
    | none => none
  | .leave j panicked =>
    -- the guard is dropped, while unwinding if `panicked`
    match w.guards[j]? with
    | some (p, excl) => some (.none, { w with
        guards := w.guards.eraseIdx j
        cells := if panicked && excl then w.cells.modify p fun l => { l with poisoned := true } else w.cells })
    | none => none
  | .dropCtx c =>
    match w.ctx c with
    | some x =>
      if w.unborrowed c then
        some (.none, { w with
          txs := w.txs.modify (x.chain.headD 0) fun tx => { tx with owners := tx.owners - 1 }
          ctxs := w.ctxs.modify c fun x => { x with status := .dropped } })
      else none
    | none => none
  | .forgetCtx c =>
    match w.ctx c with
    | some _ =>
      if w.unborrowed c then some (.none, { w with ctxs := w.ctxs.modify c fun x => { x with status := .forgotten } }) else none
    | none => none
  | .commit t =>
    -- `Background::commit` (transaction.rs:69-96), `Foreground::commit` (transaction.rs:140-166)
    match w.tx t with
    | some tx =>
      if w.unused t then
        let closed := { w with txs := w.txs.modify t fun tx => { tx with live := false } }
        -- `Arc::into_inner` (transaction.rs:75, 141)
        if tx.owners = 1 then
          match tx.context with
          | none => some (.none, { closed with graph := w.graph.commit tx.log })
          | some c => some (.none, closed.push ((w.parents (some c)).headD 0) tx.log)
        else some (.none, closed)
      else none
    | none => none
  | .abandon t =>
    match w.tx t with
    | some _ =>
      if w.unused t then some (.none, { w with txs := w.txs.modify t fun tx => { tx with live := false } }) else none
    | none => none

/-- `schema.transaction()` (schema/mod.rs:98-100) on a schema with this graph. -/
def World.start (g : Graph σ.K σ.T) : World σ := ⟨g, [⟨none, [], 1, true⟩], [], [], [], []⟩

end

end Plotline
