import Verif.Model.Contexts

/-!
# The calls of contexts and transactions with the locks of the logs and the user code they run (transaction.rs:25-472)

`Model/Contexts` takes each call as one step on the logs. Here a call takes the `RwLock` of the logs it uses, does what it does,
and releases them; and wherever the library runs code of the user's types on the way, that code may panic: `Identify::id` and
`PartialEq` of ids when a log is searched, `Ord` of ids when the graph is, `Clone` of nodes and ids. The unwinding releases the
locks, and poisons those held for writing.

Simplifications: user code does not use the transaction it is called from (a `Clone` or an `Ord` is not handed one), and `Drop` of
nodes and ids does not panic. How many comparisons a search of the graph makes is up to `std`'s `BTreeMap`: any number. One thread.
-/

namespace Plotline

/-- Code of the user's types that the library calls. -/
inductive UserCall (σ : Sig) where
  /-- `op.id() == id` (transaction.rs:376, 392) -/
  | eq (a b : σ.K)
  /-- `Ord::cmp`, called by `BTreeMap` in its search for this id (graph/mod.rs:65, 69, 86, 108) -/
  | cmp (i : σ.K)
  /-- `Clone` of a node (transaction.rs:377; graph/mod.rs:65) -/
  | clone (n : σ.T)
  /-- `node.id().clone()` (graph/mod.rs:86) -/
  | cloneId (i : σ.K)

/-- What is not up to the library: which calls of user code panic, counted from the first one made, and how many comparisons
`BTreeMap` makes to find an id. -/
structure UserCode (σ : Sig) where
  panics : Nat → Bool
  visits : Graph σ.K σ.T → σ.K → Nat

/-- The state of the `RwLock` around a log. -/
structure LogLock where
  poisoned : Bool
  readers : Nat
  writing : Bool
deriving DecidableEq, Repr

/-- `RwLock::new` -/
def LogLock.fresh : LogLock := ⟨false, 0, false⟩

/-- What there is (`World`), the locks of the logs, by transaction, and the calls of user code made so far, first one first. -/
structure Raw (σ : Sig) where
  world : World σ
  locks : List LogLock
  calls : List (UserCall σ)

/-- Code that runs on this. -/
def Act (σ : Sig) (α : Type) : Type := Raw σ → Out α × Raw σ

section
variable {σ : Sig}

/-- Returns. -/
def Act.pure {α : Type} (a : α) : Act σ α := fun r => (.ret a, r)

/-- One thing after another, the second only if the first returns. -/
def Act.andThen {α β : Type} (x : Act σ α) (f : α → Act σ β) : Act σ β := fun r =>
  match x r with
  | (.ret a, r') => f a r'
  | (.panic, r') => (.panic, r')
  | (.stuck, r') => (.stuck, r')

/-- Calls user code. -/
def ask (U : UserCode σ) (u : UserCall σ) : Act σ Unit := fun r =>
  (if U.panics r.calls.length then .panic else .ret (), { r with calls := r.calls ++ [u] })

/-- `RwLock::read` on the log of `t`, also if it is poisoned, `body`, and the drop of the guard. -/
def underRead {α : Type} (t : Nat) (body : Act σ α) : Act σ α := fun r =>
  match r.locks[t]? with
  | none => (.stuck, r)
  | some l =>
    if l.writing then (.stuck, r)
    else
      let x := body { r with locks := r.locks.set t { l with readers := l.readers + 1 } }
      (x.1, { x.2 with locks := x.2.locks.modify t fun l => { l with readers := l.readers - 1 } })

/-- `RwLock::write` on the log of `t`, `body`, told whether the lock is poisoned, and the drop of the guard, which poisons the
lock if `body` panicked. -/
def underWrite {α : Type} (t : Nat) (body : Bool → Act σ α) : Act σ α := fun r =>
  match r.locks[t]? with
  | none => (.stuck, r)
  | some l =>
    if l.writing || l.readers != 0 then (.stuck, r)
    else
      match body l.poisoned { r with locks := r.locks.set t { l with writing := true } } with
      | (.panic, r') => (.panic, { r' with locks := r'.locks.modify t fun l => { l with writing := false, poisoned := true } })
      | (o, r') => (o, { r' with locks := r'.locks.modify t fun l => { l with writing := false } })

/-- `guard.iter().rev().find(|&op| op.id() == id)` (transaction.rs:376, 392), given the reversed log. -/
def findOp (U : UserCode σ) (i : σ.K) : List (Operation σ.K σ.T) → Act σ (Option (Operation σ.K σ.T))
  | [] => .pure none
  | op :: ops => (ask U (.eq op.id i)).andThen fun _ => if op.id == i then .pure (some op) else findOp U i ops

/-- User code called `n` times. -/
def askTimes (U : UserCode σ) (u : UserCall σ) : Nat → Act σ Unit
  | 0 => .pure ()
  | n + 1 => (ask U u).andThen fun _ => askTimes U u n

/-- The search of a `BTreeMap`. -/
def lookFor (U : UserCode σ) (i : σ.K) : Act σ Unit := fun r => askTimes U (.cmp i) (U.visits r.world.graph i) r

/-- `Source for Graph::get` (graph/mod.rs:64-66). -/
def rawGraphGet (U : UserCode σ) (i : σ.K) : Act σ (Option σ.T) :=
  (lookFor U i).andThen fun _ r =>
    match r.world.graph.get i with
    | some n => ((ask U (.clone n)).andThen fun _ => .pure (some n)) r
    | none => (.ret none, r)

/-- `Source for Graph::contains` (graph/mod.rs:68-70). -/
def rawGraphContains (U : UserCode σ) (i : σ.K) : Act σ Bool :=
  (lookFor U i).andThen fun _ r => (.ret (r.world.graph.contains i), r)

/-- `Source for Context::get` (transaction.rs:370-384): the lock of the context's log is held while the parents are asked. -/
def rawGet (U : UserCode σ) (i : σ.K) : List Nat → Act σ (Option σ.T)
  | [] => rawGraphGet U i
  | t :: parents => underRead t fun r =>
    ((findOp U i (r.world.log t).reverse).andThen fun found =>
      match found with
      | some (.save n) => (ask U (.clone n)).andThen fun _ => .pure (some n)
      | some (.delete _) => .pure none
      | none => rawGet U i parents) r

/-- `Source for Context::contains` (transaction.rs:386-400). -/
def rawContains (U : UserCode σ) (i : σ.K) : List Nat → Act σ Bool
  | [] => rawGraphContains U i
  | t :: parents => underRead t fun r =>
    ((findOp U i (r.world.log t).reverse).andThen fun found =>
      match found with
      | some (.save _) => .pure true
      | some (.delete _) => .pure false
      | none => rawContains U i parents) r

/-- `Context::save` and `Context::delete` (transaction.rs:455-472), also if the lock is poisoned. -/
def rawPush (t : Nat) (op : Operation σ.K σ.T) : Act σ Unit :=
  underWrite t fun _ r => (.ret (), { r with world := r.world.push t [op] })

/-- The loop of `Background::commit` (transaction.rs:88-95). -/
def rawApply (U : UserCode σ) : List (Operation σ.K σ.T) → Act σ Unit
  | [] => .pure ()
  | op :: ops =>
    (match op with
      | .save n => (ask U (.cloneId (id n))).andThen fun _ => lookFor U (id n)
      | .delete i => lookFor U i).andThen fun _ r =>
        rawApply U ops { r with world := { r.world with graph := r.world.graph.applyOp op } }

/-- The lock of the log of `t` is poisoned (`into_inner` of a lock that nobody else owns: transaction.rs:80-86, 146-152). -/
def Raw.spoilt (r : Raw σ) (t : Nat) : Bool :=
  match r.locks[t]? with
  | some l => l.poisoned
  | none => false

/-- `Background::commit` (transaction.rs:69-96) from the check of the log's lock on; `log` was in it. -/
def rawCommitRoot (U : UserCode σ) (t : Nat) (log : List (Operation σ.K σ.T)) : Act σ Unit := fun r =>
  if r.spoilt t then (.ret (), r) else rawApply U log r

/-- `Foreground::commit` (transaction.rs:140-166) from the check of the log's lock on; `log` was in it and `p` is the transaction
of the context around. -/
def rawCommitChild (t p : Nat) (log : List (Operation σ.K σ.T)) : Act σ Unit := fun r =>
  if r.spoilt t then (.ret (), r)
  else underWrite p (fun poisoned r => if poisoned then (.ret (), r) else (.ret (), { r with world := r.world.push p log })) r

/-- What the caller sees of code that has run. -/
def answered {α : Type} (f : α → Answer σ.T) (x : Out α × Raw σ) : Answer σ.T × Raw σ :=
  match x with
  | (.ret a, r) => (f a, r)
  | (.panic, r) => (.panic, r)
  | (.stuck, r) => (.stuck, r)

/-- A call that uses no log and no code of the user but the closure it is given. -/
def Raw.plainly (r : Raw σ) (x : Call σ) : Option (Answer σ.T × Raw σ) :=
  (r.world.step x).map fun y => (y.1, { r with world := y.2 })

/-- One call. `none`: the program would not compile. -/
def Raw.step (U : UserCode σ) (r : Raw σ) : Call σ → Option (Answer σ.T × Raw σ)
  | .get c i => (r.world.ctx c).map fun x => answered .node (rawGet U i x.chain r)
  | .contains c i => (r.world.ctx c).map fun x => answered .bool (rawContains U i x.chain r)
  | .save c n => (r.world.ctx c).map fun x => answered (fun _ => .none) (rawPush (x.chain.headD 0) (.save n) r)
  | .delete c i => (r.world.ctx c).map fun x => answered (fun _ => .none) (rawPush (x.chain.headD 0) (.delete i) r)
  | .transaction c t =>
    -- `Default for Arc<RwLock<Vec<Operation>>>` (transaction.rs:115)
    (r.plainly (.transaction c t)).map fun y => (y.1, { y.2 with locks := y.2.locks ++ [.fresh] })
  | .readTarget h =>
    -- the clone is made in the closure, while the target is locked for reading
    (r.plainly (.readTarget h)).map fun y =>
      match y.1 with
      | .node (some n) => answered (fun _ => .node (some n)) (ask U (.clone n) y.2)
      | a => (a, y.2)
  | .commit t =>
    -- `Background::commit` (transaction.rs:69-96), `Foreground::commit` (transaction.rs:140-166)
    match r.world.tx t with
    | some tx =>
      if r.world.unused t then
        let closed := { r with world := { r.world with txs := r.world.txs.modify t fun tx => { tx with live := false } } }
        if tx.owners = 1 then
          match tx.context with
          | none => some (answered (fun _ => .none) (rawCommitRoot U t tx.log closed))
          | some c => some (answered (fun _ => .none) (rawCommitChild t ((r.world.parents (some c)).headD 0) tx.log closed))
        else some (.none, closed)
      else none
    | none => none
  | x => r.plainly x

/-- `schema.transaction()` on a schema with this graph. -/
def Raw.start (g : Graph σ.K σ.T) : Raw σ := ⟨World.start g, [.fresh], []⟩

end

end Plotline
