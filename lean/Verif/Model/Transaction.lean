import Verif.Model.Resource

/-!
# Model of `plotline/src/schema/transaction.rs`, `trigger.rs`, `error.rs`, `guard.rs` and of the closures users pass

User code (transaction closures, triggers) is an arbitrary program over the public API, represented as a syntax tree
`Prog` whose continuations may branch on every answer they get. `eval` runs such a program on the real bookkeeping:
a graph plus the pending operations of every open context.

Simplifications, all recorded in DESIGN.md: `Clone`, `Ord`, `PartialEq` and `Identify::id` of user types are pure and do
not panic (the panicking case of the commit is `Graph.commitCrash`); the `RwLock<Vec<Operation>>` of a context is never
poisoned, because no user code runs while it is write-locked (transaction.rs:154-165, 455-472); a Rust stack overflow or
endless loop is "no fuel suffices".
-/

namespace Plotline

/-- The types a schema is used with: ids, nodes, closure results, resource types and their values. -/
structure Sig where
  K : Type
  T : Type
  V : Type
  /-- The value standing for `()` among closure results. -/
  unit : V
  Ty : Type
  Val : Ty → Type
  [ordK : Ord K]
  [beqK : BEq K]
  [ident : Identify T K]
  [ordTy : Ord Ty]
  [decTy : DecidableEq Ty]

attribute [instance] Sig.ordK Sig.beqK Sig.ident Sig.ordTy Sig.decTy

/-- `enum Error` (schema/error.rs:8-14). -/
inductive Error where
  | noop
  | msg (s : String)
deriving DecidableEq, Repr

/-- Schedulers: the four marker types of the library (ops/save.rs:11,14; ops/delete.rs:12,15) and any user type. -/
inductive Sched where
  | beforeSave
  | afterSave
  | beforeDelete
  | afterDelete
  | custom (n : Nat)
deriving DecidableEq, Repr

/-- A numbering of schedulers, standing for their `TypeId`. -/
def Sched.typeId : Sched → Nat
  | .beforeSave => 0
  | .afterSave => 1
  | .beforeDelete => 2
  | .afterDelete => 3
  | .custom n => n + 4

/-- `enum Operation` (transaction.rs:170-176). -/
inductive Operation (K T : Type) where
  | save (node : T)
  | delete (i : K)
deriving DecidableEq, Repr

/-- `Identify for Operation` (transaction.rs:184-189). -/
def Operation.id {K T : Type} [Identify T K] : Operation K T → K
  | .save node => Plotline.id node
  | .delete i => i

/-- One loop iteration of `Background::commit` (transaction.rs:88-95). -/
def Graph.applyOp {K T : Type} [Ord K] [Identify T K] (g : Graph K T) : Operation K T → Graph K T
  | .save node => (g.insert node).1
  | .delete i => (g.remove i).1

/-- The loop of `Background::commit` (transaction.rs:88-95). -/
def Graph.commit {K T : Type} [Ord K] [Identify T K] (g : Graph K T) (ops : List (Operation K T)) : Graph K T :=
  ops.foldl Graph.applyOp g

/-- The loop of `Background::commit` (transaction.rs:88-95) when user code it calls (`id`, `Clone` or `Ord` of an id)
panics while the operation with index `crashAt` is applied: that operation and all later ones are not applied, the
guard is dropped by unwinding. -/
def Graph.commitCrash {K T : Type} [Ord K] [Identify T K] (g : Graph K T) :
    List (Operation K T) → (crashAt : Nat) → Graph K T
  | [], _ => g
  | _ :: _, 0 => g
  | op :: ops, n + 1 => Graph.commitCrash (g.applyOp op) ops n

/-- One `Context` (transaction.rs:352-361) together with the transaction it belongs to: the parent context, the shared
operation log, the target cell, and whether the context was leaked (`std::mem::forget`), in which case the `Arc` of the
log has a second owner when the transaction commits. -/
structure Frame (K T : Type) where
  parent : Option Nat
  ops : List (Operation K T)
  target : Option (Lock T)
  leaked : Bool

/-- A program over the public API, as written in a transaction closure or a trigger. Contexts are referred to by de
Bruijn index: `0` is the context handed to the innermost closure, `1` the one of the enclosing closure, and so on. -/
inductive Prog (σ : Sig) where
  /-- The closure returns. -/
  | done (r : Except Error σ.V)
  /-- The closure panics. -/
  | panic
  /-- Touching the schema's own lock (`schema.read()`, `schema.write()`, running another `schema.transaction()`) while
  the transaction holds it. -/
  | reenter
  /-- `ctx.save(n)` -/
  | save (c : Nat) (n : σ.T) (k : Prog σ)
  /-- `ctx.delete(i)` -/
  | delete (c : Nat) (i : σ.K) (k : Prog σ)
  /-- `ctx.get(i)`, also a fresh `ctx.node(i).try_deref()` -/
  | get (c : Nat) (i : σ.K) (k : Option σ.T → Prog σ)
  /-- `ctx.contains(i)` -/
  | contains (c : Nat) (i : σ.K) (k : Bool → Prog σ)
  /-- `ctx.transaction().with(|ctx| body)` -/
  | tx (c : Nat) (body : Prog σ) (k : Except Error σ.V → Prog σ)
  /-- `ctx.triggers().select(s).execute(&ctx)` -/
  | runTriggers (c : Nat) (s : Sched) (k : Except Error Unit → Prog σ)
  /-- `let ctx = ctx.with_target(n)` -/
  | withTarget (n : σ.T) (k : Prog σ)
  /-- `ctx.target().with(..)` -/
  | targetRead (c : Nat) (k : Option σ.T → Prog σ)
  /-- `ctx.target().with_mut(f)`: `f` leaves a value and panics if the flag is `true`; `k` learns whether `f` ran. -/
  | targetWrite (c : Nat) (f : σ.T → σ.T × Bool) (k : Bool → Prog σ)
  /-- `Res::<t>::from(ctx).with(..)` -/
  | resRead (t : σ.Ty) (k : Option (σ.Val t) → Prog σ)
  /-- `Res::<t>::from(ctx).with_mut(f)`, with the conventions of `targetWrite`. -/
  | resWrite (t : σ.Ty) (f : σ.Val t → σ.Val t × Bool) (k : Bool → Prog σ)
  /-- `Res::<t>::from(ctx).with(|v| body)`, or `with_mut` if `excl`, where `body` makes API calls of its own while the lock is
  held; `k` gets `none` if `body` did not run. -/
  | resScope (t : σ.Ty) (excl : Bool) (body : σ.Val t → Prog σ) (k : Option (Except Error σ.V) → Prog σ)
  /-- `*v = x` inside the closure of `with_mut` on the resource of type `t`. -/
  | resAssign (t : σ.Ty) (x : σ.Val t) (k : Prog σ)
  /-- `std::panic::catch_unwind(|| body)`: `k` gets `none` if `body` panicked. -/
  | catchUnwind (body : Prog σ) (k : Option (Except Error σ.V) → Prog σ)
  /-- `std::mem::forget(ctx)` on the closure's own context. -/
  | forget (k : Prog σ)

/-- `struct TriggerSet` (trigger.rs:76-79). A boxed trigger is a program run on the context it is executed under (as
context `0`): `Trigger::execute` (trigger.rs:18) only gets `&Context`; arguments built by `From<&Context>`
(trigger.rs:22-35) and `ArglessTrigger` (trigger.rs:130-152) are part of that program. -/
structure TriggerSet (σ : Sig) where
  triggers : BTreeMap Nat (List (Prog σ))

/-- `Default for TriggerSet` (trigger.rs:81-88). -/
def TriggerSet.empty {σ : Sig} : TriggerSet σ := ⟨BTreeMap.empty⟩

/-- `TriggerSet::with_trigger` (trigger.rs:95-112), also `Schema::with_trigger` (schema/mod.rs:72-84). -/
def TriggerSet.withTrigger {σ : Sig} (ts : TriggerSet σ) (s : Sched) (t : Prog σ) : TriggerSet σ :=
  match ts.triggers.get s.typeId with
  | some l => ⟨(ts.triggers.insert s.typeId (l ++ [t])).1⟩
  | none => ⟨(ts.triggers.insert s.typeId [t]).1⟩

/-- `TriggerSet::select` (trigger.rs:115-126). -/
def TriggerSet.select {σ : Sig} (ts : TriggerSet σ) (s : Sched) : Option (List (Prog σ)) :=
  ts.triggers.get s.typeId

/-- What running code gives: it returns, unwinds, or blocks for ever on a lock it already holds. -/
inductive Out (α : Type) where
  | ret (a : α)
  | panic
  | stuck
deriving DecidableEq, Repr

/-- The state a transaction runs on: the locked graph, the open contexts, the resource cells, and the cells whose lock is held
by an enclosing `with` (`false`) or `with_mut` (`true`), innermost first. -/
structure St (σ : Sig) where
  graph : Graph σ.K σ.T
  frames : List (Frame σ.K σ.T)
  heap : Heap σ.Val
  locks : List (Nat × Bool)

/-- What a transaction cannot change: the schema's triggers and resource set (schema/mod.rs:30-32). -/
structure Env (σ : Sig) where
  triggers : TriggerSet σ
  resources : ResourceSet σ.Ty

section
variable {σ : Sig}

/-- `Source for Context::get` (transaction.rs:370-384): newest own operation on the id, else the parent context, else
the graph. (A parent always has a smaller index; the other branch is never taken.) -/
def ctxGet (g : Graph σ.K σ.T) (frames : List (Frame σ.K σ.T)) (f : Nat) (i : σ.K) : Option σ.T :=
  match frames[f]? with
  | none => g.get i
  | some fr =>
    match fr.ops.reverse.find? (fun op => op.id == i) with
    | some (.save node) => some node
    | some (.delete _) => none
    | none =>
      match fr.parent with
      | none => g.get i
      | some p => if p < f then ctxGet g frames p i else g.get i
termination_by f

/-- `Source for Context::contains` (transaction.rs:386-400). -/
def ctxContains (g : Graph σ.K σ.T) (frames : List (Frame σ.K σ.T)) (f : Nat) (i : σ.K) : Bool :=
  match frames[f]? with
  | none => g.contains i
  | some fr =>
    match fr.ops.reverse.find? (fun op => op.id == i) with
    | some (.save _) => true
    | some (.delete _) => false
    | none =>
      match fr.parent with
      | none => g.contains i
      | some p => if p < f then ctxContains g frames p i else g.contains i
termination_by f

/-- `Context::save` / `Context::delete` (transaction.rs:455-472): push on the context's log. -/
def pushOp (s : St σ) (f : Nat) (op : Operation σ.K σ.T) : St σ :=
  { s with frames := s.frames.modify f fun fr => { fr with ops := fr.ops ++ [op] } }

/-- `Context::transaction` (transaction.rs:491-493), `From<&Context> for Foreground` (:112-117) and
`From<&Foreground> for Context` (:422-430): a fresh context with an empty log whose parent is `f`. -/
def openChild (s : St σ) (f : Nat) : St σ :=
  { s with frames := s.frames ++ [{ parent := some f, ops := [], target := none, leaked := false }] }

/-- Dropping the transaction without committing (transaction.rs:130 when the closure fails or unwinds). -/
def closeChild (s : St σ) (n : Nat) : St σ := { s with frames := s.frames.take n }

/-- `Foreground::commit` (transaction.rs:140-166): if the log has another owner nothing happens (:141-144), otherwise
its operations are appended to the parent context's log (:165). -/
def commitChild (s : St σ) (n : Nat) : St σ :=
  match s.frames[n]? with
  | none => closeChild s n
  | some fr =>
    if fr.leaked then closeChild s n
    else match fr.parent with
      | none => closeChild s n
      | some p => { s with frames := (s.frames.take n).modify p fun pf => { pf with ops := pf.ops ++ fr.ops } }

/-- `Context::with_target` and `Target::set` (transaction.rs:449-452, 309-311). -/
def setTarget (s : St σ) (f : Nat) (n : σ.T) : St σ :=
  { s with frames := s.frames.modify f fun fr => { fr with target := some ⟨n, false⟩ } }

/-- `ReadOnly for Target::read` + `try_deref` (transaction.rs:229-231, 242-254): nothing if unset or poisoned. -/
def readTarget (s : St σ) (f : Nat) : Option σ.T :=
  match s.frames[f]? with
  | none => none
  | some fr =>
    match fr.target with
    | none => none
    | some l => if l.poisoned then none else some l.val

/-- `ReadWrite for Target::write` + `try_deref_mut` (transaction.rs:279-281, 292-304): the value left behind and the
poison flag if the writer panics. -/
def writeTarget (s : St σ) (f : Nat) (n : σ.T) (panicked : Bool) : St σ :=
  { s with frames := s.frames.modify f fun fr => { fr with target := some ⟨n, panicked⟩ } }

/-- `std::mem::forget` of a context. -/
def leakFrame (s : St σ) (f : Nat) : St σ :=
  { s with frames := s.frames.modify f fun fr => { fr with leaked := true } }

/-- Whether `RwLock::read` (or `write` if `excl`) on the cell never returns because the same thread holds the lock. -/
def St.blocks (s : St σ) (p : Nat) (excl : Bool) : Bool := s.locks.any fun l => l.1 == p && (excl || l.2)

/-- The same for a resource handle (schema/resource.rs:78-83, 138-143): without a cell there is nothing to wait for. -/
def St.resBlocks (E : Env σ) (s : St σ) (t : σ.Ty) (excl : Bool) : Bool :=
  match (E.resources.res t).lock with
  | none => false
  | some p => s.blocks p excl

/-- The guard is held from now on. -/
def lockRes (s : St σ) (p : Nat) (excl : Bool) : St σ := { s with locks := (p, excl) :: s.locks }

/-- The guard acquired last is dropped. -/
def unlockRes (s : St σ) : St σ := { s with locks := s.locks.tail }

/-- The guard acquired last, on cell `p`, is dropped by unwinding: a write guard poisons the lock. -/
def unwindRes (s : St σ) (p : Nat) (excl : Bool) : St σ :=
  { s with locks := s.locks.tail, heap := if excl then s.heap.modify p fun cell => { cell with poisoned := true } else s.heap }

/-- `*v = x` through a write guard on cell `p`. -/
def assignRes (s : St σ) (p : Nat) (t : σ.Ty) (x : σ.Val t) : St σ := { s with heap := s.heap.set p ⟨⟨t, x⟩, false⟩ }

/-- `TriggerSelect::execute` (trigger.rs:66-72): `try_for_each`, stopping at the first error. `run` executes one
trigger. -/
def tryForEach (run : Prog σ → St σ → Option (Out (Except Error σ.V) × St σ)) :
    List (Prog σ) → St σ → Option (Out (Except Error Unit) × St σ)
  | [], s => some (.ret (.ok ()), s)
  | t :: ts, s =>
    match run t s with
    | none => none
    | some (.ret (.ok _), s') => tryForEach run ts s'
    | some (.ret (.error e), s') => some (.ret (.error e), s')
    | some (.panic, s') => some (.panic, s')
    | some (.stuck, s') => some (.stuck, s')

/-- Runs a program. `env` lists the contexts in scope, innermost first. A reference to a context that is not in scope
cannot be written in Rust, nor can an assignment to a resource outside `with_mut` on it; they are given the outcome `stuck`. `none` means the fuel did not suffice. -/
def eval (E : Env σ) : Nat → List Nat → Prog σ → St σ → Option (Out (Except Error σ.V) × St σ)
  | 0, _, _, _ => none
  | _ + 1, _, .done r, s => some (.ret r, s)
  | _ + 1, _, .panic, s => some (.panic, s)
  | _ + 1, _, .reenter, s => some (.stuck, s)
  | fuel + 1, env, .save c n k, s =>
    match env[c]? with
    | none => some (.stuck, s)
    | some f => eval E fuel env k (pushOp s f (.save n))
  | fuel + 1, env, .delete c i k, s =>
    match env[c]? with
    | none => some (.stuck, s)
    | some f => eval E fuel env k (pushOp s f (.delete i))
  | fuel + 1, env, .get c i k, s =>
    match env[c]? with
    | none => some (.stuck, s)
    | some f => eval E fuel env (k (ctxGet s.graph s.frames f i)) s
  | fuel + 1, env, .contains c i k, s =>
    match env[c]? with
    | none => some (.stuck, s)
    | some f => eval E fuel env (k (ctxContains s.graph s.frames f i)) s
  | fuel + 1, env, .tx c body k, s =>
    -- `Foreground::with` (transaction.rs:126-133)
    match env[c]? with
    | none => some (.stuck, s)
    | some f =>
      let n := s.frames.length
      match eval E fuel (n :: env) body (openChild s f) with
      | none => none
      | some (.ret (.ok v), s') => eval E fuel env (k (.ok v)) (commitChild s' n)
      | some (.ret (.error e), s') => eval E fuel env (k (.error e)) (closeChild s' n)
      | some (.panic, s') => some (.panic, closeChild s' n)
      | some (.stuck, s') => some (.stuck, closeChild s' n)
  | fuel + 1, env, .runTriggers c sch k, s =>
    match env[c]? with
    | none => some (.stuck, s)
    | some f =>
      match E.triggers.select sch with
      | none => eval E fuel env (k (.ok ())) s
      | some ts =>
        match tryForEach (eval E fuel [f]) ts s with
        | none => none
        | some (.ret r, s') => eval E fuel env (k r) s'
        | some (.panic, s') => some (.panic, s')
        | some (.stuck, s') => some (.stuck, s')
  | fuel + 1, env, .withTarget n k, s =>
    match env[0]? with
    | none => some (.stuck, s)
    | some f => eval E fuel env k (setTarget s f n)
  | fuel + 1, env, .targetRead c k, s =>
    match env[c]? with
    | none => some (.stuck, s)
    | some f => eval E fuel env (k (readTarget s f)) s
  | fuel + 1, env, .targetWrite c fn k, s =>
    match env[c]? with
    | none => some (.stuck, s)
    | some f =>
      match readTarget s f with
      | none => eval E fuel env (k false) s
      | some n =>
        match fn n with
        | (n', false) => eval E fuel env (k true) (writeTarget s f n' false)
        | (n', true) => some (.panic, writeTarget s f n' true)
  | fuel + 1, env, .resRead t k, s =>
    if s.resBlocks E t false then some (.stuck, s)
    else eval E fuel env (k ((E.resources.res t).peek s.heap)) s
  | fuel + 1, env, .resWrite t fn k, s =>
    if s.resBlocks E t true then some (.stuck, s)
    else match (E.resources.res t).withMut s.heap (fun v => ((fn v).1, if (fn v).2 then none else some ())) with
    | (.unavailable, _) => eval E fuel env (k false) s
    | (.ran _, heap') => eval E fuel env (k true) { s with heap := heap' }
    | (.panicked, heap') => some (.panic, { s with heap := heap' })
  | fuel + 1, env, .resScope t excl body k, s =>
    -- `With::with` / `WithMut::with_mut` (deref.rs:66-71, 81-86)
    match (E.resources.res t).lock with
    | none => eval E fuel env (k none) s
    | some p =>
      if s.blocks p excl then some (.stuck, s)
      else match (E.resources.res t).peek s.heap with
        | none => eval E fuel env (k none) s
        | some v =>
          match eval E fuel env (body v) (lockRes s p excl) with
          | none => none
          | some (.ret r, s') => eval E fuel env (k (some r)) (unlockRes s')
          | some (.panic, s') => some (.panic, unwindRes s' p excl)
          | some (.stuck, s') => some (.stuck, unlockRes s')
  | fuel + 1, env, .resAssign t x k, s =>
    match (E.resources.res t).lock with
    | none => some (.stuck, s)
    | some p => if s.locks.contains (p, true) then eval E fuel env k (assignRes s p t x) else some (.stuck, s)
  | fuel + 1, env, .catchUnwind body k, s =>
    match eval E fuel env body s with
    | none => none
    | some (.ret r, s') => eval E fuel env (k (some r)) s'
    | some (.panic, s') => eval E fuel env (k none) s'
    | some (.stuck, s') => some (.stuck, s')
  | fuel + 1, env, .forget k, s =>
    match env[0]? with
    | none => some (.stuck, s)
    | some f => eval E fuel env k (leakFrame s f)

/-- `struct Schema` (schema/mod.rs:23-33), with the poison flag of `RwLock<Graph>` and the resource cells. -/
structure Schema (σ : Sig) where
  graph : Graph σ.K σ.T
  poisoned : Bool
  heap : Heap σ.Val
  env : Env σ

/-- `From<Graph> for Schema` (schema/mod.rs:39-45). -/
def Schema.fromGraph (g : Graph σ.K σ.T) : Schema σ :=
  { graph := g, poisoned := false, heap := [], env := ⟨TriggerSet.empty, ResourceSet.empty⟩ }

/-- `Schema::with_resource` (schema/mod.rs:63-69). -/
def Schema.withResource (S : Schema σ) (t : σ.Ty) (v : σ.Val t) : Schema σ :=
  let r := S.env.resources.withResource S.heap t v
  { S with heap := r.2, env := { S.env with resources := r.1 } }

/-- `Schema::with_trigger` (schema/mod.rs:72-84). -/
def Schema.withTrigger (S : Schema σ) (s : Sched) (t : Prog σ) : Schema σ :=
  { S with env := { S.env with triggers := S.env.triggers.withTrigger s t } }

/-- `SchemaReadGuard::from` / `SchemaWriteGuard::from` (guard.rs:35-45, 80-90): the graph, also out of a poisoned
lock. -/
def Schema.guard (S : Schema σ) : Graph σ.K σ.T :=
  match S.poisoned with
  | false => S.graph
  | true => S.graph

/-- `Schema::transaction` (schema/mod.rs:98-100) and `From<&Background> for Context` (transaction.rs:407-415): the state
the closure of `Background::with` starts on. `pre` are operations registered earlier on the same `Background` through
contexts obtained with `Context::from(&tx)`; ordinarily `[]`. -/
def Schema.begin (S : Schema σ) (pre : List (Operation σ.K σ.T)) : St σ :=
  { graph := S.guard, frames := [{ parent := none, ops := pre, target := none, leaked := false }], heap := S.heap,
    locks := [] }

/-- `Background::commit` (transaction.rs:69-96): the graph behind the guard afterwards. Nothing happens if the log has
another owner (:75-78). -/
def commitRoot (s : St σ) : Graph σ.K σ.T :=
  match s.frames[0]? with
  | none => s.graph
  | some fr => if fr.leaked then s.graph else s.graph.commit fr.ops

/-- `Background::with` (transaction.rs:54-61). A panic poisons the graph's lock, because the write guard is dropped while
unwinding. After `stuck` the call never returns. -/
def Schema.transact (S : Schema σ) (fuel : Nat) (pre : List (Operation σ.K σ.T)) (body : Prog σ) :
    Option (Out (Except Error σ.V) × Schema σ) :=
  match eval S.env fuel [0] body (S.begin pre) with
  | none => none
  | some (.ret (.ok v), s) => some (.ret (.ok v), { S with graph := commitRoot s, heap := s.heap })
  | some (.ret (.error e), s) => some (.ret (.error e), { S with graph := s.graph, heap := s.heap })
  | some (.panic, s) => some (.panic, { S with graph := s.graph, heap := s.heap, poisoned := true })
  | some (.stuck, s) => some (.stuck, { S with graph := s.graph, heap := s.heap })

/-- `Background::with` when user code called by the commit loop (transaction.rs:88-95) panics at the operation with index
`crashAt`, if there is one: the panic propagates out of `with`, the guard is dropped while unwinding. -/
def Schema.transactCrash (S : Schema σ) (fuel : Nat) (pre : List (Operation σ.K σ.T)) (body : Prog σ) (crashAt : Nat) :
    Option (Out (Except Error σ.V) × Schema σ) :=
  match eval S.env fuel [0] body (S.begin pre) with
  | some (.ret (.ok v), s) =>
    match s.frames[0]? with
    | none => S.transact fuel pre body
    | some fr =>
      if fr.leaked then S.transact fuel pre body
      else if crashAt < fr.ops.length then
        some (.panic, { S with graph := s.graph.commitCrash fr.ops crashAt, heap := s.heap, poisoned := true })
      else some (.ret (.ok v), { S with graph := s.graph.commit fr.ops, heap := s.heap })
  | _ => S.transact fuel pre body

/-- The part of the closure of `Save::execute` after `ctx.save` (ops/save.rs:32-34). -/
def saveAfter : Prog σ :=
  .runTriggers 0 .afterSave fun
    | .error e => .done (.error e)
    | .ok _ => .done (.ok σ.unit)

/-- The closure of `Save::execute` (ops/save.rs:28-35). -/
def saveBody (node : σ.T) : Prog σ :=
  .withTarget node <|
  .runTriggers 0 .beforeSave fun
    | .error e => .done (.error e)
    | .ok _ =>
      .targetRead 0 fun
        | some node => .save 0 node saveAfter
        | none => saveAfter

/-- The part of the closure of `Delete::execute` after `ctx.delete` (ops/delete.rs:42-44). -/
def deleteAfter : Prog σ :=
  .runTriggers 0 .afterDelete fun
    | .error e => .done (.error e)
    | .ok _ => .done (.ok σ.unit)

/-- The closure of `Delete::execute` (ops/delete.rs:33-45). -/
def deleteBody (nodeId : σ.K) : Prog σ :=
  .get 0 nodeId fun
    | none => .done (.error .noop)
    | some node =>
      .withTarget node <|
      .runTriggers 0 .beforeDelete fun
        | .error e => .done (.error e)
        | .ok _ => .delete 0 nodeId deleteAfter

/-- `Save::new(node).execute(schema.transaction())` (ops/save.rs:24-36). -/
def Schema.save (S : Schema σ) (fuel : Nat) (node : σ.T) := S.transact fuel [] (saveBody node)

/-- `Delete::new(id).execute(schema.transaction())` (ops/delete.rs:32-46). -/
def Schema.delete (S : Schema σ) (fuel : Nat) (i : σ.K) := S.transact fuel [] (deleteBody i)

/-- `Save::new(node).execute(ctx.transaction())`. -/
def Prog.saveOp (c : Nat) (node : σ.T) (k : Except Error σ.V → Prog σ) : Prog σ := .tx c (saveBody node) k

/-- `Delete::new(id).execute(ctx.transaction())`. -/
def Prog.deleteOp (c : Nat) (i : σ.K) (k : Except Error σ.V → Prog σ) : Prog σ := .tx c (deleteBody i) k

end

end Plotline
