import Verif.Model.Transaction

/-!
# Several clients of one schema (schema/mod.rs:87-111, guard.rs, transaction.rs:25-97)

Closures are run one API call at a time by an abstract machine (`Conf.step`), so that anything other clients can do may happen
between any two calls. The lock of the graph is the one of `std::sync::RwLock`: a write guard excludes all other guards. A
client that asks for a guard it cannot get waits, which is to say that the step is not possible in that state.

Simplifications: resources are used only inside transactions (`Schema::resources` also hands them out elsewhere); guards and
transactions are not leaked; a client holds one guard at a time (asking for a second one blocks: `Prog.reenter`).

`Schema` is neither `Send` nor `Sync` (`Box<dyn Any>`, resource.rs:20; `Box<dyn Trigger<T, ()>>`, trigger.rs:77), so without
`unsafe` the clients are tasks of one thread, for which waiting is waiting for ever.
-/

namespace Plotline

variable {σ : Sig}

/-- What remains to be done when a call returns: the rest of `Foreground::with` (transaction.rs:130-132), of
`TriggerSelect::execute` (trigger.rs:66-72), of `With::with` / `WithMut::with_mut` (deref.rs:66-71, 81-86), of
`std::panic::catch_unwind`. -/
inductive Kont (σ : Sig) where
  | tx (n : Nat) (env : List Nat) (k : Except Error σ.V → Prog σ)
  | triggers (f : Nat) (rest : List (Prog σ)) (env : List Nat) (k : Except Error Unit → Prog σ)
  | resScope (p : Nat) (excl : Bool) (env : List Nat) (k : Option (Except Error σ.V) → Prog σ)
  | catchUnwind (env : List Nat) (k : Option (Except Error σ.V) → Prog σ)

/-- What is being done: code runs, or returns (or unwinds) to its caller. -/
inductive Control (σ : Sig) where
  | run (env : List Nat) (p : Prog σ)
  | back (out : Out (Except Error σ.V))

/-- A closure being executed. -/
structure Conf (σ : Sig) where
  control : Control σ
  stack : List (Kont σ)
  st : St σ

/-- The next API call of a closure, with the same primitives as `eval`. `none`: it has returned, or it is blocked for ever. -/
def Conf.step (E : Env σ) : Conf σ → Option (Conf σ)
  | ⟨.run _ (.done r), K, s⟩ => some ⟨.back (.ret r), K, s⟩
  | ⟨.run _ .panic, K, s⟩ => some ⟨.back .panic, K, s⟩
  | ⟨.run _ .reenter, K, s⟩ => some ⟨.back .stuck, K, s⟩
  | ⟨.run env (.save c n k), K, s⟩ =>
    match env[c]? with
    | none => some ⟨.back .stuck, K, s⟩
    | some f => some ⟨.run env k, K, pushOp s f (.save n)⟩
  | ⟨.run env (.delete c i k), K, s⟩ =>
    match env[c]? with
    | none => some ⟨.back .stuck, K, s⟩
    | some f => some ⟨.run env k, K, pushOp s f (.delete i)⟩
  | ⟨.run env (.get c i k), K, s⟩ =>
    match env[c]? with
    | none => some ⟨.back .stuck, K, s⟩
    | some f => some ⟨.run env (k (ctxGet s.graph s.frames f i)), K, s⟩
  | ⟨.run env (.contains c i k), K, s⟩ =>
    match env[c]? with
    | none => some ⟨.back .stuck, K, s⟩
    | some f => some ⟨.run env (k (ctxContains s.graph s.frames f i)), K, s⟩
  | ⟨.run env (.tx c body k), K, s⟩ =>
    match env[c]? with
    | none => some ⟨.back .stuck, K, s⟩
    | some f => some ⟨.run (s.frames.length :: env) body, .tx s.frames.length env k :: K, openChild s f⟩
  | ⟨.run env (.runTriggers c sch k), K, s⟩ =>
    match env[c]? with
    | none => some ⟨.back .stuck, K, s⟩
    | some f =>
      match E.triggers.select sch with
      | none => some ⟨.run env (k (.ok ())), K, s⟩
      | some [] => some ⟨.run env (k (.ok ())), K, s⟩
      | some (t :: ts) => some ⟨.run [f] t, .triggers f ts env k :: K, s⟩
  | ⟨.run env (.withTarget n k), K, s⟩ =>
    match env[0]? with
    | none => some ⟨.back .stuck, K, s⟩
    | some f => some ⟨.run env k, K, setTarget s f n⟩
  | ⟨.run env (.targetRead c k), K, s⟩ =>
    match env[c]? with
    | none => some ⟨.back .stuck, K, s⟩
    | some f => some ⟨.run env (k (readTarget s f)), K, s⟩
  | ⟨.run env (.targetWrite c fn k), K, s⟩ =>
    match env[c]? with
    | none => some ⟨.back .stuck, K, s⟩
    | some f =>
      match readTarget s f with
      | none => some ⟨.run env (k false), K, s⟩
      | some n =>
        match fn n with
        | (n', false) => some ⟨.run env (k true), K, writeTarget s f n' false⟩
        | (n', true) => some ⟨.back .panic, K, writeTarget s f n' true⟩
  | ⟨.run env (.resRead t k), K, s⟩ =>
    if s.resBlocks E t false then some ⟨.back .stuck, K, s⟩
    else some ⟨.run env (k ((E.resources.res t).peek s.heap)), K, s⟩
  | ⟨.run env (.resWrite t fn k), K, s⟩ =>
    if s.resBlocks E t true then some ⟨.back .stuck, K, s⟩
    else match (E.resources.res t).withMut s.heap (fun v => ((fn v).1, if (fn v).2 then none else some ())) with
    | (.unavailable, _) => some ⟨.run env (k false), K, s⟩
    | (.ran _, heap') => some ⟨.run env (k true), K, { s with heap := heap' }⟩
    | (.panicked, heap') => some ⟨.back .panic, K, { s with heap := heap' }⟩
  | ⟨.run env (.resScope t excl body k), K, s⟩ =>
    match (E.resources.res t).lock with
    | none => some ⟨.run env (k none), K, s⟩
    | some p =>
      if s.blocks p excl then some ⟨.back .stuck, K, s⟩
      else match (E.resources.res t).peek s.heap with
        | none => some ⟨.run env (k none), K, s⟩
        | some v => some ⟨.run env (body v), .resScope p excl env k :: K, lockRes s p excl⟩
  | ⟨.run env (.resAssign t x k), K, s⟩ =>
    match (E.resources.res t).lock with
    | none => some ⟨.back .stuck, K, s⟩
    | some p => if s.locks.contains (p, true) then some ⟨.run env k, K, assignRes s p t x⟩ else some ⟨.back .stuck, K, s⟩
  | ⟨.run env (.catchUnwind body k), K, s⟩ => some ⟨.run env body, .catchUnwind env k :: K, s⟩
  | ⟨.run env (.forget k), K, s⟩ =>
    match env[0]? with
    | none => some ⟨.back .stuck, K, s⟩
    | some f => some ⟨.run env k, K, leakFrame s f⟩
  | ⟨.back .stuck, _, _⟩ => none
  | ⟨.back _, [], _⟩ => none
  | ⟨.back (.ret (.ok v)), .tx n env k :: K, s⟩ => some ⟨.run env (k (.ok v)), K, commitChild s n⟩
  | ⟨.back (.ret (.error e)), .tx n env k :: K, s⟩ => some ⟨.run env (k (.error e)), K, closeChild s n⟩
  | ⟨.back .panic, .tx n _ _ :: K, s⟩ => some ⟨.back .panic, K, closeChild s n⟩
  | ⟨.back (.ret (.ok _)), .triggers _ [] env k :: K, s⟩ => some ⟨.run env (k (.ok ())), K, s⟩
  | ⟨.back (.ret (.ok _)), .triggers f (t :: ts) env k :: K, s⟩ => some ⟨.run [f] t, .triggers f ts env k :: K, s⟩
  | ⟨.back (.ret (.error e)), .triggers _ _ env k :: K, s⟩ => some ⟨.run env (k (.error e)), K, s⟩
  | ⟨.back .panic, .triggers _ _ _ _ :: K, s⟩ => some ⟨.back .panic, K, s⟩
  | ⟨.back (.ret r), .resScope _ _ env k :: K, s⟩ => some ⟨.run env (k (some r)), K, unlockRes s⟩
  | ⟨.back .panic, .resScope p excl _ _ :: K, s⟩ => some ⟨.back .panic, K, unwindRes s p excl⟩
  | ⟨.back (.ret r), .catchUnwind env k :: K, s⟩ => some ⟨.run env (k (some r)), K, s⟩
  | ⟨.back .panic, .catchUnwind env k :: K, s⟩ => some ⟨.run env (k none), K, s⟩

/-- What a client is doing with the schema. -/
inductive Client (σ : Sig) where
  /-- Nothing. -/
  | idle
  /-- Holds a `SchemaReadGuard`. -/
  | reading
  /-- Holds a `SchemaWriteGuard`, and has made these changes through it. -/
  | writing (ops : List (Operation σ.K σ.T))
  /-- Has a `Background` with a context (`Context::from(&tx)`), through which these operations were registered. -/
  | opened (pre : List (Operation σ.K σ.T))
  /-- Inside `tx.with(body)`. -/
  | running (pre : List (Operation σ.K σ.T)) (body : Prog σ) (control : Control σ) (stack : List (Kont σ))
      (frames : List (Frame σ.K σ.T)) (locks : List (Nat × Bool))
  /-- Inside the loop of `Background::commit`, with `applied` operations done and these to do. -/
  | committing (pre : List (Operation σ.K σ.T)) (body : Prog σ) (v : σ.V) (applied : Nat)
      (rest : List (Operation σ.K σ.T))

/-- Whether the client has the exclusive lock of the graph. -/
def Client.exclusive : Client σ → Bool
  | .idle => false
  | .reading => false
  | _ => true

/-- Whether the client has any lock of the graph. -/
def Client.locks : Client σ → Bool
  | .idle => false
  | _ => true

/-- The schema and all its clients. -/
structure Sys (σ : Sig) where
  schema : Schema σ
  clients : Nat → Client σ

/-- Client `c` goes on as `x`. -/
def Sys.set (s : Sys σ) (c : Nat) (x : Client σ) : Sys σ := { s with clients := fun d => if d = c then x else s.clients d }

/-- What an outsider can see happening. -/
inductive SysEvent (σ : Sig) where
  /-- A step inside a closure or inside a commit. -/
  | internal (c : Nat)
  /-- `schema.read()` returns. -/
  | read (c : Nat)
  /-- `guard.get(i)` on a read guard returns `answer`. -/
  | observe (c : Nat) (i : σ.K) (answer : Option σ.T)
  /-- The read guard is dropped. -/
  | readDone (c : Nat)
  /-- `schema.write()` returns. -/
  | write (c : Nat)
  /-- `guard.insert` or `guard.remove` on a write guard. -/
  | update (c : Nat) (op : Operation σ.K σ.T)
  /-- The write guard is dropped after these updates, by unwinding if `panicked`. -/
  | writeDone (c : Nat) (ops : List (Operation σ.K σ.T)) (panicked : Bool)
  /-- The first context of a transaction is made. -/
  | openTx (c : Nat)
  /-- An operation is registered with a context made by `Context::from(&tx)`. -/
  | register (c : Nat) (op : Operation σ.K σ.T)
  /-- The transaction is dropped. -/
  | dropTx (c : Nat)
  /-- `tx.with(body)` is called. -/
  | call (c : Nat) (body : Prog σ)
  /-- `tx.with(body)`, with `pre` registered before, ends with this outcome. -/
  | finish (c : Nat) (pre : List (Operation σ.K σ.T)) (body : Prog σ) (out : Out (Except Error σ.V))
  /-- `tx.with(body)` unwinds out of the commit, while applying the operation of this index. -/
  | crash (c : Nat) (pre : List (Operation σ.K σ.T)) (body : Prog σ) (applied : Nat)

/-- One step of one client. -/
inductive Sys.Step : Sys σ → SysEvent σ → Sys σ → Prop where
  /-- `Schema::read` (schema/mod.rs:103-105): `RwLock::read`. -/
  | read {s : Sys σ} (c : Nat) : s.clients c = .idle → (∀ d, (s.clients d).exclusive = false) →
      Step s (.read c) (s.set c .reading)
  | observe {s : Sys σ} (c : Nat) (i : σ.K) : s.clients c = .reading → Step s (.observe c i (s.schema.guard.get i)) s
  | readDone {s : Sys σ} (c : Nat) : s.clients c = .reading → Step s (.readDone c) (s.set c .idle)
  /-- `Schema::write` (schema/mod.rs:108-110): `RwLock::write`. -/
  | write {s : Sys σ} (c : Nat) : (∀ d, (s.clients d).locks = false) → Step s (.write c) (s.set c (.writing []))
  | update {s : Sys σ} (c : Nat) (ops : List (Operation σ.K σ.T)) (op : Operation σ.K σ.T) : s.clients c = .writing ops →
      Step s (.update c op)
        { s.set c (.writing (ops ++ [op])) with schema := { s.schema with graph := s.schema.graph.applyOp op } }
  | writeDone {s : Sys σ} (c : Nat) (ops : List (Operation σ.K σ.T)) (panicked : Bool) : s.clients c = .writing ops →
      Step s (.writeDone c ops panicked)
        { s.set c .idle with schema := { s.schema with poisoned := s.schema.poisoned || panicked } }
  /-- `From<&Background> for Context` (transaction.rs:402-416): `get_or_init` takes the write guard. -/
  | openTx {s : Sys σ} (c : Nat) : (∀ d, (s.clients d).locks = false) → Step s (.openTx c) (s.set c (.opened []))
  | register {s : Sys σ} (c : Nat) (pre : List (Operation σ.K σ.T)) (op : Operation σ.K σ.T) : s.clients c = .opened pre →
      Step s (.register c op) (s.set c (.opened (pre ++ [op])))
  | dropTx {s : Sys σ} (c : Nat) (pre : List (Operation σ.K σ.T)) : s.clients c = .opened pre →
      Step s (.dropTx c) (s.set c .idle)
  /-- `Background::with` (transaction.rs:54-61) makes its own context, with the guard it has. -/
  | call {s : Sys σ} (c : Nat) (pre : List (Operation σ.K σ.T)) (body : Prog σ) : s.clients c = .opened pre →
      Step s (.call c body) (s.set c (.running pre body (.run [0] body) [] (s.schema.begin pre).frames []))
  | work {s : Sys σ} (c : Nat) {pre : List (Operation σ.K σ.T)} {body : Prog σ} {control : Control σ} {stack : List (Kont σ)}
      {frames : List (Frame σ.K σ.T)} {locks : List (Nat × Bool)} {next : Conf σ} :
      s.clients c = .running pre body control stack frames locks →
      Conf.step s.schema.env ⟨control, stack, ⟨s.schema.guard, frames, s.schema.heap, locks⟩⟩ = some next →
      Step s (.internal c)
        { s.set c (.running pre body next.control next.stack next.st.frames next.st.locks) with
          schema := { s.schema with graph := next.st.graph, heap := next.st.heap } }
  /-- The closure returns `Ok`: `Background::commit` (transaction.rs:69-86). -/
  | commit {s : Sys σ} (c : Nat) {pre : List (Operation σ.K σ.T)} {body : Prog σ} {v : σ.V} {frames : List (Frame σ.K σ.T)}
      {locks : List (Nat × Bool)} {root : Frame σ.K σ.T} :
      s.clients c = .running pre body (.back (.ret (.ok v))) [] frames locks → frames[0]? = some root →
      root.leaked = false → Step s (.internal c) (s.set c (.committing pre body v 0 root.ops))
  /-- The same with a context leaked (transaction.rs:75-78). -/
  | leaked {s : Sys σ} (c : Nat) {pre : List (Operation σ.K σ.T)} {body : Prog σ} {v : σ.V} {frames : List (Frame σ.K σ.T)}
      {locks : List (Nat × Bool)} {root : Frame σ.K σ.T} :
      s.clients c = .running pre body (.back (.ret (.ok v))) [] frames locks → frames[0]? = some root →
      root.leaked = true → Step s (.finish c pre body (.ret (.ok v))) (s.set c .idle)
  /-- The closure returns `Err`: the transaction is dropped. -/
  | fail {s : Sys σ} (c : Nat) {pre : List (Operation σ.K σ.T)} {body : Prog σ} {e : Error} {frames : List (Frame σ.K σ.T)}
      {locks : List (Nat × Bool)} : s.clients c = .running pre body (.back (.ret (.error e))) [] frames locks →
      Step s (.finish c pre body (.ret (.error e))) (s.set c .idle)
  /-- The closure panics: the transaction is dropped by unwinding. -/
  | panic {s : Sys σ} (c : Nat) {pre : List (Operation σ.K σ.T)} {body : Prog σ} {frames : List (Frame σ.K σ.T)}
      {locks : List (Nat × Bool)} : s.clients c = .running pre body (.back .panic) [] frames locks →
      Step s (.finish c pre body .panic) { s.set c .idle with schema := { s.schema with poisoned := true } }
  /-- One iteration of the loop in `Background::commit` (transaction.rs:88-95). -/
  | apply {s : Sys σ} (c : Nat) {pre : List (Operation σ.K σ.T)} {body : Prog σ} {v : σ.V} {n : Nat}
      {op : Operation σ.K σ.T} {rest : List (Operation σ.K σ.T)} : s.clients c = .committing pre body v n (op :: rest) →
      Step s (.internal c)
        { s.set c (.committing pre body v (n + 1) rest) with schema := { s.schema with graph := s.schema.graph.applyOp op } }
  /-- The end of `Background::commit`: the guard is dropped. -/
  | finish {s : Sys σ} (c : Nat) {pre : List (Operation σ.K σ.T)} {body : Prog σ} {v : σ.V} {n : Nat} :
      s.clients c = .committing pre body v n [] → Step s (.finish c pre body (.ret (.ok v))) (s.set c .idle)
  /-- User code called by the loop panics. -/
  | crash {s : Sys σ} (c : Nat) {pre : List (Operation σ.K σ.T)} {body : Prog σ} {v : σ.V} {n : Nat}
      {op : Operation σ.K σ.T} {rest : List (Operation σ.K σ.T)} : s.clients c = .committing pre body v n (op :: rest) →
      Step s (.crash c pre body n) { s.set c .idle with schema := { s.schema with poisoned := true } }

/-- Any number of steps, with what can be seen of them. -/
inductive Sys.Run : Sys σ → List (SysEvent σ) → Sys σ → Prop where
  | nil (s : Sys σ) : Run s [] s
  | snoc {s s' s'' : Sys σ} {es : List (SysEvent σ)} {e : SysEvent σ} : Run s es s' → Step s' e s'' → Run s (es ++ [e]) s''

/-- A schema nobody uses yet. -/
def Sys.start (S : Schema σ) : Sys σ := ⟨S, fun _ => .idle⟩

end Plotline
