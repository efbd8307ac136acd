import Verif.Model.Params
import Verif.Spec.Group
import Verif.Spec.Triggers

/-! # What it is for the parameters of a trigger to be made, and what a trigger can do that only has a `Ctx` -/

namespace Plotline

variable {σ : Sig}

/-- The call answers `b` and leaves `s1`: whatever comes after it goes on from there with `b`. -/
def Answers (E : Env σ) (f : Nat) {B : Type} (call : (B → Prog σ) → Prog σ) (s : St σ) (b : B) (s1 : St σ) : Prop :=
  ∀ k out s', Runs E [f] (call k) s out s' ↔ Runs E [f] (k b) s1 out s'

/-- The call panics or waits for ever, and then things are as in `s1`: nothing comes after it. -/
def Stops (E : Env σ) (f : Nat) {B : Type} (call : (B → Prog σ) → Prog σ) (s : St σ) (o : Out (Except Error σ.V)) (s1 : St σ) : Prop :=
  (o = .panic ∨ o = .stuck) ∧ ∀ k out s', Runs E [f] (call k) s out s' ↔ out = o ∧ s' = s1

/-- A call on a context, and what to do with its answer. -/
structure NextCall (σ : Sig) (A : Type) where
  B : Type
  call : (B → Prog σ) → Prog σ
  rest : B → FromCtx σ A

/-- The first call that code makes on its context, if it makes one. -/
def FromCtx.next {A : Type} : FromCtx σ A → Option (NextCall σ A)
  | .ret _ => none
  | .panic => none
  | .reenter => none
  | .save n m => some ⟨Unit, fun k => .save 0 n (k ()), fun _ => m⟩
  | .delete i m => some ⟨Unit, fun k => .delete 0 i (k ()), fun _ => m⟩
  | .get i m => some ⟨_, .get 0 i, m⟩
  | .contains i m => some ⟨_, .contains 0 i, m⟩
  | .tx body m => some ⟨_, .tx 0 body, m⟩
  | .runTriggers s m => some ⟨_, .runTriggers 0 s, m⟩
  | .targetRead m => some ⟨_, .targetRead 0, m⟩
  | .targetWrite f m => some ⟨_, .targetWrite 0 f, m⟩
  | .resRead t m => some ⟨_, .resRead t, m⟩
  | .resWrite t f m => some ⟨_, .resWrite t f, m⟩
  | .resScope t excl body m => some ⟨_, .resScope t excl body, m⟩
  | .catchUnwind body m => some ⟨_, .catchUnwind body, m⟩

/-- The parameter gets the value `a`, and then things are as in the second state: the calls are made one after the other, all of them answer,
and `a` is what is returned in the end. -/
inductive Arises (E : Env σ) (f : Nat) {A : Type} : FromCtx σ A → St σ → A → St σ → Prop where
  | ret (a : A) (s : St σ) : Arises E f (.ret a) s a s
  | call {m : FromCtx σ A} {c : NextCall σ A} {s s1 s' : St σ} {b : c.B} {a : A} (hc : m.next = some c) (hb : Answers E f c.call s b s1)
      (h : Arises E f (c.rest b) s1 a s') : Arises E f m s a s'

/-- Making the parameter panics or waits for ever: the calls are made one after the other, and after some that answer there is one that does not. -/
inductive Breaks (E : Env σ) (f : Nat) {A : Type} : FromCtx σ A → St σ → Out (Except Error σ.V) → St σ → Prop where
  | panic (s : St σ) : Breaks E f .panic s .panic s
  | reenter (s : St σ) : Breaks E f .reenter s .stuck s
  | stops {m : FromCtx σ A} {c : NextCall σ A} {s s1 : St σ} {o : Out (Except Error σ.V)} (hc : m.next = some c) (hb : Stops E f c.call s o s1) :
      Breaks E f m s o s1
  | call {m : FromCtx σ A} {c : NextCall σ A} {s s1 s' : St σ} {b : c.B} {o : Out (Except Error σ.V)} (hc : m.next = some c)
      (hb : Answers E f c.call s b s1) (h : Breaks E f (c.rest b) s1 o s') : Breaks E f m s o s'

/-- The parameters get values one after the other, each made where the one before was left. -/
def AllArise (E : Env σ) (f : Nat) {As : Type} : Params σ As → St σ → As → St σ → Prop
  | .none, s, _, s' => s' = s
  | .param m ms, s, (a, as), s' => ∃ s1, Arises E f m s a s1 ∧ AllArise E f ms s1 as s'

/-- Some parameters get values, and the next breaks. -/
def OneBreaks (E : Env σ) (f : Nat) {As : Type} : Params σ As → St σ → Out (Except Error σ.V) → St σ → Prop
  | .none, _, _, _ => False
  | .param m ms, s, o, s' => Breaks E f m s o s' ∨ ∃ a s1, Arises E f m s a s1 ∧ OneBreaks E f ms s1 o s'

/-- Code that has a `Ctx`, handles of resources, and a handle of the target: what the functions are that become triggers by
`with_trigger`, if their parameters are those the library has. -/
inductive CtxCode (σ : Sig) where
  | done (r : Except Error σ.V)
  | panic
  /-- `ctx.transaction().with(body)` -/
  | tx (body : Prog σ) (k : Except Error σ.V → CtxCode σ)
  /-- `target.with(..)` -/
  | targetRead (k : Option σ.T → CtxCode σ)
  /-- `target.with_mut(f)` -/
  | targetWrite (f : σ.T → σ.T × Bool) (k : Bool → CtxCode σ)
  /-- `res.with(..)` -/
  | resRead (t : σ.Ty) (k : Option (σ.Val t) → CtxCode σ)
  /-- `res.with_mut(f)` -/
  | resWrite (t : σ.Ty) (f : σ.Val t → σ.Val t × Bool) (k : Bool → CtxCode σ)
  /-- `catch_unwind(|| body)` -/
  | catchUnwind (body : CtxCode σ) (k : Option (Except Error σ.V) → CtxCode σ)

/-- The code as that of a trigger, which is run on a context. -/
def CtxCode.asTrigger : CtxCode σ → Prog σ
  | .done r => .done r
  | .panic => .panic
  | .tx body k => .tx 0 body fun r => (k r).asTrigger
  | .targetRead k => .targetRead 0 fun a => (k a).asTrigger
  | .targetWrite f k => .targetWrite 0 f fun a => (k a).asTrigger
  | .resRead t k => .resRead t fun a => (k a).asTrigger
  | .resWrite t f k => .resWrite t f fun a => (k a).asTrigger
  | .catchUnwind body k => .catchUnwind body.asTrigger fun a => (k a).asTrigger

/-- The closures it passes to `with` use no other context than the one they are given. -/
def CtxCode.Apart : CtxCode σ → Prop
  | .done _ => True
  | .panic => True
  | .tx body k => body.Alone ∧ ∀ r, (k r).Apart
  | .targetRead k => ∀ a, (k a).Apart
  | .targetWrite _ k => ∀ a, (k a).Apart
  | .resRead _ k => ∀ a, (k a).Apart
  | .resWrite _ _ k => ∀ a, (k a).Apart
  | .catchUnwind body k => body.Apart ∧ ∀ a, (k a).Apart

/-- It begins no transactions. -/
def CtxCode.NoTx : CtxCode σ → Prop
  | .done _ => True
  | .panic => True
  | .tx _ _ => False
  | .targetRead k => ∀ a, (k a).NoTx
  | .targetWrite _ k => ∀ a, (k a).NoTx
  | .resRead _ k => ∀ a, (k a).NoTx
  | .resWrite _ _ k => ∀ a, (k a).NoTx
  | .catchUnwind body k => body.NoTx ∧ ∀ a, (k a).NoTx

/-- What a handle of the target reads. -/
def seenIn : Option (Lock σ.T) → Option σ.T
  | none => none
  | some l => if l.poisoned then none else some l.val

/-- The code run by a program that has the schema: `schema.transaction()` for `ctx.transaction()`, resources of the schema, and a target of its own.
It ends in the given way, and then the schema and the target are as given. -/
inductive ActsOn : CtxCode σ → Schema σ → Option (Lock σ.T) → Out (Except Error σ.V) → Schema σ → Option (Lock σ.T) → Prop
  | done (r : Except Error σ.V) (S : Schema σ) (t : Option (Lock σ.T)) : ActsOn (.done r) S t (.ret r) S t
  | panic (S : Schema σ) (t : Option (Lock σ.T)) : ActsOn .panic S t .panic S t
  | tx {body : Prog σ} {k : Except Error σ.V → CtxCode σ} {S S1 S2 : Schema σ} {t t' : Option (Lock σ.T)} {r : Except Error σ.V}
      {o : Out (Except Error σ.V)} (fuel : Nat) : S.transact fuel [] body = some (.ret r, S1) → ActsOn (k r) S1 t o S2 t' →
      ActsOn (.tx body k) S t o S2 t'
  | txEnds {body : Prog σ} (k : Except Error σ.V → CtxCode σ) {S S1 : Schema σ} (t : Option (Lock σ.T)) {o : Out (Except Error σ.V)} (fuel : Nat) :
      S.transact fuel [] body = some (o, S1) → o = .panic ∨ o = .stuck → ActsOn (.tx body k) S t o S1 t
  | targetRead {k : Option σ.T → CtxCode σ} {S S' : Schema σ} {t t' : Option (Lock σ.T)} {o : Out (Except Error σ.V)} :
      ActsOn (k (seenIn t)) S t o S' t' → ActsOn (.targetRead k) S t o S' t'
  | targetMiss (f : σ.T → σ.T × Bool) {k : Bool → CtxCode σ} {S S' : Schema σ} {t t' : Option (Lock σ.T)} {o : Out (Except Error σ.V)} :
      seenIn t = none → ActsOn (k false) S t o S' t' → ActsOn (.targetWrite f k) S t o S' t'
  | targetWrite {f : σ.T → σ.T × Bool} {k : Bool → CtxCode σ} {S S' : Schema σ} {t t' : Option (Lock σ.T)} {n : σ.T} {o : Out (Except Error σ.V)} :
      seenIn t = some n → (f n).2 = false → ActsOn (k true) S (some ⟨(f n).1, false⟩) o S' t' → ActsOn (.targetWrite f k) S t o S' t'
  | targetPanic {f : σ.T → σ.T × Bool} (k : Bool → CtxCode σ) (S : Schema σ) {t : Option (Lock σ.T)} {n : σ.T} :
      seenIn t = some n → (f n).2 = true → ActsOn (.targetWrite f k) S t .panic S (some ⟨(f n).1, true⟩)
  | resRead {u : σ.Ty} {k : Option (σ.Val u) → CtxCode σ} {S S' : Schema σ} {t t' : Option (Lock σ.T)} {o : Out (Except Error σ.V)} :
      ActsOn (k ((S.env.resources.res u).peek S.heap)) S t o S' t' → ActsOn (.resRead u k) S t o S' t'
  | resWrite {u : σ.Ty} {f : σ.Val u → σ.Val u × Bool} {k : Bool → CtxCode σ} {S S' : Schema σ} {t t' : Option (Lock σ.T)} {b : Bool}
      {heap : Heap σ.Val} {o : Out (Except Error σ.V)} :
      (S.env.resources.res u).withMut S.heap (fun v => ((f v).1, if (f v).2 then none else some ())) = ((if b then .ran () else .unavailable), heap) →
      ActsOn (k b) { S with heap := heap } t o S' t' → ActsOn (.resWrite u f k) S t o S' t'
  | resPanic {u : σ.Ty} {f : σ.Val u → σ.Val u × Bool} (k : Bool → CtxCode σ) {S : Schema σ} (t : Option (Lock σ.T)) {heap : Heap σ.Val} :
      (S.env.resources.res u).withMut S.heap (fun v => ((f v).1, if (f v).2 then none else some ())) = (.panicked, heap) →
      ActsOn (.resWrite u f k) S t .panic { S with heap := heap } t
  | caught {body : CtxCode σ} {k : Option (Except Error σ.V) → CtxCode σ} {S S1 S2 : Schema σ} {t t1 t2 : Option (Lock σ.T)}
      {r : Option (Except Error σ.V)} {o : Out (Except Error σ.V)} :
      ActsOn body S t (match r with | some r => .ret r | none => .panic) S1 t1 → ActsOn (k r) S1 t1 o S2 t2 → ActsOn (.catchUnwind body k) S t o S2 t2
  | catchStuck {body : CtxCode σ} (k : Option (Except Error σ.V) → CtxCode σ) {S S1 : Schema σ} {t t1 : Option (Lock σ.T)} :
      ActsOn body S t .stuck S1 t1 → ActsOn (.catchUnwind body k) S t .stuck S1 t1

/-- The target of context `f`. -/
def targetIn (s : St σ) (f : Nat) : Option (Lock σ.T) := (s.frames[f]?).bind Frame.target

end Plotline
