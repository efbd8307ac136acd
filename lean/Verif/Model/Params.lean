import Verif.Model.Transaction

/-!
# Model of the parameters of triggers (`plotline/src/schema/trigger.rs:12-47, 129-152`)

`impl_trigger!` makes a trigger of every function of a `Ctx` and of parameters that can be made from a `&Context`. Making a
parameter is user code, `FromCtx`: it has the whole `&Context`, so it may do all that a closure may do with a context it does not own.
The number of parameters is not limited here; the library has it up to eight (trigger.rs:39-47).
-/

namespace Plotline

variable {σ : Sig}

/-- `impl From<&Context<'_, T>> for A` (trigger.rs:28), the body of `from`: calls on the context, which the code of closures passed to
those calls has as the one around their own (or as its own, if the call has no context of its own). -/
inductive FromCtx (σ : Sig) (A : Type) where
  /-- `from` returns. -/
  | ret (a : A)
  | panic
  /-- Touching the schema's own lock. -/
  | reenter
  | save (n : σ.T) (m : FromCtx σ A)
  | delete (i : σ.K) (m : FromCtx σ A)
  | get (i : σ.K) (m : Option σ.T → FromCtx σ A)
  | contains (i : σ.K) (m : Bool → FromCtx σ A)
  | tx (body : Prog σ) (m : Except Error σ.V → FromCtx σ A)
  | runTriggers (s : Sched) (m : Except Error Unit → FromCtx σ A)
  | targetRead (m : Option σ.T → FromCtx σ A)
  | targetWrite (f : σ.T → σ.T × Bool) (m : Bool → FromCtx σ A)
  | resRead (t : σ.Ty) (m : Option (σ.Val t) → FromCtx σ A)
  | resWrite (t : σ.Ty) (f : σ.Val t → σ.Val t × Bool) (m : Bool → FromCtx σ A)
  | resScope (t : σ.Ty) (excl : Bool) (body : σ.Val t → Prog σ) (m : Option (Except Error σ.V) → FromCtx σ A)
  | catchUnwind (body : Prog σ) (m : Option (Except Error σ.V) → FromCtx σ A)

/-- `A::from(ctx)` as an argument of a call (trigger.rs:31): what comes after it is run with what it returns. -/
def FromCtx.andThen {A : Type} : FromCtx σ A → (A → Prog σ) → Prog σ
  | .ret a, k => k a
  | .panic, _ => .panic
  | .reenter, _ => .reenter
  | .save n m, k => .save 0 n (m.andThen k)
  | .delete i m, k => .delete 0 i (m.andThen k)
  | .get i m, k => .get 0 i fun a => (m a).andThen k
  | .contains i m, k => .contains 0 i fun a => (m a).andThen k
  | .tx body m, k => .tx 0 body fun a => (m a).andThen k
  | .runTriggers s m, k => .runTriggers 0 s fun a => (m a).andThen k
  | .targetRead m, k => .targetRead 0 fun a => (m a).andThen k
  | .targetWrite f m, k => .targetWrite 0 f fun a => (m a).andThen k
  | .resRead t m, k => .resRead t fun a => (m a).andThen k
  | .resWrite t f m, k => .resWrite t f fun a => (m a).andThen k
  | .resScope t excl body m, k => .resScope t excl body fun a => (m a).andThen k
  | .catchUnwind body m, k => .catchUnwind body fun a => (m a).andThen k

/-- The parameters of a function after its `Ctx`: types with a way to make their values (trigger.rs:24-28). -/
inductive Params (σ : Sig) : Type → Type 1 where
  | none : Params σ Unit
  | param {A As : Type} (m : FromCtx σ A) (ms : Params σ As) : Params σ (A × As)

/-- `$($args::from(ctx)),*` (trigger.rs:31): arguments of a call are evaluated from left to right. -/
def Params.andThen {As : Type} : Params σ As → (As → Prog σ) → Prog σ
  | .none, k => k ()
  | .param m ms, k => m.andThen fun a => ms.andThen fun as => k (a, as)

/-- `_F: Fn(Ctx<_T>, $($args),*) -> Result<()>` (trigger.rs:27). In the code of the function `0` is the `Ctx`. That of a `Ctx` only
`transaction` can be called (transaction.rs:504-513) is said by `CtxCode` in `Spec/Params`. -/
structure TriggerFn (σ : Sig) where
  As : Type
  params : Params σ As
  call : As → Prog σ

/-- `Trigger::execute` of such a function (trigger.rs:30-32), also boxed as `ArglessTrigger` (trigger.rs:129-152). -/
def TriggerFn.execute (t : TriggerFn σ) : Prog σ := t.params.andThen t.call

/-- `From<&Context> for Res` (resource.rs:178-186): the handle of the resource of type `t`. The set of resources is that of the schema and does
not change during a transaction, so the handle can stand for the type. -/
def FromCtx.res (t : σ.Ty) : FromCtx σ { u : σ.Ty // u = t } := .ret ⟨t, rfl⟩

/-- `From<&Context> for Target` (transaction.rs:342-349): a handle of the target of the context. A context that is shared cannot be given
another target, so there is nothing to know of the handle. -/
def FromCtx.target : FromCtx σ Unit := .ret ()

/-- `Schema::with_trigger(s, function)` (schema/mod.rs:72-84). -/
def Schema.withTriggerFn (S : Schema σ) (s : Sched) (t : TriggerFn σ) : Schema σ := S.withTrigger s t.execute

end Plotline
