import Verif.Model.App

/-!
# Threads sharing a schema (schema/mod.rs:49-111, guard.rs, resource.rs:71-153, transaction.rs:402-416)

Any number of threads make the calls of `AppCall` on one schema. A call that cannot have its lock waits, until it is served at some
moment at which it can have it. Everything else that a call does, it does at once: what it changes is behind a lock which it, or the
value it is made on, holds.

`RwLock` leaves open whether somebody who wants to read waits for those who already wait to write (std's own lock has them wait);
`prefer` says which.

Simplifications: guards, transactions and what is made from transactions are used by the thread that made them (guards of `RwLock`
are not `Send`); handles of resources are used by all. `Schema` is neither `Send` nor `Sync`, so that a program with more than one thread has to
assert both itself.
-/

namespace Plotline

/-- A value that may hold a lock: a guard of the graph, a transaction, a guard of a resource. -/
inductive Holder where
  | guard (n : Nat)
  | tx (n : Nat)
  | res (n : Nat)
deriving DecidableEq, Repr

/-- A lock: that of the graph (schema/mod.rs:28), or that of a registered resource (resource.rs:20). -/
inductive LockName where
  | graph
  | cell (p : Nat)
deriving DecidableEq, Repr

section
variable {σ : Sig}

/-- The value a call makes, of those that may hold a lock. -/
def AppCall.makes : AppCall σ → Option Holder
  | .read g => some (.guard g)
  | .write g => some (.guard g)
  | .transaction x => some (.tx x)
  | .lockRes _ _ g => some (.res g)
  | _ => none

/-- The value a call is made on, of those that may hold a lock. -/
def AppCall.needs : AppCall σ → Option Holder
  | .guardGet g _ | .guardContains g _ | .guardIter g | .touch g _ _ | .insert g _ | .remove g _ | .replace g _ | .dropGuard g _
  | .forgetGuard g => some (.guard g)
  | .inTx x _ | .unwindTx x | .forgetTx x => some (.tx x)
  | .peekRes _ g | .assignRes g _ _ | .dropRes g _ | .forgetRes g => some (.res g)
  | _ => none

/-- The thread that made the value, by the calls that returned, latest first. -/
def maker : List (Nat × AppCall σ) → Holder → Option Nat
  | [], _ => none
  | (t, x) :: past, v => if x.makes = some v then some t else maker past v

/-- The call with the name that is next for what it makes: others may have made some while it waited. -/
def App.named (a : App σ) : AppCall σ → AppCall σ
  | .read _ => .read a.guards.length
  | .write _ => .write a.guards.length
  | .lockRes k e _ => .lockRes k e a.resGuards.length
  | x => x

/-- The lock a call asks for, and whether exclusively. -/
def App.asks (a : App σ) : AppCall σ → Option (LockName × Bool)
  | .read _ => some (.graph, false)
  | .write _ => some (.graph, true)
  | .inTx x (.context 0 _) =>
    match a.txs[x]? with
    | some ⟨none, _⟩ => some (.graph, true)
    | _ => none
  | .lockRes k e _ =>
    match a.handles[k]? with
    | some ⟨_, ⟨some p⟩⟩ => some (.cell p, e)
    | _ => none
  | _ => none

/-- A schema and the threads using it. -/
structure Crowd (σ : Sig) where
  app : App σ
  /-- The calls that have returned, with the threads that made them, latest first. -/
  past : List (Nat × AppCall σ)
  /-- The calls that wait, with the threads that made them. -/
  queue : List (Nat × AppCall σ)

/-- Thread `t` can make the call: it does not wait, the call is made on a value of its own, and `with_resource` takes the schema from
everybody (schema/mod.rs:63), also from those who wait, except for a resource. -/
def Crowd.may (c : Crowd σ) (t : Nat) (x : AppCall σ) : Prop :=
  (∀ q ∈ c.queue, q.1 ≠ t) ∧ (∀ v, x.needs = some v → maker c.past v = some t) ∧ ∀ ty v, x = .register ty v →
    ∀ q ∈ c.queue, ∃ k e n, q.2 = .lockRes k e n

/-- The call has to wait for somebody who waits. -/
def Crowd.behind (prefer : Bool) (c : Crowd σ) (x : AppCall σ) : Prop :=
  prefer = true ∧ ∃ u y l, (u, y) ∈ c.queue ∧ c.app.asks x = some (l, false) ∧ c.app.asks y = some (l, true)

/-- What happens. -/
inductive ThreadEvent (σ : Sig) where
  /-- A call of the thread returns (or unwinds). -/
  | returned (t : Nat) (x : AppCall σ) (r : AppAnswer σ)
  /-- The thread makes a call that has to wait. -/
  | waits (t : Nat) (x : AppCall σ)

/-- One thing that may happen. -/
inductive Crowd.Step (prefer : Bool) : Crowd σ → ThreadEvent σ → Crowd σ → Prop where
  /-- A call is made and returns. -/
  | call {c : Crowd σ} {t : Nat} {x : AppCall σ} {r : AppAnswer σ} {a : App σ} : c.may t x → ¬ c.behind prefer x →
      c.app.step x = some (r, a) → r ≠ .stuck → Step prefer c (.returned t x r) { c with app := a, past := (t, x) :: c.past }
  /-- A call is made and waits. -/
  | wait {c : Crowd σ} {t : Nat} {x : AppCall σ} {r : AppAnswer σ} {a : App σ} : c.may t x → c.app.step x = some (r, a) →
      r = .stuck ∨ c.behind prefer x → Step prefer c (.waits t x) { c with queue := c.queue ++ [(t, x)] }
  /-- A call that waited returns. -/
  | wake {c : Crowd σ} {t : Nat} {x : AppCall σ} {r : AppAnswer σ} {a : App σ} : (t, x) ∈ c.queue → ¬ c.behind prefer x →
      c.app.step (c.app.named x) = some (r, a) → r ≠ .stuck →
      Step prefer c (.returned t (c.app.named x) r) ⟨a, (t, c.app.named x) :: c.past, c.queue.filter fun q => q.1 != t⟩

/-- Any number of things, first to last. -/
inductive Crowd.Run (prefer : Bool) : Crowd σ → List (ThreadEvent σ) → Crowd σ → Prop where
  | nil (c : Crowd σ) : Run prefer c [] c
  | cons {c c' c'' : Crowd σ} {e : ThreadEvent σ} {es : List (ThreadEvent σ)} : Step prefer c e c' → Run prefer c' es c'' →
      Run prefer c (e :: es) c''

/-- A schema just made, which nobody has used. -/
def Crowd.start (g : Graph σ.K σ.T) : Crowd σ := ⟨App.start g, [], []⟩

end

end Plotline
