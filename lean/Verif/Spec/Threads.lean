import Verif.Model.Threads
import Verif.Spec.App

/-!
# What threads sharing a schema should see, and which of them wait for ever

In terms of the calls that have returned and those that wait.
-/

namespace Plotline

variable {σ : Sig}

/-- The calls that return, in this order, with what they return. -/
def answersOf : List (ThreadEvent σ) → List (AppCall σ × AppAnswer σ)
  | [] => []
  | .returned _ x r :: es => (x, r) :: answersOf es
  | .waits _ _ :: es => answersOf es

/-- The call of the thread returns. -/
def ThreadEvent.Serves (t : Nat) : ThreadEvent σ → Prop
  | .returned u _ _ => u = t
  | .waits _ _ => False

/-- The value was made, and not dropped since: a transaction from its first context on. -/
def Kept (h : List (AppCall σ)) : Holder → Prop
  | .guard n => ∃ e, GuardKept h n e
  | .tx n => TxKept h n
  | .res n => ResKept h n

/-- The same if it was not forgotten either. -/
def StillUsable (h : List (AppCall σ)) : Holder → Prop
  | .guard n => ∃ e, GuardUsable h n e
  | .tx n => TxKept h n ∧ Open (callsOf n h) 0
  | .res n => ResUsable h n

/-- `v` holds a lock which the call has to wait for. A target is locked by the transaction itself, whose calls these are. -/
def Hinders (h : List (AppCall σ)) : AppCall σ → Holder → Prop
  | .read _, .guard n => GuardKept h n true
  | .read _, .tx n => TxKept h n
  | .write _, .guard n => ∃ e, GuardKept h n e
  | .write _, .tx n => TxKept h n
  | .inTx x (.context 0 _), .guard n => ¬ TxKept h x ∧ ∃ e, GuardKept h n e
  | .inTx x (.context 0 _), .tx n => ¬ TxKept h x ∧ TxKept h n
  | .inTx x c, .tx n => x = n ∧ ∃ k e, accessOf c = some (k, e) ∧ Waits (callsOf x h) k e
  | .lockRes k e _, .res n => ∃ t r t' e', resOf h k = some (t, some r) ∧ ResKept h n ∧ resGuardOf h n = some (t', e', some r) ∧
      (e = true ∨ e' = true)
  | _, _ => False

/-- The lock a call asks for, and whether exclusively: the graph's for a guard and for the first context of a transaction; that of the
resource for a guard of one that is registered. -/
def asksOf (h : List (AppCall σ)) : AppCall σ → Option (LockName × Bool)
  | .read _ => some (.graph, false)
  | .write _ => some (.graph, true)
  | .inTx x (.context 0 _) =>
    match callsOf x h with
    | [] => some (.graph, true)
    | _ => none
  | .lockRes k e _ =>
    match resOf h k with
    | some (_, some r) => some (.cell r, e)
    | _ => none
  | _ => none

/-- Somebody who waits to write goes first. -/
def OthersFirst (prefer : Bool) (past queue : List (Nat × AppCall σ)) (x : AppCall σ) : Prop :=
  prefer = true ∧ ∃ u y l, (u, y) ∈ queue ∧ asksOf (past.map Prod.snd) x = some (l, false) ∧ asksOf (past.map Prod.snd) y = some (l, true)

/-- All the threads in `D` wait, each for a lock that is held by a value which was forgotten or belongs to a thread in `D`, or, if those
who want to read wait for those who want to write, for a thread in `D` that waits to write. -/
def Deadlock (prefer : Bool) (past queue : List (Nat × AppCall σ)) (D : Nat → Prop) : Prop :=
  ∀ t, D t → ∃ x, (t, x) ∈ queue ∧
    ((∃ v, Hinders (past.map Prod.snd) x v ∧
        ((Kept (past.map Prod.snd) v ∧ ¬ StillUsable (past.map Prod.snd) v) ∨ ∃ u, maker past v = some u ∧ D u)) ∨
      (prefer = true ∧ ∃ u y l, D u ∧ (u, y) ∈ queue ∧ asksOf (past.map Prod.snd) x = some (l, false) ∧
        asksOf (past.map Prod.snd) y = some (l, true)))

/-- The thread is one of some that wait for each other. -/
def Crowd.Doomed (prefer : Bool) (c : Crowd σ) (t : Nat) : Prop := ∃ D, D t ∧ Deadlock prefer c.past c.queue D

/-- Nobody who waits can be served, and those who do not wait have nothing to let go of. -/
def AtRest (prefer : Bool) (c : Crowd σ) : Prop :=
  (¬ ∃ t x, (t, x) ∈ c.queue ∧ ¬ c.behind prefer x ∧ ¬ NeverReturns (c.past.map Prod.snd) x) ∧
    ∀ v t, maker c.past v = some t → (∀ q ∈ c.queue, q.1 ≠ t) → ¬ StillUsable (c.past.map Prod.snd) v

/-- The thread has the graph: through a guard it made, for itself if `excl`, or through a transaction it made. -/
def HasGraph (past : List (Nat × AppCall σ)) (t : Nat) (excl : Bool) : Prop :=
  (∃ n e, GuardKept (past.map Prod.snd) n e ∧ (excl = true → e = true) ∧ maker past (.guard n) = some t) ∨
    ∃ n, TxKept (past.map Prod.snd) n ∧ maker past (.tx n) = some t

/-- The thread has the resource that was registered as number `p`, through a guard it made. -/
def HasRes (past : List (Nat × AppCall σ)) (t : Nat) (p : Nat) : Prop :=
  ∃ n ty e, ResKept (past.map Prod.snd) n ∧ resGuardOf (past.map Prod.snd) n = some (ty, e, some p) ∧ maker past (.res n) = some t

/-- `v` holds the lock. -/
def Holder.Has (h : List (AppCall σ)) : Holder → LockName → Prop
  | .guard n, l => l = .graph ∧ ∃ e, GuardKept h n e
  | .tx n, l => l = .graph ∧ TxKept h n
  | .res n, l => ResKept h n ∧ ∃ t e r, resGuardOf h n = some (t, e, some r) ∧ l = .cell r

end Plotline
