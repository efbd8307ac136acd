import Verif.Spec.Interleave

/-!
# What it means for a transaction to be over

Some schedule picks, again and again, one client that can take a step.
-/

namespace Plotline

variable {σ : Sig}

/-- The call `tx.with(body)` of client `c`, with `pre` registered before, is over: it has returned, or unwound. -/
def SysEvent.Closes (e : SysEvent σ) (c : Nat) (pre : List (Operation σ.K σ.T)) (body : Prog σ) : Prop :=
  (∃ out, e = .finish c pre body out) ∨ ∃ n, e = .crash c pre body n

/-- A schedule that never ends: what happens, and the states it leads through. -/
structure Forever (S : Schema σ) (event : Nat → SysEvent σ) (state : Nat → Sys σ) : Prop where
  start : state 0 = Sys.start S
  step : ∀ n, Sys.Step (state n) (event n) (state (n + 1))

end Plotline
