import Verif.Spec.Programs

/-!
# Specification vocabulary for triggers and for the operations Save and Delete

Fuel-free runs, what it means to fire a list of triggers, and which triggers a registration history selects.
-/

namespace Plotline

variable {σ : Sig}

/-- The program `p`, having the contexts `env` in scope, started in `s`, ends with `out` in `s'`. -/
def Runs (E : Env σ) (env : List Nat) (p : Prog σ) (s : St σ) (out : Out (Except Error σ.V)) (s' : St σ) : Prop :=
  ∃ fuel, eval E fuel env p s = some (out, s')

/-- Firing triggers on context `f`: one after the other, each starting where the previous one ended; the first that does
not return `Ok` ends the firing with its outcome. -/
inductive Fires (E : Env σ) (f : Nat) : List (Prog σ) → St σ → Out (Except Error Unit) → St σ → Prop where
  | none (s : St σ) : Fires E f [] s (.ret (.ok ())) s
  | next {t : Prog σ} {ts : List (Prog σ)} {s s1 s2 : St σ} {v : σ.V} {r : Out (Except Error Unit)} :
      Runs E [f] t s (.ret (.ok v)) s1 → Fires E f ts s1 r s2 → Fires E f (t :: ts) s r s2
  | error {t : Prog σ} {ts : List (Prog σ)} {s s1 : St σ} {e : Error} :
      Runs E [f] t s (.ret (.error e)) s1 → Fires E f (t :: ts) s (.ret (.error e)) s1
  | panic {t : Prog σ} {ts : List (Prog σ)} {s s1 : St σ} :
      Runs E [f] t s .panic s1 → Fires E f (t :: ts) s .panic s1
  | stuck {t : Prog σ} {ts : List (Prog σ)} {s s1 : St σ} :
      Runs E [f] t s .stuck s1 → Fires E f (t :: ts) s .stuck s1

/-- The triggers a history of registrations puts under a scheduler, in registration order. -/
def scheduled (regs : List (Sched × Prog σ)) (s : Sched) : List (Prog σ) :=
  (regs.filter (fun r => r.1 = s)).map Prod.snd

/-- A schema after a history of trigger registrations. -/
def Schema.registered (S : Schema σ) (regs : List (Sched × Prog σ)) : Schema σ :=
  regs.foldl (fun S r => S.withTrigger r.1 r.2) S

/-- The triggers an environment holds for a scheduler. -/
def Env.fire (E : Env σ) (s : Sched) : List (Prog σ) := (E.triggers.select s).getD []

/-- The log of context `f`. -/
def logOf (s : St σ) (f : Nat) : List (Operation σ.K σ.T) :=
  match s.frames[f]? with
  | some fr => fr.ops
  | none => []

end Plotline
