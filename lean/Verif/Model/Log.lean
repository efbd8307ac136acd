import Verif.Model.Interleave

/-!
# What the library writes to the log (the `tracing` events of `plotline/src/schema`)

A relation on the configurations of `Model/Interleave.lean`: what the next step of a closure logs. The texts are represented by
constructors; the error text of a poisoned lock and the `TypeId` are not modelled beyond the type's code.

Simplifications: a closure that is, call by call, the one of `Delete::execute` counts as it (a user's own closure with exactly
the same calls would not log). Three messages are left out because their sites cannot be reached: "committing uninitialized
transaction" (transaction.rs:71: `with` has initialized it), and the two about a poisoned operation log (:83, :149, :157: no
user code runs while a log is write-locked). The events of `document/lazy.rs` and of the command line tool are in `Model/CliLog`.
-/

namespace Plotline

variable {σ : Sig}

/-- One `tracing` event. -/
inductive LogLine (σ : Sig) where
  /-- "posioned graph" (guard.rs:40, 85) -/
  | graphPoisoned
  /-- "commiting transaction with contexts yet in use" (transaction.rs:76, 142) -/
  | contextsInUse
  /-- "accessing transaction target" (transaction.rs:250, 300) -/
  | target
  /-- "accessing resource" (resource.rs:89, 149) -/
  | resource (t : σ.Ty)
  /-- "node does not exist" (ops/delete.rs:35) -/
  | missing (i : σ.K)

/-- The target of context `f` is set, and its lock is poisoned (transaction.rs:247-253, 297-303). -/
def St.targetPoisoned (s : St σ) (f : Nat) : Prop :=
  ∃ fr l, s.frames[f]? = some fr ∧ fr.target = some l ∧ l.poisoned = true

/-- The lock behind the resource handle can be taken (or written, if `excl`) and is poisoned (resource.rs:86-92, 146-152). -/
def St.resPoisoned (E : Env σ) (s : St σ) (t : σ.Ty) (excl : Bool) : Prop :=
  ∃ p cell, (E.resources.res t).lock = some p ∧ s.blocks p excl = false ∧ s.heap[p]? = some cell ∧ cell.poisoned = true

/-- What the next step of a closure logs. -/
inductive Conf.Logs (E : Env σ) : Conf σ → LogLine σ → Prop where
  /-- `Foreground::commit` finds another owner of the log (transaction.rs:141-144). -/
  | inUse {v : σ.V} {n : Nat} {env : List Nat} {k : Except Error σ.V → Prog σ} {K : List (Kont σ)} {s : St σ}
      {fr : Frame σ.K σ.T} : s.frames[n]? = some fr → fr.leaked = true →
      Logs E ⟨.back (.ret (.ok v)), .tx n env k :: K, s⟩ .contextsInUse
  | targetRead {env : List Nat} {c f : Nat} {k : Option σ.T → Prog σ} {K : List (Kont σ)} {s : St σ} :
      env[c]? = some f → s.targetPoisoned f → Logs E ⟨.run env (.targetRead c k), K, s⟩ .target
  | targetWrite {env : List Nat} {c f : Nat} {fn : σ.T → σ.T × Bool} {k : Bool → Prog σ} {K : List (Kont σ)} {s : St σ} :
      env[c]? = some f → s.targetPoisoned f → Logs E ⟨.run env (.targetWrite c fn k), K, s⟩ .target
  | resRead {env : List Nat} {t : σ.Ty} {k : Option (σ.Val t) → Prog σ} {K : List (Kont σ)} {s : St σ} :
      s.resPoisoned E t false → Logs E ⟨.run env (.resRead t k), K, s⟩ (.resource t)
  | resWrite {env : List Nat} {t : σ.Ty} {fn : σ.Val t → σ.Val t × Bool} {k : Bool → Prog σ} {K : List (Kont σ)} {s : St σ} :
      s.resPoisoned E t true → Logs E ⟨.run env (.resWrite t fn k), K, s⟩ (.resource t)
  | resScope {env : List Nat} {t : σ.Ty} {excl : Bool} {body : σ.Val t → Prog σ} {k : Option (Except Error σ.V) → Prog σ}
      {K : List (Kont σ)} {s : St σ} :
      s.resPoisoned E t excl → Logs E ⟨.run env (.resScope t excl body k), K, s⟩ (.resource t)
  /-- The closure of `Delete::execute` (ops/delete.rs:34-37). -/
  | missing {env : List Nat} {i : σ.K} {f : Nat} {K : List (Kont σ)} {s : St σ} :
      env[0]? = some f → ctxGet s.graph s.frames f i = none → Logs E ⟨.run env (deleteBody i), K, s⟩ (.missing i)

/-- Any number of steps of a closure, with what they log. -/
inductive Conf.Talk (E : Env σ) : Conf σ → List (LogLine σ) → Conf σ → Prop where
  | refl (c : Conf σ) : Talk E c [] c
  | quiet {c c' d : Conf σ} {ls : List (LogLine σ)} : c.step E = some c' → (∀ l, ¬ c.Logs E l) → Talk E c' ls d →
      Talk E c ls d
  | line {c c' d : Conf σ} {l : LogLine σ} {ls : List (LogLine σ)} : c.step E = some c' → c.Logs E l → Talk E c' ls d →
      Talk E c (l :: ls) d

/-- What taking a guard of the graph logs (guard.rs:37-43, 82-88). -/
def Schema.guardLog (S : Schema σ) : List (LogLine σ) := if S.poisoned then [.graphPoisoned] else []

/-- What `Background::commit` logs (transaction.rs:75-78), if the closure returned `Ok`. -/
def commitLog (out : Out (Except Error σ.V)) (s : St σ) : List (LogLine σ) :=
  match out, s.frames[0]? with
  | .ret (.ok _), some fr => if fr.leaked then [.contextsInUse] else []
  | _, _ => []

/-- `tx.with(body)` on a transaction of the schema, with `pre` registered before, logs `ls` in all and ends. (The guard is taken
by the first context made, here or before; its line is counted here.) -/
def Schema.Logs (S : Schema σ) (pre : List (Operation σ.K σ.T)) (body : Prog σ) (ls : List (LogLine σ)) : Prop :=
  ∃ inner out s, Conf.Talk S.env ⟨.run [0] body, [], S.begin pre⟩ inner ⟨.back out, [], s⟩ ∧ out ≠ .stuck ∧
    ls = S.guardLog ++ inner ++ commitLog out s

end Plotline
