import Verif.Model.Contexts
import Verif.Spec.Transaction

/-!
# What contexts, subtransactions and targets used side by side should do

In terms of the calls made so far, latest first.
-/

namespace Plotline

variable {σ : Sig}

/-- The calls `h`, latest first, are possible on a new transaction on the graph `g`, have all returned, and lead to `w`. -/
inductive Legal (g : Graph σ.K σ.T) : List (Call σ) → World σ → Prop where
  | start : Legal g [] (World.start g)
  | call {h : List (Call σ)} {w w' : World σ} {x : Call σ} {a : Answer σ.T} : Legal g h w → w.step x = some (a, w') →
      a ≠ .stuck → Legal g (x :: h) w'

/-- The transaction the context `c` was made from. -/
def txOf : List (Call σ) → Nat → Option Nat
  | [], _ => none
  | .context t c' :: h, c => if c' = c then some t else txOf h c
  | _ :: h, c => txOf h c

/-- The transaction the subtransaction `t` was made in. -/
def parentTx : List (Call σ) → Nat → Option Nat
  | [], _ => none
  | .transaction c t' :: h, t => if t' = t then txOf h c else parentTx h t
  | _ :: h, t => parentTx h t

/-- A context of the transaction `t` was forgotten. -/
def Leaked : List (Call σ) → Nat → Prop
  | [], _ => False
  | .forgetCtx c :: h, t => txOf h c = some t ∨ Leaked h t
  | _ :: h, t => Leaked h t

open Classical in
/-- The last write to `i` that counts for the transaction `t`: `some (some n)` if it saves `n`, `some none` if it deletes.
Writes made through contexts of `t` count, and those that count for a subtransaction when it is committed, at that moment,
unless a context of it was forgotten. -/
noncomputable def lastWriteOf : List (Call σ) → Nat → σ.K → Option (Option σ.T)
  | [], _, _ => none
  | .save c n :: h, t, i => if txOf h c = some t ∧ (Plotline.id n == i) = true then some (some n) else lastWriteOf h t i
  | .delete c j :: h, t, i => if txOf h c = some t ∧ (j == i) = true then some none else lastWriteOf h t i
  | .commit s :: h, t, i =>
    if parentTx h s = some t ∧ ¬ Leaked h s then (lastWriteOf h s i).or (lastWriteOf h t i) else lastWriteOf h t i
  | _ :: h, t, i => lastWriteOf h t i

/-- What is read of `i` in the transaction `t`: what its last write left, else what is read in the transaction around it, else
what the graph has. -/
inductive Reads (g : Graph σ.K σ.T) (h : List (Call σ)) (i : σ.K) : Nat → Option σ.T → Prop where
  | written {t : Nat} {r : Option σ.T} : lastWriteOf h t i = some r → Reads g h i t r
  | inherited {t p : Nat} {r : Option σ.T} : lastWriteOf h t i = none → parentTx h t = some p → Reads g h i p r → Reads g h i t r
  | stored : lastWriteOf h 0 i = none → Reads g h i 0 (g.get i)

/-- The transaction `s` is `t` or was made in it, at any depth. -/
inductive Inside (h : List (Call σ)) (t : Nat) : Nat → Prop where
  | self : Inside h t t
  | made {s p : Nat} : parentTx h s = some p → Inside h t p → Inside h t s

/-- The subtransaction `t` was committed while no context of it was forgotten. -/
def Committed : List (Call σ) → Nat → Prop
  | [], _ => False
  | .commit s :: h, t => (s = t ∧ ¬ Leaked h t) ∨ Committed h t
  | _ :: h, t => Committed h t

/-- The calls without the saves and deletions made through contexts of `t`. -/
def withoutWrites (t : Nat) : List (Call σ) → List (Call σ)
  | [] => []
  | .save c n :: h => if txOf h c = some t then withoutWrites t h else .save c n :: withoutWrites t h
  | .delete c i :: h => if txOf h c = some t then withoutWrites t h else .delete c i :: withoutWrites t h
  | x :: h => x :: withoutWrites t h

/-- How many contexts were made. -/
def contextsMade : List (Call σ) → Nat
  | [] => 0
  | .context _ _ :: h => contextsMade h + 1
  | _ :: h => contextsMade h

/-- How many transactions were made: the first one was there. -/
def transactionsMade : List (Call σ) → Nat
  | [] => 1
  | .transaction _ _ :: h => transactionsMade h + 1
  | _ :: h => transactionsMade h

/-- How many target handles were made. -/
def handlesMade : List (Call σ) → Nat
  | [] => 0
  | .handle _ _ :: h => handlesMade h + 1
  | .cloneHandle _ _ :: h => handlesMade h + 1
  | _ :: h => handlesMade h

/-- The context `c` was made and neither dropped nor forgotten since. -/
def Held : List (Call σ) → Nat → Prop
  | [], _ => False
  | .context _ c' :: h, c => c' = c ∨ Held h c
  | .dropCtx c' :: h, c => c' ≠ c ∧ Held h c
  | .forgetCtx c' :: h, c => c' ≠ c ∧ Held h c
  | _ :: h, c => Held h c

/-- The transaction `t` was made and neither committed nor dropped since. -/
def Open : List (Call σ) → Nat → Prop
  | [], t => t = 0
  | .transaction _ t' :: h, t => t' = t ∨ Open h t
  | .commit t' :: h, t => t' ≠ t ∧ Open h t
  | .abandon t' :: h, t => t' ≠ t ∧ Open h t
  | _ :: h, t => Open h t

/-- The context the subtransaction `t` was made from. -/
def madeFrom : List (Call σ) → Nat → Option Nat
  | [], _ => none
  | .transaction c t' :: h, t => if t' = t then some c else madeFrom h t
  | _ :: h, t => madeFrom h t

/-- How many times a target was set. -/
def targetsSet : List (Call σ) → Nat
  | [] => 0
  | .withTarget _ _ :: h => targetsSet h + 1
  | _ :: h => targetsSet h

/-- The target the context has: the one set last, as the number of targets set before it. -/
def targetOf : List (Call σ) → Nat → Option Nat
  | [], _ => none
  | .withTarget c' _ :: h, c => if c' = c then some (targetsSet h) else targetOf h c
  | _ :: h, c => targetOf h c

/-- The target a handle refers to: the one its context had when the handle was made. -/
def handleOf : List (Call σ) → Nat → Option Nat
  | [], _ => none
  | .handle c k' :: h, k => if k' = k then targetOf h c else handleOf h k
  | .cloneHandle k0 k' :: h, k => if k' = k then handleOf h k0 else handleOf h k
  | _ :: h, k => handleOf h k

mutual

/-- What is in a target: what it was set to, as changed since through any handle; nothing after a change panicked. -/
def targetVal : List (Call σ) → Nat → Option σ.T
  | [], _ => none
  | .withTarget _ n :: h, x => if targetsSet h = x then some n else targetVal h x
  | .writeTarget k f :: h, x =>
    if handleOf h k = some x then
      match targetVal h x with
      | some n => if (f n).2 then none else some (f n).1
      | none => none
    else targetVal h x
  | .assign j n :: h, x => if (targetsInUse h)[j]? = some (x, true) then (targetVal h x).map fun _ => n else targetVal h x
  | .touch j f :: h, x => if (targetsInUse h)[j]?.map Prod.fst = some x then (targetVal h x).map f else targetVal h x
  | .leave j true :: h, x => if (targetsInUse h)[j]? = some (x, true) then none else targetVal h x
  | _ :: h, x => targetVal h x

/-- The targets in use by the closures of `with` and `with_mut` that run (or by guards that are kept), latest first, with whether by
`with_mut`. -/
def targetsInUse : List (Call σ) → List (Nat × Bool)
  | [] => []
  | .enter k excl :: h =>
    match handleOf h k with
    | some x => if (targetVal h x).isSome then (x, excl) :: targetsInUse h else targetsInUse h
    | none => targetsInUse h
  | .leave j _ :: h => (targetsInUse h).eraseIdx j
  | _ :: h => targetsInUse h

end

/-- An access through the handle `k` has to wait for a closure that runs: any access for one of `with_mut`, an exclusive one for
any. -/
def Waits (h : List (Call σ)) (k : Nat) (excl : Bool) : Prop :=
  ∃ x l, handleOf h k = some x ∧ (x, l) ∈ targetsInUse h ∧ (excl = true ∨ l = true)

/-- The handle a call accesses, and whether exclusively. -/
def accessOf : Call σ → Option (Nat × Bool)
  | .readTarget k => some (k, false)
  | .writeTarget k _ => some (k, true)
  | .enter k excl => some (k, excl)
  | _ => none

/-- What the borrow checker lets pass: values that are there are used; a context is ended after the transactions made from it
and a transaction after the contexts made from it. -/
def Possible (h : List (Call σ)) : Call σ → Prop
  | .context t c => Open h t ∧ c = contextsMade h
  | .transaction c t => Held h c ∧ t = transactionsMade h
  | .save c _ | .delete c _ | .get c _ | .contains c _ | .withTarget c _ => Held h c
  | .handle c k => Held h c ∧ k = handlesMade h
  | .cloneHandle k k' => k < handlesMade h ∧ k' = handlesMade h
  | .readTarget k | .writeTarget k _ | .enter k _ => k < handlesMade h
  | .assign j _ => ∃ x, (targetsInUse h)[j]? = some (x, true)
  | .touch j _ | .leave j _ => j < (targetsInUse h).length
  | .dropCtx c | .forgetCtx c => Held h c ∧ ∀ t, Open h t → madeFrom h t ≠ some c
  | .commit t | .abandon t => Open h t ∧ ∀ c, Held h c → txOf h c ≠ some t

/-- The calls, first to last, one after another: what they return and what they lead to. -/
def World.calls (w : World σ) : List (Call σ) → Option (List (Answer σ.T) × World σ)
  | [] => some ([], w)
  | x :: xs =>
    match w.step x with
    | none => none
    | some (a, w') => (w'.calls xs).map fun r => (a :: r.1, r.2)

end Plotline
