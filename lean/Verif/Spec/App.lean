import Verif.Model.App
import Verif.Spec.Contexts
import Verif.Spec.Graph

/-!
# What a program using a schema should see

In terms of the calls made so far, latest first.
-/

namespace Plotline

variable {σ : Sig}

/-- The calls `h`, latest first, are possible on a schema just made from the graph `g`, have all returned, and lead to `a`. -/
inductive AppLegal (g : Graph σ.K σ.T) : List (AppCall σ) → App σ → Prop where
  | start : AppLegal g [] (App.start g)
  | call {h : List (AppCall σ)} {a a' : App σ} {x : AppCall σ} {r : AppAnswer σ} : AppLegal g h a → a.step x = some (r, a') →
      r ≠ .stuck → AppLegal g (x :: h) a'

/-! ## The graph -/

/-- The calls on values of the transaction `n`. -/
def callsOf (n : Nat) : List (AppCall σ) → List (Call σ)
  | [] => []
  | .inTx x c :: h => if x = n then c :: callsOf n h else callsOf n h
  | .unwindTx x :: h => if x = n then .abandon 0 :: callsOf n h else callsOf n h
  | .forgetTx x :: h => if x = n then .abandon 0 :: callsOf n h else callsOf n h
  | _ :: h => callsOf n h

/-- The last of the nodes with the id. -/
def lastOf (nodes : List σ.T) (i : σ.K) : Option σ.T := nodes.reverse.find? fun n => Plotline.id n == i

open Classical in
/-- What the graph has under an id: what was put there last, through a write guard or by a committed transaction that wrote the id
and had no context forgotten, with the changes made inside of it since. -/
noncomputable def storedAt (g : Graph σ.K σ.T) : List (AppCall σ) → σ.K → Option σ.T
  | [], i => g.get i
  | .touch _ j f :: h, i => if (j == i) = true then (storedAt g h i).map f.1 else storedAt g h i
  | .insert _ n :: h, i => if (Plotline.id n == i) = true then some n else storedAt g h i
  | .remove _ j :: h, i => if (j == i) = true then none else storedAt g h i
  | .replace _ nodes :: _, i => lastOf nodes i
  | .inTx x (.commit 0) :: h, i =>
    if Leaked (callsOf x h) 0 then storedAt g h i else (lastWriteOf (callsOf x h) 0 i).getD (storedAt g h i)
  | _ :: h, i => storedAt g h i

/-- What is read of `i` in the transaction `t` when the graph has `b`: what its last write left, else what is read in the
transaction around it, else `b`. -/
inductive Sees (b : Option σ.T) (h : List (Call σ)) (i : σ.K) : Nat → Option σ.T → Prop where
  | written {t : Nat} {r : Option σ.T} : lastWriteOf h t i = some r → Sees b h i t r
  | inherited {t p : Nat} {r : Option σ.T} : lastWriteOf h t i = none → parentTx h t = some p → Sees b h i p r → Sees b h i t r
  | stored : lastWriteOf h 0 i = none → Sees b h i 0 b

/-! ## The lock of the graph -/

/-- The guard `g` was made, as a write guard if `e`, and not dropped since. -/
def GuardKept : List (AppCall σ) → Nat → Bool → Prop
  | [], _, _ => False
  | .read g' :: h, g, e => (g' = g ∧ e = false) ∨ GuardKept h g e
  | .write g' :: h, g, e => (g' = g ∧ e = true) ∨ GuardKept h g e
  | .dropGuard g' _ :: h, g, e => g' ≠ g ∧ GuardKept h g e
  | _ :: h, g, e => GuardKept h g e

/-- The guard `g` was made, as a write guard if `e`, and neither dropped nor forgotten since. -/
def GuardUsable : List (AppCall σ) → Nat → Bool → Prop
  | [], _, _ => False
  | .read g' :: h, g, e => (g' = g ∧ e = false) ∨ GuardUsable h g e
  | .write g' :: h, g, e => (g' = g ∧ e = true) ∨ GuardUsable h g e
  | .dropGuard g' _ :: h, g, e => g' ≠ g ∧ GuardUsable h g e
  | .forgetGuard g' :: h, g, e => g' ≠ g ∧ GuardUsable h g e
  | _ :: h, g, e => GuardUsable h g e

/-- A context of the transaction `x` was made, and `x` was not committed or dropped since. -/
def TxKept : List (AppCall σ) → Nat → Prop
  | [], _ => False
  | .inTx y (.context 0 _) :: h, x => y = x ∨ TxKept h x
  | .inTx y (.commit 0) :: h, x => y ≠ x ∧ TxKept h x
  | .inTx y (.abandon 0) :: h, x => y ≠ x ∧ TxKept h x
  | .unwindTx y :: h, x => y ≠ x ∧ TxKept h x
  | _ :: h, x => TxKept h x

/-- How many guards of the graph were made. -/
def guardsMade : List (AppCall σ) → Nat
  | [] => 0
  | .read _ :: h => guardsMade h + 1
  | .write _ :: h => guardsMade h + 1
  | _ :: h => guardsMade h

/-- How many transactions were made. -/
def ownersMade : List (AppCall σ) → Nat
  | [] => 0
  | .transaction _ :: h => ownersMade h + 1
  | _ :: h => ownersMade h

/-! ## Resources -/

/-- How many resources were registered. -/
def registered : List (AppCall σ) → Nat
  | [] => 0
  | .register _ _ :: h => registered h + 1
  | _ :: h => registered h

/-- The last registration of a type, as the number of registrations before it. -/
def lastRegistered : List (AppCall σ) → σ.Ty → Option Nat
  | [], _ => none
  | .register t' _ :: h, t => if t' = t then some (registered h) else lastRegistered h t
  | _ :: h, t => lastRegistered h t

/-- How many resource handles were made. -/
def resMade : List (AppCall σ) → Nat
  | [] => 0
  | .resource _ _ :: h => resMade h + 1
  | _ :: h => resMade h

/-- The type of a handle, and the registration it refers to: the last one of the type when the handle was made. -/
def resOf : List (AppCall σ) → Nat → Option (σ.Ty × Option Nat)
  | [], _ => none
  | .resource t k' :: h, k => if k' = k then some (t, lastRegistered h t) else resOf h k
  | _ :: h, k => resOf h k

/-- How many guards of resources were made. -/
def resGuardsMade : List (AppCall σ) → Nat
  | [] => 0
  | .lockRes _ _ _ :: h => resGuardsMade h + 1
  | _ :: h => resGuardsMade h

mutual

/-- What a registered resource holds: what it was registered with, as assigned since through any guard; nothing once a write
guard was dropped by a panic. -/
def resHolds : List (AppCall σ) → Nat → Option ((t : σ.Ty) × σ.Val t)
  | [], _ => none
  | .register t v :: h, r => if registered h = r then some ⟨t, v⟩ else resHolds h r
  | .assignRes g t v :: h, r =>
    match resGuardOf h g with
    | some (_, _, some r') => if r' = r then some ⟨t, v⟩ else resHolds h r
    | _ => resHolds h r
  | .dropRes g true :: h, r =>
    match resGuardOf h g with
    | some (_, true, some r') => if r' = r then none else resHolds h r
    | _ => resHolds h r
  | _ :: h, r => resHolds h r

/-- The type a guard gives access to, whether it is a write guard, and which registration it locks, if there was a value to be
had when it was made. -/
def resGuardOf : List (AppCall σ) → Nat → Option (σ.Ty × Bool × Option Nat)
  | [], _ => none
  | .lockRes k e g' :: h, g =>
    if g' = g then
      match resOf h k with
      | none => none
      | some (t, none) => some (t, e, none)
      | some (t, some r) => some (t, e, if (resHolds h r).isSome then some r else none)
    else resGuardOf h g
  | _ :: h, g => resGuardOf h g

end

/-- The guard of a resource was made and not dropped since. -/
def ResKept : List (AppCall σ) → Nat → Prop
  | [], _ => False
  | .lockRes _ _ g' :: h, g => g' = g ∨ ResKept h g
  | .dropRes g' _ :: h, g => g' ≠ g ∧ ResKept h g
  | _ :: h, g => ResKept h g

/-- The guard of a resource was made and neither dropped nor forgotten since. -/
def ResUsable : List (AppCall σ) → Nat → Prop
  | [], _ => False
  | .lockRes _ _ g' :: h, g => g' = g ∨ ResUsable h g
  | .dropRes g' _ :: h, g => g' ≠ g ∧ ResUsable h g
  | .forgetRes g' :: h, g => g' ≠ g ∧ ResUsable h g
  | _ :: h, g => ResUsable h g

/-! ## Calls -/

/-- The call waits for a lock that the program itself holds, so that it never returns. -/
def NeverReturns (h : List (AppCall σ)) : AppCall σ → Prop
  | .read _ => (∃ g, GuardKept h g true) ∨ ∃ x, TxKept h x
  | .write _ => (∃ g e, GuardKept h g e) ∨ ∃ x, TxKept h x
  | .inTx x (.context 0 _) => ¬ TxKept h x ∧ ((∃ g e, GuardKept h g e) ∨ ∃ y, TxKept h y)
  | .inTx x c => ∃ k e, accessOf c = some (k, e) ∧ Waits (callsOf x h) k e
  | .lockRes k e _ => ∃ t r g t' e', resOf h k = some (t, some r) ∧ ResKept h g ∧ resGuardOf h g = some (t', e', some r) ∧
      (e = true ∨ e' = true)
  | _ => False

/-- What the borrow checker lets pass: values that are there are used; what is borrowed is not moved. Transactions are only
committed by `with`, which makes a context first. -/
def AppPossible (h : List (AppCall σ)) : AppCall σ → Prop
  | .read g | .write g => g = guardsMade h
  | .guardGet g _ | .guardContains g _ | .guardIter g | .touch g _ _ | .dropGuard g _ | .forgetGuard g => ∃ e, GuardUsable h g e
  | .insert g _ | .remove g _ | .replace g _ => GuardUsable h g true
  | .transaction x => x = ownersMade h
  | .inTx x c => x < ownersMade h ∧ Possible (callsOf x h) c ∧ (c = .commit 0 → callsOf x h ≠ [])
  | .unwindTx x | .forgetTx x => x < ownersMade h ∧ Possible (callsOf x h) (.abandon 0)
  | .register _ _ => (∀ g e, ¬ GuardUsable h g e) ∧ ∀ x, x < ownersMade h → ¬ Open (callsOf x h) 0
  | .resource _ k => k = resMade h
  | .lockRes k _ g => k < resMade h ∧ g = resGuardsMade h
  | .peekRes t g => ResUsable h g ∧ ∃ e r, resGuardOf h g = some (t, e, r)
  | .assignRes g t _ => ResUsable h g ∧ ∃ r, resGuardOf h g = some (t, true, r)
  | .dropRes g _ | .forgetRes g => ResUsable h g

/-- The calls, first to last, one after another: what they return and what they lead to. -/
def App.calls (a : App σ) : List (AppCall σ) → Option (List (AppAnswer σ) × App σ)
  | [] => some ([], a)
  | x :: xs =>
    match a.step x with
    | none => none
    | some (r, a') => (a'.calls xs).map fun q => (r :: q.1, q.2)

end Plotline
