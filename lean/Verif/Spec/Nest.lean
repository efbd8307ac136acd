import Verif.Model.Nest
import Verif.Spec.Holdings

/-!
# Which resources that own handles should be destroyed

In terms of what was called and how it ended, last call first.
-/

namespace Plotline

variable {Ty : Type} [DecidableEq Ty]

/-- The types registered, last one first. -/
def regsOf : List (NestCall Ty × NestAnswer) → List Ty
  | [] => []
  | (.register t _, _) :: h => t :: regsOf h
  | _ :: h => regsOf h

/-- The schema was dropped, or lost to a panic while registering. -/
def nestGone : List (NestCall Ty × NestAnswer) → Bool
  | [] => false
  | (.dropSchema, _) :: _ => true
  | (.register _ _, .panic) :: _ => true
  | _ :: h => nestGone h

/-- The handles taken, first one first: their type, and the number of the registration they were taken from. -/
def takenOf : List (NestCall Ty × NestAnswer) → List (Ty × Option Nat)
  | [] => []
  | (.take t, _) :: h => takenOf h ++ [(t, lastRegOf (regsOf h) t)]
  | _ :: h => takenOf h

/-- Handle number `k` is on that registration. -/
def On (h : List (NestCall Ty × NestAnswer)) (k r : Nat) : Prop := ∃ t, (takenOf h)[k]? = some (t, some r)

/-- A closure panicked that was given the value. -/
def Disabled : List (NestCall Ty × NestAnswer) → Nat → Prop
  | [], _ => False
  | (.put i _ panics, _) :: h, r => Disabled h r ∨ panics = true ∧ On h i r
  | _ :: h, r => Disabled h r

open Classical in
/-- Where the program moved a handle last. If the value it was to be moved into cannot be had, it is dropped. -/
noncomputable def placeOf : List (NestCall Ty × NestAnswer) → Nat → Place
  | [], _ => .outside
  | (.register _ own, _) :: h, k => if k ∈ own then .inside (regsOf h).length else placeOf h k
  | (.put i j _, _) :: h, k =>
    if k = j then
      match (takenOf h)[i]? with
      | some (_, some r) => if Disabled h r then .dropped else .inside r
      | _ => .dropped
    else placeOf h k
  | (.pull i j, _) :: h, k =>
    if k = j ∧ ∃ r, On h i r ∧ ¬ Disabled h r then .outside else placeOf h k
  | (.dropHandle j, _) :: h, k => if k = j then .dropped else placeOf h k
  | (.forgetHandle j, _) :: h, k => if k = j then .forgotten else placeOf h k
  | (.take _, _) :: h, k => placeOf h k
  | (.dropSchema, _) :: h, k => placeOf h k

/-- The schema has the value. -/
def SchemaHas (h : List (NestCall Ty × NestAnswer)) (r : Nat) : Prop :=
  nestGone h = false ∧ ∃ t, lastRegOf (regsOf h) t = some r

/-- A value has a handle on another. -/
def Owns (h : List (NestCall Ty × NestAnswer)) (q r : Nat) : Prop := ∃ k, On h k r ∧ placeOf h k = .inside q

/-- The schema or the program has the value, or a forgotten handle. -/
def Rooted (h : List (NestCall Ty × NestAnswer)) (r : Nat) : Prop :=
  SchemaHas h r ∨ ∃ k, On h k r ∧ (placeOf h k = .outside ∨ placeOf h k = .forgotten)

/-- The value is to be destroyed: nobody has it but values that are to be destroyed. -/
inductive Lost (h : List (NestCall Ty × NestAnswer)) : Nat → Prop where
  | mk {r : Nat} : r < (regsOf h).length → ¬ Rooted h r → (∀ q, Owns h q r → Lost h q) → Lost h r

/-- A value has another, by way of others. -/
inductive OwnsFar (h : List (NestCall Ty × NestAnswer)) : Nat → Nat → Prop where
  | one {q r : Nat} : Owns h q r → OwnsFar h q r
  | more {p q r : Nat} : Owns h p q → OwnsFar h q r → OwnsFar h p r

/-- These calls, ending so, lead there from a new schema, and the process goes on. -/
inductive Leaves [Ord Ty] (D : Nat → Bool) : List (NestCall Ty × NestAnswer) → Nest Ty → Prop where
  | start : Leaves D [] Nest.start
  | call {h : List (NestCall Ty × NestAnswer)} {s s' : Nest Ty} {x : NestCall Ty} {a : NestAnswer} : Leaves D h s →
      s.step D x = some (a, s') → a ≠ .abort → Leaves D ((x, a) :: h) s'

end Plotline
