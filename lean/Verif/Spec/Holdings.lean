import Verif.Model.Holdings

/-!
# Which resources should be destroyed, and when

In terms of what was called and how it ended, last call first.
-/

namespace Plotline

variable {Ty : Type} [DecidableEq Ty] {Val : Ty → Type}

/-- The types registered, last one first. -/
def typesOf : List (HoldCall Val × HoldAnswer Val) → List Ty
  | [] => []
  | (.register t _, _) :: h => t :: typesOf h
  | _ :: h => typesOf h

/-- The number of the last registration of a type; `ts` are the types registered, last one first. -/
def lastRegOf : List Ty → Ty → Option Nat
  | [], _ => none
  | u :: ts, t => if u = t then some ts.length else lastRegOf ts t

/-- The schema was dropped, or lost to a panic while registering. -/
def schemaGone : List (HoldCall Val × HoldAnswer Val) → Bool
  | [] => false
  | (.dropSchema, _) :: _ => true
  | (.register _ _, .panic) :: _ => true
  | _ :: h => schemaGone h

/-- The handles taken, first one first: their type, and the number of the registration they were taken from. -/
def handlesOf : List (HoldCall Val × HoldAnswer Val) → List (Ty × Option Nat)
  | [] => []
  | (.take t, _) :: h => handlesOf h ++ [(t, lastRegOf (typesOf h) t)]
  | _ :: h => handlesOf h

/-- The handle was dropped. -/
def HandleDropped (h : List (HoldCall Val × HoldAnswer Val)) (k : Nat) : Prop := ∃ a, (.dropHandle k, a) ∈ h

/-- The handle was forgotten. -/
def HandleForgotten (h : List (HoldCall Val × HoldAnswer Val)) (k : Nat) : Prop := ∃ a, (.forgetHandle k, a) ∈ h

/-- A handle on registration number `r` was not dropped. -/
def HandleOn (h : List (HoldCall Val × HoldAnswer Val)) (r : Nat) : Prop :=
  ∃ (k : Nat) (t : Ty), (handlesOf h)[k]? = some (t, some r) ∧ ¬ HandleDropped h k

/-- Something has the value of registration number `r`: the schema, if it is there and nothing of that type was registered since, or
a handle. -/
def Owned (h : List (HoldCall Val × HoldAnswer Val)) (r : Nat) : Prop :=
  (schemaGone h = false ∧ ∃ t, lastRegOf (typesOf h) t = some r) ∨ HandleOn h r

/-- The value of registration number `r`, as changed by closures since, and whether one of them panicked, after which no other
was called. -/
def valueOf : List (HoldCall Val × HoldAnswer Val) → Nat → Option (Dyn Val × Bool)
  | [], _ => none
  | (.register t v, _) :: h, r => if r = (typesOf h).length then some (⟨t, v⟩, false) else valueOf h r
  | (.write k t f, _) :: h, r =>
    match (handlesOf h)[k]? with
    | some (_, some p) =>
      if p = r then
        match valueOf h r with
        | some (d, false) =>
          match d.downcast t with
          | some v => some (⟨t, (f v).1⟩, (f v).2)
          | none => some (d, false)
        | x => x
      else valueOf h r
    | _ => valueOf h r
  | _ :: h, r => valueOf h r

/-- These calls, ending so, lead there from a new schema, and the process goes on. -/
inductive Keeps [Ord Ty] (D : Nat → Bool) : List (HoldCall Val × HoldAnswer Val) → Holdings Val → Prop where
  | start : Keeps D [] Holdings.start
  | call {h : List (HoldCall Val × HoldAnswer Val)} {s s' : Holdings Val} {x : HoldCall Val} {a : HoldAnswer Val} : Keeps D h s →
      s.step D x = some (a, s') → a ≠ .abort → Keeps D ((x, a) :: h) s'

/-- How many of the destructors that are run number `a`, …, number `b - 1` panic. -/
def panicsIn (D : Nat → Bool) (a b : Nat) : Nat := (List.range' a (b - a)).countP D

/-- The calls by which something may lose an owner. -/
def HoldCall.letsGo : HoldCall Val → Bool
  | .register _ _ | .dropHandle _ | .dropSchema => true
  | _ => false

/-- How often a destructor panics in a call that ends so: the second panic ends the process. -/
def HoldAnswer.Fits : HoldAnswer Val → Nat → Prop
  | .none, k => k = 0
  | .panic, k => k = 1
  | .abort, k => k = 2
  | _, _ => False

end Plotline
