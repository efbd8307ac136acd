import Verif.Model.Unwind

/-!
# Which panics disable a resource or a target

In terms of what happened so far.
-/

namespace Plotline

/-- A closure given the cell by `with_mut` was left by a panic, and the thread was not panicking when that call was made. -/
def Spoiled (tr : List Doing) (p : Nat) : Prop := .closed p true false true ∈ tr

/-- The cell was disabled from the start. -/
def SpoiledAt {V : Type} (cells : List (Latch V)) (p : Nat) : Prop := ∃ l, cells[p]? = some l ∧ l.poisoned = true

/-- The program has no values with destructors. -/
def Deed.Bare {V : Type} : Deed V → Prop
  | .skip | .panic | .poke _ _ => True
  | .seq a b | .choose _ _ a b | .access _ _ a b | .catching a b => a.Bare ∧ b.Bare
  | .guarded _ _ => False

/-- All destructors catch their panics. -/
def Deed.Careful {V : Type} : Deed V → Prop
  | .skip | .panic | .poke _ _ => True
  | .seq a b | .choose _ _ a b | .access _ _ a b | .catching a b => a.Careful ∧ b.Careful
  | .guarded d a => a.Careful ∧ d.Careful ∧ ∃ d', d = .catching d' .skip

/-- No closure uses what one around it has been given, or one of `held`, unless both only read it; `true`: given by `with_mut`. -/
def Deed.Apart {V : Type} : Deed V → List (Nat × Bool) → Prop
  | .skip, _ | .panic, _ | .poke _ _, _ => True
  | .seq a b, held | .choose _ _ a b, held | .catching a b, held | .guarded a b, held => a.Apart held ∧ b.Apart held
  | .access p excl a b, held => (∀ x, (p, x) ∈ held → excl = false ∧ x = false) ∧ a.Apart ((p, excl) :: held) ∧ b.Apart held

end Plotline
