import Verif.Spec.Private

/-! # Several components that keep to themselves

`owner` says which component a resource type belongs to, if any. -/

namespace Plotline

variable {σ : Sig} {ι : Type}

/-- The resource types of a component. -/
def OwnedBy (owner : σ.Ty → Option ι) (i : ι) (t : σ.Ty) : Prop := owner t = some i

/-- The use is by component `i`, which keeps to itself, and has nothing to do with the resources of other components. -/
def Use.PrivateTo (owner : σ.Ty → Option ι) (N : σ.Ty → Prop) (i : ι) (u : Use σ) : Prop :=
  u.Private (OwnedBy owner i) N ∧ ∀ j, j ≠ i → u.Avoids (OwnedBy owner j)

/-- The use is by the rest of the program, which has nothing to do with the resources of components, or by a component. -/
def Use.Settled (owner : σ.Ty → Option ι) (N : σ.Ty → Prop) (u : Use σ) : Prop :=
  (∀ i, u.Avoids (OwnedBy owner i)) ∨ ∃ i, u.PrivateTo owner N i

/-- The second list has the same elements as the first, and neighbours that are uses by different components may have changed
places, any number of times. -/
inductive Reordered (owner : σ.Ty → Option ι) (N : σ.Ty → Prop) {α : Type} (use : α → Use σ) : List α → List α → Prop
  | same (l : List α) : Reordered owner N use l l
  | swap {i j : ι} (hne : i ≠ j) (l1 l2 : List α) {x y : α} (hx : (use x).PrivateTo owner N i) (hy : (use y).PrivateTo owner N j) :
      Reordered owner N use (l1 ++ x :: y :: l2) (l1 ++ y :: x :: l2)
  | trans {l1 l2 l3 : List α} : Reordered owner N use l1 l2 → Reordered owner N use l2 l3 → Reordered owner N use l1 l3

end Plotline
