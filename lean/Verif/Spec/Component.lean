import Verif.Spec.Private

/-! # Components with an invariant

What the triggers of a component do to its own resources, as a function of what can be read, and when they restore an
invariant of those resources. -/

namespace Plotline

variable {σ : Sig}

/-- What can be read of the resources. -/
abbrev Readings (σ : Sig) := (t : σ.Ty) → Option (σ.Val t)

/-- What can be read of the resources of a schema. -/
def Schema.readings (S : Schema σ) : Readings σ := fun t => (S.env.resources.res t).peek S.heap

/-- The readings after one resource changed. -/
def Readings.put (m : Readings σ) (t : σ.Ty) (v : Option (σ.Val t)) : Readings σ := fun u => if h : t = u then h ▸ v else m u

/-- The program only reads its context and its target and reads and writes resources of the types `H`. It may return anything,
panic, or hang. -/
inductive Confined (H : σ.Ty → Prop) : Prog σ → Prop
  | done (r : Except Error σ.V) : Confined H (.done r)
  | panic : Confined H .panic
  | reenter : Confined H .reenter
  | get (i : σ.K) {k : Option σ.T → Prog σ} : (∀ a, Confined H (k a)) → Confined H (.get 0 i k)
  | contains (i : σ.K) {k : Bool → Prog σ} : (∀ a, Confined H (k a)) → Confined H (.contains 0 i k)
  | target {k : Option σ.T → Prog σ} : (∀ a, Confined H (k a)) → Confined H (.targetRead 0 k)
  | read {t : σ.Ty} {k : Option (σ.Val t) → Prog σ} : H t → (∀ a, Confined H (k a)) → Confined H (.resRead t k)
  | write {t : σ.Ty} {fn : σ.Val t → σ.Val t × Bool} {k : Bool → Prog σ} : H t → (∀ a, Confined H (k a)) →
      Confined H (.resWrite t fn k)

/-- How such a program ends and what can be read afterwards, if its context shows `look` and `has` and its target `target`. A
closure of `with_mut` that panics makes the resource unreadable. -/
def Prog.acts (look : σ.K → Option σ.T) (has : σ.K → Bool) (target : Option σ.T) :
    Prog σ → Readings σ → Out (Except Error σ.V) × Readings σ
  | .done r, m => (.ret r, m)
  | .panic, m => (.panic, m)
  | .get _ i k, m => (k (look i)).acts look has target m
  | .contains _ i k, m => (k (has i)).acts look has target m
  | .targetRead _ k, m => (k target).acts look has target m
  | .resRead t k, m => (k (m t)).acts look has target m
  | .resWrite t fn k, m =>
    match m t with
    | none => (k false).acts look has target m
    | some v =>
      if (fn v).2 then (.panic, m.put t none) else (k true).acts look has target (m.put t (some (fn v).1))
  | _, m => (.stuck, m)

/-- The same of triggers one after the other, up to the first that does not return `Ok`. -/
def actsAll (look : σ.K → Option σ.T) (has : σ.K → Bool) (target : Option σ.T) :
    List (Prog σ) → Readings σ → Out (Except Error Unit) × Readings σ
  | [], m => (.ret (.ok ()), m)
  | p :: ps, m =>
    match p.acts look has target m with
    | (.ret (.ok _), m') => actsAll look has target ps m'
    | (.ret (.error e), m') => (.ret (.error e), m')
    | (.panic, m') => (.panic, m')
    | (.stuck, m') => (.stuck, m')

/-- Triggers that, run one right after the other, restore the invariant, unless they hang. -/
def Restores (P : Readings σ → Prop) (b : List (Prog σ)) : Prop :=
  ∀ look has target m, P m → (actsAll look has target b m).1 ≠ .stuck → P (actsAll look has target b m).2

/-- A list of triggers made of triggers that have nothing to do with the types `H`, and of groups of triggers of a component
that restore its invariant. -/
inductive Grouped (H : σ.Ty → Prop) (P : Readings σ → Prop) : List (Prog σ) → Prop
  | nil : Grouped H P []
  | other {p : Prog σ} {l : List (Prog σ)} : p.Avoids H → Grouped H P l → Grouped H P (p :: l)
  | own {b l : List (Prog σ)} : (∀ p ∈ b, Confined H p) → Restores P b → Grouped H P l → Grouped H P (b ++ l)

/-- The invariant is about resources of the types `H` only. -/
def OnlyOf (H : σ.Ty → Prop) (P : Readings σ → Prop) : Prop := ∀ m m' : Readings σ, (∀ t, H t → m' t = m t) → P m → P m'

end Plotline
