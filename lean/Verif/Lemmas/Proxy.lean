import Verif.Lemmas.Graph
import Verif.Model.Proxy

/-! Helper lemmas about node proxies. -/

namespace Plotline

open Std

set_option linter.unusedSectionVars false

variable {K T E : Type} [Ord K] [TransOrd K] [BEq K] [LawfulBEqOrd K] [Identify T K]

namespace NodeProxy
variable [Identify E K] (edges : T → List E)

theorem step_id (p : NodeProxy K T) (src : Source K T) (c : Call) : (p.step edges src c).id = p.id := by
  cases c <;> simp only [step, clone, successors, tryDeref] <;> cases p.value <;> simp
  cases src.get p.id <;> simp
  rename_i v
  cases v <;> simp

theorem step_set (p : NodeProxy K T) (v : Option T) (hv : p.value = some v) (src : Source K T) (c : Call) :
    (p.step edges src c).value = some v := by
  cases c <;> simp only [step, clone, successors, tryDeref, hv]
  cases v <;> simp [hv]

theorem after_set (p : NodeProxy K T) (v : Option T) (hv : p.value = some v) (h : List (Source K T × Call)) :
    (p.after edges h).value = some v := by
  induction h generalizing p with
  | nil => exact hv
  | cons c t ih => exact ih _ (step_set edges p v hv c.1 c.2)

theorem after_id (p : NodeProxy K T) (h : List (Source K T × Call)) : (p.after edges h).id = p.id := by
  induction h generalizing p with
  | nil => rfl
  | cons c t ih => exact (ih _).trans (step_id edges p c.1 c.2)

theorem after_unset (k : K) (h : List (Source K T × Call)) (hh : ∀ c ∈ h, c.2 = .clone ∨ c.2 = .isVirtual) :
    ((new k : NodeProxy K T).after edges h) = new k := by
  induction h with
  | nil => rfl
  | cons c t ih =>
    have : (new k : NodeProxy K T).step edges c.1 c.2 = new k := by
      rcases hh c (by simp) with h | h <;> rw [h] <;> rfl
    simp only [after, List.foldl_cons, this]
    exact ih fun c hc => hh c (by simp [hc])

end NodeProxy

end Plotline
