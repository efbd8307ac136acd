import Verif.Spec.Scopes

/-! # What was done to resources, in order -/

namespace Plotline

variable {σ : Sig}

/-- One thing done to a resource. -/
inductive ResAct (σ : Sig) where
  /-- `with_mut` with this closure, which leaves a value and says whether it panics. -/
  | wrote (t : σ.Ty) (f : σ.Val t → σ.Val t × Bool)
  /-- An assignment inside a closure of `with_mut` that makes other calls. -/
  | assigned (t : σ.Ty) (x : σ.Val t)
  /-- A panic left a closure of `with_mut` on the resource in this cell. -/
  | unwound (p : Nat)

/-- What there is to read of the resource of type `t` after the act, given what there was before; nothing once a closure of
`with_mut` on it panicked. -/
def ResAct.on (E : Env σ) (t : σ.Ty) : ResAct σ → Option (σ.Val t) → Option (σ.Val t)
  | .wrote u f, v =>
    if h : u = t then h ▸ ((show Option (σ.Val u) from h ▸ v).bind fun x => if (f x).2 then none else some (f x).1) else v
  | .assigned u x, v => if h : u = t then some (h ▸ x) else v
  | .unwound p, v => if (E.resources.res t).lock = some p then none else v

/-- The act is on the resource of type `t`. -/
def ResAct.About (E : Env σ) (t : σ.Ty) : ResAct σ → Prop
  | .wrote u _ => u = t
  | .assigned u _ => u = t
  | .unwound p => (E.resources.res t).lock = some p

/-- What the next step, unless it waits for ever, does to resources. -/
def Conf.act : Conf σ → Option (ResAct σ)
  | ⟨.run _ (.resWrite t f _), _, _⟩ => some (.wrote t f)
  | ⟨.run _ (.resAssign t x _), _, _⟩ => some (.assigned t x)
  | ⟨.back .panic, .resScope p true _ _ :: _, _⟩ => some (.unwound p)
  | _ => none

/-- An execution from one moment to another, and what it does to resources on the way, in order. -/
inductive Conf.Acts (E : Env σ) : Conf σ → List (ResAct σ) → Conf σ → Prop
  | refl (c : Conf σ) : Acts E c [] c
  | head {c c' c'' : Conf σ} {as : List (ResAct σ)} : c.step E = some c' → c'.control ≠ .back .stuck → Acts E c' as c'' →
      Acts E c (c.act.toList ++ as) c''

/-- What is left of a resource that held `v` by these acts, one after another. -/
def afterActs (E : Env σ) (t : σ.Ty) (as : List (ResAct σ)) (v : Option (σ.Val t)) : Option (σ.Val t) :=
  as.foldl (fun v a => a.on E t v) v

end Plotline
