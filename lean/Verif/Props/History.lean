import Verif.Lemmas.History
import Verif.Props.ResLocality

/-! # C74: resources hold what was done to them, in order -/

namespace Plotline

set_option linter.unusedSectionVars false

variable {σ : Sig}

/-- C74: after a transaction each resource reads as what the calls made during it left in it, in the order they were made, whoever
made them and however the transaction, its subtransactions and triggers ended. -/
theorem C74_history [LawfulSig σ] (S S' : Schema σ) (hS : Made S) (fuel : Nat) (pre : List (Operation σ.K σ.T)) (body : Prog σ)
    (out : Out (Except Error σ.V)) (h : S.transact fuel pre body = some (out, S')) (hout : out ≠ .stuck) :
    ∃ as s, Conf.Acts S.env ⟨.run [0] body, [], S.begin pre⟩ as ⟨.back out, [], s⟩ ∧
      ∀ t, (S'.env.resources.res t).peek S'.heap = afterActs S.env t as ((S.env.resources.res t).peek S.heap) := by
  obtain ⟨s, he, henv, hheap, _⟩ := transact_some h
  have hst := eval_steps S.env fuel [0] body (S.begin pre) s out [] he hout
  obtain ⟨as, ha⟩ := hst.acts (fun e => hout (by cases e; rfl))
  refine ⟨as, s, ha, fun t => ?_⟩
  rw [henv, hheap]
  exact acts_peek (C62_own_cells S hS) ha (made_inHeap hS) t

/-- C74: a read answers with what all calls made so far in the transaction left. -/
theorem C74_read [LawfulSig σ] (S : Schema σ) (hS : Made S) (pre : List (Operation σ.K σ.T)) (body : Prog σ) (as : List (ResAct σ))
    (env : List Nat) (t : σ.Ty) (k : Option (σ.Val t) → Prog σ) (K : List (Kont σ)) (s : St σ) (c : Conf σ)
    (h : Conf.Acts S.env ⟨.run [0] body, [], S.begin pre⟩ as ⟨.run env (.resRead t k), K, s⟩)
    (hc : Conf.step S.env ⟨.run env (.resRead t k), K, s⟩ = some c) (hns : c.control ≠ .back .stuck) :
    c = ⟨.run env (k (afterActs S.env t as ((S.env.resources.res t).peek S.heap))), K, s⟩ := by
  have : (S.env.resources.res t).peek s.heap = afterActs S.env t as ((S.env.resources.res t).peek S.heap) :=
    acts_peek (C62_own_cells S hS) h (made_inHeap hS) t
  simp only [Conf.step] at hc
  split at hc
  · cases hc; exact absurd rfl hns
  · cases hc
    rw [this]

/-- C74: a closure of `with` or `with_mut` that makes other calls is given that value too; it is not called if there is none. -/
theorem C74_scope [LawfulSig σ] (S : Schema σ) (hS : Made S) (pre : List (Operation σ.K σ.T)) (body : Prog σ) (as : List (ResAct σ))
    (env : List Nat) (t : σ.Ty) (excl : Bool) (f : σ.Val t → Prog σ) (k : Option (Except Error σ.V) → Prog σ) (K : List (Kont σ))
    (s : St σ) (c : Conf σ)
    (h : Conf.Acts S.env ⟨.run [0] body, [], S.begin pre⟩ as ⟨.run env (.resScope t excl f k), K, s⟩)
    (hc : Conf.step S.env ⟨.run env (.resScope t excl f k), K, s⟩ = some c) (hns : c.control ≠ .back .stuck) :
    (∀ v, afterActs S.env t as ((S.env.resources.res t).peek S.heap) = some v → c.control = .run env (f v)) ∧
    (afterActs S.env t as ((S.env.resources.res t).peek S.heap) = none → c.control = .run env (k none)) := by
  have : (S.env.resources.res t).peek s.heap = afterActs S.env t as ((S.env.resources.res t).peek S.heap) :=
    acts_peek (C62_own_cells S hS) h (made_inHeap hS) t
  rw [← this]
  simp only [Conf.step] at hc
  split at hc
  · rename_i hl
    have : (S.env.resources.res t).peek s.heap = none := by simp [Res.peek, hl]
    cases hc
    exact ⟨fun v hv => absurd (this.symm.trans hv) (by simp), fun _ => rfl⟩
  · split at hc
    · cases hc; exact absurd rfl hns
    · split at hc
      · rename_i hp
        cases hc
        exact ⟨fun v hv => absurd (hp.symm.trans hv) (by simp), fun _ => rfl⟩
      · rename_i v hp
        cases hc
        refine ⟨fun w hw => ?_, fun hn => absurd (hp.symm.trans hn) (by simp)⟩
        rw [Option.some.inj (hp.symm.trans hw)]

/-- C74: a resource nobody can read, because a closure of `with_mut` on it panicked, stays so: during the transaction… -/
theorem C74_lost [LawfulSig σ] (S : Schema σ) (hS : Made S) (pre : List (Operation σ.K σ.T)) (body : Prog σ)
    (as as' : List (ResAct σ)) (c c' : Conf σ) (t : σ.Ty) (h : Conf.Acts S.env ⟨.run [0] body, [], S.begin pre⟩ as c)
    (h' : Conf.Acts S.env c as' c') (hn : (S.env.resources.res t).peek c.st.heap = none) :
    (S.env.resources.res t).peek c'.st.heap = none := by
  obtain ⟨h1, h2⟩ := acts_held (C62_own_cells S hS) h (made_inHeap hS) (begin_held S pre body)
  exact acts_lost (C62_own_cells S hS) h' h1 h2 t hn

/-- C74: … and after it, and in all later ones. -/
theorem C74_stays_lost [LawfulSig σ] (S S' : Schema σ) (hS : Made S) (fuel : Nat) (pre : List (Operation σ.K σ.T)) (body : Prog σ)
    (out : Out (Except Error σ.V)) (h : S.transact fuel pre body = some (out, S')) (hout : out ≠ .stuck) (t : σ.Ty)
    (hn : (S.env.resources.res t).peek S.heap = none) : (S'.env.resources.res t).peek S'.heap = none := by
  obtain ⟨s, he, henv, hheap, _⟩ := transact_some h
  have hst := eval_steps S.env fuel [0] body (S.begin pre) s out [] he hout
  obtain ⟨as, ha⟩ := hst.acts (fun e => hout (by cases e; rfl))
  rw [henv, hheap]
  exact C74_lost S hS pre body [] as _ _ t (.refl _) ha hn

/-! A subtransaction that fails after it doubled 5; the transaction then assigns 6 from what it reads in 5 and fails, too. -/

def doubling : Prog demo :=
  .resWrite 5 (fun v : Nat => (v + 1, false)) fun _ =>
  .tx 0 (.resWrite 5 (fun v : Nat => (v * 2, false)) fun _ => .done (.error .noop)) fun _ =>
  .resRead 5 fun a : Option Nat =>
  .resScope 6 true (fun v : Nat => .resAssign (6 : Nat) (v + a.getD 0 : Nat) (.done (.ok ()))) fun _ => .done (.error .noop)

example : (threeRes.transact 20 [] doubling).map readThree = some (.ret (.error .noop), some 10, some 42, some 72) := by decide +kernel

/-- The acts of `n` steps. -/
def Conf.acts (E : Env σ) : Nat → Conf σ → List (ResAct σ)
  | 0, _ => []
  | n + 1, c => c.act.toList ++ match c.step E with
    | none => []
    | some c' => Conf.acts E n c'

example : (Conf.acts threeRes.env 20 ⟨.run [0] doubling, [], threeRes.begin []⟩).map (fun a => match a with
    | .wrote t _ => (0, t) | .assigned t x => ((x : Nat), t) | .unwound p => (1, p)) = [((0 : Nat), (5 : Nat)), (0, 5), (72, 6)] := by
  decide +kernel

/-- For `C74_lost`: a trigger that panics in `with_mut`, caught; later writes find nothing. -/
def spoiling : Prog demo :=
  .catchUnwind (.resScope 6 true (fun _ : Nat => .resAssign (6 : Nat) (1 : Nat) .panic) fun _ => .done (.ok ())) fun _ =>
  .resWrite 6 (fun v : Nat => (v + 1, false)) fun _ => .resRead 6 fun a : Option Nat =>
  .resWrite 5 (fun v : Nat => (v + a.getD 1, false)) fun _ => .done (.ok ())

example : (threeRes.transact 20 [] spoiling).map readThree = some (.ret (.ok ()), some 10, some 21, none) := by decide +kernel

end Plotline
