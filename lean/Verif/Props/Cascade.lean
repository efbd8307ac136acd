import Verif.Lemmas.Endless
import Verif.Lemmas.LawsEach
import Verif.Spec.Fixtures

/-! # C61: cascades of triggers -/

namespace Plotline

open Std

set_option linter.unusedSectionVars false

variable {σ : Sig}

/-- C61: if triggers only lead to triggers of schedulers ranked below their own, every transaction comes to an end, whatever its
closure does. -/
theorem C61_layered_ends (S : Schema σ) (h : S.env.Layered) (pre : List (Operation σ.K σ.T)) (body : Prog σ) :
    ∃ fuel r, S.transact fuel pre body = some r := by
  obtain ⟨out, s', fuel, hr⟩ := layered_ends h body [0] (S.begin pre)
  refine ⟨fuel, ?_⟩
  cases ht : S.transact fuel pre body with
  | none => rw [transact_none_iff, hr] at ht; cases ht
  | some r => exact ⟨r, rfl⟩

/-- C61: without triggers, in particular. -/
theorem C61_no_triggers (S : Schema σ) (h : ∀ s, S.env.fire s = []) (pre : List (Operation σ.K σ.T)) (body : Prog σ) :
    ∃ fuel r, S.transact fuel pre body = some r :=
  C61_layered_ends S ⟨fun _ => 0, fun s t ht => by rw [h s] at ht; cases ht⟩ pre body

/-- C61: with a trigger on Save that itself performs a Save, no Save ever comes to an end: a BeforeSave trigger reached because
those registered before it do not fail. -/
theorem C61_save_in_before_save (S : Schema σ) (pre post : List (Prog σ)) (m : σ.T) (k : Except Error σ.V → Prog σ)
    (hfire : S.env.fire .beforeSave = pre ++ Prog.saveOp 0 m k :: post) (hpre : ∀ t ∈ pre, NeverFails S.env t)
    (fuel : Nat) (n : σ.T) : S.save fuel n = none :=
  transact_none_iff.2 (save_in_before_diverges hfire hpre fuel 0 [] n _)

/-- C61: the same for an AfterSave trigger. -/
theorem C61_save_in_after_save (S : Schema σ) (pre post : List (Prog σ)) (m : σ.T) (k : Except Error σ.V → Prog σ)
    (hbefore : ∀ t ∈ S.env.fire .beforeSave, NeverFails S.env t)
    (hfire : S.env.fire .afterSave = pre ++ Prog.saveOp 0 m k :: post) (hpre : ∀ t ∈ pre, NeverFails S.env t)
    (fuel : Nat) (n : σ.T) : S.save fuel n = none :=
  transact_none_iff.2 (save_in_after_diverges hbefore hfire hpre fuel 0 [] n _)

/-- C61: with a BeforeDelete trigger that deletes a node of the graph, reached because those registered before it do not fail and
leave that node there, no Delete of any node of the graph comes to an end. -/
theorem C61_delete_in_before_delete [LawfulSig σ] (S : Schema σ) (pre post : List (Prog σ)) (j : σ.K)
    (k : Except Error σ.V → Prog σ) (hfire : S.env.fire .beforeDelete = pre ++ Prog.deleteOp 0 j k :: post)
    (hpre : ∀ t ∈ pre, NeverFails S.env t ∧ LosesNothing S.env t)
    (hj : S.guard.contains j = true) (i : σ.K) (hi : S.guard.contains i = true) (fuel : Nat) : S.delete fuel i = none := by
  rw [guard_eq] at hi hj
  refine transact_none_iff.2 (delete_in_before_diverges (g := S.graph) hfire hpre fuel 0 [] i _ (begin_reachable S [])
    (by simp [Schema.begin]) ?_ ?_) <;> rw [ctxGet_begin]
  · exact hi
  · exact hj

/-- C61: and no transaction whose closure gets to performing a Save, wherever, comes to an end, if one of the BeforeSave triggers
gets to performing a Save, in whatever way, and is reached because those registered before it do not fail. -/
theorem C61_gets_to_save_before (S : Schema σ) (ts post : List (Prog σ)) (t : Prog σ)
    (hfire : S.env.fire .beforeSave = ts ++ t :: post) (hts : ∀ u ∈ ts, NeverFails S.env u) (ht : GetsToSave S.env t)
    (pre : List (Operation σ.K σ.T)) (body : Prog σ)
    (hb : Conf.GetsToSave S.env ⟨.run [0] body, [], S.begin pre⟩) (fuel : Nat) : S.transact fuel pre body = none :=
  transact_endless (before_gets hfire hts ht) hb fuel

/-- C61: the same for an AfterSave trigger. -/
theorem C61_gets_to_save_after (S : Schema σ) (ts post : List (Prog σ)) (t : Prog σ)
    (hbefore : ∀ u ∈ S.env.fire .beforeSave, NeverFails S.env u)
    (hfire : S.env.fire .afterSave = ts ++ t :: post) (hts : ∀ u ∈ ts, NeverFails S.env u) (ht : GetsToSave S.env t)
    (pre : List (Operation σ.K σ.T)) (body : Prog σ)
    (hb : Conf.GetsToSave S.env ⟨.run [0] body, [], S.begin pre⟩) (fuel : Nat) : S.transact fuel pre body = none :=
  transact_endless (after_gets hbefore hfire hts ht) hb fuel

/-- C61: and no transaction whose closure gets to performing a Delete of a node that is there, wherever, comes to an end, if one of
the BeforeDelete triggers gets to performing such a Delete, in whatever way, whenever its target is there, and is reached because
those registered before it do not fail and leave their target there. -/
theorem C61_gets_to_delete_before [LawfulSig σ] (S : Schema σ) (ts post : List (Prog σ)) (t : Prog σ)
    (hfire : S.env.fire .beforeDelete = ts ++ t :: post)
    (hts : ∀ u ∈ ts, NeverFails S.env u ∧ LeavesTarget S.env S.graph u) (ht : GetsToDelete S.env S.graph t)
    (pre : List (Operation σ.K σ.T)) (body : Prog σ)
    (hb : Conf.GetsToDelete S.env ⟨.run [0] body, [], S.begin pre⟩) (fuel : Nat) : S.transact fuel pre body = none :=
  transact_endless_delete hfire hts ht hb fuel

/-- Deleting a node saves a copy elsewhere; saving counts in a resource. -/
def archive : Schema demo :=
  ((Schema.fromGraph (σ := demo) (Graph.fromIter [⟨1, 10⟩, ⟨2, 20⟩])).withResource (0 : Nat) (0 : Nat)).registered
    [(.afterDelete, Prog.saveOp 0 ⟨9, 90⟩ fun | .ok _ => .done (.ok ()) | .error e => .done (.error e)),
     (.afterSave, .resWrite (σ := demo) (0 : Nat) (fun v => (Nat.succ v, false)) fun _ => .done (.ok ()))]

example : archive.env.Layered := by
  refine ⟨fun | .afterDelete => 1 | _ => 0, fun s t ht => ?_⟩
  rw [archive, fire_registered _ rfl] at ht
  cases s <;> simp [scheduled] at ht
  · subst ht
    exact ⟨trivial, fun _ => trivial⟩
  · subst ht
    refine ⟨trivial, ?_, fun x => ?_⟩
    · refine ⟨trivial, Nat.zero_lt_one, fun x => ?_⟩
      cases x with
      | error => trivial
      | ok _ =>
        refine ⟨trivial, fun x => ?_⟩
        cases x with
        | none => exact ⟨Nat.zero_lt_one, fun x => by cases x <;> trivial⟩
        | some _ => exact ⟨trivial, Nat.zero_lt_one, fun x => by cases x <;> trivial⟩
    · cases x <;> trivial

example : ((archive.delete 30 (1 : Nat)).map fun r => (r.2.graph.iter, r.2.heap.map (·.val.2))) =
    some ([⟨2, 20⟩, ⟨9, 90⟩], [1]) := by decide +kernel

/-- A trigger that looks at the node cannot fail. -/
theorem touch_neverFails (E : Env demo) : NeverFails E (.targetRead (σ := demo) 0 fun _ => .done (.ok ())) := by
  rintro f s out s' ⟨fuel, h⟩
  match fuel, h with
  | 0, h => simp [eval] at h
  | 1, h => simp [eval] at h
  | fuel + 2, h => simp [eval] at h; exact ⟨(), h.1.symm⟩

/-- Every save also saves a log entry. -/
def logged : Schema demo :=
  (Schema.fromGraph (σ := demo) (Graph.fromIter [⟨1, 10⟩])).registered
    [(.beforeSave, .targetRead (σ := demo) 0 fun _ => .done (.ok ())),
     (.afterSave, Prog.saveOp 0 ⟨9, 90⟩ fun _ => .done (.ok ()))]

example (fuel : Nat) : logged.save fuel ⟨2, 20⟩ = none := by
  refine C61_save_in_after_save logged [] [] ⟨9, 90⟩ (fun _ => .done (.ok ())) ?_ ?_ (by simp) fuel _
  · rw [logged, fire_registered _ rfl]
    intro t ht
    simp [scheduled] at ht
    subst ht
    exact touch_neverFails _
  · rw [logged, fire_registered _ rfl]
    simp [scheduled]

/-- Saving first makes sure that node 9 exists. -/
example (fuel : Nat) : ((Schema.fromGraph (σ := demo) (Graph.fromIter [⟨1, 10⟩])).registered
    [(.beforeSave, .targetRead (σ := demo) 0 fun _ => .done (.ok ())),
     (.beforeSave, Prog.saveOp 0 ⟨9, 90⟩ fun _ => .done (.ok ()))]).save fuel ⟨2, 20⟩ = none := by
  refine C61_save_in_before_save _ [.targetRead (σ := demo) 0 fun _ => .done (.ok ())] [] ⟨9, 90⟩
    (fun _ => .done (.ok ())) ?_ ?_ fuel _
  · rw [fire_registered _ rfl]; simp [scheduled]
  · intro t ht
    simp at ht
    subst ht
    exact touch_neverFails _

/-- Before each save, looks at the node and, in a subtransaction, saves another. -/
def audit : Prog demo :=
  .targetRead (σ := demo) 0 fun _ => .tx 0 (Prog.saveOp 1 ⟨9, 90⟩ fun _ => .done (.ok ())) fun _ => .done (.ok ())

theorem audit_getsToSave (E : Env demo) : GetsToSave E audit := by
  intro f s
  exact ⟨_, 1, f, ⟨9, 90⟩, fun _ => .done (.ok ()), _, _, .head rfl (.head rfl (.refl _)), rfl⟩

/-- A closure that deletes node 1 and, a subtransaction deep, saves node 2. -/
example (fuel : Nat) : ((Schema.fromGraph (σ := demo) (Graph.fromIter [⟨1, 10⟩])).registered
    [(.beforeSave, .targetRead (σ := demo) 0 fun _ => .done (.ok ())), (.beforeSave, audit)]).transact fuel []
      (.delete (σ := demo) 0 (1 : Nat) (.tx 0 (Prog.saveOp 0 ⟨2, 20⟩ fun _ => .done (.ok ())) fun _ => .done (.ok ()))) = none := by
  refine C61_gets_to_save_before _ [.targetRead (σ := demo) 0 fun _ => .done (.ok ())] [] audit ?_ ?_ (audit_getsToSave _) _ _ ?_ fuel
  · rw [fire_registered _ rfl]; simp [scheduled]
  · intro t ht
    simp at ht
    subst ht
    exact touch_neverFails _
  · exact ⟨_, 0, _, ⟨2, 20⟩, fun _ => .done (.ok ()), _, _, .head rfl (.head rfl (.refl _)), rfl⟩

/-- The same closure, with the trigger after saves. -/
example (fuel : Nat) : ((Schema.fromGraph (σ := demo) (Graph.fromIter [⟨1, 10⟩])).registered [(.afterSave, audit)]).transact fuel []
      (.delete (σ := demo) 0 (1 : Nat) (.tx 0 (Prog.saveOp 0 ⟨2, 20⟩ fun _ => .done (.ok ())) fun _ => .done (.ok ()))) = none := by
  refine C61_gets_to_save_after _ [] [] audit ?_ ?_ (by simp) (audit_getsToSave _) _ _ ?_ fuel
  · rw [fire_registered _ rfl]; simp [scheduled]
  · rw [fire_registered _ rfl]; simp [scheduled]
  · exact ⟨_, 0, _, ⟨2, 20⟩, fun _ => .done (.ok ()), _, _, .head rfl (.head rfl (.refl _)), rfl⟩

/-- A closure that gets to no Save is not affected. -/
example : ((((Schema.fromGraph (σ := demo) (Graph.fromIter [⟨1, 10⟩])).registered [(.afterSave, audit)]).delete 30 (1 : Nat)).map
      fun r => (r.1, r.2.graph.iter)) = some (.ret (.ok ()), []) := by decide +kernel

/-- A trigger that looks at the node leaves everything there. -/
theorem touch_losesNothing (E : Env demo) : LosesNothing E (.targetRead (σ := demo) 0 fun _ => .done (.ok ())) := by
  rintro f s out s' i ⟨fuel, h⟩ hi
  match fuel, h with
  | 0, h => simp [eval] at h
  | 1, h => simp [eval] at h
  | fuel + 2, h => simp [eval] at h; rw [← h.2]; exact hi

/-- Deleting any node first looks at it and deletes node 2. -/
def purge : Schema demo :=
  (Schema.fromGraph (σ := demo) (Graph.fromIter [⟨1, 10⟩, ⟨2, 20⟩])).registered
    [(.beforeDelete, .targetRead (σ := demo) 0 fun _ => .done (.ok ())),
     (.beforeDelete, Prog.deleteOp 0 (2 : Nat) fun _ => .done (.ok ()))]

example (fuel : Nat) : purge.delete fuel (1 : Nat) = none := by
  refine C61_delete_in_before_delete purge [.targetRead (σ := demo) 0 fun _ => .done (.ok ())] [] (2 : Nat)
    (fun _ => .done (.ok ())) ?_ ?_ (by decide +kernel) (1 : Nat) (by decide +kernel) fuel
  · rw [purge, fire_registered _ rfl]
    simp [scheduled]
  · intro t ht
    simp at ht
    subst ht
    exact ⟨touch_neverFails _, touch_losesNothing _⟩

/-- A BeforeDelete trigger that sees to the deletion itself: it deletes its target in a subtransaction. -/
def eager : Prog demo :=
  .targetRead (σ := demo) 0 fun
    | none => .done (.ok ())
    | some n => .tx 0 (Prog.deleteOp 1 (id n) fun _ => .done (.ok ())) fun _ => .done (.ok ())

def eagerly : Schema demo :=
  (Schema.fromGraph (σ := demo) (Graph.fromIter [⟨1, 10⟩])).registered
    [(.beforeDelete, .targetRead (σ := demo) 0 fun _ => .done (.ok ())), (.beforeDelete, eager)]

theorem eager_getsToDelete : GetsToDelete eagerly.env eagerly.graph eager := by
  rintro f s hs hf ⟨i, n, hi, hn⟩
  have hid : id n = i := eq_of_beq (ctxGet_real (fun i n h => by rw [hs.graph] at h; exact BEq.symm (Graph.get_some_id _ (Graph.valid_fromIter _) h)) f hi)
  subst hid
  exact ⟨_, 1, f, id n, fun _ => .done (.ok ()), _, _, .head (by simp only [eager, Conf.step, List.getElem?_cons_zero, hn]; rfl)
    (.head rfl (.refl _)), rfl, by
      rw [ctxGet_below (fs' := (openChild s f).frames) hs.wf hf (fun a ha => by rw [openChild_below s f (by omega)])] <;> simp [openChild, hi]⟩

/-- A trigger that looks at the node leaves it there. -/
theorem touch_leavesTarget (E : Env demo) (g : Graph Nat Doc) : LeavesTarget E g (.targetRead (σ := demo) 0 fun _ => .done (.ok ())) := by
  rintro f s out s' _ _ ⟨fuel, h⟩ hi
  match fuel, h with
  | 0, h => simp [eval] at h
  | 1, h => simp [eval] at h
  | fuel + 2, h => simp [eval] at h; rw [← h.2]; exact hi

/-- A closure that saves node 2 as it is and, a subtransaction deep, deletes it. -/
example (fuel : Nat) : eagerly.transact fuel [] (.save (σ := demo) 0 ⟨2, 20⟩
    (.tx 0 (Prog.deleteOp 0 (2 : Nat) fun _ => .done (.ok ())) fun _ => .done (.ok ()))) = none := by
  refine C61_gets_to_delete_before eagerly [.targetRead (σ := demo) 0 fun _ => .done (.ok ())] [] eager ?_ ?_ eager_getsToDelete
    _ _ ?_ fuel
  · rw [eagerly, fire_registered _ rfl]; simp [scheduled]
  · intro t ht
    simp at ht
    subst ht
    exact ⟨touch_neverFails _, touch_leavesTarget _ _⟩
  · exact ⟨_, 0, _, (2 : Nat), fun _ => .done (.ok ()), _, _, .head rfl (.head rfl (.refl _)), rfl, by decide +kernel⟩

/-- A Delete of a node that is not there does not get to the triggers. -/
example : ((eagerly.delete 30 (2 : Nat)).map fun r => (r.1, r.2.graph.iter)) = some (.ret (.error .noop), [⟨1, 10⟩]) := by
  decide +kernel

/-- After a deletion, deleting the same node again is only an error, here ignored. -/
example : ((((Schema.fromGraph (σ := demo) (Graph.fromIter [⟨1, 10⟩, ⟨2, 20⟩])).registered
    [(.afterDelete, Prog.deleteOp 0 (2 : Nat) fun _ => .done (.ok ()))]).delete 30 (2 : Nat)).map
      fun r => (r.1, r.2.graph.iter)) = some (.ret (.ok ()), [⟨1, 10⟩]) := by decide +kernel

end Plotline
