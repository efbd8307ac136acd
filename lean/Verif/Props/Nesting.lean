import Verif.Lemmas.Copy
import Verif.Spec.Fixtures

/-! # Properties C14, C15: what nesting means -/

namespace Plotline

open Std

set_option linter.unusedSectionVars false

variable {σ : Sig}

/-! ## C15 -/

/-- C15: a transaction whose closure and triggers use only their own contexts gives, for every amount of fuel, the result,
graph contents and resources that copying the parent's map, running on the copy, and replacing or discarding gives, whatever was
registered on it before. -/
theorem C15_copy_run_replace [LawfulSig σ] (S : Schema σ) (hS : S.graph.Reachable) (fuel : Nat) (pre : List (Operation σ.K σ.T))
    (body : Prog σ)
    (hbody : body.Every Prog.Own) (htr : S.env.Every Prog.Own) :
    (S.transact fuel pre body).map (fun r => (r.1, r.2.guard.get, r.2.heap)) =
      copyTransact S.env fuel pre body S.guard.get S.heap := by
  have e : ∀ S : Schema σ, S.guard = S.graph := fun S => by unfold Schema.guard; split <;> rfl
  have hsim := eval_sim S.env htr fuel [] 0 none body _ _ hbody (begin_sim S pre)
  unfold Schema.transact copyTransact
  rw [e]
  simp only [Option.bind_eq_bind]
  match h1 : eval S.env fuel [0] body (S.begin pre),
      h2 : copyRun S.env fuel body { map := FMap.applyAll S.graph.get pre, issued := pre, target := none, heap := S.heap, inUse := [] } with
  | none, none => rfl
  | none, some _ => rw [h1, h2] at hsim; exact hsim.elim
  | some (_, _), none => rw [h1, h2] at hsim; exact hsim.elim
  | some (o, s), some (o', v) =>
    rw [h1, h2] at hsim
    obtain ⟨rfl, hs, ho⟩ := hsim
    have hgr : s.graph = S.graph := (root_after h1).1
    rcases o with (x | a) | _ | _
    · simp [e, hgr, hs.heap]
    · simp only [Option.map_some, Option.bind_some, Option.some.injEq, Prod.mk.injEq, true_and, e]
      refine ⟨?_, hs.heap⟩
      have hf := hs.frame
      simp only [commitRoot, hf, Bool.false_eq_true, if_false]
      rw [← hs.map, ctxGet_applyAll_root hf rfl, hgr]
      exact get_commit S.graph hS.valid _
    · simp [e, hgr, hs.heap]
    · simp [e, hgr, hs.heap]

/-- C15 inside an open transaction: started in any context `f` of any state, a program that uses only its own context does
what it does on a private copy of the whole map `f` reads, in result, reading of `f`, and resources. -/
theorem C15_any_context [LawfulSig σ] {g : Graph σ.K σ.T} (E : Env σ) (htr : E.Every Prog.Own) (fuel : Nat) (env : List Nat)
    (f : Nat) (p : Prog σ) (hp : p.Every Prog.Own) (s : St σ) (hs : Reachable g s) (fr : Frame σ.K σ.T)
    (hf : s.frames[f]? = some fr) (hl : fr.leaked = false) :
    (eval E fuel (f :: env) p s).map (fun r => (r.1, ctxGet r.2.graph r.2.frames f, r.2.heap)) =
      (copyRun E fuel p
          { map := ctxGet s.graph s.frames f, issued := fr.ops, target := fr.target, heap := s.heap, inUse := s.locks }).map
        (fun r => (r.1, r.2.map, r.2.heap)) := by
  have hsim : Sim s f fr.parent
      { map := ctxGet s.graph s.frames f, issued := fr.ops, target := fr.target, heap := s.heap, inUse := s.locks } :=
    ⟨hs.wf, by rw [hf, ← hl], rfl, rfl, rfl⟩
  have h := eval_sim E htr fuel env f fr.parent p s _ hp hsim
  match h1 : eval E fuel (f :: env) p s, h2 : copyRun E fuel p
      { map := ctxGet s.graph s.frames f, issued := fr.ops, target := fr.target, heap := s.heap, inUse := s.locks } with
  | none, none => rfl
  | none, some _ => rw [h1, h2] at h; exact h.elim
  | some (_, _), none => rw [h1, h2] at h; exact h.elim
  | some (o, s'), some (o', v) =>
    rw [h1, h2] at h
    obtain ⟨rfl, hs', _⟩ := h
    simp [hs'.map, hs'.heap]

/-- A body with a failing and a succeeding subtransaction, reads in between, and a Save operation with triggers. -/
def nestedBody : Prog demo :=
  .save 0 ⟨3, 30⟩ <|
  .tx 0 (.delete 0 1 (.delete 0 3 (.done (.error .noop)))) fun _ =>
  .get 0 1 fun a =>
  .tx 0 (.delete 0 2 (.tx 0 (.save 0 ⟨2, 22⟩ (.done (.ok ()))) fun _ => .done (.ok ()))) fun _ =>
  .saveOp 0 ⟨4, 40⟩ fun _ => if a.isSome then .done (.ok ()) else .panic

/-- A schema with a trigger that records every saved document's id plus 100 in a subtransaction. -/
def recordingSchema : Schema demo :=
  (Schema.fromGraph (σ := demo) (Graph.fromIter ([⟨1, 10⟩, ⟨2, 20⟩] : List Doc))).withTrigger .afterSave <|
    .targetRead 0 fun
      | none => .done (.ok ())
      | some n => .tx 0 (.save 0 ⟨n.key + 100, 0⟩ (.done (.ok ()))) fun _ => .done (.ok ())

example : nestedBody.Every Prog.Own := by
  unfold nestedBody Prog.saveOp saveBody saveAfter
  simp only [Prog.Every, Prog.Own, true_and, implies_true]
  intro _ a _
  refine ⟨?_, ?_⟩
  · rintro (_ | _)
    · trivial
    · refine ⟨rfl, ?_⟩
      rintro (_ | _)
      · exact ⟨rfl, by rintro (_ | _) <;> trivial⟩
      · exact ⟨rfl, rfl, by rintro (_ | _) <;> trivial⟩
  · intro _; split <;> trivial

example : recordingSchema.env.Every Prog.Own := by
  intro s ts h t ht
  cases s <;> cases h
  simp only [List.mem_singleton] at ht
  subst ht
  refine ⟨rfl, ?_⟩
  rintro (_ | n)
  · trivial
  · exact ⟨rfl, ⟨rfl, trivial⟩, fun _ => trivial⟩

example : (recordingSchema.transact 30 [] nestedBody).map (fun r => (r.1, r.2.graph.iter)) =
    some (.ret (.ok ()), [⟨1, 10⟩, ⟨2, 22⟩, ⟨3, 30⟩, ⟨4, 40⟩, ⟨104, 0⟩]) := by decide +kernel

/-- The same with operations registered before the closure ran: the closure reads them and they are committed with its own. -/
example : (recordingSchema.transact 30 [.delete 1, .save ⟨1, 11⟩, .save ⟨2, 21⟩, .save ⟨5, 50⟩] nestedBody).map
      (fun r => (r.1, r.2.graph.iter)) =
    some (.ret (.ok ()), [⟨1, 11⟩, ⟨2, 22⟩, ⟨3, 30⟩, ⟨4, 40⟩, ⟨5, 50⟩, ⟨104, 0⟩]) ∧
    (recordingSchema.transact 30 [.delete 1] nestedBody).map (fun r => (r.1, r.2.graph.iter)) =
      some (.panic, [⟨1, 10⟩, ⟨2, 20⟩]) := by decide +kernel

/-! ## C14 -/

/-- C14: a transaction of any closure and triggers that use only their own contexts changes the graph exactly as the
operations issued in program order do, a committed subtransaction contributing at its commit and a failed one nothing
(`issued`, computed without any context tree by `copyRun`). Operations registered before the closure runs (`pre`) come first. -/
theorem C14_replay [LawfulSig σ] (S S' : Schema σ) (hS : S.graph.Reachable) (fuel : Nat) (pre : List (Operation σ.K σ.T)) (body : Prog σ) (a : σ.V)
    (hbody : body.Every Prog.Own) (htr : S.env.Every Prog.Own)
    (h : S.transact fuel pre body = some (.ret (.ok a), S')) :
    ∃ v, copyRun S.env fuel body
          { map := FMap.applyAll S.guard.get pre, issued := pre, target := none, heap := S.heap, inUse := [] } = some (.ret (.ok a), v) ∧
      S'.graph = S.graph.commit v.issued ∧ S'.guard.get = FMap.applyAll S.guard.get v.issued := by
  have e : ∀ S : Schema σ, S.guard = S.graph := fun S => by unfold Schema.guard; split <;> rfl
  obtain ⟨s, he, _, _, hok, _⟩ := transact_some h
  have hsim := eval_sim S.env htr fuel [] 0 none body _ _ hbody (begin_sim S pre)
  rw [he] at hsim
  rw [e, e]
  match h2 : copyRun S.env fuel body { map := FMap.applyAll S.graph.get pre, issued := pre, target := none, heap := S.heap, inUse := [] } with
  | none => rw [h2] at hsim; exact hsim.elim
  | some (o', v) =>
    rw [h2] at hsim
    obtain ⟨rfl, hs, _⟩ := hsim
    have hgr : s.graph = S.graph := (root_after he).1
    have hfin : S'.graph = S.graph.commit v.issued := by
      rw [hok ⟨a, rfl⟩]; simp [commitRoot, hs.frame, hgr]
    exact ⟨v, rfl, hfin, by rw [hfin]; exact get_commit S.graph hS.valid _⟩

/-- C14 for static scripts of saves, deletes and nested succeeding or failing subtransactions, on any schema: with enough
fuel the transaction returns the closure's result, and a success applies exactly what was registered before and then the flattened script. -/
theorem C14_script [LawfulSig σ] (S : Schema σ) (hS : S.graph.Reachable) (pre : List (Operation σ.K σ.T)) (sc : Script σ.K σ.T)
    (r : Except Error σ.V) (fuel : Nat) (hf : sc.cost ≤ fuel) :
    ∃ S', S.transact fuel pre (sc.closure r) = some (.ret r, S') ∧
      S'.guard.get = (match r with
        | .ok _ => FMap.applyAll S.guard.get (pre ++ sc.flatten)
        | .error _ => S.guard.get) := by
  have e : ∀ S : Schema σ, S.guard = S.graph := fun S => by unfold Schema.guard; split <;> rfl
  have he := eval_script S.env sc r fuel [] (S.begin pre) 0 (by simp [Schema.begin]) hf
  unfold Schema.transact
  rw [he]
  cases r with
  | error x => exact ⟨_, rfl, by rw [e, e]; show S.guard.get = _; rw [e]⟩
  | ok a =>
    refine ⟨_, rfl, ?_⟩
    rw [e, e]
    show (S.guard.commit (pre ++ sc.flatten)).get = _
    rw [e]
    exact get_commit S.graph hS.valid _

example : (Script.save ⟨3, 30⟩ (.sub (.delete 1 (.sub (.save ⟨9, 9⟩ .nil) true .nil)) false
    (.sub (.delete 2 (.save ⟨2, 21⟩ .nil)) true .nil)) : Script Nat Doc).flatten =
    [.save ⟨3, 30⟩, .delete 2, .save ⟨2, 21⟩] := by decide

end Plotline
