import Verif.Lemmas.Ops
import Verif.Props.Transaction

/-! # Properties C22 to C30: the operations Save and Delete, and triggers -/

namespace Plotline

open Std

set_option linter.unusedSectionVars false

variable {σ : Sig}

/-! ## C22 -/

/-- C22: without triggers on save, `Save` returns `Ok` and changes the graph at the node's id and nowhere else. -/
theorem C22_save_exact [LawfulSig σ] (S : Schema σ) (hS : S.graph.Reachable) (n : σ.T)
    (hb : S.env.fire .beforeSave = []) (ha : S.env.fire .afterSave = []) :
    ∃ fuel0 S', (∀ fuel, fuel0 ≤ fuel → S.save fuel n = some (.ret (.ok σ.unit), S')) ∧
      (∀ q, S'.guard.get q = if q == id n then some n else S.guard.get q) ∧ S'.heap = S.heap := by
  have hr := runs_saveBody_quiet S.env 0 [] n (S.begin []) (by simp [Schema.begin]) hb ha
  obtain ⟨fuel0, h⟩ := transact_of_runs S hr
  refine ⟨fuel0, _, h, fun q => ?_, rfl⟩
  rw [guard_eq, guard_eq]
  have hc : commitRoot (pushOp (setTarget (S.begin []) 0 n) 0 (.save n)) = S.graph.commit [.save n] := by
    simp [commitRoot, pushOp, setTarget, Schema.begin, guard_eq]
  show (commitRoot (pushOp (setTarget (S.begin []) 0 n) 0 (.save n))).get q = _
  rw [hc, get_commit S.graph hS.valid]
  rfl

/-- C22, by what was registered: triggers on other schedulers do not matter. -/
theorem C22_other_triggers [LawfulSig σ] (S : Schema σ) (hS : S.graph.Reachable) (h0 : S.env.triggers = TriggerSet.empty)
    (regs : List (Sched × Prog σ)) (hr : ∀ r ∈ regs, r.1 ≠ .beforeSave ∧ r.1 ≠ .afterSave) (n : σ.T) :
    ∃ fuel0 S', (∀ fuel, fuel0 ≤ fuel → (S.registered regs).save fuel n = some (.ret (.ok σ.unit), S')) ∧
      (∀ q, S'.guard.get q = if q == id n then some n else S.guard.get q) ∧ S'.heap = S.heap := by
  obtain ⟨hg, hh⟩ := registered_graph S regs
  have := C22_save_exact (S.registered regs) (by rw [hg]; exact hS) n
    (by rw [fire_registered S h0]; exact scheduled_nil fun r h => (hr r h).1)
    (by rw [fire_registered S h0]; exact scheduled_nil fun r h => (hr r h).2)
  simpa only [guard_eq, hg, hh] using this

/-- C22 in an open transaction: without triggers on save, `Save` executed in any context at any depth returns `Ok` and
changes the reading of that context at the node's id and nowhere else. -/
theorem C22_in_context [LawfulSig σ] {g : Graph σ.K σ.T} (E : Env σ) (env : List Nat) (c f : Nat) (hc : env[c]? = some f)
    (n : σ.T) (k : Except Error σ.V → Prog σ) (s : St σ) (hs : Reachable g s) (hf : f < s.frames.length)
    (hb : E.fire .beforeSave = []) (ha : E.fire .afterSave = []) :
    ∃ s2, (∀ out s', Runs E env (.saveOp c n k) s out s' ↔ Runs E env (k (.ok σ.unit)) s2 out s') ∧
      (∀ q, ctxGet s2.graph s2.frames f q = if q == id n then some n else ctxGet s.graph s.frames f q) ∧
      s2.heap = s.heap ∧ s2.graph = s.graph := by
  have hl : s.frames.length < (openChild s f).frames.length := by simp [openChild]
  have hr := runs_saveBody_quiet E s.frames.length env n (openChild s f) hl hb ha
  have hreach : Reachable g (setTarget (openChild s f) s.frames.length n) := .setTarget _ _ (.openChild f hf hs)
  refine ⟨commitChild (pushOp (setTarget (openChild s f) s.frames.length n) s.frames.length (.save n)) s.frames.length,
    fun out s' => ?_, fun q => ?_, ?_, ?_⟩
  · unfold Prog.saveOp
    rw [runs_tx E hc]
    constructor
    · rintro ⟨o, s1, h1, h2⟩
      obtain ⟨rfl, rfl⟩ := hr.det h1
      exact h2
    · intro h; exact ⟨_, _, hr, h⟩
  · have hfr : (pushOp (setTarget (openChild s f) s.frames.length n) s.frames.length (.save n)).frames[s.frames.length]? =
        some ⟨some f, [.save n], some ⟨n, false⟩, false⟩ := by
      simp [pushOp, setTarget, openChild]
    rw [ctxGet_commit (hreach.push _ _).wf hfr rfl rfl (by simp [pushOp, setTarget, openChild])]
    rw [ctxGet_pushOp hreach (by simp [setTarget, openChild])]
    simp only [FMap.apply, FMap.put, ctxGet_setTarget, ctxGet_openChild hs hf]
  · rw [commitChild_heap]; rfl
  · rw [commitChild_graph]; rfl

example : demoSchema.env.fire .beforeSave = [] ∧ demoSchema.env.fire .afterSave = [] := by exact ⟨rfl, rfl⟩
example : demoSchema.graph.Reachable := .fromIter _
example : (demoSchema.save 10 ⟨2, 21⟩).map (fun r => (r.1, r.2.graph.iter)) =
    some (.ret (.ok ()), [⟨1, 10⟩, ⟨2, 21⟩]) := by decide +kernel

/-! ## C23 -/

/-- C23: without triggers on delete, `Delete` of a stored id returns `Ok` and removes exactly that id. -/
theorem C23_delete_present [LawfulSig σ] (S : Schema σ) (hS : S.graph.Reachable) (i : σ.K) (n : σ.T)
    (hi : S.guard.get i = some n) (hb : S.env.fire .beforeDelete = []) (ha : S.env.fire .afterDelete = []) :
    ∃ fuel0 S', (∀ fuel, fuel0 ≤ fuel → S.delete fuel i = some (.ret (.ok σ.unit), S')) ∧
      (∀ q, S'.guard.get q = if q == i then none else S.guard.get q) ∧ S'.heap = S.heap := by
  have hg : ctxGet (S.begin []).graph (S.begin []).frames 0 i = some n := by rw [ctxGet_begin, ← guard_eq]; exact hi
  have hr := runs_deleteBody_quiet S.env 0 [] i n (S.begin []) hg hb ha
  obtain ⟨fuel0, h⟩ := transact_of_runs S hr
  refine ⟨fuel0, _, h, fun q => ?_, rfl⟩
  rw [guard_eq, guard_eq]
  have hc : commitRoot (pushOp (setTarget (S.begin []) 0 n) 0 (.delete i)) = S.graph.commit [.delete i] := by
    simp [commitRoot, pushOp, setTarget, Schema.begin, guard_eq]
  show (commitRoot (pushOp (setTarget (S.begin []) 0 n) 0 (.delete i))).get q = _
  rw [hc, get_commit S.graph hS.valid]
  rfl

/-- C23, by what was registered: triggers on other schedulers do not matter. -/
theorem C23_other_triggers [LawfulSig σ] (S : Schema σ) (hS : S.graph.Reachable) (h0 : S.env.triggers = TriggerSet.empty)
    (regs : List (Sched × Prog σ)) (hr : ∀ r ∈ regs, r.1 ≠ .beforeDelete ∧ r.1 ≠ .afterDelete) (i : σ.K) (n : σ.T)
    (hi : S.guard.get i = some n) :
    ∃ fuel0 S', (∀ fuel, fuel0 ≤ fuel → (S.registered regs).delete fuel i = some (.ret (.ok σ.unit), S')) ∧
      (∀ q, S'.guard.get q = if q == i then none else S.guard.get q) ∧ S'.heap = S.heap := by
  obtain ⟨hg, hh⟩ := registered_graph S regs
  have := C23_delete_present (S.registered regs) (by rw [hg]; exact hS) i n (by rw [guard_eq, hg, ← guard_eq]; exact hi)
    (by rw [fire_registered S h0]; exact scheduled_nil fun r h => (hr r h).1)
    (by rw [fire_registered S h0]; exact scheduled_nil fun r h => (hr r h).2)
  simpa only [guard_eq, hg, hh] using this

/-- C23: whatever the triggers, `Delete` of an absent id returns `Err(Noop)`, changes nothing and fires nothing. -/
theorem C23_delete_absent [LawfulSig σ] (S : Schema σ) (i : σ.K) (hi : S.guard.get i = none) :
    ∃ fuel0, ∀ fuel, fuel0 ≤ fuel →
      ∃ S', S.delete fuel i = some (.ret (.error .noop), S') ∧ S'.guard = S.guard ∧ S'.heap = S.heap := by
  have hg : ctxGet (S.begin []).graph (S.begin []).frames 0 i = none := by rw [ctxGet_begin, ← guard_eq]; exact hi
  obtain ⟨fuel0, h⟩ := transact_of_runs_err S ((runs_deleteBody S.env 0 [] i (S.begin []) _ _).2 (.inl ⟨hg, rfl, rfl⟩))
  refine ⟨fuel0, fun fuel hle => ⟨_, h fuel hle, ?_, rfl⟩⟩
  rw [guard_eq, guard_eq]; exact begin_graph S []

/-- C23 in an open transaction, id present in the context. -/
theorem C23_in_context_present [LawfulSig σ] {g : Graph σ.K σ.T} (E : Env σ) (env : List Nat) (c f : Nat)
    (hc : env[c]? = some f) (i : σ.K) (n : σ.T) (k : Except Error σ.V → Prog σ) (s : St σ) (hs : Reachable g s)
    (hf : f < s.frames.length) (hi : ctxGet s.graph s.frames f i = some n)
    (hb : E.fire .beforeDelete = []) (ha : E.fire .afterDelete = []) :
    ∃ s2, (∀ out s', Runs E env (.deleteOp c i k) s out s' ↔ Runs E env (k (.ok σ.unit)) s2 out s') ∧
      (∀ q, ctxGet s2.graph s2.frames f q = if q == i then none else ctxGet s.graph s.frames f q) ∧
      s2.heap = s.heap ∧ s2.graph = s.graph := by
  have hg : ctxGet (openChild s f).graph (openChild s f).frames s.frames.length i = some n := by
    rw [ctxGet_openChild hs hf]; exact hi
  have hr := runs_deleteBody_quiet E s.frames.length env i n (openChild s f) hg hb ha
  have hreach : Reachable g (setTarget (openChild s f) s.frames.length n) := .setTarget _ _ (.openChild f hf hs)
  refine ⟨commitChild (pushOp (setTarget (openChild s f) s.frames.length n) s.frames.length (.delete i)) s.frames.length,
    fun out s' => ?_, fun q => ?_, ?_, ?_⟩
  · unfold Prog.deleteOp
    rw [runs_tx E hc]
    constructor
    · rintro ⟨o, s1, h1, h2⟩
      obtain ⟨rfl, rfl⟩ := hr.det h1
      exact h2
    · intro h; exact ⟨_, _, hr, h⟩
  · have hfr : (pushOp (setTarget (openChild s f) s.frames.length n) s.frames.length (.delete i)).frames[s.frames.length]? =
        some ⟨some f, [.delete i], some ⟨n, false⟩, false⟩ := by
      simp [pushOp, setTarget, openChild]
    rw [ctxGet_commit (hreach.push _ _).wf hfr rfl rfl (by simp [pushOp, setTarget, openChild])]
    rw [ctxGet_pushOp hreach (by simp [setTarget, openChild])]
    simp only [FMap.apply, FMap.del, ctxGet_setTarget, ctxGet_openChild hs hf]
  · rw [commitChild_heap]; rfl
  · rw [commitChild_graph]; rfl

/-- C23 in an open transaction, id absent from the context: the caller gets `Err(Noop)` in exactly the state it was in. -/
theorem C23_in_context_absent [LawfulSig σ] {g : Graph σ.K σ.T} (E : Env σ) (env : List Nat) (c f : Nat)
    (hc : env[c]? = some f) (i : σ.K) (k : Except Error σ.V → Prog σ) (s : St σ) (hs : Reachable g s)
    (hf : f < s.frames.length) (hi : ctxGet s.graph s.frames f i = none) (out : Out (Except Error σ.V)) (s' : St σ) :
    Runs E env (.deleteOp c i k) s out s' ↔ Runs E env (k (.error .noop)) s out s' := by
  have hg : ctxGet (openChild s f).graph (openChild s f).frames s.frames.length i = none := by
    rw [ctxGet_openChild hs hf]; exact hi
  have hr := (runs_deleteBody E s.frames.length env i (openChild s f) _ _).2 (.inl ⟨hg, rfl, rfl⟩)
  have hcl : closeChild (openChild s f) s.frames.length = s := by
    simp [closeChild, openChild]
  unfold Prog.deleteOp
  rw [runs_tx E hc]
  constructor
  · rintro ⟨o, s1, h1, h2⟩
    obtain ⟨rfl, rfl⟩ := hr.det h1
    simp only [hcl] at h2
    exact h2
  · intro h; exact ⟨_, _, hr, by simp only [hcl]; exact h⟩

example : (demoSchema.delete 10 2).map (fun r => (r.1, r.2.graph.iter)) = some (.ret (.ok ()), [⟨1, 10⟩]) ∧
    (demoSchema.delete 10 3).map (fun r => (r.1, r.2.graph.iter)) =
      some (.ret (.error .noop), [⟨1, 10⟩, ⟨2, 20⟩]) := by decide +kernel

/-! ## C24 -/

/-- C24: a `Save` on a schema, under any triggers, that does not return `Ok` leaves the graph identical. -/
theorem C24_save (S S' : Schema σ) (fuel : Nat) (n : σ.T) (out : Out (Except Error σ.V))
    (h : S.save fuel n = some (out, S')) (hfail : ∀ v, out ≠ .ret (.ok v)) : S'.guard = S.guard :=
  C12_failure_keeps_graph S S' fuel [] (saveBody n) out h hfail

/-- C24: likewise for `Delete`. -/
theorem C24_delete (S S' : Schema σ) (fuel : Nat) (i : σ.K) (out : Out (Except Error σ.V))
    (h : S.delete fuel i = some (out, S')) (hfail : ∀ v, out ≠ .ret (.ok v)) : S'.guard = S.guard :=
  C12_failure_keeps_graph S S' fuel [] (deleteBody i) out h hfail

/-- C24 in an open transaction: a `Save` executed in any context whose closure does not return `Ok` hands its error (or
panic) to the caller in a state where every enclosing context has the log, and reads, what it did before. -/
theorem C24_save_in_context {g : Graph σ.K σ.T} (E : Env σ) (fuel : Nat) (env : List Nat) (c f : Nat) (n : σ.T)
    (k : Except Error σ.V → Prog σ) (s s1 : St σ) (out : Out (Except Error σ.V)) (hs : Reachable g s)
    (henv : ∀ e ∈ env, e < s.frames.length) (hc : env[c]? = some f)
    (h : eval E fuel (s.frames.length :: env) (saveBody n) (openChild s f) = some (out, s1))
    (hfail : ∀ v, out ≠ .ret (.ok v)) :
    ∃ s2, ((∃ e, out = .ret (.error e) ∧ eval E (fuel + 1) env (.saveOp c n k) s = eval E fuel env (k (.error e)) s2) ∨
        ((out = .panic ∨ out = .stuck) ∧ eval E (fuel + 1) env (.saveOp c n k) s = some (out, s2))) ∧
      s2.frames.length = s.frames.length ∧
      (∀ a : Nat, (s2.frames[a]?).map Frame.ops = (s.frames[a]?).map Frame.ops) ∧
      (∀ a i, a < s.frames.length → ctxGet s2.graph s2.frames a i = ctxGet s.graph s.frames a i) :=
  C11_failure_leaves_no_trace E fuel env c f (saveBody n) k s s1 out hs henv hc (saveBody_writes n) h hfail

/-- C24 in an open transaction, for `Delete`. -/
theorem C24_delete_in_context {g : Graph σ.K σ.T} (E : Env σ) (fuel : Nat) (env : List Nat) (c f : Nat) (i : σ.K)
    (k : Except Error σ.V → Prog σ) (s s1 : St σ) (out : Out (Except Error σ.V)) (hs : Reachable g s)
    (henv : ∀ e ∈ env, e < s.frames.length) (hc : env[c]? = some f)
    (h : eval E fuel (s.frames.length :: env) (deleteBody i) (openChild s f) = some (out, s1))
    (hfail : ∀ v, out ≠ .ret (.ok v)) :
    ∃ s2, ((∃ e, out = .ret (.error e) ∧ eval E (fuel + 1) env (.deleteOp c i k) s = eval E fuel env (k (.error e)) s2) ∨
        ((out = .panic ∨ out = .stuck) ∧ eval E (fuel + 1) env (.deleteOp c i k) s = some (out, s2))) ∧
      s2.frames.length = s.frames.length ∧
      (∀ a : Nat, (s2.frames[a]?).map Frame.ops = (s.frames[a]?).map Frame.ops) ∧
      (∀ a i, a < s.frames.length → ctxGet s2.graph s2.frames a i = ctxGet s.graph s.frames a i) :=
  C11_failure_leaves_no_trace E fuel env c f (deleteBody i) k s s1 out hs henv hc (deleteBody_writes i) h hfail

/-- A schema with four triggers: one before and one after each of save and delete. Saving `⟨1, b⟩` is vetoed after the
node has been registered and a subtransaction of a trigger has committed. -/
def vetoSchema : Schema demo := demoSchema.registered
  [(.beforeSave, .tx 0 (.save 0 ⟨50, 5⟩ (.done (.ok ()))) fun r => .done r),
   (.afterSave, .targetRead 0 fun n => if n.map Doc.key = some 1 then .done (.error (.msg "veto")) else .done (.ok ())),
   (.beforeDelete, .targetWrite 0 (fun _ => (⟨99, 0⟩, false)) fun _ => .done (.ok ())),
   (.afterDelete, .get 0 2 fun | some _ => .done (.ok ()) | none => .panic)]

example : (vetoSchema.save 20 ⟨1, 11⟩).map (fun r => (r.1, r.2.graph.iter)) =
    some (.ret (.error (.msg "veto")), [⟨1, 10⟩, ⟨2, 20⟩]) := by decide +kernel
example : (vetoSchema.save 20 ⟨3, 30⟩).map (fun r => (r.1, r.2.graph.iter)) =
    some (.ret (.ok ()), [⟨1, 10⟩, ⟨2, 20⟩, ⟨3, 30⟩, ⟨50, 5⟩]) := by decide +kernel
example : (vetoSchema.delete 20 2).map (fun r => (r.1, r.2.graph.iter)) =
    some (.panic, [⟨1, 10⟩, ⟨2, 20⟩]) := by decide +kernel

/-! ## C25 -/

/-- C25: executing a scheduler on context `f`, in a schema whose triggers are the registrations `regs`, fires exactly the
triggers registered under that scheduler in registration order: each once, starting where the one before ended; the first
failure ends the firing and is the result. -/
theorem C25_registration_order (S : Schema σ) (h0 : S.env.triggers = TriggerSet.empty) (regs : List (Sched × Prog σ))
    (env : List Nat) (c f : Nat) (hc : env[c]? = some f) (sch : Sched) (k : Except Error Unit → Prog σ) (s s' : St σ)
    (out : Out (Except Error σ.V)) :
    Runs (S.registered regs).env env (.runTriggers c sch k) s out s' ↔
      ∃ r s1, Fires (S.registered regs).env f (scheduled regs sch) s r s1 ∧
        match r with
        | .ret x => Runs (S.registered regs).env env (k x) s1 out s'
        | .panic => out = .panic ∧ s' = s1
        | .stuck => out = .stuck ∧ s' = s1 := by
  rw [runs_runTriggers _ hc, fire_registered S h0]
  exact Iff.rfl

/-- C25: firing succeeds exactly if every trigger, run in turn from where the one before ended, returned `Ok`: there is a
sequence of states from `s` to `s'`, one step per trigger. -/
theorem C25_all_once (E : Env σ) (f : Nat) (ts : List (Prog σ)) (s s' : St σ) :
    Fires E f ts s (.ret (.ok ())) s' ↔
      ∃ states : List (St σ), states.length = ts.length + 1 ∧ states[0]? = some s ∧ states[ts.length]? = some s' ∧
        ∀ (j : Nat) (t : Prog σ) (a b : St σ), ts[j]? = some t → states[j]? = some a → states[j + 1]? = some b →
          ∃ v, Runs E [f] t a (.ret (.ok v)) b := by
  constructor
  · intro h
    generalize hr : (Out.ret (Except.ok ()) : Out (Except Error Unit)) = r at h
    induction h with
    | none s => exact ⟨[s], rfl, rfl, rfl, by intro j t a b h; simp at h⟩
    | @next t ts s s1 s2 v r h1 _ ih =>
      obtain ⟨st, hl, h0, hn, hstep⟩ := ih hr
      refine ⟨s :: st, by simp [hl], rfl, by simpa using hn, ?_⟩
      intro j t' a b ht ha hb
      cases j with
      | zero =>
        simp only [List.getElem?_cons_zero, Option.some.injEq] at ht ha
        simp only [Nat.zero_add, List.getElem?_cons_succ] at hb
        rw [h0] at hb; cases hb; subst ht; subst ha
        exact ⟨v, h1⟩
      | succ j =>
        simp only [List.getElem?_cons_succ] at ht ha hb
        exact hstep j t' a b ht ha hb
    | error h1 => cases hr
    | panic h1 => cases hr
    | stuck h1 => cases hr
  · rintro ⟨st, hl, h0, hn, hstep⟩
    induction ts generalizing s st with
    | nil =>
      have : some s = some s' := by rw [← h0, ← hn]; rfl
      cases this; exact .none _
    | cons t ts ih =>
      match st, hl, h0, hn, hstep with
      | [_], hl, _, _, _ => simp at hl
      | a :: b :: st, hl, h0, hn, hstep =>
        simp only [List.getElem?_cons_zero, Option.some.injEq] at h0
        subst h0
        obtain ⟨v, h1⟩ := hstep 0 t a b rfl rfl rfl
        refine .next h1 (ih b (b :: st) (by simpa using hl) rfl (by simpa using hn) ?_)
        intro j t' x y ht hx hy
        exact hstep (j + 1) t' x y (by simpa using ht) (by simpa using hx) (by simpa using hy)

/-- C25: firing that ends in a failure splits the triggers into those that returned `Ok`, the one that failed, and the rest,
which did not run; the result is that trigger's error or panic. -/
theorem C25_first_failure (E : Env σ) (f : Nat) (ts : List (Prog σ)) (s s' : St σ) (r : Out (Except Error Unit))
    (hr : r ≠ .ret (.ok ())) :
    Fires E f ts s r s' ↔
      ∃ ok t rest s1 o, ts = ok ++ t :: rest ∧ Fires E f ok s (.ret (.ok ())) s1 ∧ Runs E [f] t s1 o s' ∧
        ((∃ e, o = .ret (.error e) ∧ r = .ret (.error e)) ∨ (o = .panic ∧ r = .panic) ∨ (o = .stuck ∧ r = .stuck)) := by
  constructor
  · intro h
    induction h with
    | none s => exact absurd rfl hr
    | @next t ts s s1 s2 v r h1 _ ih =>
      obtain ⟨ok, t', rest, s3, o, rfl, hf, h2, h3⟩ := ih hr
      exact ⟨t :: ok, t', rest, s3, o, rfl, .next h1 hf, h2, h3⟩
    | @error t ts s s1 e h1 => exact ⟨[], t, ts, s, _, rfl, .none s, h1, .inl ⟨e, rfl, rfl⟩⟩
    | @panic t ts s s1 h1 => exact ⟨[], t, ts, s, _, rfl, .none s, h1, .inr (.inl ⟨rfl, rfl⟩)⟩
    | @stuck t ts s s1 h1 => exact ⟨[], t, ts, s, _, rfl, .none s, h1, .inr (.inr ⟨rfl, rfl⟩)⟩
  · rintro ⟨ok, t, rest, s1, o, rfl, hf, h2, h3⟩
    generalize hq : (Out.ret (Except.ok ()) : Out (Except Error Unit)) = q at hf
    induction hf with
    | none s =>
      rcases h3 with ⟨e, rfl, rfl⟩ | ⟨rfl, rfl⟩ | ⟨rfl, rfl⟩
      · exact .error h2
      · exact .panic h2
      · exact .stuck h2
    | next h1 _ ih => exact .next h1 (ih h2 hq)
    | error _ => cases hq
    | panic _ => cases hq
    | stuck _ => cases hq

/-- Three triggers on one scheduler, one on another, one of the three failing. -/
def orderRegs : List (Sched × Prog demo) :=
  [(.afterSave, .save 0 ⟨1, 1⟩ (.done (.ok ()))), (.beforeSave, .panic), (.afterSave, .save 0 ⟨1, 2⟩ (.done (.ok ()))),
   (.afterSave, .save 0 ⟨3, 3⟩ (.done (.error (.msg "stop")))), (.afterSave, .save 0 ⟨4, 4⟩ (.done (.ok ())))]

example : (scheduled orderRegs .afterSave).length = 4 ∧ (scheduled orderRegs .beforeDelete).length = 0 := by decide +kernel
example : (eval (demoSchema.registered orderRegs).env 10 [0] (.runTriggers 0 .afterSave fun
      | .ok _ => .panic
      | .error e => .done (.error e)) (demoSchema.begin [])).map (fun r => (r.1, logOf r.2 0)) =
    some (.ret (.error (.msg "stop")), [.save ⟨1, 1⟩, .save ⟨1, 2⟩, .save ⟨3, 3⟩]) := by decide +kernel

/-! ## C24: vetoes -/

/-- C24: the first trigger before saves to fail, after any number `ok` that did not, vetoes: `Save` returns its error and the
graph is as before. -/
theorem C24_before_save_veto (S : Schema σ) (h0 : S.env.triggers = TriggerSet.empty) (regs : List (Sched × Prog σ)) (n : σ.T)
    (ok : List (Prog σ)) (t : Prog σ) (rest : List (Prog σ)) (s1 s2 : St σ) (e : Error)
    (hregs : scheduled regs .beforeSave = ok ++ t :: rest)
    (hok : Fires (S.registered regs).env 0 ok (setTarget ((S.registered regs).begin []) 0 n) (.ret (.ok ())) s1)
    (ht : Runs (S.registered regs).env [0] t s1 (.ret (.error e)) s2) :
    ∃ fuel0, ∀ fuel, fuel0 ≤ fuel →
      ∃ S', (S.registered regs).save fuel n = some (.ret (.error e), S') ∧ S'.guard = S.guard := by
  have hf : Fires (S.registered regs).env 0 ((S.registered regs).env.fire .beforeSave)
      (setTarget ((S.registered regs).begin []) 0 n) (.ret (.error e)) s2 := by
    rw [fire_registered S h0, hregs]
    exact (C25_first_failure _ _ _ _ _ _ (by simp)).2 ⟨ok, t, rest, s1, _, rfl, hok, ht, .inl ⟨e, rfl, rfl⟩⟩
  obtain ⟨fuel0, h⟩ := transact_of_runs_err (S.registered regs)
    ((runs_saveBody _ 0 [] n _ _ _).2 ⟨_, _, hf, .inr ⟨by simp, rfl, rfl⟩⟩)
  refine ⟨fuel0, fun fuel hle => ⟨_, h fuel hle, ?_⟩⟩
  rw [C24_save _ _ fuel n _ (h fuel hle) (by simp), guard_eq, guard_eq, (registered_graph S regs).1]

/-- C24: likewise the first trigger after saves to fail. -/
theorem C24_after_save_veto (S : Schema σ) (h0 : S.env.triggers = TriggerSet.empty) (regs : List (Sched × Prog σ)) (n : σ.T)
    (ok : List (Prog σ)) (t : Prog σ) (rest : List (Prog σ)) (s0 s1 s2 : St σ) (e : Error)
    (hregs : scheduled regs .afterSave = ok ++ t :: rest)
    (hbefore : Fires (S.registered regs).env 0 (scheduled regs .beforeSave) (setTarget ((S.registered regs).begin []) 0 n)
      (.ret (.ok ())) s0)
    (hok : Fires (S.registered regs).env 0 ok (match readTarget s0 0 with | some m => pushOp s0 0 (.save m) | none => s0)
      (.ret (.ok ())) s1)
    (ht : Runs (S.registered regs).env [0] t s1 (.ret (.error e)) s2) :
    ∃ fuel0, ∀ fuel, fuel0 ≤ fuel →
      ∃ S', (S.registered regs).save fuel n = some (.ret (.error e), S') ∧ S'.guard = S.guard := by
  rw [← fire_registered S h0] at hbefore
  have hf : Fires (S.registered regs).env 0 ((S.registered regs).env.fire .afterSave) (midSave s0 0) (.ret (.error e)) s2 := by
    rw [fire_registered S h0, hregs]
    exact (C25_first_failure _ _ _ _ _ _ (by simp)).2 ⟨ok, t, rest, s1, _, rfl, hok, ht, .inl ⟨e, rfl, rfl⟩⟩
  obtain ⟨fuel0, h⟩ := transact_of_runs_err (S.registered regs)
    ((runs_saveBody _ 0 [] n _ _ _).2 ⟨_, _, hbefore, .inl ⟨_, rfl, hf, rfl⟩⟩)
  refine ⟨fuel0, fun fuel hle => ⟨_, h fuel hle, ?_⟩⟩
  rw [C24_save _ _ fuel n _ (h fuel hle) (by simp), guard_eq, guard_eq, (registered_graph S regs).1]

/-- C24: the first trigger before deletions to fail vetoes the deletion of a stored node. -/
theorem C24_before_delete_veto [LawfulSig σ] (S : Schema σ) (h0 : S.env.triggers = TriggerSet.empty)
    (regs : List (Sched × Prog σ)) (i : σ.K)
    (n : σ.T) (hn : S.guard.get i = some n) (ok : List (Prog σ)) (t : Prog σ) (rest : List (Prog σ)) (s1 s2 : St σ) (e : Error)
    (hregs : scheduled regs .beforeDelete = ok ++ t :: rest)
    (hok : Fires (S.registered regs).env 0 ok (setTarget ((S.registered regs).begin []) 0 n) (.ret (.ok ())) s1)
    (ht : Runs (S.registered regs).env [0] t s1 (.ret (.error e)) s2) :
    ∃ fuel0, ∀ fuel, fuel0 ≤ fuel →
      ∃ S', (S.registered regs).delete fuel i = some (.ret (.error e), S') ∧ S'.guard = S.guard := by
  have hg : ctxGet ((S.registered regs).begin []).graph ((S.registered regs).begin []).frames 0 i = some n := by
    rw [ctxGet_begin, (registered_graph S regs).1, ← guard_eq]; exact hn
  have hf : Fires (S.registered regs).env 0 ((S.registered regs).env.fire .beforeDelete)
      (setTarget ((S.registered regs).begin []) 0 n) (.ret (.error e)) s2 := by
    rw [fire_registered S h0, hregs]
    exact (C25_first_failure _ _ _ _ _ _ (by simp)).2 ⟨ok, t, rest, s1, _, rfl, hok, ht, .inl ⟨e, rfl, rfl⟩⟩
  obtain ⟨fuel0, h⟩ := transact_of_runs_err (S.registered regs)
    ((runs_deleteBody _ 0 [] i _ _ _).2 (.inr ⟨n, _, _, hg, hf, .inr ⟨by simp, rfl, rfl⟩⟩))
  refine ⟨fuel0, fun fuel hle => ⟨_, h fuel hle, ?_⟩⟩
  rw [C24_delete _ _ fuel i _ (h fuel hle) (by simp), guard_eq, guard_eq, (registered_graph S regs).1]

/-- C24: likewise the first trigger after deletions to fail. -/
theorem C24_after_delete_veto [LawfulSig σ] (S : Schema σ) (h0 : S.env.triggers = TriggerSet.empty)
    (regs : List (Sched × Prog σ)) (i : σ.K)
    (n : σ.T) (hn : S.guard.get i = some n) (ok : List (Prog σ)) (t : Prog σ) (rest : List (Prog σ)) (s0 s1 s2 : St σ) (e : Error)
    (hregs : scheduled regs .afterDelete = ok ++ t :: rest)
    (hbefore : Fires (S.registered regs).env 0 (scheduled regs .beforeDelete) (setTarget ((S.registered regs).begin []) 0 n)
      (.ret (.ok ())) s0)
    (hok : Fires (S.registered regs).env 0 ok (pushOp s0 0 (.delete i)) (.ret (.ok ())) s1)
    (ht : Runs (S.registered regs).env [0] t s1 (.ret (.error e)) s2) :
    ∃ fuel0, ∀ fuel, fuel0 ≤ fuel →
      ∃ S', (S.registered regs).delete fuel i = some (.ret (.error e), S') ∧ S'.guard = S.guard := by
  have hg : ctxGet ((S.registered regs).begin []).graph ((S.registered regs).begin []).frames 0 i = some n := by
    rw [ctxGet_begin, (registered_graph S regs).1, ← guard_eq]; exact hn
  rw [← fire_registered S h0] at hbefore
  have hf : Fires (S.registered regs).env 0 ((S.registered regs).env.fire .afterDelete) (pushOp s0 0 (.delete i))
      (.ret (.error e)) s2 := by
    rw [fire_registered S h0, hregs]
    exact (C25_first_failure _ _ _ _ _ _ (by simp)).2 ⟨ok, t, rest, s1, _, rfl, hok, ht, .inl ⟨e, rfl, rfl⟩⟩
  obtain ⟨fuel0, h⟩ := transact_of_runs_err (S.registered regs)
    ((runs_deleteBody _ 0 [] i _ _ _).2 (.inr ⟨n, _, _, hg, hbefore, .inl ⟨_, rfl, hf, rfl⟩⟩))
  refine ⟨fuel0, fun fuel hle => ⟨_, h fuel hle, ?_⟩⟩
  rw [C24_delete _ _ fuel i _ (h fuel hle) (by simp), guard_eq, guard_eq, (registered_graph S regs).1]

/-! ## C26 -/

/-- C26: when the closure of `Save` returns `Ok` and the target can be read after the before-triggers (which end in `s1`),
the node registered is the one the target holds there. What the after-triggers do, to the target or otherwise, only comes
after it. -/
theorem C26_target_is_saved [LawfulSig σ] {g : Graph σ.K σ.T} (E : Env σ) (f : Nat) (env : List Nat) (n m : σ.T)
    (s s1 s' : St σ) (v : σ.V) (hs : Reachable g s) (hf : f < s.frames.length)
    (h : Runs E (f :: env) (saveBody n) s (.ret (.ok v)) s')
    (h1 : Fires E f (E.fire .beforeSave) (setTarget s f n) (.ret (.ok ())) s1) (hm : readTarget s1 f = some m) :
    ∃ after, logOf s' f = logOf s1 f ++ .save m :: after ∧
      Fires E f (E.fire .afterSave) (pushOp s1 f (.save m)) (.ret (.ok ())) s' ∧
      ctxGet s'.graph s'.frames f = FMap.applyAll (ctxGet s1.graph s1.frames f) (.save m :: after) := by
  obtain ⟨r, s1', hb, h⟩ := (runs_saveBody E f env n s s' _).1 h
  obtain ⟨rfl, rfl⟩ := h1.det hb
  rcases h with ⟨r2, _, h2, hout⟩ | ⟨hne, _⟩
  · have hr2 : r2 = .ret (.ok ()) := by
      rcases r2 with (e | u) | _ | _
      · cases hout
      · rfl
      · cases hout
      · cases hout
    subst hr2
    have hf0 : f < (setTarget s f n).frames.length := by simpa [setTarget] using hf
    have hf1 : f < s1.frames.length := by rw [(hb.grows hf0).len]; exact hf0
    have hs1 := hb.reachable hf0 (.setTarget f n hs)
    simp only [midSave, hm] at h2
    have hg2 := h2.grows (by simpa [pushOp] using hf1)
    obtain ⟨after, hafter⟩ := logOf_prefix (hg2.logOf f)
    rw [logOf_pushOp s1 hf1] at hafter
    refine ⟨after, by simpa using hafter, h2, ?_⟩
    rw [ctxGet_grows (hs1.push f (.save m)) (by simpa [pushOp] using hf1) hg2 (ops := after)
      (by rw [logOf_pushOp s1 hf1]; exact hafter)]
    rw [ctxGet_pushOp hs1 hf1]
    rfl
  · exact absurd rfl hne

/-- C26 on the graph: if no trigger registers anything and the before-triggers leave `m` in the target, `Save` that returns
`Ok` stores `m` under its own id (which need not be the id of the node given to `Save`). -/
theorem C26_graph [LawfulSig σ] (S S' : Schema σ) (hS : S.graph.Reachable) (fuel : Nat) (n m : σ.T) (s1 : St σ) (v : σ.V)
    (htr : S.env.Holds) (hq : S.env.Every Prog.Quiet) (h : S.save fuel n = some (.ret (.ok v), S'))
    (h1 : Fires S.env 0 (S.env.fire .beforeSave) (setTarget (S.begin []) 0 n) (.ret (.ok ())) s1)
    (hm : readTarget s1 0 = some m) (q : σ.K) :
    S'.guard.get q = if q == id m then some m else S.guard.get q := by
  obtain ⟨s', hr, hg, -, -⟩ := transact_ok_get hS (saveBody_holds n) htr h
  have hl0 : 0 < (S.begin []).frames.length := by simp [Schema.begin]
  obtain ⟨after, hlog, h2, hget⟩ := C26_target_is_saved S.env 0 [] n m (S.begin []) s1 s' v (begin_reachable S []) hl0 hr h1 hm
  have hf0 : 0 < (setTarget (S.begin []) 0 n).frames.length := by simp [setTarget, Schema.begin]
  have hf1 : 0 < s1.frames.length := by rw [(h1.grows hf0).len]; exact hf0
  have e1 := h1.quiet hq (hq.fire _) hf0
  have e2 := h2.quiet hq (hq.fire _) (by simpa [pushOp] using hf1)
  rw [logOf_pushOp s1 hf1, hlog] at e2
  have : after = [] := by simpa using e2
  subst this
  have e3 : logOf s1 0 = [] := by rw [e1, logOf_setTarget]; rfl
  have h3 : ctxGet s1.graph s1.frames 0 = S.guard.get := by
    rw [ctxGet_grows (.setTarget 0 n (begin_reachable S [])) hf0 (h1.grows hf0) (ops := [])
      (by rw [e3, logOf_setTarget]; rfl)]
    funext q
    show ctxGet _ _ 0 q = _
    rw [ctxGet_setTarget, ctxGet_begin, guard_eq]
  rw [hg, hget, h3]; rfl

/-- A trigger that stamps the node before it is saved, and one that scribbles on the target afterwards. -/
def stampSchema : Schema demo := demoSchema.registered
  [(.beforeSave, .targetWrite 0 (fun n => (⟨n.key + 100, n.body + 1⟩, false)) fun _ => .done (.ok ())),
   (.afterSave, .targetWrite 0 (fun _ => (⟨0, 0⟩, false)) fun _ => .done (.ok ()))]

example : (stampSchema.save 20 ⟨1, 11⟩).map (fun r => (r.1, r.2.graph.iter)) =
    some (.ret (.ok ()), [⟨1, 10⟩, ⟨2, 20⟩, ⟨101, 12⟩]) := by decide +kernel

/-! ## C27 -/

/-- C27: when the closure of `Delete` returns `Ok`, the operation it registers is the deletion of the id it was given, after
what the before-triggers registered (they end in `s1`) and before what the after-triggers register. -/
theorem C27_requested_id [LawfulSig σ] {g : Graph σ.K σ.T} (E : Env σ) (f : Nat) (env : List Nat) (i : σ.K)
    (s s' : St σ) (v : σ.V) (hs : Reachable g s) (hf : f < s.frames.length)
    (h : Runs E (f :: env) (deleteBody i) s (.ret (.ok v)) s') :
    ∃ n s1 after, ctxGet s.graph s.frames f i = some n ∧
      Fires E f (E.fire .beforeDelete) (setTarget s f n) (.ret (.ok ())) s1 ∧
      logOf s' f = logOf s1 f ++ .delete i :: after ∧
      Fires E f (E.fire .afterDelete) (pushOp s1 f (.delete i)) (.ret (.ok ())) s' ∧
      ctxGet s'.graph s'.frames f = FMap.applyAll (ctxGet s1.graph s1.frames f) (.delete i :: after) := by
  rcases (runs_deleteBody E f env i s s' _).1 h with ⟨_, ho, _⟩ | ⟨n, r, s1, hn, hb, h⟩
  · cases ho
  rcases h with ⟨r2, rfl, h2, hout⟩ | ⟨hne, hout, _⟩
  · have hr2 : r2 = .ret (.ok ()) := by
      rcases r2 with (e | u) | _ | _
      · cases hout
      · rfl
      · cases hout
      · cases hout
    subst hr2
    have hf0 : f < (setTarget s f n).frames.length := by simpa [setTarget] using hf
    have hf1 : f < s1.frames.length := by rw [(hb.grows hf0).len]; exact hf0
    have hs1 := hb.reachable hf0 (.setTarget f n hs)
    have hg2 := h2.grows (by simpa [pushOp] using hf1)
    obtain ⟨after, hafter⟩ := logOf_prefix (hg2.logOf f)
    rw [logOf_pushOp s1 hf1] at hafter
    refine ⟨n, s1, after, hn, hb, by simpa using hafter, h2, ?_⟩
    rw [ctxGet_grows (hs1.push f (.delete i)) (by simpa [pushOp] using hf1) hg2 (ops := after)
      (by rw [logOf_pushOp s1 hf1]; exact hafter)]
    rw [ctxGet_pushOp hs1 hf1]
    rfl
  · exfalso
    rcases r with (e | u) | _ | _
    · cases hout
    · exact hne rfl
    · cases hout
    · cases hout

/-- C27 on the graph: if no trigger registers anything, `Delete` that returns `Ok` removes exactly the id it was given,
whatever triggers do to the target. -/
theorem C27_graph [LawfulSig σ] (S S' : Schema σ) (hS : S.graph.Reachable) (fuel : Nat) (i : σ.K) (v : σ.V)
    (htr : S.env.Holds) (hq : S.env.Every Prog.Quiet) (h : S.delete fuel i = some (.ret (.ok v), S')) (q : σ.K) :
    S'.guard.get q = if q == i then none else S.guard.get q := by
  obtain ⟨s', hr, hg, -, -⟩ := transact_ok_get hS (deleteBody_holds i) htr h
  have hl0 : 0 < (S.begin []).frames.length := by simp [Schema.begin]
  obtain ⟨n, s1, after, hn, h1, hlog, h2, hget⟩ := C27_requested_id S.env 0 [] i (S.begin []) s' v (begin_reachable S []) hl0 hr
  have hf0 : 0 < (setTarget (S.begin []) 0 n).frames.length := by simp [setTarget, Schema.begin]
  have hf1 : 0 < s1.frames.length := by rw [(h1.grows hf0).len]; exact hf0
  have e1 := h1.quiet hq (hq.fire _) hf0
  have e2 := h2.quiet hq (hq.fire _) (by simpa [pushOp] using hf1)
  rw [logOf_pushOp s1 hf1, hlog] at e2
  have : after = [] := by simpa using e2
  subst this
  have e3 : logOf s1 0 = [] := by rw [e1, logOf_setTarget]; rfl
  have h3 : ctxGet s1.graph s1.frames 0 = S.guard.get := by
    rw [ctxGet_grows (.setTarget 0 n (begin_reachable S [])) hf0 (h1.grows hf0) (ops := [])
      (by rw [e3, logOf_setTarget]; rfl)]
    funext q
    show ctxGet _ _ 0 q = _
    rw [ctxGet_setTarget, ctxGet_begin, guard_eq]
  rw [hg, hget, h3]; rfl

/-- A trigger that renames the target before the delete. -/
def renameSchema : Schema demo := demoSchema.registered
  [(.beforeDelete, .targetWrite 0 (fun n => (⟨1, n.body⟩, false)) fun _ => .done (.ok ()))]

example : (renameSchema.delete 20 2).map (fun r => (r.1, r.2.graph.iter)) = some (.ret (.ok ()), [⟨1, 10⟩]) := by
  decide +kernel

/-! ## C28 -/

/-- C28 for `Save`, in any context: however it ends, its before-triggers fire in a state where every context reads what it
read before and the target holds the node; if they succeed, its after-triggers fire in a state where (the target `m` being
readable) the node is found under its id and every other id reads as the before-triggers left it. -/
theorem C28_save [LawfulSig σ] {g : Graph σ.K σ.T} (E : Env σ) (f : Nat) (env : List Nat) (n : σ.T)
    (s s' : St σ) (out : Out (Except Error σ.V)) (hs : Reachable g s) (hf : f < s.frames.length)
    (h : Runs E (f :: env) (saveBody n) s out s') :
    ∃ s0 r s1, Fires E f (E.fire .beforeSave) s0 r s1 ∧
      (∀ a q, ctxGet s0.graph s0.frames a q = ctxGet s.graph s.frames a q) ∧ readTarget s0 f = some n ∧
      (r = .ret (.ok ()) → ∃ s2 r2, Fires E f (E.fire .afterSave) s2 r2 s' ∧
        ∀ m, readTarget s1 f = some m → readTarget s2 f = some m ∧
          ∀ q, ctxGet s2.graph s2.frames f q = if q == id m then some m else ctxGet s1.graph s1.frames f q) := by
  obtain ⟨r, s1, hb, h⟩ := (runs_saveBody E f env n s s' out).1 h
  refine ⟨setTarget s f n, r, s1, hb, fun a q => ctxGet_setTarget s f a n q, readTarget_setTarget s hf n, ?_⟩
  rintro rfl
  rcases h with ⟨r2, _, h2, _⟩ | ⟨hne, _⟩
  · refine ⟨midSave s1 f, r2, h2, fun m hm => ?_⟩
    have hf0 : f < (setTarget s f n).frames.length := by simpa [setTarget] using hf
    have hf1 : f < s1.frames.length := by rw [(hb.grows hf0).len]; exact hf0
    have hs1 := hb.reachable hf0 (.setTarget f n hs)
    simp only [midSave, hm]
    refine ⟨?_, fun q => ?_⟩
    · rw [readTarget_pushOp]; exact hm
    · rw [ctxGet_pushOp hs1 hf1]; rfl
  · exact absurd rfl hne

/-- C28 for `Delete`, in any context: if it gets past the lookup, its before-triggers fire in a state where every context
reads what it read before and the target holds the stored node; if they succeed, its after-triggers fire in a state where
the id is absent and every other id reads as the before-triggers left it. -/
theorem C28_delete [LawfulSig σ] {g : Graph σ.K σ.T} (E : Env σ) (f : Nat) (env : List Nat) (i : σ.K) (n : σ.T)
    (s s' : St σ) (out : Out (Except Error σ.V)) (hs : Reachable g s) (hf : f < s.frames.length)
    (hn : ctxGet s.graph s.frames f i = some n) (h : Runs E (f :: env) (deleteBody i) s out s') :
    ∃ s0 r s1, Fires E f (E.fire .beforeDelete) s0 r s1 ∧
      (∀ a q, ctxGet s0.graph s0.frames a q = ctxGet s.graph s.frames a q) ∧ readTarget s0 f = some n ∧
      (r = .ret (.ok ()) → ∃ s2 r2, Fires E f (E.fire .afterDelete) s2 r2 s' ∧
        readTarget s2 f = readTarget s1 f ∧
        ∀ q, ctxGet s2.graph s2.frames f q = if q == i then none else ctxGet s1.graph s1.frames f q) := by
  rcases (runs_deleteBody E f env i s s' out).1 h with ⟨h0, _⟩ | ⟨n', r, s1, hn', hb, h⟩
  · rw [hn] at h0; cases h0
  rw [hn] at hn'; cases hn'
  refine ⟨setTarget s f n, r, s1, hb, fun a q => ctxGet_setTarget s f a n q, readTarget_setTarget s hf n, ?_⟩
  rintro rfl
  rcases h with ⟨r2, _, h2, _⟩ | ⟨hne, _⟩
  · refine ⟨_, r2, h2, readTarget_pushOp .., fun q => ?_⟩
    have hf0 : f < (setTarget s f n).frames.length := by simpa [setTarget] using hf
    have hf1 : f < s1.frames.length := by rw [(hb.grows hf0).len]; exact hf0
    have hs1 := hb.reachable hf0 (.setTarget f n hs)
    rw [ctxGet_pushOp hs1 hf1]; rfl
  · exact absurd rfl hne

/-- Triggers that fail unless they see the state C28 promises. -/
def watchSchema : Schema demo := demoSchema.registered
  [(.beforeSave, .get 0 2 fun n => if n = some ⟨2, 20⟩ then .done (.ok ()) else .panic),
   (.afterSave, .get 0 2 fun n => if n = some ⟨2, 22⟩ then .done (.ok ()) else .panic),
   (.beforeDelete, .contains 0 1 fun b => if b then .done (.ok ()) else .panic),
   (.afterDelete, .contains 0 1 fun b => if b then .panic else .done (.ok ()))]

example : (watchSchema.save 20 ⟨2, 22⟩).map Prod.fst = some (.ret (.ok ())) ∧
    (watchSchema.delete 20 1).map Prod.fst = some (.ret (.ok ())) := by decide +kernel

/-! ## C29 -/

/-- C29 for `Save` on a schema: if it returns `Ok`, the graph is the old one with everything registered in the operation's
context applied: first what the before-triggers left there (`s1`), then the node, then what the after-triggers added. If it
does not return `Ok` nothing reaches the graph (C24). -/
theorem C29_save_commits_triggers [LawfulSig σ] (S S' : Schema σ) (hS : S.graph.Reachable) (fuel : Nat) (n : σ.T) (v : σ.V)
    (htr : S.env.Holds) (h : S.save fuel n = some (.ret (.ok v), S')) :
    ∃ s1 s2, Fires S.env 0 (S.env.fire .beforeSave) (setTarget (S.begin []) 0 n) (.ret (.ok ())) s1 ∧
      Fires S.env 0 (S.env.fire .afterSave)
        (match readTarget s1 0 with | some m => pushOp s1 0 (.save m) | none => s1) (.ret (.ok ())) s2 ∧
      logOf s1 0 <+: logOf s2 0 ∧ S'.guard.get = FMap.applyAll S.guard.get (logOf s2 0) := by
  obtain ⟨s', hr, -, hg, -⟩ := transact_ok_get hS (saveBody_holds n) htr h
  obtain ⟨r, s1, hb, h⟩ := (runs_saveBody S.env 0 [] n _ s' _).1 hr
  rcases h with ⟨r2, rfl, h2, hout⟩ | ⟨hne, hout, _⟩
  · have hr2 : r2 = .ret (.ok ()) := by
      rcases r2 with (e | u) | _ | _
      · cases hout
      · rfl
      · cases hout
      · cases hout
    subst hr2
    refine ⟨s1, s', hb, h2, ?_, hg⟩
    have hf0 : 0 < (setTarget (S.begin []) 0 n).frames.length := by simp [setTarget, Schema.begin]
    have hf1 : 0 < s1.frames.length := by rw [(hb.grows hf0).len]; exact hf0
    have hp : logOf s1 0 <+: logOf (midSave s1 0) 0 := by
      unfold midSave
      split
      · rw [logOf_pushOp s1 hf1]; exact List.prefix_append _ _
      · exact List.prefix_refl _
    have hfm : 0 < (midSave s1 0).frames.length := by
      unfold midSave; split
      · simpa [pushOp] using hf1
      · exact hf1
    exact hp.trans ((h2.grows hfm).logOf 0)
  · exfalso
    rcases r with (e | u) | _ | _
    · cases hout
    · exact hne rfl
    · cases hout
    · cases hout

/-- C29 for `Delete` on a schema. -/
theorem C29_delete_commits_triggers [LawfulSig σ] (S S' : Schema σ) (hS : S.graph.Reachable) (fuel : Nat) (i : σ.K)
    (v : σ.V) (htr : S.env.Holds) (h : S.delete fuel i = some (.ret (.ok v), S')) :
    ∃ n s1 s2, S.guard.get i = some n ∧
      Fires S.env 0 (S.env.fire .beforeDelete) (setTarget (S.begin []) 0 n) (.ret (.ok ())) s1 ∧
      Fires S.env 0 (S.env.fire .afterDelete) (pushOp s1 0 (.delete i)) (.ret (.ok ())) s2 ∧
      logOf s1 0 ++ [.delete i] <+: logOf s2 0 ∧ S'.guard.get = FMap.applyAll S.guard.get (logOf s2 0) := by
  obtain ⟨s', hr, -, hg, -⟩ := transact_ok_get hS (deleteBody_holds i) htr h
  obtain ⟨n, s1, after, hn, hb, hlog, h2, _⟩ :=
    C27_requested_id S.env 0 [] i (S.begin []) s' v (begin_reachable S []) (by simp [Schema.begin]) hr
  refine ⟨n, s1, s', by rw [← hn, ctxGet_begin, guard_eq], hb, h2, ?_, hg⟩
  rw [hlog]; exact ⟨after, by simp⟩

/-- C29, one trigger: a subtransaction that trigger code opens on the operation's context `f`, whose closure returns `Ok`
and keeps its context, adds its whole log to the log of `f`. -/
theorem C29_trigger_commit (E : Env σ) (htr : E.Holds) (env : List Nat) (c f : Nat) (hc : env[c]? = some f) (body : Prog σ)
    (hbody : body.Holds) (hw : body.Writes (fun c => c = 0)) (k : Except Error σ.V → Prog σ) (s s1 : St σ) (v : σ.V)
    (henv : ∀ e ∈ env, e < s.frames.length)
    (h : Runs E (s.frames.length :: env) body (openChild s f) (.ret (.ok v)) s1) :
    ∃ s2, (∀ out s', Runs E env (.tx c body k) s out s' ↔ Runs E env (k (.ok v)) s2 out s') ∧
      logOf s2 f = logOf s f ++ logOf s1 s.frames.length := by
  refine ⟨commitChild s1 s.frames.length, fun out s' => ?_, ?_⟩
  · rw [runs_tx E hc]
    constructor
    · rintro ⟨o, s1', h1, h2⟩
      obtain ⟨rfl, rfl⟩ := h.det h1
      exact h2
    · intro h2; exact ⟨_, _, h, h2⟩
  · have hf := henv f (List.mem_of_getElem? hc)
    have hlk := h.leaked htr hbody (openChild_env henv) (f := s.frames.length) (by simp [openChild])
    obtain ⟨fuel, he⟩ := h
    have hg := eval_grows E fuel _ _ body _ s1 _ hw (openChild_env henv) he
    refine commitChild_log hf hg ?_ ?_
    · rintro ⟨c', rfl, hcf⟩
      simp only [List.getElem?_cons_zero, Option.some.injEq] at hcf
      omega
    · rw [hlk]; simp [openChild]

/-- C29 in an open transaction: a `Save` executed in context `f` that returns `Ok` adds the whole log of its context,
triggers' operations included, to the log of `f`; otherwise nothing (C24). It reaches the graph if everything enclosing
succeeds (C10, C13) and not otherwise (C11, C12). -/
theorem C29_save_in_context (E : Env σ) (htr : E.Holds) (env : List Nat) (c f : Nat) (hc : env[c]? = some f) (n : σ.T)
    (k : Except Error σ.V → Prog σ) (s s1 : St σ) (v : σ.V) (henv : ∀ e ∈ env, e < s.frames.length)
    (h : Runs E (s.frames.length :: env) (saveBody n) (openChild s f) (.ret (.ok v)) s1) :
    ∃ s2, (∀ out s', Runs E env (.saveOp c n k) s out s' ↔ Runs E env (k (.ok v)) s2 out s') ∧
      logOf s2 f = logOf s f ++ logOf s1 s.frames.length :=
  C29_trigger_commit E htr env c f hc (saveBody n) (saveBody_holds n) (saveBody_writes n) k s s1 v henv h

/-- C29 in an open transaction, for `Delete`. -/
theorem C29_delete_in_context (E : Env σ) (htr : E.Holds) (env : List Nat) (c f : Nat) (hc : env[c]? = some f) (i : σ.K)
    (k : Except Error σ.V → Prog σ) (s s1 : St σ) (v : σ.V) (henv : ∀ e ∈ env, e < s.frames.length)
    (h : Runs E (s.frames.length :: env) (deleteBody i) (openChild s f) (.ret (.ok v)) s1) :
    ∃ s2, (∀ out s', Runs E env (.deleteOp c i k) s out s' ↔ Runs E env (k (.ok v)) s2 out s') ∧
      logOf s2 f = logOf s f ++ logOf s1 s.frames.length :=
  C29_trigger_commit E htr env c f hc (deleteBody i) (deleteBody_holds i) (deleteBody_writes i) k s s1 v henv h

/-- After each delete a trigger deletes a second node through its own subtransaction. -/
def cascadeSchema : Schema demo := demoSchema.registered
  [(.afterDelete, .contains 0 2 fun b => if b then .tx 0 (.delete 0 2 (.done (.ok ()))) fun r => .done r else .done (.ok ()))]

example : (cascadeSchema.delete 20 1).map (fun r => (r.1, r.2.graph.iter)) = some (.ret (.ok ()), []) := by decide +kernel
example : (cascadeSchema.transact 20 [] (.deleteOp 0 1 fun _ => .done (.error (.msg "no")))).map
    (fun r => (r.1, r.2.graph.iter)) = some (.ret (.error (.msg "no")), [⟨1, 10⟩, ⟨2, 20⟩]) := by decide +kernel

/-! ## C30 -/

/-- A trigger that panics while writing the target and recovers from the panic. -/
def poisonSchema : Schema demo := demoSchema.registered
  [(.beforeSave, .catchUnwind (.targetWrite 0 (fun n => (n, true)) fun _ => .done (.ok ())) fun _ => .done (.ok ()))]

/-- C30 is false of the code: `Save` returns `Ok` and the graph is unchanged. -/
theorem C30_refuted : ∃ (S S' : Schema demo) (n : Doc),
    S.save 20 n = some (.ret (.ok ()), S') ∧ S'.guard.get n.key = none ∧ S'.guard.iter = S.guard.iter := by
  refine ⟨poisonSchema, { poisonSchema with graph := demoGraph }, ⟨7, 70⟩, rfl, ?_, ?_⟩ <;> decide +kernel

/-- C30, what does hold: if no trigger panics inside `target().with_mut`, a `Save` that returns `Ok` has registered the node
`m` the before-triggers left in the target.
Missing from C30: triggers that poison the target and recover. -/
theorem C30_ok_means_registered_partial [LawfulSig σ] {g : Graph σ.K σ.T} (E : Env σ) (hE : E.Every Prog.SafeTarget) (f : Nat)
    (env : List Nat) (n : σ.T) (s s' : St σ) (v : σ.V) (hs : Reachable g s) (hf : f < s.frames.length)
    (h : Runs E (f :: env) (saveBody n) s (.ret (.ok v)) s') :
    ∃ s1 m before after, Fires E f (E.fire .beforeSave) (setTarget s f n) (.ret (.ok ())) s1 ∧ readTarget s1 f = some m ∧
      logOf s' f = logOf s f ++ before ++ .save m :: after := by
  obtain ⟨r, s1, hb, h'⟩ := (runs_saveBody E f env n s s' _).1 h
  have hf0 : f < (setTarget s f n).frames.length := by simpa [setTarget] using hf
  have hr : r = .ret (.ok ()) := by
    rcases h' with ⟨r2, hr, _⟩ | ⟨hne, hout, _⟩
    · exact hr
    · exfalso
      rcases r with (e | u) | _ | _
      · cases hout
      · exact hne rfl
      · cases hout
      · cases hout
  subst hr
  have ht := hb.target hE (hE.fire _) hf0 (by rw [readTarget_setTarget s hf]; rfl)
  obtain ⟨m, hm⟩ := Option.isSome_iff_exists.1 ht
  obtain ⟨after, hlog, _⟩ := C26_target_is_saved E f env n m s s1 s' v hs hf h hb hm
  obtain ⟨before, hbef⟩ := logOf_prefix ((hb.grows hf0).logOf f)
  rw [logOf_setTarget] at hbef
  exact ⟨s1, m, before, after, hb, hm, by rw [hlog, hbef]⟩

/-- C30, for any triggers: a `Save` that returns `Ok` has registered the node the before-triggers left in the target, unless
they left it unreadable, and in that case nothing but the after-triggers came after them. Missing from C30: the node in that
case. -/
theorem C30_ok_registered_or_unreadable_partial [LawfulSig σ] {g : Graph σ.K σ.T} (E : Env σ) (f : Nat) (env : List Nat)
    (n : σ.T) (s s' : St σ) (v : σ.V) (hs : Reachable g s) (hf : f < s.frames.length)
    (h : Runs E (f :: env) (saveBody n) s (.ret (.ok v)) s') :
    ∃ s1, Fires E f (E.fire .beforeSave) (setTarget s f n) (.ret (.ok ())) s1 ∧
      ((∃ m before after, readTarget s1 f = some m ∧ logOf s' f = logOf s f ++ before ++ .save m :: after) ∨
       (readTarget s1 f = none ∧ Fires E f (E.fire .afterSave) s1 (.ret (.ok ())) s')) := by
  obtain ⟨r, s1, hb, h'⟩ := (runs_saveBody E f env n s s' _).1 h
  have hf0 : f < (setTarget s f n).frames.length := by simpa [setTarget] using hf
  rcases h' with ⟨r2, rfl, h2, hout⟩ | ⟨hne, hout, _⟩
  · refine ⟨s1, hb, ?_⟩
    cases hm : readTarget s1 f with
    | some m =>
      left
      obtain ⟨after, hlog, _⟩ := C26_target_is_saved E f env n m s s1 s' v hs hf h hb hm
      obtain ⟨before, hbef⟩ := logOf_prefix ((hb.grows hf0).logOf f)
      rw [logOf_setTarget] at hbef
      exact ⟨m, before, after, rfl, by rw [hlog, hbef]⟩
    | none =>
      right
      refine ⟨rfl, ?_⟩
      simp only [midSave, hm] at h2
      rcases r2 with (e | u) | _ | _
      · cases hout
      · exact h2
      · cases hout
      · cases hout
  · exfalso
    rcases r with (e | u) | _ | _
    · cases hout
    · exact hne rfl
    · cases hout
    · cases hout

/-- C30 on the graph, under the same restriction: what a `Save` that returned `Ok` stores. -/
theorem C30_graph_partial [LawfulSig σ] (S S' : Schema σ) (hS : S.graph.Reachable) (fuel : Nat) (n : σ.T) (v : σ.V)
    (hE : S.env.Every Prog.SafeTarget) (htr : S.env.Holds) (h : S.save fuel n = some (.ret (.ok v), S')) :
    ∃ s1 m before after, Fires S.env 0 (S.env.fire .beforeSave) (setTarget (S.begin []) 0 n) (.ret (.ok ())) s1 ∧
      readTarget s1 0 = some m ∧ S'.guard.get = FMap.applyAll S.guard.get (before ++ .save m :: after) := by
  obtain ⟨s', hr, -, hg, -⟩ := transact_ok_get hS (saveBody_holds n) htr h
  obtain ⟨s1, m, before, after, hb, hm, hlog⟩ :=
    C30_ok_means_registered_partial S.env hE 0 [] n (S.begin []) s' v (begin_reachable S []) (by simp [Schema.begin]) hr
  have : logOf (S.begin []) 0 = [] := rfl
  rw [this, List.nil_append] at hlog
  exact ⟨s1, m, before, after, hb, hm, by rw [hg, hlog]⟩

example : stampSchema.env.Every Prog.SafeTarget := by
  intro s ts h t ht
  have h' : t ∈ stampSchema.env.fire s := by rw [Env.fire, h]; exact ht
  rw [stampSchema, fire_registered demoSchema rfl] at h'
  simp only [scheduled, List.mem_map, List.mem_filter] at h'
  obtain ⟨r, ⟨hr, -⟩, rfl⟩ := h'
  simp only [List.mem_cons, List.not_mem_nil, or_false] at hr
  rcases hr with rfl | rfl <;> exact ⟨fun _ => rfl, fun _ => trivial⟩

end Plotline
