import Verif.Lemmas.Context
import Verif.Spec.Fixtures

/-! # Properties C02 (contexts), C08–C13, C16–C20: transactions -/

namespace Plotline

open Std

set_option linter.unusedSectionVars false

variable {σ : Sig}

/-! ## States used by the examples: a graph with two documents, a root context, a child and a grandchild -/

def demoGraph : Graph Nat Doc := Graph.fromIter [⟨1, 10⟩, ⟨2, 20⟩]

def demoSchema : Schema demo := Schema.fromGraph demoGraph

/-- Root saved `3` and deleted `1`, its first child saved `1` again, the grandchild deleted `2`, the second child is
empty. -/
def demoState : St demo :=
  openChild (pushOp (openChild (pushOp (openChild (pushOp (pushOp (demoSchema.begin []) 0 (.save ⟨3, 30⟩)) 0 (.delete 1)) 0)
    1 (.save ⟨1, 11⟩)) 1) 2 (.delete 2)) 0

theorem demoState_reachable : Reachable (σ := demo) demoGraph demoState :=
  .openChild 0 (by decide) <| .push _ _ <| .openChild 1 (by decide) <| .push _ _ <| .openChild 0 (by decide) <|
    .push _ _ <| .push _ _ <| .start [] []

/-! ## C02, context part -/

/-- C02 for a context at any depth, in any state. -/
theorem C02_context (s : St σ) (f : Nat) (i : σ.K) :
    ctxContains s.graph s.frames f i = true ↔ ∃ n, ctxGet s.graph s.frames f i = some n := by
  rw [ctxContains_eq]; exact Option.isSome_iff_exists

example : ctxContains demoState.graph demoState.frames 2 1 = true ∧
    ctxContains demoState.graph demoState.frames 2 2 = false ∧
    ctxGet demoState.graph demoState.frames 2 1 = some ⟨1, 11⟩ := by decide +kernel

/-! ## C08 -/

/-- C08: in every state a transaction can be in, an open context reads the graph with the pending operations of the
enclosing transactions (outermost first) and then its own applied in order. -/
theorem C08_read_your_writes [LawfulSig σ] {g : Graph σ.K σ.T} {s : St σ} (hs : Reachable g s) {f : Nat}
    {ops : List (Operation σ.K σ.T)} (hp : Pending s.frames f ops) (i : σ.K) :
    ctxGet s.graph s.frames f i = FMap.applyAll g.get ops i := by
  rw [ctxGet_pending hs.wf hp, hs.graph]

/-- C08, as the answer of a graph: what `get` says once those operations are really applied. -/
theorem C08_as_graph [LawfulSig σ] {g : Graph σ.K σ.T} (hg : g.Reachable) {s : St σ} (hs : Reachable g s) {f : Nat}
    {ops : List (Operation σ.K σ.T)} (hp : Pending s.frames f ops) (i : σ.K) :
    ctxGet s.graph s.frames f i = (g.commit ops).get i := by
  rw [C08_read_your_writes hs hp, get_commit g hg.valid]

/-- C08: every open context has such a list of pending operations, so the two theorems above cover them all. -/
theorem C08_every_context {g : Graph σ.K σ.T} {s : St σ} (hs : Reachable g s) {f : Nat} (hf : f < s.frames.length) :
    ∃ ops, Pending s.frames f ops := pending_exists hs.wf hf

/-- C08: the states programs run in are covered: whatever a closure or trigger does leads to such a state. -/
theorem C08_every_run (S : Schema σ) (fuel : Nat) (pre : List (Operation σ.K σ.T)) (body : Prog σ) (s : St σ)
    (out : Out (Except Error σ.V)) (h : eval S.env fuel [0] body (S.begin pre) = some (out, s)) :
    Reachable S.graph s := eval_reachable S.env (begin_reachable S pre) (begin_env S pre) h

/-- C08, on the calls: `ctx.get(id)` hands that answer to the code that follows, whichever of the contexts in scope it is called
on. -/
theorem C08_call [LawfulSig σ] {g : Graph σ.K σ.T} (E : Env σ) (fuel : Nat) (env : List Nat) (c f : Nat) (i : σ.K)
    (k : Option σ.T → Prog σ) {s : St σ} (hs : Reachable g s) (hc : env[c]? = some f) {ops : List (Operation σ.K σ.T)}
    (hp : Pending s.frames f ops) :
    eval E (fuel + 1) env (.get c i k) s = eval E fuel env (k (FMap.applyAll g.get ops i)) s := by
  rw [eval]; simp only [hc, C08_read_your_writes hs hp]

/-- What is pending outside the context an operation is registered in. -/
theorem pending_push_other {s : St σ} {f a : Nat} {op : Operation σ.K σ.T} {ops : List (Operation σ.K σ.T)}
    (ha : ¬ Within s.frames f a) (hp : Pending s.frames a ops) : Pending (pushOp s f op).frames a ops := by
  have hget : ∀ b, f ≠ b → (pushOp s f op).frames[b]? = s.frames[b]? := by
    intro b hb; simp [pushOp, hb]
  induction hp with
  | @root a fr h1 h2 => exact .root ((hget a fun e => ha (e ▸ .self)).trans h1) h2
  | @child a p fr ops h1 h2 _ ih =>
    exact .child ((hget a fun e => ha (e ▸ .self)).trans h1) h2 (ih fun hw => ha (.child h1 h2 hw))

theorem not_within_parent {fs : List (Frame σ.K σ.T)} (hwf : FramesWF fs) {f p : Nat} (hlt : p < f) : ¬ Within fs f p := by
  intro h
  have : f ≤ p := by
    clear hlt
    induction h with
    | self => exact Nat.le_refl _
    | child h1 h2 _ ih => exact Nat.le_trans ih (Nat.le_of_lt (hwf _ _ _ h1 h2))
  omega

theorem pending_push {s : St σ} (hwf : FramesWF s.frames) {f : Nat} {op : Operation σ.K σ.T} {ops : List (Operation σ.K σ.T)}
    (hp : Pending s.frames f ops) : Pending (pushOp s f op).frames f (ops ++ [op]) := by
  have hget : ∀ fr, s.frames[f]? = some fr → (pushOp s f op).frames[f]? = some { fr with ops := fr.ops ++ [op] } := by
    intro fr h; simp [pushOp, h]
  cases hp with
  | root h1 h2 => exact .root (hget _ h1) h2
  | @child _ p fr ops h1 h2 h3 =>
    rw [List.append_assoc]
    exact .child (fr := { fr with ops := fr.ops ++ [op] }) (hget _ h1) h2
      (pending_push_other (not_within_parent hwf (hwf _ _ _ h1 h2)) h3)

/-- C08, what is pending: `ctx.save(node)` and `ctx.delete(id)` add their operation to what is pending in the context they are
called on, and (C09) to nothing outside of it. -/
theorem C08_registers {g : Graph σ.K σ.T} (E : Env σ) (fuel : Nat) (env : List Nat) (c f : Nat) (k : Prog σ) {s : St σ}
    (hs : Reachable g s) (hc : env[c]? = some f) {ops : List (Operation σ.K σ.T)} (hp : Pending s.frames f ops) (n : σ.T) (i : σ.K) :
    (∃ s', eval E (fuel + 1) env (.save c n k) s = eval E fuel env k s' ∧ Pending s'.frames f (ops ++ [.save n]) ∧
      ∀ a ops', ¬ Within s.frames f a → Pending s.frames a ops' → Pending s'.frames a ops') ∧
    (∃ s', eval E (fuel + 1) env (.delete c i k) s = eval E fuel env k s' ∧ Pending s'.frames f (ops ++ [.delete i]) ∧
      ∀ a ops', ¬ Within s.frames f a → Pending s.frames a ops' → Pending s'.frames a ops') := by
  refine ⟨⟨pushOp s f (.save n), ?_, pending_push hs.wf hp, fun a ops' => pending_push_other⟩,
    ⟨pushOp s f (.delete i), ?_, pending_push hs.wf hp, fun a ops' => pending_push_other⟩⟩
  · rw [eval]; simp only [hc]
  · rw [eval]; simp only [hc]

/-- C02, on the calls: `ctx.contains(id)` says whether `ctx.get(id)` would find something there and then. -/
theorem C02_context_call (E : Env σ) (fuel : Nat) (env : List Nat) (c f : Nat) (i : σ.K) (k : Bool → Prog σ) (s : St σ)
    (hc : env[c]? = some f) :
    eval E (fuel + 1) env (.contains c i k) s = eval E (fuel + 1) env (.get c i fun a => k a.isSome) s := by
  rw [eval, eval]; simp only [hc, ctxContains_eq]

example : Pending (σ := demo) demoState.frames 2 [.save ⟨3, 30⟩, .delete 1, .save ⟨1, 11⟩, .delete 2] :=
  .child (σ := demo) (fr := ⟨some 1, [.delete 2], none, false⟩) (ops := [.save ⟨3, 30⟩, .delete 1, .save ⟨1, 11⟩]) rfl rfl <|
  .child (σ := demo) (fr := ⟨some 0, [.save ⟨1, 11⟩], none, false⟩) (ops := [.save ⟨3, 30⟩, .delete 1]) rfl rfl <|
  .root (σ := demo) (fr := ⟨none, [.save ⟨3, 30⟩, .delete 1], none, false⟩) rfl rfl
example : ctxGet demoState.graph demoState.frames 2 2 = none ∧ ctxGet demoState.graph demoState.frames 1 2 = some ⟨2, 20⟩ ∧
    ctxGet demoState.graph demoState.frames 0 1 = none := by decide +kernel

/-! ## C09 -/

/-- C09: an operation registered in `f` changes neither the graph nor the reading of any context outside `f`. -/
theorem C09_isolation (s : St σ) (f : Nat) (op : Operation σ.K σ.T) (h : Nat)
    (hout : ¬ Within s.frames f h) (i : σ.K) :
    (pushOp s f op).graph = s.graph ∧
    ctxGet (pushOp s f op).graph (pushOp s f op).frames h i = ctxGet s.graph s.frames h i := by
  refine ⟨rfl, ctxGet_congr h ?_ i⟩
  intro a ha
  have hne : ¬ f = a := fun e => hout (e ▸ ha)
  simp [pushOp, hne]

/-- C09 for whole bodies: as long as a subtransaction is open, whatever its closure does with its own context leaves the
reading of every context opened before unchanged. -/
theorem C09_open_body {g : Graph σ.K σ.T} (E : Env σ) (fuel : Nat) (env : List Nat) (body : Prog σ) (s s1 : St σ) (f : Nat)
    (out : Out (Except Error σ.V)) (hs : Reachable g s) (henv : ∀ e ∈ env, e < s.frames.length)
    (hw : body.Writes (fun c => c = 0))
    (h : eval E fuel (s.frames.length :: env) body (openChild s f) = some (out, s1))
    (a : Nat) (ha : a < s.frames.length) (i : σ.K) :
    ctxGet s1.graph s1.frames a i = ctxGet s.graph s.frames a i := by
  rw [(child_after henv h).2.1]
  exact ctxGet_below hs.wf ha (fun b hb => own_writes_below henv hw h hb) i

/-- The grandchild `2` is inside `1` and `0` but `3` is not inside `1`. -/
example : Within demoState.frames 1 2 ∧ ¬ Within demoState.frames 1 3 := by
  refine ⟨.child (fr := ⟨some 1, [.delete 2], none, false⟩) rfl rfl .self, fun h => ?_⟩
  cases h with
  | child hf hp hw =>
    cases hf; cases hp
    cases hw with
    | child hf hp _ => cases hf; cases hp

/-! ## C10 -/

/-- C10: when the body of a subtransaction of `f` returns `Ok` and its context was not leaked, the calling program goes on
in a state `s2` where `f` reads, for every id, what the body's context read at its end (state `s1`); contexts that are not
inside `f` read as at the end of the body. -/
theorem C10_commit_publishes [LawfulSig σ] {g : Graph σ.K σ.T} (E : Env σ) (fuel : Nat) (env : List Nat) (c f : Nat)
    (body : Prog σ) (k : Except Error σ.V → Prog σ) (s s1 : St σ) (v : σ.V) (hs : Reachable g s)
    (henv : ∀ e ∈ env, e < s.frames.length) (hc : env[c]? = some f)
    (h : eval E fuel (s.frames.length :: env) body (openChild s f) = some (.ret (.ok v), s1))
    (hdrop : ∀ fr, s1.frames[s.frames.length]? = some fr → fr.leaked = false) :
    ∃ s2, eval E (fuel + 1) env (.tx c body k) s = eval E fuel env (k (.ok v)) s2 ∧
      (∀ i, ctxGet s2.graph s2.frames f i = ctxGet s1.graph s1.frames s.frames.length i) ∧
      (∀ a i, a < s.frames.length → ¬ Within s1.frames f a →
        ctxGet s2.graph s2.frames a i = ctxGet s1.graph s1.frames a i) := by
  have hfl := henv f (List.mem_of_getElem? hc)
  obtain ⟨hlen, _, fr, hfr, hpar⟩ := child_after henv h
  have hwf : FramesWF s1.frames := (eval_reachable E (.openChild f hfl hs) (openChild_env henv) h).wf
  refine ⟨commitChild s1 s.frames.length, ?_, ?_, ?_⟩
  · rw [eval]; simp only [hc, h]
  · intro i; rw [ctxGet_commit hwf hfr hpar (hdrop fr hfr) hlen]
  · intro a i ha hw; exact ctxGet_commit_other hwf ha hfr hpar hw i

/-- A subtransaction that deletes `1` and saves `4` publishes both. -/
example : (eval demoSchema.env 10 [0]
      (.tx 0 (.delete 0 1 (.save 0 ⟨4, 40⟩ (.done (.ok ())))) fun _ => .get 0 1 fun a => .get 0 4 fun b =>
        if a = none ∧ b = some ⟨4, 40⟩ then .done (.ok ()) else .panic)
      (demoSchema.begin [])).map (·.1) = some (.ret (.ok ())) := by decide +kernel

/-! ## C11 -/

/-- C11: when the body of a subtransaction returns `Err` or panics, and registered operations only in its own context (or in
contexts opened inside it, or through triggers and operations run on them), the calling program goes on (or unwinds) in a
state where every enclosing context has the log it had before and reads what it read before. -/
theorem C11_failure_leaves_no_trace {g : Graph σ.K σ.T} (E : Env σ) (fuel : Nat) (env : List Nat) (c f : Nat)
    (body : Prog σ) (k : Except Error σ.V → Prog σ) (s s1 : St σ) (out : Out (Except Error σ.V)) (hs : Reachable g s)
    (henv : ∀ e ∈ env, e < s.frames.length) (hc : env[c]? = some f) (hw : body.Writes (fun c => c = 0))
    (h : eval E fuel (s.frames.length :: env) body (openChild s f) = some (out, s1)) (hfail : ∀ v, out ≠ .ret (.ok v)) :
    ∃ s2, ((∃ e, out = .ret (.error e) ∧ eval E (fuel + 1) env (.tx c body k) s = eval E fuel env (k (.error e)) s2) ∨
        ((out = .panic ∨ out = .stuck) ∧ eval E (fuel + 1) env (.tx c body k) s = some (out, s2))) ∧
      s2.frames.length = s.frames.length ∧
      (∀ a : Nat, (s2.frames[a]?).map Frame.ops = (s.frames[a]?).map Frame.ops) ∧
      (∀ a i, a < s.frames.length → ctxGet s2.graph s2.frames a i = ctxGet s.graph s.frames a i) := by
  obtain ⟨hlen, hgr, fr, hfr, hpar⟩ := child_after henv h
  have hb : ∀ a, a < s.frames.length → ((closeChild s1 s.frames.length).frames[a]?).map (fun fr => (fr.parent, fr.ops)) =
      (s.frames[a]?).map (fun fr => (fr.parent, fr.ops)) := by
    intro a ha; rw [closeChild_below s1 ha]; exact own_writes_below henv hw h ha
  have hl : (closeChild s1 s.frames.length).frames.length = s.frames.length := by simp [closeChild, hlen]
  refine ⟨closeChild s1 s.frames.length, ?_, hl, ?_, ?_⟩
  · rcases out with (e | v) | _ | _
    · exact .inl ⟨e, rfl, by rw [eval]; simp only [hc, h]⟩
    · exact absurd rfl (hfail v)
    · exact .inr ⟨.inl rfl, by rw [eval]; simp only [hc, h]⟩
    · exact .inr ⟨.inr rfl, by rw [eval]; simp only [hc, h]⟩
  · intro a
    by_cases ha : a < s.frames.length
    · have := congrArg (Option.map Prod.snd) (hb a ha)
      simpa [Option.map_map, Function.comp_def] using this
    · rw [List.getElem?_eq_none (by omega), List.getElem?_eq_none (by omega)]
  · intro a i ha
    show ctxGet s1.graph _ a i = _
    rw [hgr]
    exact ctxGet_below hs.wf ha hb i

example : (Prog.delete (σ := demo) 0 1 (.tx 0 (.save 0 ⟨9, 9⟩ (.done (.ok ()))) fun _ => .panic)).Writes (fun c => c = 0) :=
  .delete rfl <| .tx rfl (.save (.inl rfl) (.done _)) fun _ => .panic
example : (eval demoSchema.env 10 [0]
      (.tx 0 (.delete 0 1 (.done (.error .noop))) fun _ => .get 0 1 fun a =>
        if a = some ⟨1, 10⟩ then .done (.ok ()) else .panic)
      (demoSchema.begin [])).map (·.1) = some (.ret (.ok ())) := by decide +kernel

/-! ## C12 -/

/-- C12: a transaction that does not return `Ok` leaves the graph identical. -/
theorem C12_failure_keeps_graph (S S' : Schema σ) (fuel : Nat) (pre : List (Operation σ.K σ.T)) (body : Prog σ)
    (out : Out (Except Error σ.V)) (h : S.transact fuel pre body = some (out, S')) (hfail : ∀ v, out ≠ .ret (.ok v)) :
    S'.guard = S.guard := by
  obtain ⟨_, _, _, _, _, hg⟩ := transact_some h
  have e : ∀ S : Schema σ, S.guard = S.graph := fun S => by unfold Schema.guard; split <;> rfl
  rw [e, e, hg hfail]

example : (demoSchema.transact 10 []
      (.delete 0 1 (.tx 0 (.save 0 ⟨1, 99⟩ (.done (.ok ()))) fun _ => .done (.error (.msg "no"))))).map
        (fun r => (r.1, r.2.graph.iter)) =
    some (.ret (.error (.msg "no")), [⟨1, 10⟩, ⟨2, 20⟩]) := by decide +kernel

/-! ## C13 -/

/-- C13: a transaction that returns `Ok`, its context not leaked, installs exactly what its context read when the closure
returned (state `s`). -/
theorem C13_success_installs_view [LawfulSig σ] (S S' : Schema σ) (hS : S.graph.Reachable) (fuel : Nat)
    (pre : List (Operation σ.K σ.T)) (body : Prog σ) (v : σ.V) (s : St σ)
    (h : S.transact fuel pre body = some (.ret (.ok v), S'))
    (hend : eval S.env fuel [0] body (S.begin pre) = some (.ret (.ok v), s))
    (hdrop : ∀ fr, s.frames[0]? = some fr → fr.leaked = false) (i : σ.K) :
    S'.guard.get i = ctxGet s.graph s.frames 0 i := by
  obtain ⟨s', he, _, _, hok, _⟩ := transact_some h
  rw [hend] at he; cases he
  obtain ⟨hgr, fr, hfr, hpar, _⟩ := root_after hend
  have hf0 : s.frames[0]? = some fr := by rw [hfr]; rfl
  have e : S'.guard = S'.graph := by unfold Schema.guard; split <;> rfl
  rw [e, hok ⟨v, rfl⟩, ctxGet_applyAll_root hf0 hpar, hgr]
  simp only [commitRoot, hf0, hdrop fr hf0, hgr]
  exact congrFun (get_commit S.graph hS.valid fr.ops) i

/-- C13: ids on which nothing is pending at the end keep their node. -/
theorem C13_nothing_else [LawfulSig σ] (S S' : Schema σ) (hS : S.graph.Reachable) (fuel : Nat)
    (pre : List (Operation σ.K σ.T)) (body : Prog σ) (v : σ.V) (s : St σ)
    (h : S.transact fuel pre body = some (.ret (.ok v), S'))
    (hend : eval S.env fuel [0] body (S.begin pre) = some (.ret (.ok v), s)) (i : σ.K)
    (hi : ∀ fr, s.frames[0]? = some fr → ∀ op ∈ fr.ops, (op.id == i) = false) :
    S'.guard.get i = S.guard.get i := by
  obtain ⟨s', he, _, _, hok, _⟩ := transact_some h
  rw [hend] at he; cases he
  obtain ⟨hgr, fr, hfr, hpar, _⟩ := root_after hend
  have hf0 : s.frames[0]? = some fr := by rw [hfr]; rfl
  have e : ∀ S : Schema σ, S.guard = S.graph := fun S => by unfold Schema.guard; split <;> rfl
  rw [e, e, hok ⟨v, rfl⟩]
  simp only [commitRoot, hf0, hgr]
  split
  · rfl
  · rw [get_commit S.graph hS.valid, applyAll_find]
    have : fr.ops.reverse.find? (fun op => op.id == i) = none := by
      rw [List.find?_eq_none]
      intro op hop
      rw [hi fr hf0 op (List.mem_reverse.1 hop)]; simp
    rw [this]

/-- The graph stays a graph the API can build, so the hypotheses of C13 hold again for the next transaction. -/
theorem C13_stays_reachable [LawfulSig σ] (S S' : Schema σ) (hS : S.graph.Reachable) (fuel : Nat)
    (pre : List (Operation σ.K σ.T)) (body : Prog σ) (out : Out (Except Error σ.V))
    (h : S.transact fuel pre body = some (out, S')) : S'.graph.Reachable := by
  have hc : ∀ (ops : List (Operation σ.K σ.T)) (g : Graph σ.K σ.T), g.Reachable → (g.commit ops).Reachable := by
    intro ops
    induction ops with
    | nil => intro g h; exact h
    | cons op t ih =>
      intro g hg
      cases op with
      | save n => exact ih _ (.insert g n hg)
      | delete i => exact ih _ (.remove g i hg)
  obtain ⟨s, he, _, _, hok, hfail⟩ := transact_some h
  obtain ⟨hgr, fr, hfr, _, _⟩ := root_after he
  by_cases hv : ∃ v, out = .ret (.ok v)
  · rw [hok hv]
    unfold commitRoot
    rw [hgr]
    split
    · exact hS
    · split
      · exact hS
      · exact hc _ _ hS
  · rw [hfail fun v hv' => hv ⟨v, hv'⟩]; exact hS

example : demoSchema.graph.Reachable := .fromIter _
example : (demoSchema.transact 10 []
      (.delete 0 1 (.tx 0 (.save 0 ⟨1, 99⟩ (.save 0 ⟨7, 70⟩ (.done (.ok ())))) fun _ => .delete 0 2 (.done (.ok ()))))).map
        (fun r => (r.1, r.2.graph.iter)) =
    some (.ret (.ok ()), [⟨1, 99⟩, ⟨7, 70⟩]) := by decide +kernel

/-! ## C16 -/

/-- C16 is false of the code: a closure that leaks its context gets `Ok` although its context read the node it saved and
the graph has not got it. -/
theorem C16_refuted : ∃ (S S' : Schema demo) (body : Prog demo) (s : St demo) (n : Doc),
    S.transact 10 [] body = some (.ret (.ok ()), S') ∧
    eval S.env 10 [0] body (S.begin []) = some (.ret (.ok ()), s) ∧
    ctxGet s.graph s.frames 0 n.key = some n ∧ S'.guard.get n.key = none := by
  refine ⟨demoSchema, demoSchema, .save 0 ⟨7, 70⟩ (.forget (.done (.ok ()))),
    ⟨demoGraph, [⟨none, [.save ⟨7, 70⟩], none, true⟩], [], []⟩, ⟨7, 70⟩, rfl, rfl, ?_, ?_⟩ <;> decide +kernel

/-- C16, what does hold: if the closure does not leak its own context (closures of subtransactions may leak theirs), `Ok`
means that the graph is the old one with every operation registered in the transaction's context applied in order.
Missing from C16: closures that leak their context. -/
theorem C16_ok_means_applied_partial (S S' : Schema σ) (fuel : Nat) (pre : List (Operation σ.K σ.T)) (body : Prog σ)
    (v : σ.V) (hbody : body.Holds) (htr : S.env.Holds)
    (h : S.transact fuel pre body = some (.ret (.ok v), S')) :
    ∃ s ops, eval S.env fuel [0] body (S.begin pre) = some (.ret (.ok v), s) ∧ Pending s.frames 0 ops ∧ pre <+: ops ∧
      S'.graph = S.graph.commit ops := by
  obtain ⟨s, he, _, _, hok, _⟩ := transact_some h
  obtain ⟨hgr, fr, hfr, hpar, hpre⟩ := root_after he
  have hf0 : s.frames[0]? = some fr := by rw [hfr]; rfl
  refine ⟨s, fr.ops, he, .root hf0 hpar, hpre, ?_⟩
  have hl := eval_leaked htr fuel _ _ _ _ _ (begin_env S pre) he 0 (by simp [Schema.begin]) (.inl hbody)
  rw [hf0] at hl
  have hl' : fr.leaked = false := by simpa [Schema.begin] using hl
  rw [hok ⟨v, rfl⟩]
  simp [commitRoot, hf0, hl', hgr]

example : (Prog.save (σ := demo) 0 ⟨7, 70⟩ (.tx 0 (.delete 0 1 (.done (.ok ()))) fun _ => .done (.ok ()))).Holds := by
  simp [Prog.Holds]
example : demoSchema.env.Holds := by
  intro s ts h; cases s <;> cases h

/-! ## C17 -/

/-- C17: what a transaction does and returns does not depend on whether the schema's lock is poisoned. -/
theorem C17_poison_is_harmless (S : Schema σ) (b : Bool) (fuel : Nat) (pre : List (Operation σ.K σ.T)) (body : Prog σ) :
    ({ S with poisoned := b } : Schema σ).guard = S.guard ∧
    (({ S with poisoned := b } : Schema σ).transact fuel pre body).map (fun r => (r.1, r.2.graph, r.2.heap, r.2.env)) =
      (S.transact fuel pre body).map (fun r => (r.1, r.2.graph, r.2.heap, r.2.env)) := by
  have e : ∀ S : Schema σ, S.guard = S.graph := fun S => by unfold Schema.guard; split <;> rfl
  refine ⟨by rw [e, e], ?_⟩
  have hb : ({ S with poisoned := b } : Schema σ).begin pre = S.begin pre := by unfold Schema.begin; rw [e, e]
  unfold Schema.transact
  rw [hb]
  cases eval S.env fuel [0] body (S.begin pre) with
  | none => rfl
  | some r => obtain ⟨o, s⟩ := r; rcases o with (e | v) | _ | _ <;> rfl

/-- C17: after a panic the schema has the graph, triggers and resource handles it had, and the next transaction behaves
as on the schema before the panic (with the resource contents the panicking closure left). -/
theorem C17_after_panic (S S' : Schema σ) (fuel : Nat) (pre : List (Operation σ.K σ.T)) (body : Prog σ)
    (h : S.transact fuel pre body = some (.panic, S')) (fuel' : Nat) (pre' : List (Operation σ.K σ.T)) (body' : Prog σ) :
    S'.guard = S.guard ∧ S'.env = S.env ∧
    (S'.transact fuel' pre' body').map (fun r => (r.1, r.2.graph, r.2.heap, r.2.env)) =
      (({ S with heap := S'.heap } : Schema σ).transact fuel' pre' body').map
        (fun r => (r.1, r.2.graph, r.2.heap, r.2.env)) := by
  have hg := C12_failure_keeps_graph S S' fuel pre body .panic h (by intro v h; cases h)
  obtain ⟨_, _, henv, _⟩ := transact_some h
  refine ⟨hg, henv, ?_⟩
  rw [← (C17_poison_is_harmless S' S.poisoned fuel' pre' body').2]
  have e : ∀ S : Schema σ, S.guard = S.graph := fun S => by unfold Schema.guard; split <;> rfl
  rw [e, e] at hg
  have : ({ S' with poisoned := S.poisoned } : Schema σ) = { S with heap := S'.heap } := by
    rw [← hg, ← henv]
  rw [this]

/-- The history `cmds` without the commands that panicked. -/
def withoutPanics : List (Prog σ) → List (Out (Except Error σ.V)) → List (Prog σ)
  | _ :: ps, .panic :: outs => withoutPanics ps outs
  | p :: ps, _ :: outs => p :: withoutPanics ps outs
  | _, _ => []

/-- The results without the panics. -/
def dropPanics : List (Out (Except Error σ.V)) → List (Out (Except Error σ.V))
  | .panic :: outs => dropPanics outs
  | o :: outs => o :: dropPanics outs
  | [] => []

/-- C17 for whole histories: if no closure or trigger writes resources, cutting the panicking transactions out of a history
changes neither the other results nor the final graph. -/
theorem C17_history (S S' : Schema σ) (fuel : Nat) (cmds : List (Prog σ)) (outs : List (Out (Except Error σ.V)))
    (htr : S.env.Every Prog.NoResWrite) (hcmds : ∀ p ∈ cmds, p.Every Prog.NoResWrite)
    (h : S.history fuel cmds = some (outs, S')) :
    ∃ S'', S.history fuel (withoutPanics cmds outs) = some (dropPanics outs, S'') ∧
      S''.guard = S'.guard ∧ S''.heap = S'.heap ∧ S''.env = S'.env := by
  have e : ∀ S : Schema σ, S.guard = S.graph := fun S => by unfold Schema.guard; split <;> rfl
  -- generalised over the poison flag
  suffices gen : ∀ (cmds : List (Prog σ)) (S T S' : Schema σ) outs, S.env.Every Prog.NoResWrite →
      (∀ p ∈ cmds, p.Every Prog.NoResWrite) → T.graph = S.graph → T.heap = S.heap → T.env = S.env →
      S.history fuel cmds = some (outs, S') →
      ∃ S'', T.history fuel (withoutPanics cmds outs) = some (dropPanics outs, S'') ∧
        S''.graph = S'.graph ∧ S''.heap = S'.heap ∧ S''.env = S'.env by
    obtain ⟨S'', h1, h2, h3, h4⟩ := gen cmds S S S' outs htr hcmds rfl rfl rfl h
    exact ⟨S'', h1, by rw [e, e, h2], h3, h4⟩
  intro cmds
  induction cmds with
  | nil =>
    intro S T S' outs _ _ h1 h2 h3 h
    simp only [Schema.history, Option.some.injEq, Prod.mk.injEq] at h
    obtain ⟨rfl, rfl⟩ := h
    exact ⟨T, rfl, h1, h2, h3⟩
  | cons p ps ih =>
    intro S T S' outs htr hcmds h1 h2 h3 h
    simp only [Schema.history, Option.bind_eq_bind, Option.bind_eq_some_iff, Prod.exists] at h
    obtain ⟨out, S1, ht, outs', S2, hh, heq⟩ := h
    simp only [Option.some.injEq, Prod.mk.injEq] at heq
    obtain ⟨rfl, rfl⟩ := heq
    obtain ⟨s, he, henv, hheap, _, hfail⟩ := transact_some ht
    have hkeep : S1.heap = S.heap := by
      rw [hheap, eval_heap htr (hcmds p (List.mem_cons_self ..)) (begin_env S []) he]; rfl
    have htr1 : S1.env.Every Prog.NoResWrite := by rw [henv]; exact htr
    have hps : ∀ q ∈ ps, q.Every Prog.NoResWrite := fun q hq => hcmds q (List.mem_cons_of_mem _ hq)
    have hT : T = { S with poisoned := T.poisoned } := by rw [← h1, ← h2, ← h3]
    by_cases hp : out = .panic
    · subst hp
      have hg1 := hfail (by intro v h; cases h)
      exact ih S1 T S2 outs' htr1 hps (h1.trans hg1.symm) (h2.trans hkeep.symm) (h3.trans henv.symm) hh
    · have hTt := (C17_poison_is_harmless S T.poisoned fuel [] p).2
      rw [← hT, ht] at hTt
      simp only [Option.map_some] at hTt
      cases hTr : T.transact fuel [] p with
      | none => rw [hTr] at hTt; cases hTt
      | some r =>
        obtain ⟨o, T1⟩ := r
        rw [hTr] at hTt
        simp only [Option.map_some, Option.some.injEq, Prod.mk.injEq] at hTt
        obtain ⟨rfl, hg1, hh1, he1⟩ := hTt
        obtain ⟨S'', a1, a2, a3, a4⟩ := ih S1 T1 S2 outs' htr1 hps hg1 hh1 he1 hh
        refine ⟨S'', ?_, a2, a3, a4⟩
        have hw : withoutPanics (p :: ps) (o :: outs') = p :: withoutPanics ps outs' := by
          cases o <;> first | rfl | exact absurd rfl hp
        have hd : dropPanics (o :: outs') = o :: dropPanics outs' := by
          cases o <;> first | rfl | exact absurd rfl hp
        rw [hw, hd]
        simp [Schema.history, hTr, a1]

example : (demoSchema.history 10 [.save 0 ⟨1, 99⟩ .panic, .get 0 1 fun a => if a = some ⟨1, 10⟩ then .done (.ok ()) else .panic,
      .save 0 ⟨5, 50⟩ (.done (.ok ()))]).map (fun r => (r.1, r.2.graph.iter, r.2.poisoned)) =
    some ([.panic, .ret (.ok ()), .ret (.ok ())], [⟨1, 10⟩, ⟨2, 20⟩, ⟨5, 50⟩], true) := by decide +kernel

/-! ## C18 -/

/-- C18: if neither the closure nor any trigger saves or deletes, the graph afterwards is identical, whatever the result. -/
theorem C18_quiet_keeps_graph (S S' : Schema σ) (fuel : Nat) (body : Prog σ) (out : Out (Except Error σ.V))
    (hbody : body.Every Prog.Quiet) (htr : S.env.Every Prog.Quiet) (h : S.transact fuel [] body = some (out, S')) :
    S'.guard = S.guard := by
  have e : ∀ S : Schema σ, S.guard = S.graph := fun S => by unfold Schema.guard; split <;> rfl
  obtain ⟨s, he, _, _, hok, hfail⟩ := transact_some h
  rw [e, e]
  by_cases hv : ∃ v, out = .ret (.ok v)
  · obtain ⟨hgr, fr, hfr, hpar, hpre⟩ := root_after he
    have hf0 : s.frames[0]? = some fr := by rw [hfr]; rfl
    have hq := eval_quiet htr hbody (begin_env S []) he 0 (by simp [Schema.begin])
    rw [hf0] at hq
    have hops : fr.ops = [] := by simpa [Schema.begin] using hq
    rw [hok hv]
    simp only [commitRoot, hf0, hops, hgr]
    split <;> rfl
  · exact hfail fun v hv' => hv ⟨v, hv'⟩

example : (Prog.get (σ := demo) 0 1 fun _ => .tx 0 (.contains 0 2 fun _ => .done (.ok ())) fun _ =>
    .runTriggers 0 (.custom 3) fun _ => .done (.ok ())).Every Prog.Quiet := by simp [Prog.Every, Prog.Quiet]

/-! ## C19 -/

/-- C19: running any program with the contexts `env` in hand keeps the graph and the set of open contexts, only appends to
their logs, keeps their nesting, and leaves every context not in hand exactly as it was. -/
theorem C19_append_only (E : Env σ) (fuel : Nat) (env : List Nat) (p : Prog σ) (s s' : St σ)
    (out : Out (Except Error σ.V)) (henv : ∀ e ∈ env, e < s.frames.length)
    (h : eval E fuel env p s = some (out, s')) :
    s'.graph = s.graph ∧ s'.frames.length = s.frames.length ∧
    ∀ f fr, s.frames[f]? = some fr → ∃ fr', s'.frames[f]? = some fr' ∧ fr'.parent = fr.parent ∧ fr.ops <+: fr'.ops ∧
      (f ∉ env → fr' = fr) := by
  have hg := eval_grows_any E fuel env p s s' out henv h
  refine ⟨hg.graph, hg.len, ?_⟩
  intro f fr hf
  obtain ⟨fr', a, b, c, d, _⟩ := hg.frames f fr hf
  exact ⟨fr', a, b, c, d⟩

/-- C19 for triggers: a trigger is handed one context only, so it cannot touch any other. -/
theorem C19_trigger (E : Env σ) (fuel : Nat) (t : Prog σ) (f : Nat) (s s' : St σ) (out : Out (Except Error σ.V))
    (hf : f < s.frames.length) (h : eval E fuel [f] t s = some (out, s')) (a : Nat) (ha : a ≠ f) :
    s'.frames[a]? = s.frames[a]? := by
  have henv : ∀ e ∈ [f], e < s.frames.length := by simp [hf]
  obtain ⟨_, hlen, hfr⟩ := C19_append_only E fuel [f] t s s' out henv h
  cases hsa : s.frames[a]? with
  | some fr =>
    obtain ⟨fr', h1, _, _, h2⟩ := hfr a fr hsa
    rw [h1, h2 (by simpa using ha)]
  | none =>
    rw [List.getElem?_eq_none_iff] at hsa ⊢
    omega

example : (eval demoSchema.env 10 [1] (.tx 0 (.save 0 ⟨8, 80⟩ (.done (.ok ()))) fun _ => .done (.ok ())) demoState).map
    (fun r => r.2.frames.map Frame.ops) =
    some [[.save ⟨3, 30⟩, .delete 1], [.save ⟨1, 11⟩, .save ⟨8, 80⟩], [.delete 2], []] := by decide +kernel

/-! ## C20 -/

/-- C20: a commit that stops at some operation has applied exactly the operations before it, in order. -/
theorem C20_prefix {K T : Type} [Ord K] [Identify T K] (g : Graph K T) (ops : List (Operation K T)) (k : Nat) :
    g.commitCrash ops k = (ops.take k).foldl (fun g op => g.applyOp op) g := by
  induction ops generalizing g k with
  | nil => cases k <;> rfl
  | cons op ops ih =>
    cases k with
    | zero => rfl
    | succ k => exact ih _ _

/-- C20 for the whole transaction: `with` panics and the schema, which stays usable, reads as if the first `k` operations of
the context had been applied to the old graph. -/
theorem C20_transaction [LawfulSig σ] (S S' : Schema σ) (hS : S.graph.Reachable) (fuel : Nat)
    (pre : List (Operation σ.K σ.T)) (body : Prog σ) (v : σ.V) (s : St σ) (ops : List (Operation σ.K σ.T)) (k : Nat)
    (hend : eval S.env fuel [0] body (S.begin pre) = some (.ret (.ok v), s))
    (hdrop : ∀ fr, s.frames[0]? = some fr → fr.leaked = false) (hops : Pending s.frames 0 ops) (hk : k < ops.length)
    (out : Out (Except Error σ.V)) (h : S.transactCrash fuel pre body k = some (out, S')) :
    out = .panic ∧ ∀ i, S'.guard.get i = FMap.applyAll S.guard.get (ops.take k) i := by
  have e : ∀ S : Schema σ, S.guard = S.graph := fun S => by unfold Schema.guard; split <;> rfl
  obtain ⟨hgr, fr, hfr, hpar, _⟩ := root_after hend
  have hf0 : s.frames[0]? = some fr := by rw [hfr]; rfl
  have hopseq : ops = fr.ops := by
    cases hops with
    | root hf hp => rw [hf0] at hf; cases hf; rfl
    | child hf hp _ => rw [hf0] at hf; cases hf; rw [hpar] at hp; cases hp
  subst hopseq
  unfold Schema.transactCrash at h
  simp only [hend, hf0, hdrop fr hf0, if_pos hk] at h
  simp only [Bool.false_eq_true, if_false, Option.some.injEq, Prod.mk.injEq] at h
  obtain ⟨rfl, rfl⟩ := h
  refine ⟨rfl, fun i => ?_⟩
  rw [e, e]
  show (s.graph.commitCrash fr.ops k).get i = _
  rw [C20_prefix, hgr]
  exact congrFun (get_commit S.graph hS.valid _) i

/-- C20: otherwise, that is if the closure did not return `Ok`, or its context was forgotten, or there are no more than `k` operations,
nothing of this happens: `with` does what it does without a crash. -/
theorem C20_otherwise [LawfulSig σ] (S : Schema σ) (fuel : Nat) (pre : List (Operation σ.K σ.T)) (body : Prog σ) (k : Nat)
    (h : ∀ v s ops, eval S.env fuel [0] body (S.begin pre) = some (.ret (.ok v), s) →
      (∀ fr, s.frames[0]? = some fr → fr.leaked = false) → Pending s.frames 0 ops → ops.length ≤ k) :
    S.transactCrash fuel pre body k = S.transact fuel pre body := by
  unfold Schema.transactCrash
  split
  · rename_i v s hend
    obtain ⟨_, fr, hfr, hpar, _⟩ := root_after hend
    have hf0 : s.frames[0]? = some fr := by rw [hfr]; rfl
    simp only [hf0]
    cases hl : fr.leaked with
    | true => rfl
    | false =>
      have := h v s fr.ops hend (fun fr' h' => by rw [hf0] at h'; cases h'; exact hl) (.root hf0 hpar)
      rw [if_neg (by simp), if_neg (by omega)]
      simp only [Schema.transact, hend, commitRoot, hf0, hl, Bool.false_eq_true, if_false]
  · rfl

/-- A commit of three operations that would have crashed at a fourth. -/
example : demoSchema.transactCrash 10 [] (.delete 0 1 (.delete 0 2 (.save 0 ⟨3, 30⟩ (.done (.ok ()))))) 3 =
    some (.ret (.ok ()), { demoSchema with graph := Graph.fromIter [⟨3, 30⟩] }) := rfl

/-- C20: so a commit is not atomic under a crash: the graph afterwards can differ both from the old one and from the fully
updated one. -/
theorem C20_not_atomic : ∃ (S S' S'' : Schema demo) (body : Prog demo),
    S.transact 10 [] body = some (.ret (.ok ()), S') ∧ S.transactCrash 10 [] body 1 = some (.panic, S'') ∧
    S''.guard.iter ≠ S.guard.iter ∧ S''.guard.iter ≠ S'.guard.iter := by
  refine ⟨demoSchema, { demoSchema with graph := Graph.fromIter [⟨3, 30⟩] },
    { demoSchema with graph := Graph.fromIter [⟨2, 20⟩], poisoned := true },
    .delete 0 1 (.delete 0 2 (.save 0 ⟨3, 30⟩ (.done (.ok ())))), rfl, rfl, ?_, ?_⟩ <;> decide

end Plotline
