import Verif.Lemmas.Triggers
import Verif.Lemmas.Copy

/-! # Transactions around Save and Delete -/

namespace Plotline

open Std

set_option linter.unusedSectionVars false

variable {σ : Sig}

theorem guard_eq (S : Schema σ) : S.guard = S.graph := by unfold Schema.guard; split <;> rfl

theorem begin_graph (S : Schema σ) (pre : List (Operation σ.K σ.T)) : (S.begin pre).graph = S.graph := guard_eq S

theorem saveBody_holds (n : σ.T) : (saveBody n).Holds := by
  unfold saveBody saveAfter
  intro x
  cases x with
  | error e => trivial
  | ok u =>
    intro y
    cases y with
    | none => intro z; cases z <;> trivial
    | some m => intro z; cases z <;> trivial

theorem deleteBody_holds (i : σ.K) : (deleteBody i).Holds := by
  unfold deleteBody deleteAfter
  intro x
  cases x with
  | none => trivial
  | some n =>
    intro y
    cases y with
    | error e => trivial
    | ok u => intro z; cases z <;> trivial

theorem mem_fire {E : Env σ} {sch : Sched} {t : Prog σ} (h : t ∈ E.fire sch) :
    ∃ ts, E.triggers.select sch = some ts ∧ t ∈ ts := by
  unfold Env.fire at h
  cases hs : E.triggers.select sch with
  | none => simp [hs] at h
  | some ts => exact ⟨ts, rfl, by simpa [hs] using h⟩

theorem Env.Every.fire {E : Env σ} {φ : Prog σ → Prop} (h : E.Every φ) (sch : Sched) : ∀ t ∈ E.fire sch, t.Every φ := by
  intro t ht; obtain ⟨ts, hs, hm⟩ := mem_fire ht; exact h sch ts hs t hm

theorem Runs.leaked {E : Env σ} (hE : E.Holds) {env : List Nat} {p : Prog σ} {s s' : St σ} {out : Out (Except Error σ.V)}
    (h : Runs E env p s out s') (hp : p.Holds) (henv : ∀ e ∈ env, e < s.frames.length) {f : Nat} (hf : f < s.frames.length) :
    (s'.frames[f]?).map Frame.leaked = (s.frames[f]?).map Frame.leaked := by
  obtain ⟨fuel, h⟩ := h
  exact eval_leaked hE fuel env p s s' out henv h f hf (.inl hp)

theorem Runs.len {E : Env σ} {env : List Nat} {p : Prog σ} {s s' : St σ} {out : Out (Except Error σ.V)}
    (h : Runs E env p s out s') (henv : ∀ e ∈ env, e < s.frames.length) : s'.frames.length = s.frames.length := by
  obtain ⟨fuel, h⟩ := h; exact eval_len E henv h

theorem Runs.reachable {E : Env σ} {g : Graph σ.K σ.T} {env : List Nat} {p : Prog σ} {s s' : St σ}
    {out : Out (Except Error σ.V)} (h : Runs E env p s out s') (henv : ∀ e ∈ env, e < s.frames.length)
    (hs : Reachable g s) : Reachable g s' := by
  obtain ⟨fuel, h⟩ := h; exact eval_reachable E hs henv h

theorem logOf_prefix {s s' : St σ} {f : Nat} (h : logOf s f <+: logOf s' f) :
    ∃ ops, logOf s' f = logOf s f ++ ops := by obtain ⟨t, h⟩ := h; exact ⟨t, h.symm⟩

section
variable [LawfulSig σ]

/-- Reading of a context whose own log grew while nothing else changed below it. -/
theorem ctxGet_grows {g : Graph σ.K σ.T} {P : Nat → Prop} {s s' : St σ} (hs : Reachable g s) {f : Nat}
    (hf : f < s.frames.length) (h : Grows P (fun i => i = f) s s') {ops : List (Operation σ.K σ.T)}
    (hl : logOf s' f = logOf s f ++ ops) :
    ctxGet s'.graph s'.frames f = FMap.applyAll (ctxGet s.graph s.frames f) ops := by
  have hfr : s.frames[f]? = some s.frames[f] := List.getElem?_eq_getElem hf
  obtain ⟨fr', hfr', hpar, _, _, _⟩ := h.frames f _ hfr
  have hlog : fr'.ops = s.frames[f].ops ++ ops := by
    simpa [logOf, hfr, hfr'] using hl
  rw [h.graph]
  cases hp : s.frames[f].parent with
  | none =>
    rw [ctxGet_applyAll_root hfr' (hpar.trans hp), ctxGet_applyAll_root hfr hp, hlog, applyAll_append]
  | some p =>
    have hlt := hs.wf _ _ _ hfr hp
    rw [ctxGet_applyAll_parent hfr' (hpar.trans hp) hlt, ctxGet_applyAll_parent hfr hp hlt, hlog, applyAll_append]
    have : ctxGet s.graph s'.frames p = ctxGet s.graph s.frames p := by
      funext i
      apply ctxGet_below hs.wf hlt
      intro a ha
      have hal : a < s.frames.length := by omega
      obtain ⟨fr'', h1, h2, _, _, h3⟩ := h.frames a _ (List.getElem?_eq_getElem hal)
      rw [h1, List.getElem?_eq_getElem hal]
      simp [h2, h3 (show ¬ a = f by omega)]
    rw [this]

theorem ctxGet_openChild {g : Graph σ.K σ.T} {s : St σ} (hs : Reachable g s) {f : Nat} (hf : f < s.frames.length) :
    ctxGet (openChild s f).graph (openChild s f).frames s.frames.length = ctxGet s.graph s.frames f := by
  have hn : (openChild s f).frames[s.frames.length]? = some ⟨some f, [], none, false⟩ := by simp [openChild]
  rw [ctxGet_applyAll_parent hn rfl hf]
  funext i
  exact ctxGet_below hs.wf hf (fun a ha => by rw [openChild_below s f (by omega)]) i

theorem ctxGet_begin (S : Schema σ) : ctxGet (S.begin []).graph (S.begin []).frames 0 = S.graph.get := by
  rw [ctxGet_applyAll_root (fr := ⟨none, [], none, false⟩) rfl rfl, begin_graph]; rfl

/-- A transaction that returned `Ok` and whose closure kept its context: what the graph reads afterwards. -/
theorem transact_ok_get {S S' : Schema σ} (hS : S.graph.Reachable) {fuel : Nat} {body : Prog σ} {v : σ.V}
    (hbody : body.Holds) (htr : S.env.Holds) (h : S.transact fuel [] body = some (.ret (.ok v), S')) :
    ∃ s, Runs S.env [0] body (S.begin []) (.ret (.ok v)) s ∧
      S'.guard.get = ctxGet s.graph s.frames 0 ∧ S'.guard.get = FMap.applyAll S.guard.get (logOf s 0) ∧ S'.heap = s.heap := by
  obtain ⟨s, he, _, hheap, hok, _⟩ := transact_some h
  obtain ⟨hgr, fr, hfr, hpar, _⟩ := root_after he
  have hf0 : s.frames[0]? = some fr := by rw [hfr]; rfl
  have hl := eval_leaked htr fuel _ _ _ _ _ (begin_env S []) he 0 (by simp [Schema.begin]) (.inl hbody)
  rw [hf0] at hl
  have hl' : fr.leaked = false := by simpa [Schema.begin] using hl
  have hg : S'.guard.get = FMap.applyAll S.guard.get (logOf s 0) := by
    rw [guard_eq, guard_eq, hok ⟨v, rfl⟩]
    simp only [commitRoot, hf0, hl', hgr, logOf]
    exact get_commit S.graph hS.valid fr.ops
  refine ⟨s, ⟨fuel, he⟩, ?_, hg, hheap⟩
  rw [hg, ctxGet_applyAll_root hf0 hpar, hgr, guard_eq]
  simp [logOf, hf0]

end

/-- Frames and logs after committing a subtransaction whose context was kept. -/
theorem commitChild_log {s s1 : St σ} {f : Nat} {P Q : Nat → Prop} (hf : f < s.frames.length)
    (hg : Grows P Q (openChild s f) s1) (hQ : ¬ Q f)
    (hl : (s1.frames[s.frames.length]?).map Frame.leaked = some false) :
    logOf (commitChild s1 s.frames.length) f = logOf s f ++ logOf s1 s.frames.length := by
  obtain ⟨fr, hfr, hpar⟩ := child_frame hg
  have hl' : fr.leaked = false := by simpa [hfr] using hl
  obtain ⟨fr', hf', _, _, _, hops⟩ := hg.frames f s.frames[f] (by rw [openChild_below s f hf]; exact List.getElem?_eq_getElem hf)
  have h0 : s.frames[f]? = some s.frames[f] := List.getElem?_eq_getElem hf
  unfold logOf
  rw [commitChild_eq hfr hpar hl', List.getElem?_modify, List.getElem?_take, if_pos hf, hf', hfr, h0]
  simp [hops hQ]

end Plotline

namespace Plotline

variable {σ : Sig}

theorem readTarget_pushOp (s : St σ) (f h : Nat) (op : Operation σ.K σ.T) : readTarget (pushOp s f op) h = readTarget s h := by
  unfold readTarget pushOp
  simp only [List.getElem?_modify]
  cases s.frames[h]? with
  | none => rfl
  | some fr =>
    simp only [Option.map_eq_map, Option.map_some]
    by_cases hi : f = h <;> simp [hi]

theorem Fires.quiet {E : Env σ} {f : Nat} {ts : List (Prog σ)} {s s' : St σ} {r : Out (Except Error Unit)}
    (h : Fires E f ts s r s') (hE : E.Every Prog.Quiet) (hts : ∀ t ∈ ts, t.Every Prog.Quiet) (hf : f < s.frames.length) :
    logOf s' f = logOf s f := by
  have one : ∀ {t : Prog σ} {s s1 : St σ} {o : Out (Except Error σ.V)}, t.Every Prog.Quiet → f < s.frames.length →
      Runs E [f] t s o s1 → logOf s1 f = logOf s f ∧ f < s1.frames.length := by
    rintro t s s1 o hp hf ⟨fuel, h⟩
    have henv : ∀ e ∈ [f], e < s.frames.length := by simp [hf]
    refine ⟨?_, by rw [eval_len E henv h]; exact hf⟩
    have := eval_quiet hE hp henv h f hf
    unfold logOf
    cases h1 : s.frames[f]? <;> cases h2 : s1.frames[f]? <;> simp_all
  induction h with
  | none s => rfl
  | next h1 _ ih =>
    obtain ⟨a, b⟩ := one (hts _ (List.mem_cons_self ..)) hf h1
    exact (ih (fun t h => hts t (List.mem_cons_of_mem _ h)) b).trans a
  | error h1 => exact (one (hts _ (List.mem_cons_self ..)) hf h1).1
  | panic h1 => exact (one (hts _ (List.mem_cons_self ..)) hf h1).1
  | stuck h1 => exact (one (hts _ (List.mem_cons_self ..)) hf h1).1

end Plotline
