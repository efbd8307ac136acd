import Verif.Lemmas.Group
import Verif.Lemmas.Scopes
import Verif.Lemmas.Ops
import Verif.Lemmas.App
import Verif.Lemmas.Locality
import Verif.Lemmas.Triggers
import Verif.Props.Transaction

/-! # Property C89: a subtransaction is a transaction on what its context reads -/

namespace Plotline

open Std

variable {σ : Sig}

theorem child_run {g : Graph σ.K σ.T} {s : St σ} (hs : Reachable g s) {env : List Nat} {f : Nat} (hf : f < s.frames.length)
    {S : Schema σ} (hS : Shows s f S) {p : Prog σ} (hp : p.Alone) (fuel : Nat) :
    eval S.env fuel (s.frames.length :: env) p (openChild s f) =
      (eval S.env fuel [0] p (S.begin [])).map fun r => (r.1, embed s f r.2) := by
  have h := eval_embed S.env hs hf (G := S.graph) (by rw [← guard_eq]; exact hS.nodes) fuel (fun c => c = 0) [0]
    (s.frames.length :: env) p (S.begin []) (fun c hc => by subst hc; rfl) hp (begin_env S []) (begin_reachable S [])
  have e : embed s f (S.begin []) = openChild s f := by
    simp [embed, openChild, Schema.begin, lift, hS.heap, hS.free]
  rw [← e, h]

theorem sub_as_tx [LawfulSig σ] {g : Graph σ.K σ.T} {s : St σ} (hs : Reachable g s) {env : List Nat}
    (henv : ∀ e ∈ env, e < s.frames.length) {c f : Nat} (hc : env[c]? = some f) {S : Schema σ} (hv : S.graph.Valid) (hS : Shows s f S)
    {p : Prog σ} (hp : p.Alone) (k : Except Error σ.V → Prog σ) (fuel : Nat) :
    (S.transact fuel [] p = none ∧ eval S.env (fuel + 1) env (.tx c p k) s = none) ∨
    ∃ out S1 s1 ops, S.transact fuel [] p = some (out, S1) ∧
      s1.frames = s.frames.modify f (fun fr => { fr with ops := fr.ops ++ ops }) ∧ s1.graph = s.graph ∧ Reachable g s1 ∧
      Shows s1 f S1 ∧
      ∀ more, eval S.env (fuel + more + 1) env (.tx c p k) s =
        match out with
        | .ret r => eval S.env (fuel + more) env (k r) s1
        | .panic => some (.panic, s1)
        | .stuck => some (.stuck, s1) := by
  have hf : f < s.frames.length := henv f (List.mem_of_getElem? hc)
  have hrun := child_run hs (env := env) hf hS hp fuel
  cases ht : S.transact fuel [] p with
  | none =>
    refine .inl ⟨rfl, ?_⟩
    rw [transact_none_iff.1 ht] at hrun
    simp only [eval, hc, hrun]
    rfl
  | some r =>
    obtain ⟨out, S1⟩ := r
    obtain ⟨s', he, hE, hh, hok, hno⟩ := transact_some ht
    rw [he] at hrun
    simp only [Option.map_some] at hrun
    have hmore := fun more => eval_mono_le S.env (Nat.le_add_right fuel more) hrun
    obtain ⟨hgr, fr, hfr, hpar, _⟩ := root_after he
    have hs' := eval_reachable S.env (begin_reachable S []) (begin_env S []) he
    have hl' : s'.locks = [] := eval_locks S.env he
    have hpos : 0 < s.frames.length := by omega
    have hlen : (embed s f s').frames.length = s.frames.length + 1 := by rw [embed_len, hfr]; rfl
    have hre : Reachable g (embed s f s') :=
      eval_reachable S.env (.openChild f hf hs) (openChild_env henv) hrun
    have hclose : (closeChild (embed s f s') s.frames.length).frames = s.frames := by
      simp [closeChild, embed]
    have hmod : s.frames = s.frames.modify f (fun fr => { fr with ops := fr.ops ++ [] }) := by
      apply List.ext_getElem?
      intro a
      rw [List.getElem?_modify]
      cases s.frames[a]? <;> simp
    have closed : (∀ v, out ≠ .ret (.ok v)) → Shows (closeChild (embed s f s') s.frames.length) f S1 := by
      intro hout
      refine ⟨?_, hh, hl'⟩
      rw [guard_eq, hno hout, hclose, ← guard_eq]
      exact hS.nodes
    have hrc := Reachable.close _ hpos hlen.symm hre
    have hfr0 : s'.frames[0]? = some fr := by rw [hfr]; rfl
    have hfrn : (embed s f s').frames[s.frames.length]? = some (lift s.frames.length f fr) := by
      have := embed_frame s f s' 0
      rw [hfr0] at this
      exact this
    have hpn : (lift s.frames.length f fr).parent = some f := by simp [lift, hpar]
    rcases out with (e | v) | _ | _
    · refine .inr ⟨_, S1, closeChild (embed s f s') s.frames.length, [], rfl, hclose.trans hmod, rfl, hrc,
        closed (fun v h => by cases h), ?_⟩
      intro more; simp only [eval, hc, hmore more]
    · cases hlk : fr.leaked with
      | true =>
        have heq : commitChild (embed s f s') s.frames.length = closeChild (embed s f s') s.frames.length := by
          simp [commitChild, hfrn, lift, hlk]
        refine .inr ⟨_, S1, closeChild (embed s f s') s.frames.length, [], rfl, hclose.trans hmod, rfl, hrc,
          ⟨?_, hh, hl'⟩, ?_⟩
        · rw [guard_eq, hok ⟨v, rfl⟩, hclose]
          show (commitRoot s').get = ctxGet s.graph s.frames f
          simp only [commitRoot, hfr0, hlk, if_true]
          rw [hgr, ← guard_eq]
          exact hS.nodes
        · intro more; simp only [eval, hc, hmore more, heq]
      | false =>
        have hln : (lift s.frames.length f fr).leaked = false := hlk
        refine .inr ⟨_, S1, commitChild (embed s f s') s.frames.length, fr.ops, rfl, ?_, ?_, .commit _ hpos hlen.symm hre,
          ⟨?_, ?_, ?_⟩, ?_⟩
        · rw [commitChild_eq hfrn hpn hln]
          simp [embed, lift]
        · rw [commitChild_graph]; rfl
        · rw [ctxGet_commit hre.wf hfrn hpn hln hlen, guard_eq, hok ⟨v, rfl⟩]
          simp only [commitRoot, hfr0, hlk, Bool.false_eq_true, if_false]
          have h1 : ctxGet (embed s f s').graph (embed s f s').frames s.frames.length = ctxGet s'.graph s'.frames 0 := by
            funext i
            exact embed_get hs hf (G := S.graph) (by rw [← guard_eq]; exact hS.nodes) hs' 0 (by rw [hfr]; exact Nat.one_pos) i
          rw [h1, ctxGet_applyAll_root hfr0 hpar, get_commit s'.graph (by rw [hgr]; exact hv)]
        · rw [hh]
          obtain ⟨_, h⟩ := commitChild_eq_frames (embed s f s') s.frames.length
          rw [h]; rfl
        · obtain ⟨_, h⟩ := commitChild_eq_frames (embed s f s') s.frames.length
          rw [h]; exact hl'
        · intro more; simp only [eval, hc, hmore more]
    · refine .inr ⟨_, S1, closeChild (embed s f s') s.frames.length, [], rfl, hclose.trans hmod, rfl, hrc,
        closed (fun v h => by cases h), ?_⟩
      intro more; simp only [eval, hc, hmore more]
    · refine .inr ⟨_, S1, closeChild (embed s f s') s.frames.length, [], rfl, hclose.trans hmod, rfl, hrc,
        closed (fun v h => by cases h), ?_⟩
      intro more; simp only [eval, hc, hmore more]

/-- C89: in every state of a transaction, on every context, a subtransaction of a closure does what a transaction of that closure does on a
schema with what the context shows. It ends in the same way, or does not end either; the resources are the same afterwards; and then
the context shows what that schema has. Nothing else changes of the contexts than what the context is to do on commit. -/
theorem C89_subtransaction [LawfulSig σ] {g : Graph σ.K σ.T} {s : St σ} (hs : Reachable g s) {env : List Nat}
    (henv : ∀ e ∈ env, e < s.frames.length) {c f : Nat} (hc : env[c]? = some f) {S : Schema σ} (hr : S.graph.Reachable) (hS : Shows s f S)
    {p : Prog σ} (hp : p.Alone) (k : Except Error σ.V → Prog σ) (fuel : Nat) :
    (S.transact fuel [] p = none ∧ eval S.env (fuel + 1) env (.tx c p k) s = none) ∨
    ∃ out S1 s1 ops, S.transact fuel [] p = some (out, S1) ∧
      s1.frames = s.frames.modify f (fun fr => { fr with ops := fr.ops ++ ops }) ∧ s1.graph = s.graph ∧ Reachable g s1 ∧
      Shows s1 f S1 ∧
      ∀ more, eval S.env (fuel + more + 1) env (.tx c p k) s =
        match out with
        | .ret r => eval S.env (fuel + more) env (k r) s1
        | .panic => some (.panic, s1)
        | .stuck => some (.stuck, s1) :=
  sub_as_tx hs henv hc hr.valid hS hp k fuel

/-- C89: there always is such a schema, with whatever triggers and resources: the graph with the operations of the context. -/
theorem C89_such_a_schema [LawfulSig σ] (E : Env σ) {g : Graph σ.K σ.T} (hg : g.Reachable) {s : St σ} (hs : Reachable g s) {f : Nat}
    (hf : f < s.frames.length) (hl : s.locks = []) : ∃ S : Schema σ, S.env = E ∧ S.graph.Reachable ∧ Shows s f S := by
  obtain ⟨ops, hops⟩ := pending_exists hs.wf hf
  refine ⟨⟨g.commit ops, false, s.heap, E⟩, rfl, ?_, ⟨?_, rfl, hl⟩⟩
  · exact reachable_commit ops hg
  · rw [guard_eq, ctxGet_pending hs.wf hops, hs.graph]
    exact get_commit g hg.valid ops

/-! ## One by one, or together -/

theorem transact_valid [LawfulSig σ] {S S1 : Schema σ} (hv : S.graph.Valid) {fuel : Nat} {p : Prog σ}
    {out : Out (Except Error σ.V)} (h : S.transact fuel [] p = some (out, S1)) : S1.graph.Valid := by
  obtain ⟨s, he, _, _, hok, hno⟩ := transact_some h
  by_cases ho : ∃ v, out = .ret (.ok v)
  · rw [hok ho]
    obtain ⟨hgr, fr, hfr, _⟩ := root_after he
    simp only [commitRoot, hfr, List.getElem?_cons_zero, hgr]
    split
    · exact hv
    · exact valid_commit _ hv _
  · rw [hno fun v hv => ho ⟨v, hv⟩]; exact hv

theorem transact_poisoned {S S1 : Schema σ} {fuel : Nat} {p : Prog σ} {out : Out (Except Error σ.V)}
    (h : S.transact fuel [] p = some (out, S1)) :
    (out = .panic → S1.poisoned = true) ∧ (out ≠ .panic → S1.poisoned = S.poisoned) := by
  unfold Schema.transact at h
  split at h <;> cases h <;> simp

theorem singly_poisoned {S S1 : Schema σ} {ps : List (Prog σ)} {out : Out (Except Error σ.V)} (h : Singly S ps out S1) :
    (out = .panic → S1.poisoned = true) ∧ (out ≠ .panic → S1.poisoned = S.poisoned) := by
  induction h with
  | none S => simp
  | next fuel v ht _ ih => exact ⟨ih.1, fun h => (ih.2 h).trans ((transact_poisoned ht).2 (by simp))⟩
  | stop fuel ht _ => exact transact_poisoned ht

theorem singly_env {S S1 : Schema σ} {ps : List (Prog σ)} {out : Out (Except Error σ.V)} (h : Singly S ps out S1) : S1.env = S.env := by
  induction h with
  | none S => rfl
  | next fuel v ht _ ih => obtain ⟨_, _, hE, _⟩ := transact_some ht; rw [ih, hE]
  | stop fuel ht _ => obtain ⟨_, _, hE, _⟩ := transact_some ht; exact hE

theorem modify_twice (l : List (Frame σ.K σ.T)) (a b : List (Operation σ.K σ.T)) :
    (l.modify 0 fun fr => { fr with ops := fr.ops ++ a }).modify 0 (fun fr => { fr with ops := fr.ops ++ b }) =
      l.modify 0 fun fr => { fr with ops := fr.ops ++ (a ++ b) } := by
  cases l <;> simp

/-- One of the closures run together. -/
theorem together_step [LawfulSig σ] {g : Graph σ.K σ.T} {s : St σ} (hs : Reachable g s) (hpos : 0 < s.frames.length) {S : Schema σ}
    (hv : S.graph.Valid) (hS : Shows s 0 S) {p : Prog σ} (hp : p.Alone) (ps : List (Prog σ)) (fuel : Nat) :
    (S.transact fuel [] p = none ∧ eval S.env (fuel + 1) [0] (together (p :: ps)) s = none) ∨
    ∃ out S1 s1 ops, S.transact fuel [] p = some (out, S1) ∧
      s1.frames = s.frames.modify 0 (fun fr => { fr with ops := fr.ops ++ ops }) ∧ Reachable g s1 ∧ Shows s1 0 S1 ∧
      ((∃ v, out = .ret (.ok v)) ∧
          (∀ more, eval S.env (fuel + more + 1) [0] (together (p :: ps)) s = eval S.env (fuel + more) [0] (together ps) s1) ∨
       (∀ v, out ≠ .ret (.ok v)) ∧ eval S.env (fuel + 1) [0] (together (p :: ps)) s = some (out, s1)) := by
  have henv : ∀ e ∈ [0], e < s.frames.length := by simpa using hpos
  rcases sub_as_tx hs henv (c := 0) rfl hv hS hp (fun | .ok _ => together ps | .error e => .done (.error e)) fuel with
    h | ⟨out, S1, s1, ops, h1, h2, _, h4, h5, h6⟩
  · exact .inl h
  · refine .inr ⟨out, S1, s1, ops, h1, h2, h4, h5, ?_⟩
    rcases out with (e | v) | _ | _
    · refine .inr ⟨fun v h => (by cases h), ?_⟩
      cases fuel with
      | zero => cases h1
      | succ fuel => exact h6 0
    · exact .inl ⟨⟨v, rfl⟩, h6⟩
    · exact .inr ⟨fun v h => (by cases h), h6 0⟩
    · exact .inr ⟨fun v h => (by cases h), h6 0⟩

/-- The state of the transaction of `together ps` when it ends. -/
theorem together_run [LawfulSig σ] {S S1 : Schema σ} {ps : List (Prog σ)} {out : Out (Except Error σ.V)} (h : Singly S ps out S1)
    {g : Graph σ.K σ.T} : (∀ p ∈ ps, p.Alone) → S.graph.Valid → ∀ s, Reachable g s → 0 < s.frames.length → Shows s 0 S →
    ∃ fuel s1 ops, eval S.env fuel [0] (together ps) s = some (out, s1) ∧ Shows s1 0 S1 ∧ S1.graph.Valid ∧
      s1.frames = s.frames.modify 0 (fun fr => { fr with ops := fr.ops ++ ops }) := by
  induction h with
  | none S =>
    intro _ hv s hs hpos hS
    refine ⟨1, s, [], rfl, hS, hv, ?_⟩
    cases s.frames <;> simp
  | @next S S1 S2 p ps out fuel v ht _ ih =>
    intro hp hv s hs hpos hS
    obtain ⟨_, _, hE, _⟩ := transact_some ht
    rcases together_step hs hpos hv hS (hp p (List.mem_cons_self ..)) ps fuel with ⟨h, _⟩ | ⟨o, T, s1, ops, h1, h2, h3, h4, h5⟩
    · rw [ht] at h; cases h
    · rw [ht] at h1; cases h1
      obtain ⟨fuel2, s2, ops2, k1, k2, k3, k4⟩ := ih (fun q hq => hp q (List.mem_cons_of_mem _ hq)) (transact_valid hv ht) s1 h3
        (by rw [h2]; simpa using hpos) h4
      rcases h5 with ⟨_, h5⟩ | ⟨h5, _⟩
      · refine ⟨fuel + fuel2 + 1, s2, ops ++ ops2, ?_, k2, k3, ?_⟩
        · rw [h5]
          rw [hE] at k1
          exact eval_mono_le _ (by omega) k1
        · rw [k4, h2, modify_twice]
      · exact absurd rfl (h5 v)
  | @stop S S1 p ps out fuel ht hno =>
    intro hp hv s hs hpos hS
    rcases together_step hs hpos hv hS (hp p (List.mem_cons_self ..)) ps fuel with ⟨h, _⟩ | ⟨o, T, s1, ops, h1, h2, h3, h4, h5⟩
    · rw [ht] at h; cases h
    · rw [ht] at h1; cases h1
      rcases h5 with ⟨⟨v, h5⟩, _⟩ | ⟨_, h5⟩
      · exact absurd h5 (hno v)
      · exact ⟨fuel + 1, s1, ops, h5, h4, transact_valid hv ht, h2⟩

/-- If it ends, so do the closures one by one. -/
theorem together_ends [LawfulSig σ] {g : Graph σ.K σ.T} (fuel : Nat) : ∀ (ps : List (Prog σ)) (S : Schema σ), (∀ p ∈ ps, p.Alone) →
    S.graph.Valid → ∀ s, Reachable g s → 0 < s.frames.length → Shows s 0 S → ∀ out s1,
    eval S.env fuel [0] (together ps) s = some (out, s1) → ∃ S1, Singly S ps out S1 := by
  induction fuel with
  | zero => intro ps S _ _ s _ _ _ out s1 h; cases h
  | succ fuel ih =>
    intro ps S hp hv s hs hpos hS out s1 h
    cases ps with
    | nil => cases h; exact ⟨S, .none S⟩
    | cons p ps =>
      rcases together_step hs hpos hv hS (hp p (List.mem_cons_self ..)) ps fuel with ⟨_, h'⟩ | ⟨o, T, s2, ops, h1, h2, h3, h4, h5⟩
      · rw [h'] at h; cases h
      · obtain ⟨_, _, hE, _⟩ := transact_some h1
        rcases h5 with ⟨⟨v, rfl⟩, h5⟩ | ⟨hno, h5⟩
        · have h6 := h5 0
          rw [Nat.add_zero] at h6
          rw [h6, ← hE] at h
          obtain ⟨S1, k⟩ := ih ps T (fun q hq => hp q (List.mem_cons_of_mem _ hq)) (transact_valid hv h1) s2 h3
            (by rw [h2]; simpa using hpos) h4 out s1 h
          exact ⟨S1, .next fuel v h1 k⟩
        · rw [h5] at h; cases h
          exact ⟨T, .stop fuel h1 hno⟩

theorem begin_shows [LawfulSig σ] (S : Schema σ) : Shows (S.begin []) 0 S := by
  refine ⟨?_, rfl, rfl⟩
  rw [ctxGet_applyAll_root (fr := ⟨none, [], none, false⟩) rfl rfl]
  rfl

/-- C89: closures done together in one transaction, up to the first that fails, end as the transactions of them one by one. They leave the
same resources behind and the same graph if all succeed. If one fails, together they leave the graph as it was. -/
theorem C89_together [LawfulSig σ] (S : Schema σ) (hr : S.graph.Reachable) (ps : List (Prog σ)) (hp : ∀ p ∈ ps, p.Alone)
    (out : Out (Except Error σ.V)) (S1 : Schema σ) (h : Singly S ps out S1) :
    ∃ fuel S2, S.transact fuel [] (together ps) = some (out, S2) ∧ S2.heap = S1.heap ∧ S2.env = S1.env ∧ S2.poisoned = S1.poisoned ∧
      ((∃ v, out = .ret (.ok v)) → S2.guard.get = S1.guard.get ∧ S2.guard.iter = S1.guard.iter) ∧
      ((∀ v, out ≠ .ret (.ok v)) → S2.guard = S.guard) := by
  obtain ⟨fuel, s, ops, he, hS, hv, hfr⟩ := together_run h hp hr.valid _ (begin_reachable S []) (by simp [Schema.begin]) (begin_shows S)
  have hgr := (root_after he).1
  have hf0 : s.frames[0]? = some ⟨none, ops, none, false⟩ := by rw [hfr]; rfl
  cases ht : S.transact fuel [] (together ps) with
  | none => rw [transact_none_iff.1 ht] at he; cases he
  | some r =>
    obtain ⟨o, S2⟩ := r
    have hv2 := transact_valid hr.valid ht
    have hpo := transact_poisoned ht
    obtain ⟨s', he', hE, hh, hok, hno⟩ := transact_some ht
    rw [he] at he'; cases he'
    refine ⟨fuel, S2, ht, by rw [hh, hS.heap], by rw [hE, singly_env h], ?_, fun ho => ?_, fun ho => ?_⟩
    · have hps := singly_poisoned h
      by_cases hpan : out = .panic
      · rw [hpo.1 hpan, hps.1 hpan]
      · rw [hpo.2 hpan, hps.2 hpan]
    · have hg : S2.guard.get = S1.guard.get := by
        rw [hS.nodes, guard_eq, hok ho, ctxGet_applyAll_root hf0 rfl]
        simp only [commitRoot, hf0, Bool.false_eq_true, if_false]
        exact get_commit _ (by rw [hgr]; exact hr.valid) _
      refine ⟨hg, iter_ext (by rw [guard_eq]; exact hv2) (by rw [guard_eq]; exact hv) fun q => congrFun hg q⟩
    · rw [guard_eq, guard_eq, hno ho]

/-- C89: and together they end only if they do one by one. -/
theorem C89_together_ends [LawfulSig σ] (S S2 : Schema σ) (hr : S.graph.Reachable) (ps : List (Prog σ)) (hp : ∀ p ∈ ps, p.Alone)
    (fuel : Nat) (out : Out (Except Error σ.V)) (h : S.transact fuel [] (together ps) = some (out, S2)) : ∃ S1, Singly S ps out S1 := by
  obtain ⟨s, he, _⟩ := transact_some h
  exact together_ends fuel ps S hp hr.valid _ (begin_reachable S []) (by simp [Schema.begin]) (begin_shows S) out s he

theorem save_uses (n : σ.T) (W : Nat → Prop) (h : W 0) : (saveBody n).Uses W := by
  have ha : (saveAfter : Prog σ).Uses W := by
    refine ⟨h, fun r => ?_⟩
    cases r <;> trivial
  refine ⟨h, h, fun r => ?_⟩
  cases r with
  | error e => trivial
  | ok _ =>
    refine ⟨h, fun t => ?_⟩
    cases t with
    | none => exact ha
    | some n => exact ⟨h, ha⟩

theorem delete_uses (i : σ.K) (W : Nat → Prop) (h : W 0) : (deleteBody i).Uses W := by
  refine ⟨h, fun t => ?_⟩
  cases t with
  | none => trivial
  | some n =>
    refine ⟨h, h, fun r => ?_⟩
    cases r with
    | error e => trivial
    | ok _ =>
      refine ⟨h, h, fun r => ?_⟩
      cases r <;> trivial

/-- C89 for the Save and Delete operations with all their triggers: done one by one on the schema, all succeeding, or within one
transaction, they leave the same schema behind. -/
theorem C89_operations [LawfulSig σ] (S S1 : Schema σ) (hr : S.graph.Reachable) (ops : List (Operation σ.K σ.T)) (v : σ.V)
    (h : Singly S (ops.map fun | .save n => saveBody n | .delete i => deleteBody i) (.ret (.ok v)) S1) :
    ∃ fuel S2, S.transact fuel [] (together (ops.map fun | .save n => saveBody n | .delete i => deleteBody i)) = some (.ret (.ok v), S2) ∧
      S2.heap = S1.heap ∧ S2.env = S1.env ∧ S2.poisoned = S1.poisoned ∧ S2.guard.get = S1.guard.get ∧ S2.guard.iter = S1.guard.iter := by
  obtain ⟨fuel, S2, h1, h2, h3, h4, h5, _⟩ := C89_together S hr _ (by
    intro p hp
    obtain ⟨op, _, rfl⟩ := List.mem_map.1 hp
    cases op with
    | save n => exact save_uses n _ rfl
    | delete i => exact delete_uses i _ rfl) _ S1 h
  exact ⟨fuel, S2, h1, h2, h3, h4, h5 ⟨v, rfl⟩⟩

/-! Closures with operations, nested subtransactions and a failing one. -/

/-- Saves a document, and deletes it and another one for the enclosing transaction in a subtransaction that it then gives up. -/
def groupA : Prog demo :=
  .saveOp 0 ⟨3, 30⟩ fun _ => .tx 0 (.delete 0 3 (.delete 1 1 (.done (.error .noop)))) fun _ =>
  .get 0 3 fun a => .done (if a.isSome then .ok () else .error .noop)

/-- Deletes a document, if it is there. -/
def groupB : Prog demo := .deleteOp 0 2 fun r => .done r

theorem group_alone : ∀ p ∈ [groupA, groupB, groupB], p.Alone := by
  intro p hp
  simp only [List.mem_cons, List.not_mem_nil, or_false] at hp
  have hA : groupA.Alone := ⟨rfl, save_uses _ _ (.inl rfl), fun _ => ⟨rfl, ⟨.inl rfl, .inr rfl, trivial⟩, fun _ => ⟨rfl, fun _ => trivial⟩⟩⟩
  have hB : groupB.Alone := ⟨rfl, delete_uses _ _ (.inl rfl), fun _ => trivial⟩
  rcases hp with rfl | rfl | rfl
  · exact hA
  · exact hB
  · exact hB

/-- The first two one by one, and together. -/
example : Singly demoSchema [groupA, groupB] (.ret (.ok ())) { demoSchema with graph := Graph.fromIter [⟨3, 30⟩] } ∧
    demoSchema.transact 40 [] (together [groupA, groupB]) =
      some (.ret (.ok ()), { demoSchema with graph := Graph.fromIter [⟨3, 30⟩] }) :=
  ⟨.next 20 () (S1 := { demoSchema with graph := Graph.fromIter ([⟨2, 20⟩, ⟨3, 30⟩] : List Doc) }) (by with_unfolding_all rfl) (.next 20 () (by with_unfolding_all rfl) (.none _)), by with_unfolding_all rfl⟩

/-- With the third, which fails, since the second deleted what it is to delete. -/
example : Singly demoSchema [groupA, groupB, groupB] (.ret (.error .noop)) { demoSchema with graph := Graph.fromIter [⟨3, 30⟩] } ∧
    demoSchema.transact 40 [] (together [groupA, groupB, groupB]) = some (.ret (.error .noop), demoSchema) :=
  ⟨.next 20 () (S1 := { demoSchema with graph := Graph.fromIter ([⟨2, 20⟩, ⟨3, 30⟩] : List Doc) })
    (by with_unfolding_all rfl) (.next 20 () (by with_unfolding_all rfl) (.stop 20 (by with_unfolding_all rfl) (by simp))),
    by with_unfolding_all rfl⟩

/-- A context deep inside a transaction, and the schema with what it shows. -/
example : Shows demoState 2 { demoSchema with graph := Graph.fromIter [⟨1, 11⟩, ⟨3, 30⟩] } := by
  refine ⟨?_, rfl, rfl⟩
  have hops : Pending (σ := demo) demoState.frames 2 ([.save ⟨3, 30⟩, .delete 1] ++ [.save ⟨1, 11⟩] ++ [.delete 2]) :=
    .child (σ := demo) (fr := ⟨some 1, [.delete 2], none, false⟩) rfl rfl
      (.child (σ := demo) (fr := ⟨some 0, [.save ⟨1, 11⟩], none, false⟩) rfl rfl (.root (σ := demo) (fr := ⟨none, [.save ⟨3, 30⟩, .delete 1], none, false⟩) rfl rfl))
  rw [ctxGet_pending demoState_reachable.wf hops]
  exact get_commit (K := Nat) (T := Doc) demoGraph (Graph.valid_fromIter _)
    ([.save ⟨3, 30⟩, .delete 1] ++ [.save ⟨1, 11⟩] ++ [.delete 2])

end Plotline
