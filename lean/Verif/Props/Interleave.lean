import Verif.Lemmas.Interleave
import Verif.Props.Transaction

/-! # Properties C21 and C60: several clients of one schema -/

namespace Plotline

open Std

set_option linter.unusedSectionVars false

variable {σ : Sig}

/-! ## C08 -/

/-- C08, at any time: wherever a closure, a trigger or an operation that a transaction leads to calls `ctx.get(id)`, the code
that follows is handed what the graph would answer with the pending operations applied. -/
theorem C08_any_time [LawfulSig σ] (S : Schema σ) (pre : List (Operation σ.K σ.T)) (body : Prog σ) (env : List Nat) (c f : Nat)
    (i : σ.K) (k : Option σ.T → Prog σ) (K : List (Kont σ)) (s : St σ)
    (h : Conf.Steps S.env ⟨.run [0] body, [], S.begin pre⟩ ⟨.run env (.get c i k), K, s⟩) (hc : env[c]? = some f) :
    ∃ ops, Pending s.frames f ops ∧
      Conf.step S.env ⟨.run env (.get c i k), K, s⟩ = some ⟨.run env (k (FMap.applyAll S.guard.get ops i)), K, s⟩ := by
  have hok := steps_ok h (begin_ok S pre body)
  obtain ⟨ops, hp⟩ := C08_every_context hok.reach (hok.env _ _ rfl f (List.mem_of_getElem? hc))
  refine ⟨ops, hp, ?_⟩
  simp only [Conf.step, hc, C08_read_your_writes hok.reach hp]
  rw [guard_graph]

/-! ## C21 -/

/-- C21: for every interleaving of any number of clients, when no transaction or write guard is open, the schema is as if
everything had happened one thing after another, each transaction as a whole at the moment it ended; and every transaction had
the outcome it has then, every reader the answer. -/
theorem C21_serializable (S : Schema σ) (es : List (SysEvent σ)) (s : Sys σ) (h : Sys.Run (Sys.start S) es s)
    (hq : ∀ c, (s.clients c).exclusive = false) : OneByOne S es s.schema := by
  obtain ⟨S', h1, h2⟩ := Served.run h
  rw [h2.quiet hq]; exact h1

/-- C21, at any moment: the same holds of what has ended so far. -/
theorem C21_any_moment (S : Schema σ) (es : List (SysEvent σ)) (s : Sys σ) (h : Sys.Run (Sys.start S) es s) :
    ∃ S', OneByOne S es S' := by
  obtain ⟨S', h1, _⟩ := Served.run h
  exact ⟨S', h1⟩

/-- C21: while a transaction runs, every one of its contexts reads the state left by what ended before, with the operations
pending in that context and in the ones enclosing it. -/
theorem C21_transaction_reads [LawfulSig σ] (S : Schema σ) (es : List (SysEvent σ)) (s : Sys σ)
    (h : Sys.Run (Sys.start S) es s) (c : Nat) (pre : List (Operation σ.K σ.T)) (body : Prog σ) (control : Control σ)
    (stack : List (Kont σ)) (frames : List (Frame σ.K σ.T)) (locks : List (Nat × Bool))
    (hc : s.clients c = .running pre body control stack frames locks) :
    ∃ S', OneByOne S es S' ∧ ∀ f ops, Pending frames f ops → ∀ i,
      ctxGet s.schema.guard frames f i = FMap.applyAll S'.guard.get ops i := by
  obtain ⟨S', h1, h2⟩ := Served.run h
  refine ⟨S', h1, fun f ops hp i => ?_⟩
  have hb := h2.busy c (by rw [hc]; rfl)
  rw [hc] at hb
  have hr := (steps_ok hb.2 (begin_ok S' pre body)).reach
  have := C08_read_your_writes hr hp i
  rw [guard_graph, guard_graph, hb.1]
  exact this

/-- C21: what a reader is told is what was committed before. -/
theorem C21_reader_committed (S : Schema σ) (es : List (SysEvent σ)) (s : Sys σ) (c : Nat) (i : σ.K) (a : Option σ.T)
    (h : Sys.Run (Sys.start S) (es ++ [.observe c i a]) s) : ∃ S', OneByOne S es S' ∧ a = S'.guard.get i := by
  generalize hes : es ++ [SysEvent.observe c i a] = es' at h
  cases h with
  | nil => simp at hes
  | snoc h1 h2 =>
    obtain ⟨rfl, h3⟩ := List.append_inj' hes rfl
    cases h3
    obtain ⟨S', h4, h5⟩ := Served.run h1
    obtain ⟨_, h6, _⟩ := h5.step h2
    cases h6
    exact ⟨S', h4, rfl⟩

/-- C21: while a read guard is held, nothing changes. -/
theorem C21_reader_stable (S : Schema σ) (es es' : List (SysEvent σ)) (s s' : Sys σ) (h : Sys.Run (Sys.start S) es s)
    (c : Nat) (hc : s.clients c = .reading) (h' : Sys.Run s es' s') (hheld : ∀ e ∈ es', e ≠ .readDone c) :
    s'.schema = s.schema := by
  have hserved := Served.run h
  have : s'.schema = s.schema ∧ s'.clients c = .reading ∧ ∃ S', Served S' s' := by
    induction h' with
    | nil => obtain ⟨S', _, h2⟩ := hserved; exact ⟨rfl, hc, S', h2⟩
    | snoc _ hstep ih =>
      obtain ⟨h1, h2, S1, h3⟩ := ih fun e he => hheld e (List.mem_append_left _ he)
      have hlast := hheld _ (List.mem_append_right _ (List.mem_singleton.2 rfl))
      have hex := h3.reading h2
      obtain ⟨S2, _, h4⟩ := h3.step hstep
      have contra : ∀ {d : Nat} {x : Client σ} {P : Prop}, _ = x → x.exclusive = true → P :=
        fun {d} {x} {P} (e : Sys.clients _ d = x) hx => absurd (hex d) (by rw [e, hx]; exact fun h => nomatch h)
      have free : ∀ {P : Prop}, (∀ d, (Sys.clients _ d).locks = false) → P :=
        fun {P} e => absurd (e c) (by rw [h2]; exact fun h => nomatch h)
      cases hstep with
      | read d hd _ =>
        refine ⟨h1, ?_, S2, h4⟩
        by_cases e : c = d
        · rw [e, set_self]
        · rw [set_other _ _ e]; exact h2
      | observe d i hd => exact ⟨h1, h2, S2, h4⟩
      | readDone d hd =>
        refine ⟨h1, ?_, S2, h4⟩
        by_cases e : c = d
        · exact absurd (by rw [e]) hlast
        · rw [set_other _ _ e]; exact h2
      | write d hq => exact free hq
      | openTx d hq => exact free hq
      | update d ops op hd => exact contra hd rfl
      | writeDone d ops p hd => exact contra hd rfl
      | register d pre op hd => exact contra hd rfl
      | dropTx d pre hd => exact contra hd rfl
      | call d pre body hd => exact contra hd rfl
      | work d hd _ => exact contra hd rfl
      | commit d hd _ _ => exact contra hd rfl
      | leaked d hd _ _ => exact contra hd rfl
      | fail d hd => exact contra hd rfl
      | panic d hd => exact contra hd rfl
      | apply d hd => exact contra hd rfl
      | finish d hd => exact contra hd rfl
      | crash d hd => exact contra hd rfl
  exact this.1

/-- C21: a client with an open transaction or a write guard is the only one with any guard. -/
theorem C21_exclusion (S : Schema σ) (es : List (SysEvent σ)) (s : Sys σ) (h : Sys.Run (Sys.start S) es s) (c d : Nat)
    (hc : (s.clients c).exclusive = true) (hd : (s.clients d).locks = true) : c = d := by
  obtain ⟨_, _, h2⟩ := Served.run h
  exact h2.alone c d hc hd

/-- C21 is not about nothing: whenever no guard is held, a client can run any transaction (that does not block itself) to its
end, with the outcome and effect it has alone. -/
theorem C21_possible (S' : Schema σ) (s : Sys σ)
    (hfree : ∀ d, (s.clients d).locks = false) (c fuel : Nat) (pre : List (Operation σ.K σ.T)) (body : Prog σ)
    (out : Out (Except Error σ.V)) (hout : out ≠ .stuck) (ht : s.schema.transact fuel pre body = some (out, S')) :
    ∃ es' s', Sys.Run s (es' ++ [.finish c pre body out]) s' ∧ s'.schema = S' ∧ ∀ d, (s'.clients d).locks = false := by
  have h1 : Sys.Run s [.openTx c] (s.set c (.opened [])) := .one (.openTx c hfree)
  have h2 := run_register c s pre []
  rw [List.nil_append] at h2
  have h3 : Sys.Run (s.set c (.opened pre)) [.call c body]
      (s.set c (.running pre body (.run [0] body) [] (s.schema.begin pre).frames [])) := by
    have := Sys.Step.call (s := s.set c (.opened pre)) c pre body (set_self ..)
    rw [set_set] at this
    exact .one this
  obtain ⟨st, he, _⟩ := transact_some ht
  have hst := eval_steps s.schema.env fuel [0] body (s.schema.begin pre) st out [] he hout
  obtain ⟨n, h4⟩ := run_work c s pre body hst
  have e0 : ({ s.set c (.running pre body (.run [0] body) [] (s.schema.begin pre).frames (s.schema.begin pre).locks) with
      schema := { s.schema with graph := (s.schema.begin pre).graph, heap := (s.schema.begin pre).heap } } : Sys σ) =
      s.set c (.running pre body (.run [0] body) [] (s.schema.begin pre).frames []) := by
    unfold Schema.begin; rw [guard_graph]; rfl
  rw [e0] at h4
  have h5 := ((h1.trans h2).trans h3).trans h4
  have idle : ∀ (t : Sys σ), t.clients = (s.set c .idle).clients → ∀ d, (t.clients d).locks = false := by
    intro t e d
    rw [e]
    by_cases hd : d = c
    · rw [hd, set_self]; rfl
    · rw [set_other _ _ hd]; exact hfree d
  have hclients : ∀ x : Client σ, ((s.set c x).set c .idle).clients = (s.set c .idle).clients := fun x => by rw [set_set]
  have hgr := (root_after he).1
  obtain ⟨root, hroot, _⟩ := (root_after he).2
  have hroot0 : st.frames[0]? = some root := by rw [hroot]; rfl
  unfold Schema.transact at ht
  simp only [he] at ht
  rcases out with (e | v) | _ | _
  · cases ht
    exact ⟨_, _, .snoc h5 (.fail c (set_self ..)), rfl, idle _ (hclients _)⟩
  · cases ht
    cases hl : root.leaked with
    | true =>
      refine ⟨_, _, .snoc h5 (.leaked c (set_self ..) hroot0 hl), ?_, idle _ (hclients _)⟩
      simp only [commitRoot, hroot0, hl, if_true]; rfl
    | false =>
      have h6 := Sys.Run.snoc h5 (.commit c (set_self ..) hroot0 hl)
      have h7 := run_apply c s pre body v root.ops 0 { s.schema with graph := st.graph, heap := st.heap }
      have e1 : ∀ (t : Sys σ) (x y : Client σ), t.clients = (s.set c x).clients →
          t.set c y = { s.set c y with schema := t.schema } := by
        intro t x y ht
        unfold Sys.set
        congr 1
        funext d
        by_cases hd : d = c
        · simp [hd]
        · simp only [hd, if_false]; rw [ht, set_other _ _ hd]
      have e3 := e1 ({ s.set c (.running pre body (.back (.ret (.ok v))) [] st.frames st.locks) with
        schema := { s.schema with graph := st.graph, heap := st.heap } }) _ (.committing pre body v 0 root.ops) rfl
      have h8 := h6.trans (by rw [e3]; exact h7)
      refine ⟨_, _, .snoc h8 (.finish c (set_self ..)), ?_, idle _ (hclients _)⟩
      simp only [commitRoot, hroot0, hl, Bool.false_eq_true, if_false]; rfl
  · cases ht
    exact ⟨_, _, .snoc h5 (.panic c (set_self ..)), rfl, idle _ (hclients _)⟩
  · exact absurd rfl hout

/-! ## C60 -/

/-- C60: whoever holds a guard can always go on, unless its closure asked for a lock it already holds:
the schema's or a resource's. -/
theorem C60_holder_goes_on (S : Schema σ) (es : List (SysEvent σ)) (s : Sys σ) (h : Sys.Run (Sys.start S) es s) (c : Nat)
    (hc : (s.clients c).locks = true) : s.CanGoOn c ∨ (s.clients c).SelfBlocked := by
  obtain ⟨S', _, h2⟩ := Served.run h
  cases hx : s.clients c with
  | idle => rw [hx] at hc; cases hc
  | reading => exact .inl ⟨_, _, .readDone c hx, rfl⟩
  | writing ops => exact .inl ⟨_, _, .writeDone c ops false hx, rfl⟩
  | opened pre => exact .inl ⟨_, _, .dropTx c pre hx, rfl⟩
  | committing pre body v n rest =>
    cases rest with
    | nil => exact .inl ⟨_, _, .finish c hx, rfl⟩
    | cons op t => exact .inl ⟨_, _, .apply c hx, rfl⟩
  | running pre body control stack frames locks =>
    cases hs : Conf.step s.schema.env ⟨control, stack, ⟨s.schema.guard, frames, s.schema.heap, locks⟩⟩ with
    | some next => exact .inl ⟨_, _, .work c hx hs, rfl⟩
    | none =>
      rcases step_none hs with h3 | ⟨h3, out, h4⟩
      · exact .inr ⟨pre, body, stack, frames, locks, by rw [show control = _ from h3]⟩
      · cases h3
        cases h4
        rcases out with (e | v) | _ | _
        · exact .inl ⟨_, _, .fail c hx, rfl⟩
        · have hb := h2.busy c (by rw [hx]; rfl)
          rw [hx] at hb
          obtain ⟨fuel, h5⟩ := hb.2.eval
          obtain ⟨_, root, hroot, _⟩ := root_after h5
          have hroot0 : frames[0]? = some root := by rw [show frames = [root] from hroot]; rfl
          cases hl : root.leaked with
          | true => exact .inl ⟨_, _, .leaked c hx hroot0 hl, rfl⟩
          | false => exact .inl ⟨_, _, .commit c hx hroot0 hl, rfl⟩
        · exact .inl ⟨_, _, .panic c hx, rfl⟩
        · exact .inr ⟨pre, body, [], frames, locks, rfl⟩

/-- C60: so no set of clients ever blocks itself as a whole: a client that cannot go on waits for one that can, unless some
closure asked for a lock its own transaction holds. -/
theorem C60_no_deadlock (S : Schema σ) (es : List (SysEvent σ)) (s : Sys σ) (h : Sys.Run (Sys.start S) es s)
    (hself : ∀ d, ¬ (s.clients d).SelfBlocked) (c : Nat) :
    s.CanGoOn c ∨ ∃ d, d ≠ c ∧ (s.clients d).locks = true ∧ s.CanGoOn d := by
  by_cases hc : (s.clients c).locks = true
  · rcases C60_holder_goes_on S es s h c hc with h1 | h1
    · exact .inl h1
    · exact absurd h1 (hself c)
  · by_cases hd : ∃ d, (s.clients d).locks = true
    · obtain ⟨d, hd⟩ := hd
      refine .inr ⟨d, fun e => hc (e ▸ hd), hd, ?_⟩
      rcases C60_holder_goes_on S es s h d hd with h1 | h1
      · exact h1
      · exact absurd h1 (hself d)
    · refine .inl ⟨_, _, .openTx c fun d => ?_, rfl⟩
      cases hl : (s.clients d).locks with
      | false => rfl
      | true => exact absurd ⟨d, hl⟩ hd

/-- C60: a closure that asks for a lock its own transaction holds stops all clients for good: nothing
happens on the schema any more. -/
theorem C60_reenter_blocks (S : Schema σ) (es es' : List (SysEvent σ)) (s s' : Sys σ) (h : Sys.Run (Sys.start S) es s)
    (c : Nat) (hc : (s.clients c).SelfBlocked) (h' : Sys.Run s es' s') : s' = s ∧ es' = [] := by
  obtain ⟨_, _, h2⟩ := Served.run h
  obtain ⟨pre, body, stack, frames, locks, hx⟩ := hc
  have hex : (s.clients c).exclusive = true := by rw [hx]; rfl
  have none : ∀ e t, ¬ Sys.Step s e t := by
    intro e t hs
    have own : ∀ {d : Nat} {x : Client σ}, s.clients d = x → x.locks = true →
        x = .running pre body (.back .stuck) stack frames locks := by
      intro d x hd hl
      have := h2.alone c d hex (by rw [hd]; exact hl)
      rw [← hd, ← this, hx]
    have free : (∀ d, (s.clients d).locks = false) → False := fun e => by
      have := e c; rw [Client.locks_of_exclusive hex] at this; cases this
    cases hs with
    | read d hd hq => have := hq c; rw [hex] at this; cases this
    | observe d i hd => cases own hd rfl
    | readDone d hd => cases own hd rfl
    | write d hq => exact free hq
    | openTx d hq => exact free hq
    | update d ops op hd => cases own hd rfl
    | writeDone d ops p hd => cases own hd rfl
    | register d pre op hd => cases own hd rfl
    | dropTx d pre hd => cases own hd rfl
    | call d pre body hd => cases own hd rfl
    | work d hd hst => cases own hd rfl; cases hst
    | commit d hd _ _ => cases own hd rfl
    | leaked d hd _ _ => cases own hd rfl
    | fail d hd => cases own hd rfl
    | panic d hd => cases own hd rfl
    | apply d hd => cases own hd rfl
    | finish d hd => cases own hd rfl
    | crash d hd => cases own hd rfl
  induction h' with
  | nil => exact ⟨rfl, rfl⟩
  | snoc _ hs ih => rw [ih.1] at hs; exact absurd hs (none _ _)

/-! ## An interleaving: two readers overlap, then one of them runs a transaction while the other has let go, then reads again -/

theorem demo_interleaving : ∃ es s, Sys.Run (Sys.start demoSchema) ([.read 0, .read 1, .observe 0 1 (some ⟨1, 10⟩),
      .readDone 0, .observe 1 1 (some ⟨1, 10⟩), .readDone 1] ++ (es ++ [.finish 0 [] (.delete 0 1 (.done (.ok ()))) (.ret (.ok ()))]) ++
      [.read 1, .observe 1 1 none]) s ∧ s.clients 1 = .reading := by
  have h1 : Sys.Run (Sys.start demoSchema) [.read 0, .read 1, .observe 0 1 (some ⟨1, 10⟩), .readDone 0,
      .observe 1 1 (some ⟨1, 10⟩), .readDone 1]
      ((((Sys.start demoSchema).set 0 .reading).set 1 .reading).set 0 .idle |>.set 1 .idle) := by
    refine .cons (.read 0 rfl fun _ => rfl) <| .cons (.read 1 rfl fun d => ?_) <| .cons (.observe (σ := demo) 0 (1 : Nat) rfl) <|
      .cons (.readDone 0 rfl) <| .cons (.observe (σ := demo) 1 (1 : Nat) rfl) <| .cons (.readDone 1 rfl) <| .nil _
    by_cases h : d = 0
    · rw [h]; rfl
    · rw [set_other _ _ h]; rfl
  have hfree : ∀ d, ((((((Sys.start demoSchema).set 0 .reading).set 1 .reading).set 0 .idle).set 1 .idle).clients d).locks =
      false := by
    intro d
    by_cases h : d = 1
    · rw [h]; rfl
    · by_cases h0 : d = 0
      · rw [h0]; rfl
      · rw [set_other _ _ h, set_other _ _ h0, set_other _ _ h, set_other _ _ h0]; rfl
  obtain ⟨es, s, h2, h3, h4⟩ := C21_possible (σ := demo) { demoSchema with graph := Graph.fromIter [⟨2, 20⟩] } _ hfree 0 5 []
    (.delete 0 1 (.done (.ok ()))) (.ret (.ok ())) (fun h => by cases h) rfl
  have h5 : Sys.Run s [.read 1, .observe 1 1 none] (s.set 1 .reading) := by
    have hi : s.clients 1 = .idle := by
      have := h4 1
      cases hx : s.clients 1 <;> rw [hx] at this <;> first | rfl | cases this
    refine .cons (.read 1 hi fun d => ?_) <| .cons ?_ <| .nil _
    · cases hd : (s.clients d).exclusive with
      | false => rfl
      | true => have := h4 d; rw [Client.locks_of_exclusive hd] at this; cases this
    · have := Sys.Step.observe (s := s.set 1 .reading) 1 (1 : Nat) (set_self ..)
      rw [set_schema, h3] at this
      exact this
  exact ⟨es, _, (h1.trans h2).trans h5, set_self ..⟩

end Plotline
