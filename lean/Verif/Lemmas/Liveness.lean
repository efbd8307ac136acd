import Verif.Spec.Liveness
import Verif.Lemmas.Interleave

/-! Lemmas about how long transactions take. -/

namespace Plotline

set_option linter.unusedSectionVars false

variable {σ : Sig}

/-! ## The machine halts if `eval` gives a result -/

/-- A loop over triggers that returns. -/
theorem loop_steps {E : Env σ} {fuel f : Nat} {env : List Nat} {k : Except Error Unit → Prog σ} {K : List (Kont σ)}
    {r : Except Error Unit} : ∀ (ts : List (Prog σ)) (t : Prog σ) (s s1 : St σ),
    tryForEach (eval E fuel [f]) (t :: ts) s = some (.ret r, s1) →
    Conf.Steps E ⟨.run [f] t, .triggers f ts env k :: K, s⟩ ⟨.run env (k r), K, s1⟩ := by
  intro ts
  induction ts with
  | nil =>
    intro t s s1 h
    simp only [tryForEach] at h
    cases hr : eval E fuel [f] t s with
    | none => simp [hr] at h
    | some q =>
      obtain ⟨o1, s2⟩ := q
      rw [hr] at h
      rcases o1 with (e | w) | _ | _ <;> cases h <;>
        exact (eval_steps E fuel _ _ _ _ _ _ hr (fun h => by cases h)).tail rfl
  | cons u ts iht =>
    intro t s s1 h
    rw [tryForEach] at h
    cases hr : eval E fuel [f] t s with
    | none => simp [hr] at h
    | some q =>
      obtain ⟨o1, s2⟩ := q
      rw [hr] at h
      rcases o1 with (e | w) | _ | _
      · cases h; exact (eval_steps E fuel _ _ _ _ _ _ hr (fun h => by cases h)).tail rfl
      · exact ((eval_steps E fuel _ _ _ _ _ _ hr (fun h => by cases h)).tail rfl).trans (iht u s2 s1 h)
      · cases h
      · cases h

/-- What blocks in `eval` makes the machine block. -/
theorem eval_stuck (E : Env σ) (fuel : Nat) : ∀ (env : List Nat) (p : Prog σ) (s s' : St σ) (K : List (Kont σ)),
    eval E fuel env p s = some (.stuck, s') → ∃ K' s'', Conf.Steps E ⟨.run env p, K, s⟩ ⟨.back .stuck, K', s''⟩ := by
  induction fuel with
  | zero => intro env p s s' K h; simp [eval] at h
  | succ fuel ih =>
    have one : ∀ {a b : Conf σ}, a.step E = some b → ((∃ K' s'', Conf.Steps E b ⟨.back .stuck, K', s''⟩)) →
        ∃ K' s'', Conf.Steps E a ⟨.back .stuck, K', s''⟩ := fun h ⟨K', s'', h'⟩ => ⟨K', s'', .head h h'⟩
    have many : ∀ {a b : Conf σ}, Conf.Steps E a b → ((∃ K' s'', Conf.Steps E b ⟨.back .stuck, K', s''⟩)) →
        ∃ K' s'', Conf.Steps E a ⟨.back .stuck, K', s''⟩ := fun h ⟨K', s'', h'⟩ => ⟨K', s'', h.trans h'⟩
    have hts : ∀ (f : Nat) (env : List Nat) (k : Except Error Unit → Prog σ) (ts : List (Prog σ)) (t : Prog σ) (s s1 : St σ)
        (K : List (Kont σ)), tryForEach (eval E fuel [f]) (t :: ts) s = some (.stuck, s1) →
        ∃ K' s'', Conf.Steps E ⟨.run [f] t, .triggers f ts env k :: K, s⟩ ⟨.back .stuck, K', s''⟩ := by
      intro f env k ts
      induction ts with
      | nil =>
        intro t s s1 K h
        simp only [tryForEach] at h
        cases hr : eval E fuel [f] t s with
        | none => simp [hr] at h
        | some q =>
          obtain ⟨o1, s2⟩ := q
          rw [hr] at h
          rcases o1 with (e | w) | _ | _ <;> try cases h
          exact ih _ _ _ _ _ hr
      | cons u ts iht =>
        intro t s s1 K h
        rw [tryForEach] at h
        cases hr : eval E fuel [f] t s with
        | none => simp [hr] at h
        | some q =>
          obtain ⟨o1, s2⟩ := q
          rw [hr] at h
          rcases o1 with (e | w) | _ | _
          · cases h
          · exact many ((eval_steps E fuel _ _ _ _ _ _ hr (fun h => by cases h)).tail rfl) (iht u s2 s1 K h)
          · cases h
          · exact ih _ _ _ _ _ hr
    intro env p s s' K h
    have here : ∀ {a : Conf σ}, a.step E = some ⟨.back .stuck, K, s⟩ → ∃ K' s'', Conf.Steps E a ⟨.back .stuck, K', s''⟩ :=
      fun h => ⟨_, _, .head h (.refl _)⟩
    cases p with
    | done r => cases h
    | panic => cases h
    | reenter => exact here rfl
    | save c n k =>
      simp only [eval] at h
      cases hc : env[c]? with
      | none => exact here (by simp only [Conf.step, hc])
      | some f => rw [hc] at h; exact one (by simp only [Conf.step, hc]) (ih _ _ _ _ K h)
    | delete c i k =>
      simp only [eval] at h
      cases hc : env[c]? with
      | none => exact here (by simp only [Conf.step, hc])
      | some f => rw [hc] at h; exact one (by simp only [Conf.step, hc]) (ih _ _ _ _ K h)
    | get c i k =>
      simp only [eval] at h
      cases hc : env[c]? with
      | none => exact here (by simp only [Conf.step, hc])
      | some f => rw [hc] at h; exact one (by simp only [Conf.step, hc]) (ih _ _ _ _ K h)
    | contains c i k =>
      simp only [eval] at h
      cases hc : env[c]? with
      | none => exact here (by simp only [Conf.step, hc])
      | some f => rw [hc] at h; exact one (by simp only [Conf.step, hc]) (ih _ _ _ _ K h)
    | tx c body k =>
      simp only [eval] at h
      cases hc : env[c]? with
      | none => exact here (by simp only [Conf.step, hc])
      | some f =>
        simp only [hc] at h
        refine one (b := ⟨.run (s.frames.length :: env) body, .tx s.frames.length env k :: K, openChild s f⟩)
          (by simp only [Conf.step, hc]) ?_
        cases hr : eval E fuel (s.frames.length :: env) body (openChild s f) with
        | none => simp [hr] at h
        | some q =>
          obtain ⟨o1, s1⟩ := q
          rw [hr] at h
          rcases o1 with (e | v) | _ | _
          · exact many ((eval_steps E fuel _ _ _ _ _ _ hr (fun h => by cases h)).tail rfl) (ih _ _ _ _ K h)
          · exact many ((eval_steps E fuel _ _ _ _ _ _ hr (fun h => by cases h)).tail rfl) (ih _ _ _ _ K h)
          · cases h
          · exact ih _ _ _ _ _ hr
    | runTriggers c sch k =>
      simp only [eval] at h
      cases hc : env[c]? with
      | none => exact here (by simp only [Conf.step, hc])
      | some f =>
        simp only [hc] at h
        cases hs : E.triggers.select sch with
        | none =>
          rw [hs] at h
          exact one (by simp only [Conf.step, hc, hs]) (ih _ _ _ _ K h)
        | some ts =>
          simp only [hs] at h
          cases ts with
          | nil => exact one (by simp only [Conf.step, hc, hs]) (ih _ _ _ _ K h)
          | cons t ts =>
            cases hr : tryForEach (eval E fuel [f]) (t :: ts) s with
            | none => simp [hr] at h
            | some q =>
              obtain ⟨o1, s1⟩ := q
              rw [hr] at h
              rcases o1 with r | _ | _
              · exact one (b := ⟨.run [f] t, .triggers f ts env k :: K, s⟩) (by simp only [Conf.step, hc, hs])
                  (many (loop_steps ts t s s1 hr) (ih _ _ _ _ K h))
              · cases h
              · exact one (by simp only [Conf.step, hc, hs]) (hts f env k ts t s s1 K hr)
    | withTarget n k =>
      simp only [eval] at h
      cases hc : env[0]? with
      | none => exact here (by simp only [Conf.step, hc])
      | some f => rw [hc] at h; exact one (by simp only [Conf.step, hc]) (ih _ _ _ _ K h)
    | targetRead c k =>
      simp only [eval] at h
      cases hc : env[c]? with
      | none => exact here (by simp only [Conf.step, hc])
      | some f => rw [hc] at h; exact one (by simp only [Conf.step, hc]) (ih _ _ _ _ K h)
    | targetWrite c fn k =>
      simp only [eval] at h
      cases hc : env[c]? with
      | none => exact here (by simp only [Conf.step, hc])
      | some f =>
        simp only [hc] at h
        cases ht : readTarget s f with
        | none =>
          rw [ht] at h
          exact one (by simp only [Conf.step, hc, ht]) (ih _ _ _ _ K h)
        | some n =>
          simp only [ht] at h
          rcases hfn : fn n with ⟨n', _ | _⟩
          · rw [hfn] at h
            exact one (by simp only [Conf.step, hc, ht, hfn]) (ih _ _ _ _ K h)
          · rw [hfn] at h; cases h
    | resRead t k =>
      simp only [eval] at h
      cases hbl : s.resBlocks E t false with
      | true => exact here (by simp only [Conf.step, hbl]; rfl)
      | false =>
        rw [hbl] at h
        exact one (by simp only [Conf.step, hbl]; rfl) (ih _ _ _ _ K h)
    | resScope t excl body k =>
      simp only [eval] at h
      cases hq : (E.resources.res t).lock with
      | none => rw [hq] at h; exact one (by simp only [Conf.step, hq]) (ih _ _ _ _ K h)
      | some q =>
        simp only [hq] at h
        cases hbl : s.blocks q excl with
        | true => exact here (by simp only [Conf.step, hq, hbl]; rfl)
        | false =>
          simp only [hbl, Bool.false_eq_true, if_false] at h
          cases hv : (E.resources.res t).peek s.heap with
          | none =>
            rw [hv] at h
            exact one (by simp only [Conf.step, hq, hbl, hv]; rfl) (ih _ _ _ _ K h)
          | some v =>
            simp only [hv] at h
            refine one (b := ⟨.run env (body v), .resScope q excl env k :: K, lockRes s q excl⟩)
              (by simp only [Conf.step, hq, hbl, hv]; rfl) ?_
            cases hr : eval E fuel env (body v) (lockRes s q excl) with
            | none => simp [hr] at h
            | some r =>
              obtain ⟨o1, s1⟩ := r
              rw [hr] at h
              rcases o1 with r | _ | _
              · exact many ((eval_steps E fuel _ _ _ _ _ _ hr (fun h => by cases h)).tail rfl) (ih _ _ _ _ K h)
              · cases h
              · exact ih _ _ _ _ _ hr
    | resAssign t x k =>
      simp only [eval] at h
      cases hq : (E.resources.res t).lock with
      | none => exact here (by simp only [Conf.step, hq])
      | some q =>
        simp only [hq] at h
        cases hbl : s.locks.contains (q, true) with
        | true =>
          simp only [hbl, if_true] at h
          exact one (by simp only [Conf.step, hq, hbl, if_true]) (ih _ _ _ _ K h)
        | false => exact here (by simp only [Conf.step, hq, hbl]; rfl)
    | resWrite t fn k =>
      simp only [eval] at h
      cases hbl : s.resBlocks E t true with
      | true => exact here (by simp only [Conf.step, hbl]; rfl)
      | false =>
      simp only [hbl, Bool.false_eq_true, if_false] at h
      cases hw : (E.resources.res t).withMut s.heap (fun v => ((fn v).1, if (fn v).2 then none else some ())) with
      | mk w hp =>
        rw [hw] at h
        cases w with
        | unavailable =>
          exact one (by simp only [Conf.step, hbl, Bool.false_eq_true, if_false, hw]) (ih _ _ _ _ K h)
        | ran _ => exact one (by simp only [Conf.step, hbl, Bool.false_eq_true, if_false, hw]) (ih _ _ _ _ K h)
        | panicked => cases h
    | catchUnwind body k =>
      simp only [eval] at h
      refine one rfl ?_
      cases hr : eval E fuel env body s with
      | none => simp [hr] at h
      | some q =>
        obtain ⟨o1, s1⟩ := q
        rw [hr] at h
        rcases o1 with r | _ | _
        · exact many ((eval_steps E fuel _ _ _ _ _ _ hr (fun h => by cases h)).tail rfl) (ih _ _ _ _ K h)
        · exact many ((eval_steps E fuel _ _ _ _ _ _ hr (fun h => by cases h)).tail rfl) (ih _ _ _ _ K h)
        · exact ih _ _ _ _ _ hr
    | forget k =>
      simp only [eval] at h
      cases hc : env[0]? with
      | none => exact here (by simp only [Conf.step, hc])
      | some f => rw [hc] at h; exact one (by simp only [Conf.step, hc]) (ih _ _ _ _ K h)

/-- The machine comes to a halt. -/
inductive Halts (E : Env σ) : Conf σ → Prop where
  | stop {c : Conf σ} : c.step E = none → Halts E c
  | go {c c' : Conf σ} : c.step E = some c' → Halts E c' → Halts E c

theorem Halts.before {E : Env σ} {a b : Conf σ} (h : Conf.Steps E a b) (hb : Halts E b) : Halts E a := by
  induction h with
  | refl => exact hb
  | head h1 _ ih => exact .go h1 (ih hb)

theorem Halts.after {E : Env σ} {a b : Conf σ} (h : Conf.Steps E a b) (ha : Halts E a) : Halts E b := by
  induction h with
  | refl => exact ha
  | head h1 _ ih =>
    cases ha with
    | stop h2 => rw [h1] at h2; cases h2
    | go h2 h3 => rw [h1] at h2; cases h2; exact ih h3

/-- A closure that comes to an end, or blocks, is executed in a number of steps. -/
theorem eval_halts {E : Env σ} {fuel : Nat} {env : List Nat} {p : Prog σ} {s : St σ} {r : Out (Except Error σ.V) × St σ}
    (h : eval E fuel env p s = some r) : Halts E ⟨.run env p, [], s⟩ := by
  obtain ⟨out, s'⟩ := r
  by_cases ho : out = .stuck
  · subst ho
    obtain ⟨K, s'', h1⟩ := eval_stuck E fuel env p s s' [] h
    exact .before h1 (.stop (by cases K <;> rfl))
  · exact .before (eval_steps E fuel env p s s' out [] h ho) (.stop (by rcases out with r | _ | _ <;> rfl))

theorem resume_stuck (E : Env σ) (K : List (Kont σ)) : ∀ s, ∃ s', resume E 0 K (.stuck, s) = some (.stuck, s') := by
  induction K with
  | nil => exact fun s => ⟨s, rfl⟩
  | cons κ K ih => cases κ <;> exact fun s => ih _

/-- A closure the machine brings to a halt comes to an end, or blocks. -/
theorem halts_eval {E : Env σ} {env : List Nat} {p : Prog σ} {K : List (Kont σ)} {s : St σ} {c : Conf σ}
    (h : Conf.Steps E ⟨.run env p, K, s⟩ c) (hc : c.step E = none) : ∃ fuel r, eval E fuel env p s = some r := by
  have key : ∃ fuel r, c.result E fuel = some r := by
    obtain ⟨control, K, st⟩ := c
    rcases step_none hc with h1 | ⟨h1, out, h2⟩
    · cases h1
      obtain ⟨s', h3⟩ := resume_stuck E K st
      exact ⟨0, _, h3⟩
    · cases h1; cases h2; exact ⟨0, _, rfl⟩
  have back : ∀ {a b : Conf σ}, Conf.Steps E a b → (∃ fuel r, b.result E fuel = some r) → ∃ fuel r, a.result E fuel = some r := by
    intro a b h
    induction h with
    | refl c => exact fun h => h
    | head h1 _ ih =>
      intro hb
      obtain ⟨fuel, r, hf⟩ := ih hb
      exact ⟨fuel + 1, r, step_result E h1 hf⟩
  obtain ⟨fuel, r, hf⟩ := back h key
  refine ⟨fuel, ?_⟩
  simp only [Conf.result] at hf
  obtain ⟨x, h1, _⟩ := Option.bind_eq_some_iff.1 hf
  exact ⟨x, h1⟩

/-! ## A transaction among other clients -/

/-- While a client is inside its transaction, only that client can take a step. -/
theorem Served.only {S : Schema σ} {s s' : Sys σ} {e : SysEvent σ} {c : Nat} (h : Served S s)
    (hc : (s.clients c).exclusive = true) (hs : Sys.Step s e s') : e.client = c := by
  have own : ∀ {d : Nat} {x : Client σ}, s.clients d = x → x.locks = true → d = c :=
    fun hd hl => (h.alone c _ hc (by rw [hd]; exact hl)).symm
  have free : ∀ {d : Nat}, (∀ d, (s.clients d).locks = false) → d = c := fun e => by
    have := e c; rw [Client.locks_of_exclusive hc] at this; cases this
  cases hs with
  | read d hd hq => have := hq c; rw [hc] at this; cases this
  | observe d i hd => exact own hd rfl
  | readDone d hd => exact own hd rfl
  | write d hq => exact free hq
  | openTx d hq => exact free hq
  | update d ops op hd => exact own hd rfl
  | writeDone d ops p hd => exact own hd rfl
  | register d pre op hd => exact own hd rfl
  | dropTx d pre hd => exact own hd rfl
  | call d pre body hd => exact own hd rfl
  | work d hd hst => exact own hd rfl
  | commit d hd _ _ => exact own hd rfl
  | leaked d hd _ _ => exact own hd rfl
  | fail d hd => exact own hd rfl
  | panic d hd => exact own hd rfl
  | apply d hd => exact own hd rfl
  | finish d hd => exact own hd rfl
  | crash d hd => exact own hd rfl

/-- Whatever happens, the next events are steps of client `c`, fewer than `n`, and then the end of its transaction. -/
def Dooms (c : Nat) (pre : List (Operation σ.K σ.T)) (body : Prog σ) : Nat → Sys σ → Prop
  | 0, _ => False
  | n + 1, s => ∀ e s', Sys.Step s e s' → e.Closes c pre body ∨ (e = .internal c ∧ Dooms c pre body n s')

theorem Sys.Run.uncons {s s'' : Sys σ} {es : List (SysEvent σ)} (h : Sys.Run s es s'') :
    (es = [] ∧ s'' = s) ∨ ∃ e t s', es = e :: t ∧ Sys.Step s e s' ∧ Sys.Run s' t s'' := by
  induction h with
  | nil => exact .inl ⟨rfl, rfl⟩
  | snoc h1 h2 ih =>
    rcases ih with ⟨rfl, rfl⟩ | ⟨e, t, s', rfl, h3, h4⟩
    · exact .inr ⟨_, [], _, rfl, h2, .nil _⟩
    · exact .inr ⟨e, _, s', rfl, h3, .snoc h4 h2⟩

theorem Dooms.run {c : Nat} {pre : List (Operation σ.K σ.T)} {body : Prog σ} {n : Nat} : ∀ {s s' : Sys σ}
    {es : List (SysEvent σ)}, Dooms c pre body n s → Sys.Run s es s' →
    (es = List.replicate es.length (.internal c) ∧ es.length < n ∧ Dooms c pre body (n - es.length) s') ∨
      ∃ k e rest, k < n ∧ es = List.replicate k (.internal c) ++ e :: rest ∧ e.Closes c pre body := by
  induction n with
  | zero => intro s s' es h; exact h.elim
  | succ n ih =>
    intro s s' es h hr
    rcases hr.uncons with ⟨rfl, rfl⟩ | ⟨e, t, s1, rfl, h1, h2⟩
    · exact .inl ⟨rfl, by simp, h⟩
    · rcases h e s1 h1 with h3 | ⟨rfl, h3⟩
      · exact .inr ⟨0, e, t, by omega, rfl, h3⟩
      · rcases ih h3 h2 with ⟨h4, h5, h6⟩ | ⟨k, e, rest, h4, rfl, h5⟩
        · refine .inl ⟨?_, by simp; omega, by simpa using h6⟩
          rw [List.length_cons, List.replicate_succ, ← h4]
        · exact .inr ⟨k + 1, e, rest, by omega, rfl, h5⟩

theorem dooms_committing {c : Nat} {pre : List (Operation σ.K σ.T)} {body : Prog σ} {v : σ.V}
    (rest : List (Operation σ.K σ.T)) : ∀ {S : Schema σ} {s : Sys σ} {n : Nat}, Served S s →
    s.clients c = .committing pre body v n rest → ∃ N, Dooms c pre body N s := by
  induction rest with
  | nil =>
    intro S s n h hc
    refine ⟨1, fun e s' hs => ?_⟩
    have hown := h.only (by rw [hc]; rfl) hs
    have clash : ∀ {d : Nat} {x : Client σ} {P : Prop}, d = c → s.clients d = x → x ≠ .committing pre body v n [] → P :=
      fun e1 e2 e3 => absurd (by rw [← e2, e1, hc]) e3
    have free : ∀ {P : Prop}, (∀ d, (s.clients d).locks = false) → P := fun e => by
      have := e c; rw [hc] at this; cases this
    cases hs with
    | read d hd hq => exact clash hown hd (by simp)
    | observe d i hd => exact clash hown hd (by simp)
    | readDone d hd => exact clash hown hd (by simp)
    | write d hq => exact free hq
    | openTx d hq => exact free hq
    | update d ops op hd => exact clash hown hd (by simp)
    | writeDone d ops p hd => exact clash hown hd (by simp)
    | register d pre op hd => exact clash hown hd (by simp)
    | dropTx d pre hd => exact clash hown hd (by simp)
    | call d pre body hd => exact clash hown hd (by simp)
    | work d hd hst => exact clash hown hd (by simp)
    | commit d hd _ _ => exact clash hown hd (by simp)
    | leaked d hd _ _ => exact clash hown hd (by simp)
    | fail d hd => exact clash hown hd (by simp)
    | panic d hd => exact clash hown hd (by simp)
    | apply d hd => exact clash hown hd (by simp)
    | finish d hd => change d = c at hown; subst hown; rw [hc] at hd; cases hd; exact .inl (.inl ⟨_, rfl⟩)
    | crash d hd => exact clash hown hd (by simp)
  | cons op rest ih =>
    intro S s n h hc
    have next : Sys.Step s (.internal c)
      { s.set c (.committing pre body v (n + 1) rest) with schema := { s.schema with graph := s.schema.graph.applyOp op } } :=
      .apply c hc
    obtain ⟨S', _, hS'⟩ := h.step next
    obtain ⟨N, hN⟩ := ih hS' (set_self ..)
    refine ⟨N + 1, fun e s' hs => ?_⟩
    have hown := h.only (by rw [hc]; rfl) hs
    have clash : ∀ {d : Nat} {x : Client σ} {P : Prop}, d = c → s.clients d = x →
        x ≠ .committing pre body v n (op :: rest) → P := fun e1 e2 e3 => absurd (by rw [← e2, e1, hc]) e3
    have free : ∀ {P : Prop}, (∀ d, (s.clients d).locks = false) → P := fun e => by
      have := e c; rw [hc] at this; cases this
    cases hs with
    | read d hd hq => exact clash hown hd (by simp)
    | observe d i hd => exact clash hown hd (by simp)
    | readDone d hd => exact clash hown hd (by simp)
    | write d hq => exact free hq
    | openTx d hq => exact free hq
    | update d ops op hd => exact clash hown hd (by simp)
    | writeDone d ops p hd => exact clash hown hd (by simp)
    | register d pre op hd => exact clash hown hd (by simp)
    | dropTx d pre hd => exact clash hown hd (by simp)
    | call d pre body hd => exact clash hown hd (by simp)
    | work d hd hst => exact clash hown hd (by simp)
    | commit d hd _ _ => exact clash hown hd (by simp)
    | leaked d hd _ _ => exact clash hown hd (by simp)
    | fail d hd => exact clash hown hd (by simp)
    | panic d hd => exact clash hown hd (by simp)
    | apply d hd => change d = c at hown; subst hown; rw [hc] at hd; cases hd; exact .inr ⟨rfl, hN⟩
    | finish d hd => exact clash hown hd (by simp)
    | crash d hd => change d = c at hown; subst hown; rw [hc] at hd; cases hd; exact .inl (.inr ⟨_, rfl⟩)

theorem dooms_running {E : Env σ} {x : Conf σ} (hx : Halts E x) : ∀ {c : Nat} {pre : List (Operation σ.K σ.T)} {body : Prog σ}
    {S : Schema σ} {s : Sys σ}, Served S s → s.schema.env = E → s.schema.guard = x.st.graph → s.schema.heap = x.st.heap →
    s.clients c = .running pre body x.control x.stack x.st.frames x.st.locks → ∃ N, Dooms c pre body N s := by
  induction hx with
  | @stop x hstop =>
    intro c pre body S s h hE hg hh hc
    have hst : Conf.step s.schema.env ⟨x.control, x.stack, ⟨s.schema.guard, x.st.frames, s.schema.heap, x.st.locks⟩⟩ = none := by
      rw [hE, hg, hh]; exact hstop
    have hcom : ∀ v root, x.control = .back (.ret (.ok v)) → x.stack = [] → x.st.frames[0]? = some root → root.leaked = false →
        ∃ N, Dooms c pre body N (s.set c (.committing pre body v 0 root.ops)) := by
      intro v root h1 h2 h3 h4
      rw [h1, h2] at hc
      obtain ⟨S', _, hS'⟩ := h.step (.commit c hc h3 h4)
      exact dooms_committing _ hS' (set_self ..)
    have htot : ∃ N, ∀ v root, x.control = .back (.ret (.ok v)) → x.stack = [] → x.st.frames[0]? = some root →
        root.leaked = false → Dooms c pre body N (s.set c (.committing pre body v 0 root.ops)) := by
      by_cases hex : ∃ v root, x.control = .back (.ret (.ok v)) ∧ x.stack = [] ∧ x.st.frames[0]? = some root ∧
          root.leaked = false
      · obtain ⟨v, root, h1, h2, h3, h4⟩ := hex
        obtain ⟨N, hN⟩ := hcom v root h1 h2 h3 h4
        refine ⟨N, fun v' root' h1' _ h3' _ => ?_⟩
        rw [h1] at h1'; rw [h3] at h3'
        cases h1'; cases h3'
        exact hN
      · exact ⟨0, fun v root h1 h2 h3 h4 => absurd ⟨v, root, h1, h2, h3, h4⟩ hex⟩
    obtain ⟨N, hN⟩ := htot
    refine ⟨N + 1, fun e s' hs => ?_⟩
    have hown := h.only (by rw [hc]; rfl) hs
    have clash : ∀ {d : Nat} {y : Client σ} {P : Prop}, d = c → s.clients d = y →
        y ≠ .running pre body x.control x.stack x.st.frames x.st.locks → P := fun e1 e2 e3 => absurd (by rw [← e2, e1, hc]) e3
    have free : ∀ {P : Prop}, (∀ d, (s.clients d).locks = false) → P := fun e => by
      have := e c; rw [hc] at this; cases this
    cases hs with
    | read d hd hq => exact clash hown hd (by simp)
    | observe d i hd => exact clash hown hd (by simp)
    | readDone d hd => exact clash hown hd (by simp)
    | write d hq => exact free hq
    | openTx d hq => exact free hq
    | update d ops op hd => exact clash hown hd (by simp)
    | writeDone d ops p hd => exact clash hown hd (by simp)
    | register d pre op hd => exact clash hown hd (by simp)
    | dropTx d pre hd => exact clash hown hd (by simp)
    | call d pre body hd => exact clash hown hd (by simp)
    | work d hd hst' =>
      change d = c at hown; subst hown; rw [hc] at hd; injection hd with e1 e2 e3 e4 e5 e6
      subst e1 e2 e3 e4 e5 e6
      rw [hst] at hst'; cases hst'
    | commit d hd h3 h4 =>
      change d = c at hown; subst hown; rw [hc] at hd; injection hd with e1 e2 e3 e4 e5 e6
      subst e1 e2 e5 e6
      exact .inr ⟨rfl, hN _ _ e3 e4 h3 h4⟩
    | leaked d hd _ _ => change d = c at hown; subst hown; rw [hc] at hd; injection hd with e1 e2; subst e1 e2; exact .inl (.inl ⟨_, rfl⟩)
    | fail d hd => change d = c at hown; subst hown; rw [hc] at hd; injection hd with e1 e2; subst e1 e2; exact .inl (.inl ⟨_, rfl⟩)
    | panic d hd => change d = c at hown; subst hown; rw [hc] at hd; injection hd with e1 e2; subst e1 e2; exact .inl (.inl ⟨_, rfl⟩)
    | apply d hd => exact clash hown hd (by simp)
    | finish d hd => exact clash hown hd (by simp)
    | crash d hd => exact clash hown hd (by simp)
  | @go x y hgo _ ih =>
    intro c pre body S s h hE hg hh hc
    have hst : Conf.step s.schema.env ⟨x.control, x.stack, ⟨s.schema.guard, x.st.frames, s.schema.heap, x.st.locks⟩⟩ =
        some y := by rw [hE, hg, hh]; exact hgo
    have next : Sys.Step s (.internal c) _ := .work c hc hst
    obtain ⟨S', _, hS'⟩ := h.step next
    obtain ⟨N, hN⟩ := ih (c := c) (pre := pre) (body := body) hS' hE (by rw [guard_graph]) rfl (set_self ..)
    refine ⟨N + 1, fun e s' hs => ?_⟩
    have hown := h.only (by rw [hc]; rfl) hs
    have clash : ∀ {d : Nat} {y : Client σ} {P : Prop}, d = c → s.clients d = y →
        y ≠ .running pre body x.control x.stack x.st.frames x.st.locks → P := fun e1 e2 e3 => absurd (by rw [← e2, e1, hc]) e3
    have free : ∀ {P : Prop}, (∀ d, (s.clients d).locks = false) → P := fun e => by
      have := e c; rw [hc] at this; cases this
    cases hs with
    | read d hd hq => exact clash hown hd (by simp)
    | observe d i hd => exact clash hown hd (by simp)
    | readDone d hd => exact clash hown hd (by simp)
    | write d hq => exact free hq
    | openTx d hq => exact free hq
    | update d ops op hd => exact clash hown hd (by simp)
    | writeDone d ops p hd => exact clash hown hd (by simp)
    | register d pre op hd => exact clash hown hd (by simp)
    | dropTx d pre hd => exact clash hown hd (by simp)
    | call d pre body hd => exact clash hown hd (by simp)
    | work d hd hst' =>
      change d = c at hown; subst hown; rw [hc] at hd; injection hd with e1 e2 e3 e4 e5 e6
      subst e1 e2 e3 e4 e5 e6
      rw [hst] at hst'; cases hst'
      exact .inr ⟨rfl, hN⟩
    | commit d hd h3 h4 =>
      change d = c at hown; subst hown; rw [hc] at hd; injection hd with e1 e2 e3 e4 e5 e6
      rw [e3, e4] at hst; cases hst
    | leaked d hd _ _ =>
      change d = c at hown; subst hown; rw [hc] at hd; injection hd with e1 e2 e3 e4 e5 e6
      rw [e3, e4] at hst; cases hst
    | fail d hd =>
      change d = c at hown; subst hown; rw [hc] at hd; injection hd with e1 e2 e3 e4 e5 e6
      rw [e3, e4] at hst; cases hst
    | panic d hd =>
      change d = c at hown; subst hown; rw [hc] at hd; injection hd with e1 e2 e3 e4 e5 e6
      rw [e3, e4] at hst; cases hst
    | apply d hd => exact clash hown hd (by simp)
    | finish d hd => exact clash hown hd (by simp)
    | crash d hd => exact clash hown hd (by simp)

end Plotline
