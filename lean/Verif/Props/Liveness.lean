import Verif.Lemmas.Liveness
import Verif.Props.Cascade
import Verif.Props.Interleave

/-! # C98: how long a transaction keeps the others waiting -/

namespace Plotline

open Std

set_option linter.unusedSectionVars false

variable {σ : Sig}

/-- C98: let a client be inside a transaction that would come to an end if nobody else used the schema. Then there is a number
such that, whatever the schedule, fewer events than that, all of them its own steps, come before the end of the transaction:
nobody else gets a turn. -/
theorem C98_bounded (S : Schema σ) (es : List (SysEvent σ)) (s : Sys σ) (h : Sys.Run (Sys.start S) es s) (c : Nat)
    (pre : List (Operation σ.K σ.T)) (body : Prog σ) (control : Control σ) (stack : List (Kont σ))
    (frames : List (Frame σ.K σ.T)) (locks : List (Nat × Bool)) (hc : s.clients c = .running pre body control stack frames locks)
    (hend : ∀ S', OneByOne S es S' → ∃ fuel r, S'.transact fuel pre body = some r) :
    ∃ N, ∀ es' s', Sys.Run s es' s' →
      (es' = List.replicate es'.length (.internal c) ∧ es'.length < N) ∨
        ∃ k e rest, k < N ∧ es' = List.replicate k (.internal c) ++ e :: rest ∧ e.Closes c pre body := by
  obtain ⟨S', h1, h2⟩ := Served.run h
  obtain ⟨fuel, r, ht⟩ := hend S' h1
  have hb := h2.busy c (by rw [hc]; rfl)
  rw [hc] at hb
  obtain ⟨hs, hsteps⟩ := hb
  cases he : eval S'.env fuel [0] body (S'.begin pre) with
  | none => rw [transact_none_iff.2 he] at ht; cases ht
  | some q =>
    have hh := (eval_halts he).after hsteps
    obtain ⟨N, hN⟩ := dooms_running hh (c := c) (pre := pre) (body := body) h2 (by rw [hs]) (by rw [guard_graph, hs]) rfl hc
    refine ⟨N, fun es' s' hr => ?_⟩
    rcases hN.run hr with ⟨h3, h4, _⟩ | h3
    · exact .inl ⟨h3, h4⟩
    · exact .inr h3

theorem alone_env {S S' : Schema σ} {e : SysEvent σ} (h : Alone S e S') : S'.env = S.env := by
  cases h with
  | finish c fuel ht => exact (transact_some ht).choose_spec.2.1
  | crash c fuel ht =>
    unfold Schema.transactCrash at ht
    split at ht
    · split at ht
      · exact (transact_some ht).choose_spec.2.1
      · split at ht
        · exact (transact_some ht).choose_spec.2.1
        · split at ht <;> cases ht; rfl
    · exact (transact_some ht).choose_spec.2.1
  | _ => rfl

theorem oneByOne_env {S S' : Schema σ} {es : List (SysEvent σ)} (h : OneByOne S es S') : S'.env = S.env := by
  induction h with
  | nil => rfl
  | snoc _ h2 ih => rw [alone_env h2, ih]

/-- C98: so with layered triggers every transaction of every client is over after a number of its own steps, whatever its
closure does. -/
theorem C98_layered (S : Schema σ) (hl : S.env.Layered) (es : List (SysEvent σ)) (s : Sys σ) (h : Sys.Run (Sys.start S) es s)
    (c : Nat) (pre : List (Operation σ.K σ.T)) (body : Prog σ) (control : Control σ) (stack : List (Kont σ))
    (frames : List (Frame σ.K σ.T)) (locks : List (Nat × Bool)) (hc : s.clients c = .running pre body control stack frames locks) :
    ∃ N, ∀ es' s', Sys.Run s es' s' →
      (es' = List.replicate es'.length (.internal c) ∧ es'.length < N) ∨
        ∃ k e rest, k < N ∧ es' = List.replicate k (.internal c) ++ e :: rest ∧ e.Closes c pre body :=
  C98_bounded S es s h c pre body control stack frames locks hc
    fun S' h1 => C61_layered_ends S' (by rw [oneByOne_env h1]; exact hl) pre body

theorem Forever.run {S : Schema σ} {event : Nat → SysEvent σ} {state : Nat → Sys σ} (h : Forever S event state) (n m : Nat) :
    Sys.Run (state n) ((List.range m).map fun i => event (n + i)) (state (n + m)) := by
  induction m with
  | zero => exact .nil _
  | succ m ih =>
    rw [List.range_succ, List.map_append]
    exact .snoc ih (h.step (n + m))

/-- C98: in a schedule that goes on for ever, with layered triggers, every call of `with` is over at some time, and until then
nothing but that call makes progress. -/
theorem C98_every_call_ends (S : Schema σ) (hl : S.env.Layered) (event : Nat → SysEvent σ) (state : Nat → Sys σ)
    (h : Forever S event state) (n c : Nat) (body : Prog σ) (hcall : event n = .call c body) :
    ∃ k pre, (event (n + 1 + k)).Closes c pre body ∧ ∀ i, i < k → event (n + 1 + i) = .internal c := by
  have hs := h.step n
  rw [hcall] at hs
  have hr := h.run 0 (n + 1)
  rw [h.start, Nat.zero_add] at hr
  generalize he : SysEvent.call c body = e at hs
  generalize hst : state (n + 1) = s1 at hs
  cases hs with
  | call d pre body hd =>
    cases he
    obtain ⟨N, hN⟩ := C98_layered S hl _ _ hr c pre body (.run [0] body) [] ((state n).schema.begin pre).frames []
      (by rw [hst]; exact set_self ..)
    rcases hN _ _ (h.run (n + 1) N) with ⟨_, h2⟩ | ⟨k, e, rest, h1, h2, h3⟩
    · simp at h2
    · refine ⟨k, pre, ?_, fun i hi => ?_⟩
      · have := congrArg (·[k]?) h2
        simp [h1] at this
        rw [this]; exact h3
      · have := congrArg (·[i]?) h2
        simp [hi, Nat.lt_trans hi h1, List.getElem?_append] at this
        exact this
  | _ => cases he

/-- C98: a transaction that would not come to an end alone keeps everybody else waiting for ever: all that ever happens are its
own steps, of which there is always another. -/
theorem C98_runaway (S : Schema σ) (es : List (SysEvent σ)) (s : Sys σ) (h : Sys.Run (Sys.start S) es s) (c : Nat)
    (pre : List (Operation σ.K σ.T)) (body : Prog σ) (control : Control σ) (stack : List (Kont σ))
    (frames : List (Frame σ.K σ.T)) (locks : List (Nat × Bool)) (hc : s.clients c = .running pre body control stack frames locks)
    (hend : ∀ S', OneByOne S es S' → ∀ fuel, S'.transact fuel pre body = none) (es' : List (SysEvent σ)) (s' : Sys σ)
    (hr : Sys.Run s es' s') : es' = List.replicate es'.length (.internal c) ∧ s'.CanGoOn c := by
  obtain ⟨S', h1, h2⟩ := Served.run h
  have hnever := hend S' h1
  have live : ∀ {x : Conf σ}, Conf.Steps S'.env ⟨.run [0] body, [], S'.begin pre⟩ x → ∃ y, x.step S'.env = some y := by
    intro x hx
    cases hstep : x.step S'.env with
    | some y => exact ⟨y, rfl⟩
    | none =>
      obtain ⟨fuel, r, he⟩ := halts_eval hx hstep
      have := transact_none_iff.1 (hnever fuel)
      rw [he] at this; cases this
  have key : es' = List.replicate es'.length (.internal c) ∧ Served S' s' ∧
      ∃ control stack frames locks, s'.clients c = .running pre body control stack frames locks := by
    induction hr with
    | nil => exact ⟨rfl, h2, _, _, _, _, hc⟩
    | @snoc s1 s2 es1 e _ hstep ih =>
      obtain ⟨h3, h4, control, stack, frames, locks, h5⟩ := ih
      have hown := h4.only (by rw [h5]; rfl) hstep
      have hb := h4.busy c (by rw [h5]; rfl)
      rw [h5] at hb
      obtain ⟨hs, hsteps⟩ := hb
      obtain ⟨y, hy⟩ := live hsteps
      have hy' : Conf.step s1.schema.env ⟨control, stack, ⟨s1.schema.guard, frames, s1.schema.heap, locks⟩⟩ = some y := by
        rw [guard_graph, hs]; exact hy
      have clash : ∀ {d : Nat} {x : Client σ} {P : Prop}, d = c → s1.clients d = x →
          x ≠ .running pre body control stack frames locks → P := fun e1 e2 e3 => absurd (by rw [← e2, e1, h5]) e3
      have free : ∀ {P : Prop}, (∀ d, (s1.clients d).locks = false) → P := fun e => by
        have := e c; rw [h5] at this; cases this
      obtain ⟨S2, h6, h7⟩ := h4.step hstep
      cases hstep with
      | read d hd hq => exact clash hown hd (by simp)
      | observe d i hd => exact clash hown hd (by simp)
      | readDone d hd => exact clash hown hd (by simp)
      | write d hq => exact free hq
      | openTx d hq => exact free hq
      | update d ops op hd => exact clash hown hd (by simp)
      | writeDone d ops p hd => exact clash hown hd (by simp)
      | register d pre op hd => exact clash hown hd (by simp)
      | dropTx d pre hd => exact clash hown hd (by simp)
      | call d pre body hd => exact clash hown hd (by simp)
      | work d hd hst' =>
        change d = c at hown; subst hown; rw [h5] at hd; injection hd with e1 e2 e3 e4 e5 e6
        subst e1 e2 e3 e4 e5 e6
        cases h6
        refine ⟨?_, h7, _, _, _, _, set_self ..⟩
        rw [h3]; simp [List.replicate_succ']
      | commit d hd h3 h4 =>
        change d = c at hown; subst hown; rw [h5] at hd; injection hd with e1 e2 e3 e4 e5 e6
        rw [e3, e4] at hy; cases hy
      | leaked d hd _ _ =>
        change d = c at hown; subst hown; rw [h5] at hd; injection hd with e1 e2 e3 e4 e5 e6
        rw [e3, e4] at hy; cases hy
      | fail d hd =>
        change d = c at hown; subst hown; rw [h5] at hd; injection hd with e1 e2 e3 e4 e5 e6
        rw [e3, e4] at hy; cases hy
      | panic d hd =>
        change d = c at hown; subst hown; rw [h5] at hd; injection hd with e1 e2 e3 e4 e5 e6
        rw [e3, e4] at hy; cases hy
      | apply d hd => exact clash hown hd (by simp)
      | finish d hd => exact clash hown hd (by simp)
      | crash d hd => exact clash hown hd (by simp)
  obtain ⟨h3, h4, control', stack', frames', locks', h5⟩ := key
  refine ⟨h3, ?_⟩
  have hb := h4.busy c (by rw [h5]; rfl)
  rw [h5] at hb
  obtain ⟨hs, hsteps⟩ := hb
  obtain ⟨y, hy⟩ := live hsteps
  exact ⟨_, _, .work c h5 (by rw [guard_graph, hs]; exact hy), rfl⟩

/-! ## One client deletes, which saves, which counts; others wait -/

/-- Client `c` opens a transaction and calls `with`. -/
theorem run_call (S : Schema σ) (c : Nat) (body : Prog σ) : Sys.Run (Sys.start S) [.openTx c, .call c body]
    (((Sys.start S).set c (.opened [])).set c (.running [] body (.run [0] body) [] (S.begin []).frames [])) :=
  .cons (.openTx c fun _ => rfl) (.one (.call c [] body (set_self ..)))

theorem oneByOne_call {S S' : Schema σ} {c : Nat} {body : Prog σ} (h : OneByOne S [.openTx c, .call c body] S') : S' = S := by
  have : ∀ {es : List (SysEvent σ)} {S' : Schema σ}, OneByOne S es S' → (∀ e ∈ es, e = .openTx c ∨ e = .call c body) →
      S' = S := by
    intro es S' h
    induction h with
    | nil => exact fun _ => rfl
    | snoc _ h2 ih =>
      intro hall
      have h3 := ih fun e he => hall e (List.mem_append_left _ he)
      rcases hall _ (List.mem_append_right _ (List.mem_singleton.2 rfl)) with rfl | rfl <;> cases h2 <;> exact h3
  exact this h (by simp)

theorem archive_layered : archive.env.Layered := by
  refine ⟨fun | .afterDelete => 1 | _ => 0, fun s t ht => ?_⟩
  rw [archive, fire_registered _ rfl] at ht
  cases s <;> simp [scheduled] at ht
  · subst ht
    exact ⟨trivial, fun _ => trivial⟩
  · subst ht
    refine ⟨trivial, ?_, fun x => ?_⟩
    · refine ⟨trivial, Nat.zero_lt_one, fun x => ?_⟩
      cases x with
      | error => trivial
      | ok _ =>
        refine ⟨trivial, fun x => ?_⟩
        cases x with
        | none => exact ⟨Nat.zero_lt_one, fun x => by cases x <;> trivial⟩
        | some _ => exact ⟨trivial, Nat.zero_lt_one, fun x => by cases x <;> trivial⟩
    · cases x <;> trivial

/-- However the clients of `archive` are scheduled, a deletion once begun is soon over. -/
example : ∃ s N, Sys.Run (Sys.start archive) [.openTx 0, .call 0 (deleteBody 1)] s ∧
    ∀ es' s', Sys.Run s es' s' → N ≤ es'.length → ∃ e ∈ es', e.Closes 0 [] (deleteBody 1) := by
  obtain ⟨N, hN⟩ := C98_layered archive archive_layered _ _ (run_call archive 0 (deleteBody 1)) 0 [] _ _ _ _ _
    (set_self ..)
  refine ⟨_, N, run_call archive 0 _, fun es' s' hr hlen => ?_⟩
  rcases hN es' s' hr with ⟨_, h⟩ | ⟨k, e, rest, _, rfl, h⟩
  · omega
  · exact ⟨e, by simp, h⟩

/-- With `logged`, where saving saves, the first client to save keeps all the others waiting for ever. -/
example (es' : List (SysEvent demo)) (s' : Sys demo)
    (h : Sys.Run (((Sys.start logged).set 0 (.opened [])).set 0
      (.running [] (saveBody ⟨2, 20⟩) (.run [0] (saveBody ⟨2, 20⟩)) [] (logged.begin []).frames []))
      es' s') : ∀ e ∈ es', e.client = 0 := by
  have hn : ∀ fuel, logged.transact fuel [] (saveBody ⟨2, 20⟩) = none := by
    intro fuel
    refine C61_save_in_after_save logged [] [] ⟨9, 90⟩ (fun _ => .done (.ok ())) ?_ ?_ (by simp) fuel _
    · rw [logged, fire_registered _ rfl]
      intro t ht
      simp [scheduled] at ht
      subst ht
      exact touch_neverFails _
    · rw [logged, fire_registered _ rfl]
      simp [scheduled]
  have := (C98_runaway logged _ _ (run_call logged 0 (saveBody ⟨2, 20⟩)) 0 [] _ _ _ _ _ (set_self ..)
    (fun S' h1 => by rw [oneByOne_call h1]; exact hn) es' s' h).1
  intro e he
  rw [this] at he
  rw [List.eq_of_mem_replicate he]; rfl

end Plotline
