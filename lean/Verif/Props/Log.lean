import Verif.Lemmas.Log
import Verif.Spec.Fixtures

/-! # C99: what the log tells -/

namespace Plotline

open Std

set_option linter.unusedSectionVars false

variable {σ : Sig}

/-- A run of the closure and what `transact` says of it. -/
theorem transact_talk {S S' : Schema σ} {fuel : Nat} {pre : List (Operation σ.K σ.T)} {body : Prog σ} {out : Out (Except Error σ.V)}
    (ht : S.transact fuel pre body = some (out, S')) {inner : List (LogLine σ)} {o : Out (Except Error σ.V)} {s : St σ}
    (h : Conf.Talk S.env ⟨.run [0] body, [], S.begin pre⟩ inner ⟨.back o, [], s⟩) :
    o = out ∧ ∃ fuel', eval S.env fuel' [0] body (S.begin pre) = some (o, s) ∧ eval S.env fuel [0] body (S.begin pre) = some (o, s) := by
  obtain ⟨fuel', he⟩ := h.steps.eval
  obtain ⟨s', he', _⟩ := transact_some ht
  cases eval_det _ he he'
  exact ⟨rfl, fuel', he, he'⟩

/-- C99: every transaction that ends has logged one definite list of lines. -/
theorem C99_defined (S S' : Schema σ) (fuel : Nat) (pre : List (Operation σ.K σ.T)) (body : Prog σ) (out : Out (Except Error σ.V))
    (ht : S.transact fuel pre body = some (out, S')) (hout : out ≠ .stuck) :
    ∃ ls, S.Logs pre body ls ∧ ∀ ls', S.Logs pre body ls' → ls' = ls := by
  obtain ⟨s, he, _⟩ := transact_some ht
  obtain ⟨inner, htalk⟩ := (eval_steps _ _ _ _ _ _ _ [] he hout).talk
  refine ⟨_, ⟨inner, out, s, htalk, hout, rfl⟩, ?_⟩
  rintro _ ⟨inner', out', s', htalk', _, rfl⟩
  obtain ⟨h1, h2⟩ := htalk'.unique htalk (step_end _ _ _) (step_end _ _ _)
  cases h2
  rw [h1]

/-- C99: nothing is lost silently. If a transaction ends without the line about contexts in use, then it ends as it would have
if neither the closure nor any trigger had leaked a context: same outcome, same nodes, same resources. -/
theorem C99_kept (S S' : Schema σ) (fuel : Nat) (pre : List (Operation σ.K σ.T)) (body : Prog σ) (out : Out (Except Error σ.V))
    (ht : S.transact fuel pre body = some (out, S')) (ls : List (LogLine σ)) (hlog : S.Logs pre body ls)
    (hl : .contextsInUse ∉ ls) :
    ∃ fuel', S.unforgotten.transact fuel' pre body.unforgotten = some (out, S'.unforgotten) := by
  obtain ⟨inner, o, s, htalk, ho, rfl⟩ := hlog
  obtain ⟨rfl, _, _, he⟩ := transact_talk ht htalk
  simp only [List.mem_append, not_or] at hl
  have hk := htalk.kept (fun h => ho (by injection h)) hl.1.2
  have hk : Conf.Steps S.unforgotten.env ⟨.run [0] body.unforgotten, [], S.unforgotten.begin pre⟩ ⟨.back o, [], s.kept⟩ := hk
  obtain ⟨f1, h1⟩ := hk.eval
  refine ⟨f1, ?_⟩
  unfold Schema.transact at ht ⊢
  rw [he] at ht
  rw [h1]
  rcases o with (e | v) | _ | _
  · cases ht; rfl
  · cases ht
    dsimp only
    rw [commitRoot_kept]
    · rfl
    · intro fr hfr
      have := hl.2
      simp only [commitLog, hfr] at this
      cases hk : fr.leaked with
      | false => rfl
      | true => rw [hk] at this; exact absurd (List.mem_singleton.2 rfl) this
  · cases ht; rfl
  · exact absurd rfl ho

/-- C99: the line about contexts in use is only logged if somebody leaked a context. -/
theorem C99_only_leaks (S : Schema σ) (pre : List (Operation σ.K σ.T)) (body : Prog σ) (hE : S.env.Every Prog.Retains)
    (hb : body.Every Prog.Retains) (ls : List (LogLine σ)) (hlog : S.Logs pre body ls) : .contextsInUse ∉ ls := by
  obtain ⟨inner, o, s, htalk, _, rfl⟩ := hlog
  obtain ⟨h1, h2⟩ := htalk.retains hE ⟨fun _ _ e => (by cases e; exact hb), fun _ h => (by cases h)⟩
    (fun fr hfr => by cases List.mem_singleton.1 hfr; rfl)
  simp only [List.mem_append, not_or]
  refine ⟨⟨?_, h2⟩, ?_⟩
  · unfold Schema.guardLog
    split <;> simp
  · unfold commitLog
    cases hfr : s.frames[0]? with
    | none => split <;> simp_all
    | some fr =>
      have := h1 fr (List.mem_of_getElem? hfr)
      split <;> simp_all

/-- C99: the lines about poisoned locks are only logged if somebody panicked: on a schema nobody has panicked on yet, a closure
that does not panic, with triggers that do not, logs neither of them, does not unwind, and leaves the schema as unharmed as
it was. -/
theorem C99_only_panics (S S' : Schema σ) (hS : S.Unharmed) (fuel : Nat) (pre : List (Operation σ.K σ.T)) (body : Prog σ)
    (out : Out (Except Error σ.V)) (ht : S.transact fuel pre body = some (out, S')) (hE : S.env.Every Prog.Sober)
    (hb : body.Every Prog.Sober) (ls : List (LogLine σ)) (hlog : S.Logs pre body ls) :
    (∀ l ∈ ls, l = .contextsInUse ∨ ∃ i, l = .missing i) ∧ out ≠ .panic ∧ S'.Unharmed := by
  obtain ⟨inner, o, s, htalk, ho, rfl⟩ := hlog
  obtain ⟨rfl, _, _, he⟩ := transact_talk ht htalk
  obtain ⟨h1, h2⟩ := htalk.calmly hE ⟨⟨fun _ _ e => (by cases e; exact hb), fun _ h => (by cases h)⟩, fun h => (by cases h), hS.2,
    fun fr hfr l h => by cases List.mem_singleton.1 hfr; cases h⟩
  refine ⟨fun l hl => ?_, fun h => h1.back (by rw [h]), ?_⟩
  · simp only [List.mem_append] at hl
    rcases hl with (hl | hl) | hl
    · simp [Schema.guardLog, hS.1] at hl
    · exact h2 l hl
    · unfold commitLog at hl
      split at hl
      · split at hl
        · exact .inl (List.mem_singleton.1 hl)
        · cases hl
      · cases hl
  · unfold Schema.transact at ht
    rw [he] at ht
    rcases o with (e | v) | _ | _
    · cases ht; exact ⟨hS.1, h1.cells⟩
    · cases ht; exact ⟨hS.1, h1.cells⟩
    · exact absurd rfl h1.back
    · exact absurd rfl ho

theorem every_weaken {φ ψ : Prog σ → Prop} (hφ : ∀ p, ψ p → φ p) {p : Prog σ} : p.Every ψ → p.Every φ := by
  induction p with
  | done | panic | reenter => exact hφ _
  | save _ _ _ ih | delete _ _ _ ih | withTarget _ _ ih | resAssign _ _ _ ih | forget _ ih => exact fun h => ⟨hφ _ h.1, ih h.2⟩
  | get _ _ _ ih | contains _ _ _ ih | runTriggers _ _ _ ih | targetRead _ _ ih | targetWrite _ _ _ ih | resRead _ _ ih
  | resWrite _ _ _ ih => exact fun h => ⟨hφ _ h.1, fun x => ih x (h.2 x)⟩
  | tx _ _ _ ih1 ih2 | catchUnwind _ _ ih1 ih2 => exact fun h => ⟨hφ _ h.1, ih1 h.2.1, fun x => ih2 x (h.2.2 x)⟩
  | resScope _ _ _ _ ih1 ih2 => exact fun h => ⟨hφ _ h.1, fun v => ih1 v (h.2.1 v), fun x => ih2 x (h.2.2 x)⟩

/-- C99: an application whose closures and triggers neither panic nor leak their contexts, on a schema nobody has panicked on
yet, has nothing in its log but attempts to delete nodes that did not exist. -/
theorem C99_quiet (S S' : Schema σ) (hS : S.Unharmed) (hE : S.env.Every fun p => p.Sober ∧ p.Retains)
    (calls : List (List (Operation σ.K σ.T) × Prog σ)) (hcalls : ∀ x ∈ calls, x.2.Every fun p => p.Sober ∧ p.Retains)
    (ls : List (LogLine σ)) (h : LoggedBy S calls ls S') : ∀ l ∈ ls, ∃ i, l = .missing i := by
  induction h with
  | nil => intro l h; cases h
  | @cons S S1 S2 fuel pre body out ls ls' rest ht hlog _ ih =>
    have hb := hcalls _ (List.mem_cons_self ..)
    have hs : S.env.Every Prog.Sober := fun s ts h t hm => every_weaken (fun _ h => h.1) (hE s ts h t hm)
    have hr : S.env.Every Prog.Retains := fun s ts h t hm => every_weaken (fun _ h => h.2) (hE s ts h t hm)
    obtain ⟨h1, _, h2⟩ := C99_only_panics S S1 hS fuel pre body out ht hs (every_weaken (fun _ h => h.1) hb) ls hlog
    have h3 := C99_only_leaks S pre body hr (every_weaken (fun _ h => h.2) hb) ls hlog
    obtain ⟨_, _, henv, _⟩ := transact_some ht
    intro l hl
    rcases List.mem_append.1 hl with hl | hl
    · rcases h1 l hl with rfl | h
      · exact absurd hl h3
      · exact h
    · exact ih h2 (by rw [henv]; exact hE) (fun x hx => hcalls x (List.mem_cons_of_mem _ hx)) l hl

/-- C99: the line about the poisoned graph is logged by exactly those transactions that come after a panic, first of all. -/
theorem C99_graph (S : Schema σ) (pre : List (Operation σ.K σ.T)) (body : Prog σ) (ls : List (LogLine σ))
    (hlog : S.Logs pre body ls) :
    (S.poisoned = true → ∃ rest, ls = .graphPoisoned :: rest ∧ .graphPoisoned ∉ rest) ∧
    (S.poisoned = false → .graphPoisoned ∉ ls) := by
  obtain ⟨inner, o, s, htalk, _, rfl⟩ := hlog
  have hin : ∀ {c d : Conf σ} {ls : List (LogLine σ)}, Conf.Talk S.env c ls d → .graphPoisoned ∉ ls := by
    intro c d ls h
    induction h with
    | refl => intro h; cases h
    | quiet _ _ _ ih => exact ih
    | line _ hl _ ih =>
      intro h
      rcases List.mem_cons.1 h with rfl | h
      · exact hl.not_poisoned
      · exact ih h
  have hout : (.graphPoisoned : LogLine σ) ∉ commitLog o s := by
    unfold commitLog
    split
    · split <;> simp
    · simp
  constructor
  · intro hp
    refine ⟨inner ++ commitLog o s, by simp [Schema.guardLog, hp], ?_⟩
    simp only [List.mem_append, not_or]
    exact ⟨hin htalk, hout⟩
  · intro hp
    simp only [Schema.guardLog, hp, Bool.false_eq_true, if_false, List.nil_append, List.mem_append, not_or]
    exact ⟨hin htalk, hout⟩

/-- Whether the lock of the graph is poisoned, by what happened. -/
theorem session_poisoned {S S' : Schema σ} {l : List (Use σ × Seen σ)} (h : Session S l S') :
    S'.poisoned = true ↔ S.poisoned = true ∨ ∃ pre body, (Use.tx pre body, Seen.out .panic) ∈ l := by
  induction h with
  | nil S => simp
  | @cons S S1 S2 u a l hg _ ih =>
    rw [ih]
    have plain : S1.poisoned = S.poisoned → (∀ pre body, (u, a) ≠ (Use.tx pre body, Seen.out .panic)) →
        ((S1.poisoned = true ∨ ∃ pre body, (Use.tx pre body, Seen.out .panic) ∈ l) ↔
          S.poisoned = true ∨ ∃ pre body, (Use.tx pre body, Seen.out .panic) ∈ (u, a) :: l) := by
      intro h1 h2
      rw [h1]
      refine or_congr Iff.rfl (exists_congr fun pre => exists_congr fun body => ?_)
      rw [List.mem_cons]
      exact ⟨.inr, fun h => h.resolve_left fun e => h2 _ _ e.symm⟩
    cases hg with
    | register => exact plain rfl (fun _ _ e => (by cases e))
    | trigger => exact plain rfl (fun _ _ e => (by cases e))
    | update => exact plain rfl (fun _ _ e => (by cases e))
    | get => exact plain rfl (fun _ _ e => (by cases e))
    | iter => exact plain rfl (fun _ _ e => (by cases e))
    | read => exact plain rfl (fun _ _ e => (by cases e))
    | write => exact plain rfl (fun _ _ e => (by cases e))
    | @tx _ fuel pre body o ht ho =>
      unfold Schema.transact at ht
      split at ht
      · cases ht
      · cases ht; exact plain rfl (fun _ _ e => (by cases e))
      · cases ht; exact plain rfl (fun _ _ e => (by cases e))
      · cases ht
        exact ⟨fun _ => .inr ⟨pre, body, List.mem_cons_self ..⟩, fun _ => .inl rfl⟩
      · cases ht; exact absurd rfl ho

/-- C99: the line about the poisoned graph, by what happened before: a transaction logs it exactly if an earlier one panicked, and
then once, first of all. -/
theorem C99_after_panic (g : Graph σ.K σ.T) (S : Schema σ) (l : List (Use σ × Seen σ)) (hs : Session (.fromGraph g) l S)
    (pre : List (Operation σ.K σ.T)) (body : Prog σ) (ls : List (LogLine σ)) (hlog : S.Logs pre body ls) :
    ((∃ pre body, (Use.tx pre body, Seen.out .panic) ∈ l) → ∃ rest, ls = .graphPoisoned :: rest ∧ .graphPoisoned ∉ rest) ∧
    ((¬ ∃ pre body, (Use.tx pre body, Seen.out .panic) ∈ l) → .graphPoisoned ∉ ls) := by
  have hp := session_poisoned hs
  obtain ⟨h1, h2⟩ := C99_graph S pre body ls hlog
  refine ⟨fun h => h1 (hp.2 (.inr h)), fun h => h2 ?_⟩
  cases hS : S.poisoned with
  | false => rfl
  | true => exact ((hp.1 hS).elim (fun e => (by cases e)) h).elim

/-- C99: whatever was registered, read, written and run on a new schema, if no closure and no trigger panicked or leaked a context,
then transactions of that kind log nothing but attempts to delete nodes that did not exist. -/
theorem C99_careful (g : Graph σ.K σ.T) (S : Schema σ) (l : List (Use σ × Seen σ)) (hs : Session (.fromGraph g) l S)
    (hl : ∀ x ∈ l, x.1.Careful) (pre : List (Operation σ.K σ.T)) (body : Prog σ) (hb : body.Every fun p => p.Sober ∧ p.Retains)
    (fuel : Nat) (out : Out (Except Error σ.V)) (S' : Schema σ) (ht : S.transact fuel pre body = some (out, S'))
    (ls : List (LogLine σ)) (hlog : S.Logs pre body ls) : ∀ x ∈ ls, ∃ i, x = .missing i := by
  have key : ∀ {S S' : Schema σ} {l : List (Use σ × Seen σ)}, Session S l S' → (∀ x ∈ l, x.1.Careful) →
      BTreeMap.Sorted S.env.triggers.triggers.entries → S.Unharmed → (S.env.Every fun p => p.Sober ∧ p.Retains) →
      S'.Unharmed ∧ S'.env.Every fun p => p.Sober ∧ p.Retains := by
    intro S S' l h
    induction h with
    | nil S => exact fun _ _ h1 h2 => ⟨h1, h2⟩
    | @cons S S1 S2 u a l hg _ ih =>
      intro hc hsort hu he
      have hc1 := hc _ (List.mem_cons_self ..)
      have hc2 : ∀ x ∈ l, x.1.Careful := fun x hx => hc x (List.mem_cons_of_mem _ hx)
      cases hg with
      | register t v =>
        refine ih hc2 hsort ⟨hu.1, fun cell hm => ?_⟩ he
        rcases List.mem_append.1 hm with hm | hm
        · exact hu.2 cell hm
        · cases List.mem_singleton.1 hm; rfl
      | trigger s p =>
        refine ih hc2 (withTrigger_sorted _ hsort s p) hu fun s' ts hts t hm => ?_
        have hsel := select_withTrigger S.env.triggers hsort s s' p
        have hts' : (S.env.triggers.withTrigger s p).select s' = some ts := hts
        rw [hts', Option.getD_some] at hsel
        have old : t ∈ (S.env.triggers.select s').getD [] → t.Every fun p => p.Sober ∧ p.Retains := by
          intro h
          cases hq : S.env.triggers.select s' with
          | none => rw [hq] at h; cases h
          | some ts' => rw [hq] at h; exact he s' ts' hq t h
        rw [hsel] at hm
        split at hm
        · rcases List.mem_append.1 hm with hm | hm
          · exact old hm
          · cases List.mem_singleton.1 hm; exact hc1
        · exact old hm
      | update => exact ih hc2 hsort hu he
      | get => exact ih hc2 hsort hu he
      | iter => exact ih hc2 hsort hu he
      | read => exact ih hc2 hsort hu he
      | write t f =>
        refine ih hc2 hsort ⟨hu.1, ?_⟩ he
        have hf : ∀ v, (f v).2 = false := hc1
        show ∀ cell ∈ ((S.env.resources.res t).withMut S.heap _).2, _
        unfold Res.withMut
        split
        · exact hu.2
        · split
          · exact hu.2
          · split
            · exact hu.2
            · split
              · exact hu.2
              · simp only [hf, Bool.false_eq_true, if_false]
                intro cell hm
                rcases List.mem_or_eq_of_mem_set hm with hm | rfl
                · exact hu.2 cell hm
                · rfl
      | @tx _ fuel pre body o ht ho =>
        obtain ⟨_, _, henv, _⟩ := transact_some ht
        obtain ⟨inner, hlog⟩ := C99_defined S S1 fuel pre body o ht ho
        have hs : S.env.Every Prog.Sober := fun s ts h t hm => every_weaken (fun _ h => h.1) (he s ts h t hm)
        obtain ⟨_, _, h2⟩ := C99_only_panics S S1 hu fuel pre body o ht hs (every_weaken (fun _ h => h.1) hc1) inner hlog.1
        exact ih hc2 (by rw [henv]; exact hsort) h2 (by rw [henv]; exact he)
  obtain ⟨h1, h2⟩ := key hs hl List.Pairwise.nil ⟨rfl, fun _ h => (by cases h)⟩ (fun s ts h => (by cases h))
  have := C99_quiet S S' h1 h2 [(pre, body)] (fun x hx => (by cases List.mem_singleton.1 hx; exact hb)) (ls ++ []) (.cons ht hlog (.nil _))
  simpa using this

/-- C99: a closure that is refused a registered resource is told so in the log, and only then: wherever a closure is in any
transaction of a schema made by the API, asking for a resource (and not blocking) logs the line about it exactly if a
resource of that type is registered and the closure does not get its value. -/
theorem C99_resource [LawfulSig σ] (S : Schema σ) (hS : Made S) (pre : List (Operation σ.K σ.T)) (body : Prog σ) (c : Conf σ)
    (ls : List (LogLine σ)) (h : Conf.Talk S.env ⟨.run [0] body, [], S.begin pre⟩ ls c) (env : List Nat) (t : σ.Ty) :
    (∀ k, c.control = .run env (.resRead t k) → c.st.resBlocks S.env t false = false →
      (c.Logs S.env (.resource t) ↔
        (S.env.resources.res t).lock.isSome = true ∧ (S.env.resources.res t).peek c.st.heap = none)) ∧
    (∀ fn k, c.control = .run env (.resWrite t fn k) → c.st.resBlocks S.env t true = false →
      (c.Logs S.env (.resource t) ↔
        (S.env.resources.res t).lock.isSome = true ∧ (S.env.resources.res t).peek c.st.heap = none)) ∧
    (∀ excl b k, c.control = .run env (.resScope t excl b k) → c.st.resBlocks S.env t excl = false →
      (c.Logs S.env (.resource t) ↔
        (S.env.resources.res t).lock.isSome = true ∧ (S.env.resources.res t).peek c.st.heap = none)) := by
  obtain ⟨_, hin, hown⟩ := made_cells hS
  have inv : ∀ {a b : Conf σ}, Conf.Steps S.env a b → S.env.Typed a.st.heap → S.env.Typed b.st.heap ∧
      b.st.heap.length = a.st.heap.length := by
    intro a b h
    induction h with
    | refl => exact fun h => ⟨h, rfl⟩
    | head h1 _ ih =>
      intro ht
      obtain ⟨h2, h3⟩ := ih (step_typed (fun t u p => hown t u p) h1 ht)
      exact ⟨h2, h3.trans (step_heap_length h1)⟩
  obtain ⟨htyped, hlen⟩ := inv h.steps (made_typed hS)
  have key : ∀ excl, c.st.resBlocks S.env t excl = false → (c.st.resPoisoned S.env t excl ↔
      (S.env.resources.res t).lock.isSome = true ∧ (S.env.resources.res t).peek c.st.heap = none) := by
    intro excl hb
    constructor
    · rintro ⟨p, cell, h1, _, h2, h3⟩
      exact ⟨by rw [h1]; rfl, by simp [Res.peek, h1, h2, h3]⟩
    · rintro ⟨h1, h2⟩
      obtain ⟨p, hp⟩ := Option.isSome_iff_exists.1 h1
      have hlt : p < c.st.heap.length := by rw [hlen]; exact hin t p hp
      have hcell := List.getElem?_eq_getElem hlt
      refine ⟨p, _, hp, ?_, hcell, ?_⟩
      · simpa [St.resBlocks, hp] using hb
      · have hty := htyped t p hp _ hcell
        simp only [Res.peek, hp, hcell] at h2
        split at h2
        · assumption
        · rw [Dyn.downcast, dif_pos hty] at h2; cases h2
  obtain ⟨control, K, s⟩ := c
  refine ⟨?_, ?_, ?_⟩
  · rintro k e hb
    dsimp only at e
    subst e
    rw [← key false hb]
    exact ⟨fun h => by cases h; assumption, .resRead⟩
  · rintro fn k e hb
    dsimp only at e
    subst e
    rw [← key true hb]
    exact ⟨fun h => by cases h; assumption, .resWrite⟩
  · rintro excl b k e hb
    dsimp only at e
    subst e
    rw [← key excl hb]
    exact ⟨fun h => by cases h; assumption, .resScope⟩

/-- C99: the same of the target of a context: asking for a target logs the line about it exactly if one has been set and
the closure does not get it. -/
theorem C99_target (E : Env σ) (c : Conf σ) (env : List Nat) (x f : Nat) (hx : env[x]? = some f) (fr : Frame σ.K σ.T)
    (hf : c.st.frames[f]? = some fr) :
    (∀ k, c.control = .run env (.targetRead x k) →
      (c.Logs E .target ↔ fr.target.isSome = true ∧ readTarget c.st f = none)) ∧
    (∀ fn k, c.control = .run env (.targetWrite x fn k) →
      (c.Logs E .target ↔ fr.target.isSome = true ∧ readTarget c.st f = none)) := by
  have key : c.st.targetPoisoned f ↔ fr.target.isSome = true ∧ readTarget c.st f = none := by
    constructor
    · rintro ⟨fr', l, h1, h2, h3⟩
      rw [hf] at h1; cases h1
      exact ⟨by rw [h2]; rfl, by simp [readTarget, hf, h2, h3]⟩
    · rintro ⟨h1, h2⟩
      obtain ⟨l, hl⟩ := Option.isSome_iff_exists.1 h1
      refine ⟨fr, l, hf, hl, ?_⟩
      simp only [readTarget, hf, hl] at h2
      split at h2
      · assumption
      · cases h2
  obtain ⟨control, K, s⟩ := c
  constructor
  · rintro k e
    dsimp only at e
    subst e
    rw [← key]
    refine ⟨fun h => ?_, .targetRead hx⟩
    cases h with
    | targetRead h1 h2 => rw [hx] at h1; cases h1; exact h2
  · rintro fn k e
    dsimp only at e
    subst e
    rw [← key]
    refine ⟨fun h => ?_, .targetWrite hx⟩
    cases h with
    | targetWrite h1 h2 => rw [hx] at h1; cases h1; exact h2

/-- C99: wherever a `Delete` is executed, the line about its node is logged exactly if the context does not see the node; it then
returns `Noop` having done nothing. -/
theorem C99_missing (E : Env σ) (env : List Nat) (f : Nat) (henv : env[0]? = some f) (i : σ.K) (K : List (Kont σ)) (s : St σ) :
    ((⟨.run env (deleteBody i), K, s⟩ : Conf σ).Logs E (.missing i) ↔ ctxGet s.graph s.frames f i = none) ∧
    (ctxGet s.graph s.frames f i = none →
      Conf.Steps E ⟨.run env (deleteBody i), K, s⟩ ⟨.back (.ret (.error .noop)), K, s⟩) := by
  refine ⟨⟨fun h => ?_, .missing henv⟩, fun h => ?_⟩
  · generalize hc : (⟨.run env (deleteBody i), K, s⟩ : Conf σ) = c at h
    generalize hl : LogLine.missing i = l at h
    cases h with
    | missing h1 h2 =>
      injection hc with hc1 hc2 hc3
      injection hc1 with hc1 _
      cases hl
      subst hc1 hc3
      rw [henv] at h1; cases h1; exact h2
    | _ => cases hl
  · refine .head (c' := ⟨.run env (.done (.error .noop)), K, s⟩) ?_ (.head rfl (.refl _))
    simp only [Conf.step, deleteBody, henv, h]

/-- C99: a whole `Delete` of a node that does not exist logs the line about it and nothing else (but for the line a poisoned graph
gives), returns `Noop` and leaves the schema as it was. -/
theorem C99_delete (S : Schema σ) (i : σ.K) (h : S.graph.get i = none) :
    S.Logs [] (deleteBody i) (S.guardLog ++ [.missing i]) ∧
    S.delete 2 i = some (.ret (.error .noop), S) := by
  have hg : ctxGet (S.begin []).graph (S.begin []).frames 0 i = none := by
    rw [ctxGet]
    show S.guard.get i = none
    rw [guard_graph]; exact h
  constructor
  · refine ⟨[.missing i], .ret (.error .noop), S.begin [], .line (c' := ⟨.run [0] (.done (.error .noop)), [], S.begin []⟩) ?_
      (.missing rfl hg) (.quiet rfl (fun l h => by cases h) (.refl _)), by simp, by simp [commitLog]⟩
    simp only [Conf.step, deleteBody, List.getElem?_cons_zero, hg]
  · have : eval S.env 2 [0] (deleteBody i) (S.begin []) = some (.ret (.error .noop), S.begin []) := by
      simp only [eval, deleteBody, List.getElem?_cons_zero, hg]
    unfold Schema.delete Schema.transact
    rw [this]
    dsimp only
    show some (_, { S with graph := S.guard, heap := S.heap }) = _
    rw [guard_graph]

/-! ## Non-vacuity -/

/-- A schema with one document and a resource. -/
def loggedDemo : Schema demo := (Schema.fromGraph ((Graph.empty : Graph Nat Doc).insert ⟨1, 10⟩).1).withResource 5 (7 : Nat)

/-- A closure that leaks its context: the save is lost, and the log says so. -/
example : loggedDemo.transact 9 [] (.save 0 ⟨2, 20⟩ (.forget (.done (.ok ())))) = some (.ret (.ok ()), loggedDemo) ∧
    loggedDemo.Logs [] (.save 0 ⟨2, 20⟩ (.forget (.done (.ok ())))) [.contextsInUse] :=
  ⟨rfl, [], .ret (.ok ()), _, .quiet rfl (fun l h => by cases h) (.quiet rfl (fun l h => by cases h)
    (.quiet rfl (fun l h => by cases h) (.refl _))), by simp, rfl⟩

/-- A closure that leaks its context and fails: nothing is logged, and nothing is lost that would not have been anyway. -/
example : loggedDemo.Logs [] (.save 0 ⟨2, 20⟩ (.forget (.done (.error .noop)))) [] :=
  ⟨[], .ret (.error .noop), _, .quiet rfl (fun l h => by cases h) (.quiet rfl (fun l h => by cases h)
    (.quiet rfl (fun l h => by cases h) (.refl _))), by simp, rfl⟩

/-- The resource after somebody panicked while writing it: the next transaction is told that the graph and the resource are
poisoned. -/
def harmedDemo : Schema demo :=
  { loggedDemo with poisoned := true, heap := [⟨⟨5, (8 : Nat)⟩, true⟩] }

example : loggedDemo.transact 9 [] (.resWrite 5 (fun _ => ((8 : Nat), true)) fun _ => .done (.ok ())) =
    some (.panic, harmedDemo) := rfl

example : harmedDemo.Logs [] (.resRead 5 fun _ => .done (.ok ())) [.graphPoisoned, .resource 5] :=
  ⟨[.resource 5], .ret (.ok ()), _, .line rfl (.resRead ⟨0, _, rfl, rfl, rfl, rfl⟩) (.quiet rfl (fun l h => by cases h) (.refl _)),
    by simp, rfl⟩

example : loggedDemo.Unharmed := ⟨rfl, fun cell h => by cases List.mem_singleton.1 h; rfl⟩

example : LoggedBy loggedDemo [([], deleteBody 3)] [.missing 3] loggedDemo :=
  .cons (C99_delete loggedDemo 3 rfl).2 (C99_delete loggedDemo 3 rfl).1 (.nil _)

/-- A new schema on which a resource was registered and a closure panicked: that is `harmedDemo`, whose next transaction says so. -/
example : Session (σ := demo) (Schema.fromGraph ((Graph.empty : Graph Nat Doc).insert ⟨1, 10⟩).1)
    [(Use.register (σ := demo) 5 (7 : Nat), .nothing),
     (Use.tx (σ := demo) [] (.resWrite (σ := demo) 5 (fun _ => ((8 : Nat), true)) fun _ => .done (.ok ())), .out .panic)] harmedDemo :=
  .cons (.register _ _ _) (.cons (.tx (fuel := 9) rfl (by simp)) (.nil _))

/-- Saving is careful; panicking is not. -/
example : (Use.tx [] (.save 0 ⟨2, 20⟩ (.done (.ok ()))) : Use demo).Careful ∧ ¬ (Use.tx [] .panic : Use demo).Careful :=
  ⟨⟨⟨trivial, trivial⟩, trivial, trivial⟩, fun h => h.1⟩

end Plotline
