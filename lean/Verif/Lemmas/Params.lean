import Verif.Spec.Params
import Verif.Lemmas.Triggers
import Verif.Lemmas.Scopes
import Verif.Props.Group

/-! # Lemmas about the parameters of triggers -/

namespace Plotline

variable {σ : Sig}

theorem runs_catchUnwind (E : Env σ) {env : List Nat} (body : Prog σ) (k : Option (Except Error σ.V) → Prog σ) (s s' : St σ)
    (out : Out (Except Error σ.V)) :
    Runs E env (.catchUnwind body k) s out s' ↔
      ∃ o s1, Runs E env body s o s1 ∧
        match o with
        | .ret r => Runs E env (k (some r)) s1 out s'
        | .panic => Runs E env (k none) s1 out s'
        | .stuck => out = .stuck ∧ s' = s1 := by
  constructor
  · rintro ⟨fuel, h⟩
    cases fuel with
    | zero => simp [eval] at h
    | succ fuel =>
      simp only [eval] at h
      cases hr : eval E fuel env body s with
      | none => simp [hr] at h
      | some q =>
        obtain ⟨o, s1⟩ := q
        rw [hr] at h
        refine ⟨o, s1, ⟨fuel, hr⟩, ?_⟩
        rcases o with r | _ | _
        · exact ⟨fuel, h⟩
        · exact ⟨fuel, h⟩
        · simp only [Option.some.injEq, Prod.mk.injEq] at h; exact ⟨h.1.symm, h.2.symm⟩
  · rintro ⟨o, s1, ⟨a, ha⟩, h⟩
    rcases o with r | _ | _
    · obtain ⟨b, hb⟩ := h
      refine ⟨max a b + 1, ?_⟩
      simp only [eval]
      rw [eval_mono_le E (Nat.le_max_left a b) ha]
      exact eval_mono_le E (Nat.le_max_right a b) hb
    · obtain ⟨b, hb⟩ := h
      refine ⟨max a b + 1, ?_⟩
      simp only [eval]
      rw [eval_mono_le E (Nat.le_max_left a b) ha]
      exact eval_mono_le E (Nat.le_max_right a b) hb
    · obtain ⟨rfl, rfl⟩ := h; exact ⟨a + 1, by simp only [eval, ha]⟩

/-! ## One parameter -/

theorem andThen_next {A : Type} {m : FromCtx σ A} {c : NextCall σ A} (h : m.next = some c) (k : A → Prog σ) :
    m.andThen k = c.call fun b => (c.rest b).andThen k := by
  cases m <;> simp only [FromCtx.next, Option.some.injEq, reduceCtorEq] at h <;> subst h <;> rfl

theorem Arises.runs {E : Env σ} {f : Nat} {A : Type} {m : FromCtx σ A} {s s1 : St σ} {a : A} (h : Arises E f m s a s1) :
    ∀ k out s', Runs E [f] (m.andThen k) s out s' ↔ Runs E [f] (k a) s1 out s' := by
  induction h with
  | ret a s => exact fun _ _ _ => Iff.rfl
  | call hc hb _ ih => exact fun k out s' => by rw [andThen_next hc]; exact (hb _ _ _).trans (ih k out s')

theorem Breaks.runs {E : Env σ} {f : Nat} {A : Type} {m : FromCtx σ A} {s s1 : St σ} {o : Out (Except Error σ.V)} (h : Breaks E f m s o s1) :
    (o = .panic ∨ o = .stuck) ∧ ∀ k out s', Runs E [f] (m.andThen k) s out s' ↔ out = o ∧ s' = s1 := by
  induction h with
  | panic s => exact ⟨.inl rfl, fun k out s' => runs_now fun _ => rfl⟩
  | reenter s => exact ⟨.inr rfl, fun k out s' => runs_now fun _ => rfl⟩
  | stops hc hb => exact ⟨hb.1, fun k out s' => by rw [andThen_next hc]; exact hb.2 _ out s'⟩
  | call hc hb _ ih => exact ⟨ih.1, fun k out s' => by rw [andThen_next hc]; exact (hb _ _ _).trans (ih.2 k out s')⟩

/-- How making a parameter can go. -/
def Goes (E : Env σ) (f : Nat) {A : Type} (m : FromCtx σ A) (s : St σ) : Prop :=
  (∃ a s1, Arises E f m s a s1) ∨ (∃ o s1, Breaks E f m s o s1) ∨ ∀ k out s', ¬ Runs E [f] (m.andThen k) s out s'

theorem Goes.step {E : Env σ} {f : Nat} {A : Type} {m : FromCtx σ A} {c : NextCall σ A} (hc : m.next = some c) {s s1 : St σ} {b : c.B}
    (hb : Answers E f c.call s b s1) (h' : Goes E f (c.rest b) s1) : Goes E f m s := by
  rcases h' with ⟨a, s2, h'⟩ | ⟨o, s2, h'⟩ | h'
  · exact .inl ⟨a, s2, .call hc hb h'⟩
  · exact .inr (.inl ⟨o, s2, .call hc hb h'⟩)
  · exact .inr (.inr fun k out s' hr => h' k out s' ((hb _ _ _).1 (andThen_next hc k ▸ hr)))

theorem Goes.stop {E : Env σ} {f : Nat} {A : Type} {m : FromCtx σ A} {c : NextCall σ A} (hc : m.next = some c) {s s1 : St σ}
    {o : Out (Except Error σ.V)} (hb : Stops E f c.call s o s1) : Goes E f m s := .inr (.inl ⟨o, s1, .stops hc hb⟩)

theorem goes (E : Env σ) (f : Nat) {A : Type} (m : FromCtx σ A) : ∀ s : St σ, Goes E f m s := by
  induction m with
  | ret a => exact fun s => .inl ⟨a, s, .ret a s⟩
  | panic => exact fun s => .inr (.inl ⟨.panic, s, .panic s⟩)
  | reenter => exact fun s => .inr (.inl ⟨.stuck, s, .reenter s⟩)
  | save n m ih => exact fun s => .step rfl (fun k out s' => runs_step fun _ => rfl) (ih (pushOp s f (.save n)))
  | delete i m ih => exact fun s => .step rfl (fun k out s' => runs_step fun _ => rfl) (ih (pushOp s f (.delete i)))
  | get i m ih => exact fun s => .step rfl (fun k out s' => runs_step fun _ => rfl) (ih (ctxGet s.graph s.frames f i) s)
  | contains i m ih => exact fun s => .step rfl (fun k out s' => runs_step fun _ => rfl) (ih (ctxContains s.graph s.frames f i) s)
  | targetRead m ih => exact fun s => .step rfl (fun k out s' => runs_step fun _ => rfl) (ih (readTarget s f) s)
  | targetWrite fn m ih =>
    intro s
    cases hr : readTarget s f with
    | none =>
      exact .step rfl (fun k out s' => runs_step fun _ => by simp only [eval, List.getElem?_cons_zero, hr]) (ih false s)
    | some n =>
      cases hp : (fn n).2 with
      | false =>
        have hf : fn n = ((fn n).1, false) := by rw [← hp]
        refine .step rfl (s1 := writeTarget s f (fn n).1 false) (fun k out s' => runs_step fun _ => ?_) (ih true _)
        simp only [eval, List.getElem?_cons_zero, hr]
        rw [hf]
      | true =>
        have hf : fn n = ((fn n).1, true) := by rw [← hp]
        refine .stop rfl (s1 := writeTarget s f (fn n).1 true) (o := .panic) ⟨.inl rfl, fun k out s' => runs_now fun _ => ?_⟩
        simp only [eval, List.getElem?_cons_zero, hr]
        rw [hf]
  | resRead t m ih =>
    intro s
    cases hb : s.resBlocks E t false with
    | true =>
      exact .stop rfl (s1 := s) (o := .stuck) ⟨.inr rfl, fun k out s' => runs_now fun _ => by simp only [eval, hb, if_true]⟩
    | false =>
      exact .step rfl (fun k out s' => runs_step fun _ => by simp only [eval, hb, Bool.false_eq_true, if_false])
        (ih ((E.resources.res t).peek s.heap) s)
  | resWrite t fn m ih =>
    intro s
    cases hb : s.resBlocks E t true with
    | true =>
      exact .stop rfl (s1 := s) (o := .stuck) ⟨.inr rfl, fun k out s' => runs_now fun _ => by simp only [eval, hb, if_true]⟩
    | false =>
      cases hw : (E.resources.res t).withMut s.heap (fun v => ((fn v).1, if (fn v).2 then none else some ())) with
      | mk a heap' =>
        cases a with
        | unavailable =>
          exact .step rfl (fun k out s' => runs_step fun _ => by simp only [eval, hb, Bool.false_eq_true, if_false, hw]) (ih false s)
        | ran x =>
          exact .step rfl (s1 := { s with heap := heap' })
            (fun k out s' => runs_step fun _ => by simp only [eval, hb, Bool.false_eq_true, if_false, hw]) (ih true _)
        | panicked =>
          exact .stop rfl (s1 := { s with heap := heap' }) (o := .panic) ⟨.inl rfl, fun k out s' => runs_now fun _ => by
            simp only [eval, hb, Bool.false_eq_true, if_false, hw]⟩
  | tx body m ih =>
    intro s
    by_cases h : ∃ o s1, Runs E [s.frames.length, f] body (openChild s f) o s1
    · obtain ⟨o, s1, h⟩ := h
      have key : ∀ k out s', Runs E [f] (.tx 0 body k) s out s' ↔
          match (generalizing := false) o with
          | .ret (.ok v) => Runs E [f] (k (.ok v)) (commitChild s1 s.frames.length) out s'
          | .ret (.error e) => Runs E [f] (k (.error e)) (closeChild s1 s.frames.length) out s'
          | .panic => out = .panic ∧ s' = closeChild s1 s.frames.length
          | .stuck => out = .stuck ∧ s' = closeChild s1 s.frames.length := by
        intro k out s'
        rw [runs_tx E (env := [f]) (c := 0) (f := f) rfl]
        constructor
        · rintro ⟨o', s2, h1, h2⟩
          obtain ⟨rfl, rfl⟩ := h.det h1
          exact h2
        · exact fun h2 => ⟨o, s1, h, h2⟩
      rcases o with (e | v) | _ | _
      · exact .step (c := ⟨_, .tx 0 body, m⟩) (b := .error e) (s1 := closeChild s1 s.frames.length) rfl key (ih _ _)
      · exact .step (c := ⟨_, .tx 0 body, m⟩) (b := .ok v) (s1 := commitChild s1 s.frames.length) rfl key (ih _ _)
      · exact .stop rfl (o := .panic) ⟨.inl rfl, key⟩
      · exact .stop rfl (o := .stuck) ⟨.inr rfl, key⟩
    · refine .inr (.inr fun k out s' hr => h ?_)
      obtain ⟨o, s1, h1, _⟩ := (runs_tx E (env := [f]) (c := 0) (f := f) rfl _ _ _ _ _).1 hr
      exact ⟨o, s1, h1⟩
  | runTriggers sch m ih =>
    intro s
    by_cases h : ∃ r s1, Fires E f (E.fire sch) s r s1
    · obtain ⟨o, s1, h⟩ := h
      have key : ∀ k out s', Runs E [f] (.runTriggers 0 sch k) s out s' ↔
          match (generalizing := false) o with
          | .ret x => Runs E [f] (k x) s1 out s'
          | .panic => out = .panic ∧ s' = s1
          | .stuck => out = .stuck ∧ s' = s1 := by
        intro k out s'
        rw [runs_runTriggers E (env := [f]) (c := 0) (f := f) rfl]
        constructor
        · rintro ⟨o', s2, h1, h2⟩
          obtain ⟨rfl, rfl⟩ := h.det h1
          exact h2
        · exact fun h2 => ⟨o, s1, h, h2⟩
      rcases o with x | _ | _
      · exact .step (c := ⟨_, .runTriggers 0 sch, m⟩) (b := x) (s1 := s1) rfl key (ih _ _)
      · exact .stop rfl (o := .panic) ⟨.inl rfl, key⟩
      · exact .stop rfl (o := .stuck) ⟨.inr rfl, key⟩
    · refine .inr (.inr fun k out s' hr => h ?_)
      obtain ⟨o, s1, h1, _⟩ := (runs_runTriggers E (env := [f]) (c := 0) (f := f) rfl _ _ _ _ _).1 hr
      exact ⟨o, s1, h1⟩
  | resScope t excl body m ih =>
    intro s
    cases hp : (E.resources.res t).lock with
    | none => exact .step rfl (fun k out s' => runs_step fun _ => by simp only [eval, hp]) (ih none s)
    | some p =>
      cases hb : s.blocks p excl with
      | true =>
        exact .stop rfl (s1 := s) (o := .stuck) ⟨.inr rfl, fun k out s' => runs_now fun _ => by simp only [eval, hp, hb, if_true]⟩
      | false =>
        cases hv : (E.resources.res t).peek s.heap with
        | none =>
          exact .step rfl (fun k out s' => runs_step fun _ => by
            simp only [eval, hp, hb, hv, Bool.false_eq_true, if_false]) (ih none s)
        | some v =>
          by_cases h : ∃ o s1, Runs E [f] (body v) (lockRes s p excl) o s1
          · obtain ⟨o, s1, h⟩ := h
            have key : ∀ k out s', Runs E [f] (.resScope t excl body k) s out s' ↔
                match (generalizing := false) o with
                | .ret r => Runs E [f] (k (some r)) (unlockRes s1) out s'
                | .panic => out = .panic ∧ s' = unwindRes s1 p excl
                | .stuck => out = .stuck ∧ s' = unlockRes s1 := by
              intro k out s'
              rw [runs_resScope E hp hb hv]
              constructor
              · rintro ⟨o', s2, h1, h2⟩
                obtain ⟨rfl, rfl⟩ := h.det h1
                exact h2
              · exact fun h2 => ⟨o, s1, h, h2⟩
            rcases o with x | _ | _
            · exact .step (c := ⟨_, .resScope t excl body, m⟩) (b := some x) (s1 := unlockRes s1) rfl key (ih _ _)
            · exact .stop rfl (o := .panic) ⟨.inl rfl, key⟩
            · exact .stop rfl (o := .stuck) ⟨.inr rfl, key⟩
          · refine .inr (.inr fun k out s' hr => h ?_)
            obtain ⟨o, s1, h1, _⟩ := (runs_resScope E hp hb hv).1 hr
            exact ⟨o, s1, h1⟩
  | catchUnwind body m ih =>
    intro s
    by_cases h : ∃ o s1, Runs E [f] body s o s1
    · obtain ⟨o, s1, h⟩ := h
      have key : ∀ k out s', Runs E [f] (.catchUnwind body k) s out s' ↔
          match (generalizing := false) o with
          | .ret r => Runs E [f] (k (some r)) s1 out s'
          | .panic => Runs E [f] (k none) s1 out s'
          | .stuck => out = .stuck ∧ s' = s1 := by
        intro k out s'
        rw [runs_catchUnwind]
        constructor
        · rintro ⟨o', s2, h1, h2⟩
          obtain ⟨rfl, rfl⟩ := h.det h1
          exact h2
        · exact fun h2 => ⟨o, s1, h, h2⟩
      rcases o with x | _ | _
      · exact .step (c := ⟨_, .catchUnwind body, m⟩) (b := some x) (s1 := s1) rfl key (ih _ _)
      · exact .step (c := ⟨_, .catchUnwind body, m⟩) (b := none) (s1 := s1) rfl key (ih _ _)
      · exact .stop rfl (o := .stuck) ⟨.inr rfl, key⟩
    · refine .inr (.inr fun k out s' hr => h ?_)
      obtain ⟨o, s1, h1, _⟩ := (runs_catchUnwind E _ _ _ _ _).1 hr
      exact ⟨o, s1, h1⟩

/-! ## All of them -/

theorem params_run (E : Env σ) (f : Nat) {As : Type} (ps : Params σ As) : ∀ (k : As → Prog σ) (s s' : St σ) (out : Out (Except Error σ.V)),
    Runs E [f] (ps.andThen k) s out s' ↔
      (∃ as s1, AllArise E f ps s as s1 ∧ Runs E [f] (k as) s1 out s') ∨ OneBreaks E f ps s out s' := by
  induction ps with
  | none =>
    intro k s s' out
    constructor
    · exact fun h => .inl ⟨(), s, rfl, h⟩
    · rintro (⟨as, s1, h1, h2⟩ | h)
      · cases h1; exact h2
      · exact h.elim
  | @param A As m ms ih =>
    intro k s s' out
    constructor
    · intro h
      rcases goes E f m s with ⟨a, s1, ha⟩ | ⟨o, s1, hb⟩ | hn
      · rcases (ih _ _ _ _).1 ((ha.runs _ _ _).1 h) with ⟨as, s2, h1, h2⟩ | h1
        · exact .inl ⟨(a, as), s2, ⟨s1, ha, h1⟩, h2⟩
        · exact .inr (.inr ⟨a, s1, ha, h1⟩)
      · obtain ⟨rfl, rfl⟩ := (hb.runs.2 _ _ _).1 h
        exact .inr (.inl hb)
      · exact (hn _ _ _ h).elim
    · rintro (⟨⟨a, as⟩, s2, ⟨s1, ha, h1⟩, h2⟩ | hb | ⟨a, s1, ha, h1⟩)
      · exact (ha.runs _ _ _).2 ((ih _ _ _ _).2 (.inl ⟨_, _, h1, h2⟩))
      · exact (hb.runs.2 _ _ _).2 ⟨rfl, rfl⟩
      · exact (ha.runs _ _ _).2 ((ih _ _ _ _).2 (.inr h1))

end Plotline
