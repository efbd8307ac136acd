import Verif.Lemmas.Cascade
import Verif.Lemmas.Liveness

/-! Lemmas about cascades of triggers without end, step by step. -/

namespace Plotline

set_option linter.unusedSectionVars false

variable {σ : Sig}

/-- What is left to do afterwards does not matter to a step. -/
theorem Conf.step_under {E : Env σ} {c c' : Conf σ} (L : List (Kont σ)) (h : c.step E = some c') :
    (⟨c.control, c.stack ++ L, c.st⟩ : Conf σ).step E = some ⟨c'.control, c'.stack ++ L, c'.st⟩ := by
  obtain ⟨control, K, s⟩ := c
  cases control with
  | run env p =>
    cases p <;> simp only [Conf.step] at h ⊢ <;> (repeat' split at h) <;> first | (cases h; simp_all; done) | simp_all
  | back o =>
    cases K with
    | nil => rcases o with (e | v) | _ | _ <;> simp [Conf.step] at h
    | cons κ K =>
      cases κ with
      | triggers f rest env k =>
        rcases o with (e | v) | _ | _
        · cases rest <;> cases h <;> rfl
        · cases rest <;> cases h <;> rfl
        · cases rest <;> cases h <;> rfl
        · cases rest <;> cases h
      | tx => rcases o with (e | v) | _ | _ <;> cases h <;> rfl
      | resScope => rcases o with (e | v) | _ | _ <;> cases h <;> rfl
      | catchUnwind => rcases o with (e | v) | _ | _ <;> cases h <;> rfl

theorem Conf.Steps.under {E : Env σ} {a b : Conf σ} (L : List (Kont σ)) (h : Conf.Steps E a b) :
    Conf.Steps E ⟨a.control, a.stack ++ L, a.st⟩ ⟨b.control, b.stack ++ L, b.st⟩ := by
  induction h with
  | refl => exact .refl _
  | head h1 _ ih => exact .head (Conf.step_under L h1) ih

/-- The machine comes to a halt after so many steps. -/
inductive HaltsIn (E : Env σ) : Nat → Conf σ → Prop where
  | stop {c : Conf σ} : c.step E = none → HaltsIn E 0 c
  | go {m : Nat} {c c' : Conf σ} : c.step E = some c' → HaltsIn E m c' → HaltsIn E (m + 1) c

theorem Halts.count {E : Env σ} {c : Conf σ} (h : Halts E c) : ∃ m, HaltsIn E m c := by
  induction h with
  | stop h => exact ⟨0, .stop h⟩
  | go h _ ih => exact ih.elim fun m hm => ⟨m + 1, .go h hm⟩

theorem HaltsIn.halts {E : Env σ} {m : Nat} {c : Conf σ} (h : HaltsIn E m c) : Halts E c := by
  induction h with
  | stop h => exact .stop h
  | go h _ ih => exact .go h ih

theorem HaltsIn.after {E : Env σ} {m : Nat} {a b : Conf σ} (hs : Conf.Steps E a b) (h : HaltsIn E m a) :
    ∃ l, l ≤ m ∧ HaltsIn E l b := by
  induction hs generalizing m with
  | refl => exact ⟨m, Nat.le_refl _, h⟩
  | head h1 _ ih =>
    cases h with
    | stop h2 => rw [h1] at h2; cases h2
    | go h2 h3 =>
      rw [h1] at h2; cases h2
      obtain ⟨l, hl, h4⟩ := ih h3
      exact ⟨l, by omega, h4⟩

theorem Halts.steps {E : Env σ} {c : Conf σ} (h : Halts E c) : ∃ d, Conf.Steps E c d ∧ d.step E = none := by
  induction h with
  | stop h => exact ⟨_, .refl _, h⟩
  | go h _ ih => exact ih.elim fun d hd => ⟨d, .head h hd.1, hd.2⟩

/-- If the machine halts while there is more to do after a program, the program by itself ends, or blocks. -/
theorem Halts.eval {E : Env σ} {env : List Nat} {p : Prog σ} {K : List (Kont σ)} {s : St σ} (h : Halts E ⟨.run env p, K, s⟩) :
    ∃ fuel r, Plotline.eval E fuel env p s = some r := by
  obtain ⟨d, h1, h2⟩ := h.steps
  exact halts_eval h1 h2

/-- A trigger that does not fail is got through, if the machine halts at all. -/
theorem NeverFails.through {E : Env σ} {t : Prog σ} (ht : NeverFails E t) {f : Nat} {K : List (Kont σ)} {s : St σ}
    (h : Halts E ⟨.run [f] t, K, s⟩) : ∃ v s', Conf.Steps E ⟨.run [f] t, K, s⟩ ⟨.back (.ret (.ok v)), K, s'⟩ := by
  obtain ⟨fuel, ⟨out, s'⟩, hr⟩ := h.eval
  obtain ⟨v, rfl⟩ := ht f s out s' ⟨fuel, hr⟩
  exact ⟨v, s', eval_steps E fuel _ _ _ _ _ _ hr (fun h => by cases h)⟩

/-- From trigger to trigger, past those that do not fail. -/
theorem triggers_reach {E : Env σ} {f : Nat} {env : List Nat} {k : Except Error Unit → Prog σ} {K : List (Kont σ)} {t : Prog σ}
    {post : List (Prog σ)} : ∀ {pre : List (Prog σ)} {u : Prog σ} {rest : List (Prog σ)} {s : St σ},
    pre ++ t :: post = u :: rest → (∀ t ∈ pre, NeverFails E t) → Halts E ⟨.run [f] u, .triggers f rest env k :: K, s⟩ →
    ∃ s', Conf.Steps E ⟨.run [f] u, .triggers f rest env k :: K, s⟩ ⟨.run [f] t, .triggers f post env k :: K, s'⟩ := by
  intro pre
  induction pre with
  | nil => intro u rest s he _ _; cases he; exact ⟨s, .refl _⟩
  | cons p pre ih =>
    intro u rest s he hpre h
    simp only [List.cons_append, List.cons.injEq] at he
    obtain ⟨rfl, rfl⟩ := he
    obtain ⟨v, s1, h1⟩ := (hpre p (by simp)).through h
    cases hr : pre ++ t :: post with
    | nil => simp at hr
    | cons u rest =>
      rw [hr] at h h1
      have h2 : Conf.Steps E _ ⟨.run [f] u, .triggers f rest env k :: K, s1⟩ := h1.tail rfl
      obtain ⟨s', h3⟩ := ih hr (fun t ht => hpre t (by simp [ht])) (h.after h2)
      exact ⟨s', h2.trans h3⟩

/-- Running a scheduler gets to a trigger if those before it do not fail. -/
theorem runTriggers_reach {E : Env σ} {f : Nat} {env : List Nat} {sch : Sched} {k : Except Error Unit → Prog σ} {K : List (Kont σ)}
    {pre post : List (Prog σ)} {t : Prog σ} {s : St σ} (hfire : E.fire sch = pre ++ t :: post)
    (hpre : ∀ t ∈ pre, NeverFails E t) (h : Halts E ⟨.run (f :: env) (.runTriggers 0 sch k), K, s⟩) :
    ∃ s' K', Conf.Steps E ⟨.run (f :: env) (.runTriggers 0 sch k), K, s⟩ ⟨.run [f] t, K', s'⟩ := by
  cases hts : E.triggers.select sch with
  | none => rw [Env.fire, hts] at hfire; simp at hfire
  | some ts =>
    rw [Env.fire, hts] at hfire
    simp only [Option.getD_some] at hfire
    subst hfire
    cases hr : pre ++ t :: post with
    | nil => simp at hr
    | cons u rest =>
      have h1 : (⟨.run (f :: env) (.runTriggers 0 sch k), K, s⟩ : Conf σ).step E =
          some ⟨.run [f] u, .triggers f rest (f :: env) k :: K, s⟩ := by
        simp only [Conf.step, List.getElem?_cons_zero, hts, hr]
      have h2 := Conf.Steps.head h1 (.refl _)
      obtain ⟨s', h3⟩ := triggers_reach hr hpre (h.after h2)
      exact ⟨s', _, h2.trans h3⟩

/-- Running a scheduler none of whose triggers fails gets past it. -/
theorem runTriggers_past {E : Env σ} {f : Nat} {env : List Nat} {sch : Sched} {k : Except Error Unit → Prog σ} {K : List (Kont σ)}
    {s : St σ} (hts : ∀ t ∈ E.fire sch, NeverFails E t) (h : Halts E ⟨.run (f :: env) (.runTriggers 0 sch k), K, s⟩) :
    ∃ s', Conf.Steps E ⟨.run (f :: env) (.runTriggers 0 sch k), K, s⟩ ⟨.run (f :: env) (k (.ok ())), K, s'⟩ := by
  cases hsel : E.triggers.select sch with
  | none => exact ⟨s, .head (by simp only [Conf.step, List.getElem?_cons_zero, hsel]) (.refl _)⟩
  | some ts =>
    rw [Env.fire, hsel] at hts
    cases ts with
    | nil => exact ⟨s, .head (by simp only [Conf.step, List.getElem?_cons_zero, hsel]) (.refl _)⟩
    | cons u rest =>
      have h1 : (⟨.run (f :: env) (.runTriggers 0 sch k), K, s⟩ : Conf σ).step E =
          some ⟨.run [f] u, .triggers f rest (f :: env) k :: K, s⟩ := by
        simp only [Conf.step, List.getElem?_cons_zero, hsel]
      have h2 := Conf.Steps.head h1 (.refl _)
      have key : ∀ {rest : List (Prog σ)} {u : Prog σ} {s : St σ}, (∀ t ∈ u :: rest, NeverFails E t) →
          Halts E ⟨.run [f] u, .triggers f rest (f :: env) k :: K, s⟩ →
          ∃ s', Conf.Steps E ⟨.run [f] u, .triggers f rest (f :: env) k :: K, s⟩ ⟨.run (f :: env) (k (.ok ())), K, s'⟩ := by
        intro rest
        induction rest with
        | nil =>
          intro u s hu hh
          obtain ⟨v, s1, h1⟩ := (hu u (by simp)).through hh
          exact ⟨s1, h1.tail rfl⟩
        | cons w rest ih =>
          intro u s hu hh
          obtain ⟨v, s1, h1⟩ := (hu u (by simp)).through hh
          have h2 : Conf.Steps E _ ⟨.run [f] w, .triggers f rest (f :: env) k :: K, s1⟩ := h1.tail rfl
          obtain ⟨s2, h3⟩ := ih (fun t ht => hu t (by simp_all)) (hh.after h2)
          exact ⟨s2, h2.trans h3⟩
      obtain ⟨s', h3⟩ := key (by simpa using hts) (h.after h2)
      exact ⟨s', h2.trans h3⟩

/-- If the closure of Save gets to performing a Save, or to a halt, it gets to no halt. -/
theorem save_endless {E : Env σ}
    (hs : ∀ f env n K s, Halts E ⟨.run (f :: env) (saveBody n), K, s⟩ → Conf.GetsToSave E ⟨.run (f :: env) (saveBody n), K, s⟩) :
    ∀ m env i f n k K s, env[i]? = some f → ¬ HaltsIn E m ⟨.run env (Prog.saveOp i n k), K, s⟩ := by
  intro m
  induction m using Nat.strongRecOn with
  | ind m ih =>
    intro env i f n k K s hi h
    have h1 : (⟨.run env (Prog.saveOp i n k), K, s⟩ : Conf σ).step E =
        some ⟨.run (s.frames.length :: env) (saveBody n), .tx s.frames.length env k :: K, openChild s f⟩ := by
      simp only [Prog.saveOp, Conf.step, hi]
    cases h with
    | stop h2 => rw [h1] at h2; cases h2
    | @go m' _ _ h2 h3 =>
      rw [h1] at h2; cases h2
      obtain ⟨env', i', f', n', k', K', s', h4, h5⟩ := hs _ _ _ _ _ h3.halts
      obtain ⟨l, hl, h6⟩ := h3.after h4
      exact ih l (by omega) _ _ _ _ _ _ _ h5 h6

theorem GetsToSave.run {E : Env σ} {t : Prog σ} (h : GetsToSave E t) (f : Nat) (K : List (Kont σ)) (s : St σ) :
    Conf.GetsToSave E ⟨.run [f] t, K, s⟩ := by
  obtain ⟨env, i, f', n, k, K', s', h1, h2⟩ := h f s
  exact ⟨env, i, f', n, k, _, s', h1.under K, h2⟩

theorem Conf.GetsToSave.before {E : Env σ} {a b : Conf σ} (h : Conf.Steps E a b) (hb : Conf.GetsToSave E b) :
    Conf.GetsToSave E a := by
  obtain ⟨env, i, f', n, k, K', s', h1, h2⟩ := hb
  exact ⟨env, i, f', n, k, K', s', h.trans h1, h2⟩

theorem before_gets {E : Env σ} {pre post : List (Prog σ)} {t : Prog σ} (hfire : E.fire .beforeSave = pre ++ t :: post)
    (hpre : ∀ t ∈ pre, NeverFails E t) (ht : GetsToSave E t) (f : Nat) (env : List Nat) (n : σ.T) (K : List (Kont σ)) (s : St σ)
    (h : Halts E ⟨.run (f :: env) (saveBody n), K, s⟩) : Conf.GetsToSave E ⟨.run (f :: env) (saveBody n), K, s⟩ := by
  have h1 : (⟨.run (f :: env) (saveBody n), K, s⟩ : Conf σ).step E = some _ := rfl
  have h2 := Conf.Steps.head h1 (.refl _)
  obtain ⟨s', K', h3⟩ := runTriggers_reach hfire hpre (h.after h2)
  exact .before (h2.trans h3) (ht.run _ _ _)

theorem after_gets {E : Env σ} {pre post : List (Prog σ)} {t : Prog σ} (hbefore : ∀ t ∈ E.fire .beforeSave, NeverFails E t)
    (hfire : E.fire .afterSave = pre ++ t :: post)
    (hpre : ∀ t ∈ pre, NeverFails E t) (ht : GetsToSave E t) (f : Nat) (env : List Nat) (n : σ.T) (K : List (Kont σ)) (s : St σ)
    (h : Halts E ⟨.run (f :: env) (saveBody n), K, s⟩) : Conf.GetsToSave E ⟨.run (f :: env) (saveBody n), K, s⟩ := by
  have h1 : (⟨.run (f :: env) (saveBody n), K, s⟩ : Conf σ).step E = some _ := rfl
  have h2 := Conf.Steps.head h1 (.refl _)
  obtain ⟨s1, h3⟩ := runTriggers_past hbefore (h.after h2)
  have h4 := h2.trans h3
  have h5 : ∃ s2, Conf.Steps E ⟨.run (f :: env) (.targetRead 0 fun
        | some node => .save 0 node saveAfter
        | none => saveAfter), K, s1⟩ ⟨.run (f :: env) saveAfter, K, s2⟩ := by
    cases hr : readTarget s1 f with
    | none => exact ⟨s1, .head (by simp only [Conf.step, List.getElem?_cons_zero, hr]) (.refl _)⟩
    | some x =>
      exact ⟨_, .head (by simp only [Conf.step, List.getElem?_cons_zero, hr]; rfl)
        (.head (by simp only [Conf.step, List.getElem?_cons_zero]; rfl) (.refl _))⟩
  obtain ⟨s2, h5⟩ := h5
  have h6 := h4.trans h5
  obtain ⟨s', K', h7⟩ := runTriggers_reach hfire hpre (h.after h6)
  exact .before (h6.trans h7) (ht.run _ _ _)

/-- A transaction that gets to a Save that has no end has none either. -/
theorem transact_endless {S : Schema σ} {pre : List (Operation σ.K σ.T)} {body : Prog σ}
    (hs : ∀ f env n K s, Halts S.env ⟨.run (f :: env) (saveBody n), K, s⟩ →
      Conf.GetsToSave S.env ⟨.run (f :: env) (saveBody n), K, s⟩)
    (hb : Conf.GetsToSave S.env ⟨.run [0] body, [], S.begin pre⟩) (fuel : Nat) : S.transact fuel pre body = none := by
  refine transact_none_iff.2 ?_
  cases hr : eval S.env fuel [0] body (S.begin pre) with
  | none => rfl
  | some r =>
    obtain ⟨env, i, f, n, k, K, s, h1, h2⟩ := hb
    obtain ⟨m, hm⟩ := ((eval_halts hr).after h1).count
    exact (save_endless hs m env i f n k K s h2 hm).elim

/-! ## Deletes -/

/-- A trigger that does not fail is got through, if the machine halts at all, leaving what it leaves. -/
theorem NeverFails.runs {E : Env σ} {t : Prog σ} (ht : NeverFails E t) {f : Nat} {K : List (Kont σ)} {s : St σ}
    (h : Halts E ⟨.run [f] t, K, s⟩) :
    ∃ v s', Runs E [f] t s (.ret (.ok v)) s' ∧ Conf.Steps E ⟨.run [f] t, K, s⟩ ⟨.back (.ret (.ok v)), K, s'⟩ := by
  obtain ⟨fuel, ⟨out, s'⟩, hr⟩ := h.eval
  obtain ⟨v, rfl⟩ := ht f s out s' ⟨fuel, hr⟩
  exact ⟨v, s', ⟨fuel, hr⟩, eval_steps E fuel _ _ _ _ _ _ hr (fun h => by cases h)⟩

/-- From trigger to trigger, past those that do not fail and leave things as they should be. -/
theorem triggers_reach_with {E : Env σ} {f : Nat} {env : List Nat} {k : Except Error Unit → Prog σ} {K : List (Kont σ)} {t : Prog σ}
    {post : List (Prog σ)} {P : St σ → Prop} : ∀ {pre : List (Prog σ)} {u : Prog σ} {rest : List (Prog σ)} {s : St σ},
    pre ++ t :: post = u :: rest → (∀ t ∈ pre, NeverFails E t) →
    (∀ t ∈ pre, ∀ s out s', P s → Runs E [f] t s out s' → P s') → P s →
    Halts E ⟨.run [f] u, .triggers f rest env k :: K, s⟩ →
    ∃ s', P s' ∧ Conf.Steps E ⟨.run [f] u, .triggers f rest env k :: K, s⟩ ⟨.run [f] t, .triggers f post env k :: K, s'⟩ := by
  intro pre
  induction pre with
  | nil => intro u rest s he _ _ hP _; cases he; exact ⟨s, hP, .refl _⟩
  | cons p pre ih =>
    intro u rest s he hpre hkeep hP h
    simp only [List.cons_append, List.cons.injEq] at he
    obtain ⟨rfl, rfl⟩ := he
    obtain ⟨v, s1, h0, h1⟩ := (hpre p (by simp)).runs h
    have hP1 := hkeep p (by simp) s _ s1 hP h0
    cases hr : pre ++ t :: post with
    | nil => simp at hr
    | cons u rest =>
      rw [hr] at h h1
      have h2 : Conf.Steps E _ ⟨.run [f] u, .triggers f rest env k :: K, s1⟩ := h1.tail rfl
      obtain ⟨s', hP', h3⟩ := ih hr (fun t ht => hpre t (by simp [ht])) (fun t ht => hkeep t (by simp [ht])) hP1 (h.after h2)
      exact ⟨s', hP', h2.trans h3⟩

theorem runTriggers_reach_with {E : Env σ} {f : Nat} {env : List Nat} {sch : Sched} {k : Except Error Unit → Prog σ}
    {K : List (Kont σ)} {pre post : List (Prog σ)} {t : Prog σ} {s : St σ} {P : St σ → Prop} (hfire : E.fire sch = pre ++ t :: post)
    (hpre : ∀ t ∈ pre, NeverFails E t) (hkeep : ∀ t ∈ pre, ∀ s out s', P s → Runs E [f] t s out s' → P s') (hP : P s)
    (h : Halts E ⟨.run (f :: env) (.runTriggers 0 sch k), K, s⟩) :
    ∃ s' K', P s' ∧ Conf.Steps E ⟨.run (f :: env) (.runTriggers 0 sch k), K, s⟩ ⟨.run [f] t, K', s'⟩ := by
  cases hts : E.triggers.select sch with
  | none => rw [Env.fire, hts] at hfire; simp at hfire
  | some ts =>
    rw [Env.fire, hts] at hfire
    simp only [Option.getD_some] at hfire
    subst hfire
    cases hr : pre ++ t :: post with
    | nil => simp at hr
    | cons u rest =>
      have h1 : (⟨.run (f :: env) (.runTriggers 0 sch k), K, s⟩ : Conf σ).step E =
          some ⟨.run [f] u, .triggers f rest (f :: env) k :: K, s⟩ := by
        simp only [Conf.step, List.getElem?_cons_zero, hts, hr]
      have h2 := Conf.Steps.head h1 (.refl _)
      obtain ⟨s', hP', h3⟩ := triggers_reach_with hr hpre hkeep hP (h.after h2)
      exact ⟨s', _, hP', h2.trans h3⟩

theorem GetsToDelete.run [LawfulSig σ] {E : Env σ} {g : Graph σ.K σ.T} {t : Prog σ} (h : GetsToDelete E g t) {f : Nat}
    {K : List (Kont σ)} {s : St σ} (h1 : Reachable g s) (h2 : f < s.frames.length) (h3 : TargetShown f s) :
    Conf.GetsToDelete E ⟨.run [f] t, K, s⟩ := by
  obtain ⟨env, i, f', j, k, K', s', h4, h5⟩ := h f s h1 h2 h3
  exact ⟨env, i, f', j, k, _, s', h4.under K, h5⟩

/-- A Delete of a node that is there gets to no halt, if a trigger before it gets to such a Delete. -/
theorem delete_endless [LawfulSig σ] {E : Env σ} {g : Graph σ.K σ.T} {pre post : List (Prog σ)} {t : Prog σ}
    (hfire : E.fire .beforeDelete = pre ++ t :: post) (hpre : ∀ t ∈ pre, NeverFails E t ∧ LeavesTarget E g t)
    (ht : GetsToDelete E g t) :
    ∀ m env i f j k K s, Conf.Ok g ⟨.run env (Prog.deleteOp i j k), K, s⟩ → env[i]? = some f →
      (ctxGet s.graph s.frames f j).isSome → ¬ HaltsIn E m ⟨.run env (Prog.deleteOp i j k), K, s⟩ := by
  intro m
  induction m using Nat.strongRecOn with
  | ind m ih =>
    intro env i f j k K s hok hi hj h
    have hf : f < s.frames.length := hok.env env _ rfl f (List.mem_of_getElem? hi)
    have hchild := ctxGet_openChild hok.reach hf
    obtain ⟨n, hn⟩ := Option.isSome_iff_exists.1 hj
    have hlen : s.frames.length < (openChild s f).frames.length := by simp [openChild]
    have h1 : (⟨.run env (Prog.deleteOp i j k), K, s⟩ : Conf σ).step E =
        some ⟨.run (s.frames.length :: env) (deleteBody j), .tx s.frames.length env k :: K, openChild s f⟩ := by
      simp only [Prog.deleteOp, Conf.step, hi]
    cases h with
    | stop h2 => rw [h1] at h2; cases h2
    | @go m' _ _ h2 h3 =>
      rw [h1] at h2; cases h2
      have h4 : Conf.Steps E ⟨.run (s.frames.length :: env) (deleteBody j), .tx s.frames.length env k :: K, openChild s f⟩
          ⟨.run (s.frames.length :: env) (.runTriggers 0 .beforeDelete fun
            | .error e => .done (.error e)
            | .ok _ => .delete 0 j deleteAfter), .tx s.frames.length env k :: K,
            setTarget (openChild s f) s.frames.length n⟩ := by
        refine .head (c' := ⟨.run (s.frames.length :: env) (.withTarget n <| .runTriggers 0 .beforeDelete fun
            | .error e => .done (.error e)
            | .ok _ => .delete 0 j deleteAfter), .tx s.frames.length env k :: K, openChild s f⟩) ?_ (.head ?_ (.refl _))
        · have : ctxGet (openChild s f).graph (openChild s f).frames s.frames.length j = some n := by rw [hchild]; exact hn
          simp only [deleteBody, Conf.step, List.getElem?_cons_zero, this]
          rfl
        · simp only [Conf.step, List.getElem?_cons_zero]
      obtain ⟨s1, K1, ⟨p1, p2, p3⟩, h5⟩ := runTriggers_reach_with hfire (fun t ht => (hpre t ht).1)
        (P := fun s' => Reachable g s' ∧ s.frames.length < s'.frames.length ∧ TargetShown s.frames.length s')
        (fun u hu s1 out s2 ⟨q1, q2, q3⟩ hrun =>
          have henv : ∀ e ∈ [s.frames.length], e < s1.frames.length := by simpa using q2
          ⟨hrun.reachable henv q1, by rw [hrun.len henv]; exact q2, (hpre u hu).2 _ s1 out s2 q1 q2 hrun q3⟩)
        ⟨.setTarget _ n (.openChild f hf hok.reach), by simpa [setTarget] using hlen, j, n, by
          rw [ctxGet_setTarget, hchild]; exact hn, readTarget_setTarget _ hlen n⟩ (h3.halts.after h4)
      obtain ⟨env', i', f', j', k', K', s', h6, h7, h8⟩ := ht.run (K := K1) p1 p2 p3
      have h9 := h4.trans (h5.trans h6)
      obtain ⟨l, hl, h10⟩ := h3.after h9
      exact ih l (by omega) _ _ _ _ _ _ _ (steps_ok (.head h1 h9) hok) h7 h8 h10

/-- A transaction that gets to a Delete that has no end has none either. -/
theorem transact_endless_delete [LawfulSig σ] {S : Schema σ} {ts post : List (Prog σ)} {t : Prog σ}
    (hfire : S.env.fire .beforeDelete = ts ++ t :: post) (hts : ∀ u ∈ ts, NeverFails S.env u ∧ LeavesTarget S.env S.graph u)
    (ht : GetsToDelete S.env S.graph t) {pre : List (Operation σ.K σ.T)} {body : Prog σ}
    (hb : Conf.GetsToDelete S.env ⟨.run [0] body, [], S.begin pre⟩) (fuel : Nat) : S.transact fuel pre body = none := by
  refine transact_none_iff.2 ?_
  cases hr : eval S.env fuel [0] body (S.begin pre) with
  | none => rfl
  | some r =>
    obtain ⟨env, i, f, j, k, K, s, h1, h2, h3⟩ := hb
    obtain ⟨m, hm⟩ := ((eval_halts hr).after h1).count
    exact (delete_endless hfire hts ht m env i f j k K s (steps_ok h1 (begin_ok S pre body)) h2 h3 hm).elim

end Plotline
