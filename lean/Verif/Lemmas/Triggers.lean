import Verif.Spec.Triggers
import Verif.Lemmas.Context

/-! Helper lemmas about triggers and about the closures of Save and Delete. -/

namespace Plotline

open Std

set_option linter.unusedSectionVars false

variable {σ : Sig}

theorem Runs.det {E : Env σ} {env : List Nat} {p : Prog σ} {s s1 s2 : St σ} {o1 o2 : Out (Except Error σ.V)}
    (h1 : Runs E env p s o1 s1) (h2 : Runs E env p s o2 s2) : o1 = o2 ∧ s1 = s2 := by
  obtain ⟨_, h1⟩ := h1
  obtain ⟨_, h2⟩ := h2
  have := eval_det E h1 h2
  exact ⟨congrArg Prod.fst this, congrArg Prod.snd this⟩

/-! ## Firing -/

theorem tryForEach_mono_le (E : Env σ) {fuel fuel' : Nat} (hle : fuel ≤ fuel') {f : Nat} {ts : List (Prog σ)} {s : St σ}
    {r : Out (Except Error Unit) × St σ} (h : tryForEach (eval E fuel [f]) ts s = some r) :
    tryForEach (eval E fuel' [f]) ts s = some r :=
  tryForEach_mono (fun _ _ _ h => eval_mono_le E hle h) ts s r h

theorem fires_of_tryForEach (E : Env σ) {fuel : Nat} {f : Nat} : ∀ {ts : List (Prog σ)} {s s' : St σ}
    {r : Out (Except Error Unit)}, tryForEach (eval E fuel [f]) ts s = some (r, s') → Fires E f ts s r s' := by
  intro ts
  induction ts with
  | nil =>
    intro s s' r h
    simp only [tryForEach, Option.some.injEq, Prod.mk.injEq] at h
    obtain ⟨rfl, rfl⟩ := h
    exact .none s
  | cons t ts ih =>
    intro s s' r h
    simp only [tryForEach] at h
    cases hr : eval E fuel [f] t s with
    | none => simp [hr] at h
    | some q =>
      obtain ⟨o, s1⟩ := q
      rw [hr] at h
      rcases o with (e | v) | _ | _
      · simp only [Option.some.injEq, Prod.mk.injEq] at h; obtain ⟨rfl, rfl⟩ := h; exact .error ⟨fuel, hr⟩
      · exact .next ⟨fuel, hr⟩ (ih h)
      · simp only [Option.some.injEq, Prod.mk.injEq] at h; obtain ⟨rfl, rfl⟩ := h; exact .panic ⟨fuel, hr⟩
      · simp only [Option.some.injEq, Prod.mk.injEq] at h; obtain ⟨rfl, rfl⟩ := h; exact .stuck ⟨fuel, hr⟩

theorem tryForEach_of_fires (E : Env σ) {f : Nat} {ts : List (Prog σ)} {s s' : St σ}
    {r : Out (Except Error Unit)} (h : Fires E f ts s r s') :
    ∃ fuel, tryForEach (eval E fuel [f]) ts s = some (r, s') := by
  induction h with
  | none s => exact ⟨0, rfl⟩
  | next h1 _ ih =>
    obtain ⟨a, h1⟩ := h1
    obtain ⟨b, h2⟩ := ih
    refine ⟨max a b, ?_⟩
    simp only [tryForEach]
    rw [eval_mono_le E (Nat.le_max_left a b) h1]
    exact tryForEach_mono_le E (Nat.le_max_right a b) h2
  | error h1 => obtain ⟨a, h1⟩ := h1; exact ⟨a, by simp only [tryForEach]; rw [h1]⟩
  | panic h1 => obtain ⟨a, h1⟩ := h1; exact ⟨a, by simp only [tryForEach]; rw [h1]⟩
  | stuck h1 => obtain ⟨a, h1⟩ := h1; exact ⟨a, by simp only [tryForEach]; rw [h1]⟩

/-- How `runTriggers` runs. -/
theorem runs_runTriggers (E : Env σ) {env : List Nat} {c f : Nat} (hc : env[c]? = some f) (sch : Sched)
    (k : Except Error Unit → Prog σ) (s s' : St σ) (out : Out (Except Error σ.V)) :
    Runs E env (.runTriggers c sch k) s out s' ↔
      ∃ r s1, Fires E f (E.fire sch) s r s1 ∧
        match r with
        | .ret x => Runs E env (k x) s1 out s'
        | .panic => out = .panic ∧ s' = s1
        | .stuck => out = .stuck ∧ s' = s1 := by
  constructor
  · rintro ⟨fuel, h⟩
    cases fuel with
    | zero => simp [eval] at h
    | succ fuel =>
      simp only [eval, hc] at h
      cases hts : E.triggers.select sch with
      | none =>
        simp only [hts] at h
        exact ⟨.ret (.ok ()), s, by simp only [Env.fire, hts]; exact .none s, fuel, h⟩
      | some ts =>
        simp only [hts] at h
        cases hr : tryForEach (eval E fuel [f]) ts s with
        | none => simp [hr] at h
        | some q =>
          obtain ⟨o, s1⟩ := q
          rw [hr] at h
          have hf := fires_of_tryForEach E hr
          refine ⟨o, s1, by simp only [Env.fire, hts]; exact hf, ?_⟩
          rcases o with x | _ | _
          · exact ⟨fuel, h⟩
          · simp only [Option.some.injEq, Prod.mk.injEq] at h; exact ⟨h.1.symm, h.2.symm⟩
          · simp only [Option.some.injEq, Prod.mk.injEq] at h; exact ⟨h.1.symm, h.2.symm⟩
  · rintro ⟨r, s1, hf, hk⟩
    cases hts : E.triggers.select sch with
    | none =>
      simp only [Env.fire, hts, Option.getD_none] at hf
      cases hf
      obtain ⟨fuel, hk⟩ := hk
      exact ⟨fuel + 1, by simp only [eval, hc, hts]; exact hk⟩
    | some ts =>
      simp only [Env.fire, hts, Option.getD_some] at hf
      obtain ⟨a, ha⟩ := tryForEach_of_fires E hf
      rcases r with x | _ | _
      · obtain ⟨b, hk⟩ := hk
        refine ⟨max a b + 1, ?_⟩
        simp only [eval, hc, hts]
        rw [tryForEach_mono_le E (Nat.le_max_left a b) ha]
        exact eval_mono_le E (Nat.le_max_right a b) hk
      · obtain ⟨rfl, rfl⟩ := hk
        exact ⟨a + 1, by simp only [eval, hc, hts, ha]⟩
      · obtain ⟨rfl, rfl⟩ := hk
        exact ⟨a + 1, by simp only [eval, hc, hts, ha]⟩

theorem runs_done (E : Env σ) (env : List Nat) (r : Except Error σ.V) (s s' : St σ) (out : Out (Except Error σ.V)) :
    Runs E env (.done r) s out s' ↔ out = .ret r ∧ s' = s := by
  constructor
  · rintro ⟨fuel, h⟩
    cases fuel with
    | zero => simp [eval] at h
    | succ fuel => simp only [eval, Option.some.injEq, Prod.mk.injEq] at h; exact ⟨h.1.symm, h.2.symm⟩
  · rintro ⟨rfl, rfl⟩; exact ⟨1, rfl⟩

theorem runs_step {E : Env σ} {env env' : List Nat} {p q : Prog σ} {s s1 s' : St σ} {out : Out (Except Error σ.V)}
    (h : ∀ fuel, eval E (fuel + 1) env p s = eval E fuel env' q s1) :
    Runs E env p s out s' ↔ Runs E env' q s1 out s' := by
  constructor
  · rintro ⟨fuel, hr⟩
    cases fuel with
    | zero => simp [eval] at hr
    | succ fuel => exact ⟨fuel, by rw [← h]; exact hr⟩
  · rintro ⟨fuel, hr⟩; exact ⟨fuel + 1, by rw [h]; exact hr⟩

/-- The outcome of a closure that ends with `?` on the outcome of firing. -/
def outOf : Out (Except Error Unit) → Out (Except Error σ.V)
  | .ret (.ok _) => .ret (.ok σ.unit)
  | .ret (.error e) => .ret (.error e)
  | .panic => .panic
  | .stuck => .stuck

theorem runs_saveAfter (E : Env σ) (f : Nat) (env : List Nat) (s s' : St σ) (out : Out (Except Error σ.V)) :
    Runs E (f :: env) saveAfter s out s' ↔ ∃ r, Fires E f (E.fire .afterSave) s r s' ∧ out = outOf r := by
  unfold saveAfter
  rw [runs_runTriggers E (f := f) rfl]
  constructor
  · rintro ⟨r, s1, hf, h⟩
    rcases r with (e | u) | _ | _
    · obtain ⟨rfl, rfl⟩ := (runs_done ..).1 h; exact ⟨_, hf, rfl⟩
    · obtain ⟨rfl, rfl⟩ := (runs_done ..).1 h; exact ⟨_, hf, rfl⟩
    · obtain ⟨rfl, rfl⟩ := h; exact ⟨_, hf, rfl⟩
    · obtain ⟨rfl, rfl⟩ := h; exact ⟨_, hf, rfl⟩
  · rintro ⟨r, hf, rfl⟩
    refine ⟨r, s', hf, ?_⟩
    rcases r with (e | u) | _ | _
    · exact (runs_done ..).2 ⟨rfl, rfl⟩
    · exact (runs_done ..).2 ⟨rfl, rfl⟩
    · exact ⟨rfl, rfl⟩
    · exact ⟨rfl, rfl⟩

theorem runs_deleteAfter (E : Env σ) (f : Nat) (env : List Nat) (s s' : St σ) (out : Out (Except Error σ.V)) :
    Runs E (f :: env) deleteAfter s out s' ↔ ∃ r, Fires E f (E.fire .afterDelete) s r s' ∧ out = outOf r := by
  unfold deleteAfter
  rw [runs_runTriggers E (f := f) rfl]
  constructor
  · rintro ⟨r, s1, hf, h⟩
    rcases r with (e | u) | _ | _
    · obtain ⟨rfl, rfl⟩ := (runs_done ..).1 h; exact ⟨_, hf, rfl⟩
    · obtain ⟨rfl, rfl⟩ := (runs_done ..).1 h; exact ⟨_, hf, rfl⟩
    · obtain ⟨rfl, rfl⟩ := h; exact ⟨_, hf, rfl⟩
    · obtain ⟨rfl, rfl⟩ := h; exact ⟨_, hf, rfl⟩
  · rintro ⟨r, hf, rfl⟩
    refine ⟨r, s', hf, ?_⟩
    rcases r with (e | u) | _ | _
    · exact (runs_done ..).2 ⟨rfl, rfl⟩
    · exact (runs_done ..).2 ⟨rfl, rfl⟩
    · exact ⟨rfl, rfl⟩
    · exact ⟨rfl, rfl⟩

/-- The state in which the after-triggers of Save start, given the one the before-triggers ended in. -/
def midSave (s : St σ) (f : Nat) : St σ :=
  match readTarget s f with
  | some m => pushOp s f (.save m)
  | none => s

/-- How the closure of Save runs. -/
theorem runs_saveBody (E : Env σ) (f : Nat) (env : List Nat) (n : σ.T) (s s' : St σ) (out : Out (Except Error σ.V)) :
    Runs E (f :: env) (saveBody n) s out s' ↔
      ∃ r s1, Fires E f (E.fire .beforeSave) (setTarget s f n) r s1 ∧
        ((∃ r2, r = .ret (.ok ()) ∧ Fires E f (E.fire .afterSave) (midSave s1 f) r2 s' ∧ out = outOf r2) ∨
         (r ≠ .ret (.ok ()) ∧ out = outOf r ∧ s' = s1)) := by
  unfold saveBody
  rw [runs_step (q := _) (s1 := setTarget s f n) (env' := f :: env) (fun fuel => by rw [eval]; rfl)]
  rw [runs_runTriggers E (f := f) rfl]
  have hmid : ∀ s1, Runs E (f :: env) (.targetRead 0 fun
        | some node => .save 0 node saveAfter
        | none => saveAfter) s1 out s' ↔ Runs E (f :: env) saveAfter (midSave s1 f) out s' := by
    intro s1
    rw [runs_step (s1 := s1) (env' := f :: env) (fun fuel => by rw [eval]; simp only [List.getElem?_cons_zero]; rfl)]
    unfold midSave
    cases readTarget s1 f with
    | none => exact Iff.rfl
    | some m => exact runs_step (fun fuel => by rw [eval]; rfl)
  constructor
  · rintro ⟨r, s1, hf, h⟩
    refine ⟨r, s1, hf, ?_⟩
    rcases r with (e | u) | _ | _
    · obtain ⟨rfl, rfl⟩ := (runs_done ..).1 h; exact .inr ⟨by simp, rfl, rfl⟩
    · have := (hmid s1).1 h
      rw [runs_saveAfter] at this
      obtain ⟨r2, h2, rfl⟩ := this
      exact .inl ⟨r2, rfl, h2, rfl⟩
    · obtain ⟨rfl, rfl⟩ := h; exact .inr ⟨by simp, rfl, rfl⟩
    · obtain ⟨rfl, rfl⟩ := h; exact .inr ⟨by simp, rfl, rfl⟩
  · rintro ⟨r, s1, hf, h⟩
    refine ⟨r, s1, hf, ?_⟩
    rcases h with ⟨r2, rfl, h2, rfl⟩ | ⟨hr, rfl, rfl⟩
    · exact (hmid s1).2 ((runs_saveAfter ..).2 ⟨r2, h2, rfl⟩)
    · rcases r with (e | u) | _ | _
      · exact (runs_done ..).2 ⟨rfl, rfl⟩
      · exact absurd rfl hr
      · exact ⟨rfl, rfl⟩
      · exact ⟨rfl, rfl⟩

/-- How the closure of Delete runs. -/
theorem runs_deleteBody (E : Env σ) (f : Nat) (env : List Nat) (i : σ.K) (s s' : St σ) (out : Out (Except Error σ.V)) :
    Runs E (f :: env) (deleteBody i) s out s' ↔
      (ctxGet s.graph s.frames f i = none ∧ out = .ret (.error .noop) ∧ s' = s) ∨
      ∃ n r s1, ctxGet s.graph s.frames f i = some n ∧ Fires E f (E.fire .beforeDelete) (setTarget s f n) r s1 ∧
        ((∃ r2, r = .ret (.ok ()) ∧ Fires E f (E.fire .afterDelete) (pushOp s1 f (.delete i)) r2 s' ∧ out = outOf r2) ∨
         (r ≠ .ret (.ok ()) ∧ out = outOf r ∧ s' = s1)) := by
  unfold deleteBody
  rw [runs_step (s1 := s) (env' := f :: env) (fun fuel => by rw [eval]; simp only [List.getElem?_cons_zero]; rfl)]
  cases hg : ctxGet s.graph s.frames f i with
  | none =>
    rw [runs_done]
    constructor
    · rintro ⟨rfl, rfl⟩; exact .inl ⟨rfl, rfl, rfl⟩
    · rintro (⟨_, rfl, rfl⟩ | ⟨_, _, _, h, _⟩)
      · exact ⟨rfl, rfl⟩
      · cases h
  | some n =>
    simp only
    rw [runs_step (s1 := setTarget s f n) (env' := f :: env) (fun fuel => by rw [eval]; rfl)]
    rw [runs_runTriggers E (f := f) rfl]
    have hmid : ∀ s1, Runs E (f :: env) (.delete 0 i deleteAfter) s1 out s' ↔
        Runs E (f :: env) deleteAfter (pushOp s1 f (.delete i)) out s' :=
      fun s1 => runs_step (fun fuel => by rw [eval]; rfl)
    constructor
    · rintro ⟨r, s1, hf, h⟩
      refine .inr ⟨n, r, s1, rfl, hf, ?_⟩
      rcases r with (e | u) | _ | _
      · obtain ⟨rfl, rfl⟩ := (runs_done ..).1 h; exact .inr ⟨by simp, rfl, rfl⟩
      · have := (hmid s1).1 h
        rw [runs_deleteAfter] at this
        obtain ⟨r2, h2, rfl⟩ := this
        exact .inl ⟨r2, rfl, h2, rfl⟩
      · obtain ⟨rfl, rfl⟩ := h; exact .inr ⟨by simp, rfl, rfl⟩
      · obtain ⟨rfl, rfl⟩ := h; exact .inr ⟨by simp, rfl, rfl⟩
    · rintro (⟨h, _⟩ | ⟨m, r, s1, hm, hf, h⟩)
      · cases h
      · cases hm
        refine ⟨r, s1, hf, ?_⟩
        rcases h with ⟨r2, rfl, h2, rfl⟩ | ⟨hr, rfl, rfl⟩
        · exact (hmid s1).2 ((runs_deleteAfter ..).2 ⟨r2, h2, rfl⟩)
        · rcases r with (e | u) | _ | _
          · exact (runs_done ..).2 ⟨rfl, rfl⟩
          · exact absurd rfl hr
          · exact ⟨rfl, rfl⟩
          · exact ⟨rfl, rfl⟩

/-! ## What firing leaves -/

theorem Fires.grows {E : Env σ} {f : Nat} {ts : List (Prog σ)} {s s' : St σ} {r : Out (Except Error Unit)}
    (h : Fires E f ts s r s') (hf : f < s.frames.length) : Grows (fun i => i = f) (fun i => i = f) s s' := by
  have one : ∀ {t : Prog σ} {s s1 : St σ} {o : Out (Except Error σ.V)}, f < s.frames.length → Runs E [f] t s o s1 →
      Grows (fun i => i = f) (fun i => i = f) s s1 := by
    rintro t s s1 o hf ⟨fuel, h⟩
    refine (eval_grows_any E fuel [f] t s s1 o (by simp [hf]) h).mono ?_ ?_ <;> simp
  induction h with
  | none s => exact .refl _ _ _
  | next h1 _ ih =>
    have g1 := one hf h1
    exact g1.trans (ih (by rw [g1.len]; exact hf))
  | error h1 => exact one hf h1
  | panic h1 => exact one hf h1
  | stuck h1 => exact one hf h1

theorem Fires.reachable {E : Env σ} {g : Graph σ.K σ.T} {f : Nat} {ts : List (Prog σ)} {s s' : St σ}
    {r : Out (Except Error Unit)} (h : Fires E f ts s r s') (hf : f < s.frames.length) (hs : Reachable g s) :
    Reachable g s' := by
  have one : ∀ {t : Prog σ} {s s1 : St σ} {o : Out (Except Error σ.V)}, f < s.frames.length → Reachable g s →
      Runs E [f] t s o s1 → Reachable g s1 ∧ f < s1.frames.length := by
    rintro t s s1 o hf hs ⟨fuel, h⟩
    have henv : ∀ e ∈ [f], e < s.frames.length := by simp [hf]
    exact ⟨eval_reachable E hs henv h, by rw [eval_len E henv h]; exact hf⟩
  induction h with
  | none s => exact hs
  | next h1 _ ih => obtain ⟨a, b⟩ := one hf hs h1; exact ih b a
  | error h1 => exact (one hf hs h1).1
  | panic h1 => exact (one hf hs h1).1
  | stuck h1 => exact (one hf hs h1).1

theorem Fires.nil {E : Env σ} {f : Nat} {s s' : St σ} {r : Out (Except Error Unit)} (h : Fires E f [] s r s') :
    r = .ret (.ok ()) ∧ s' = s := by cases h; exact ⟨rfl, rfl⟩

theorem Grows.logOf {P Q : Nat → Prop} {s s' : St σ} (h : Grows P Q s s') (f : Nat) : logOf s f <+: logOf s' f := by
  unfold Plotline.logOf
  cases hf : s.frames[f]? with
  | none => exact List.nil_prefix
  | some fr =>
    obtain ⟨fr', hf', _, hp, _⟩ := h.frames f fr hf
    rw [hf']; exact hp

theorem logOf_pushOp (s : St σ) {f : Nat} (hf : f < s.frames.length) (op : Operation σ.K σ.T) :
    logOf (pushOp s f op) f = logOf s f ++ [op] := by
  have : s.frames[f]? = some s.frames[f] := List.getElem?_eq_getElem hf
  simp [logOf, pushOp, this]

theorem logOf_setTarget (s : St σ) (f : Nat) (n : σ.T) : logOf (setTarget s f n) f = logOf s f := by
  unfold logOf setTarget
  simp only [List.getElem?_modify]
  cases s.frames[f]? <;> simp

section
variable [LawfulSig σ]

theorem ctxGet_pushOp {g : Graph σ.K σ.T} {s : St σ} (hs : Reachable g s) {f : Nat} (hf : f < s.frames.length)
    (op : Operation σ.K σ.T) :
    ctxGet (pushOp s f op).graph (pushOp s f op).frames f = FMap.apply (ctxGet s.graph s.frames f) op := by
  have hfr : s.frames[f]? = some s.frames[f] := List.getElem?_eq_getElem hf
  have hf' : (pushOp s f op).frames[f]? = some { s.frames[f] with ops := s.frames[f].ops ++ [op] } := by
    simp [pushOp, hfr]
  cases hp : s.frames[f].parent with
  | none =>
    rw [ctxGet_applyAll_root hf' hp, ctxGet_applyAll_root hfr hp, applyAll_append]; rfl
  | some p =>
    have hlt := hs.wf _ _ _ hfr hp
    rw [ctxGet_applyAll_parent hf' hp hlt, ctxGet_applyAll_parent hfr hp hlt, applyAll_append]
    have : ctxGet (pushOp s f op).graph (pushOp s f op).frames p = ctxGet s.graph s.frames p := by
      funext i
      refine ctxGet_below hs.wf hlt (fun a ha => ?_) i
      have : ¬ f = a := by omega
      simp [pushOp, this]
    rw [this]; rfl

end

theorem ctxGet_setTarget (s : St σ) (f h : Nat) (n : σ.T) (i : σ.K) :
    ctxGet (setTarget s f n).graph (setTarget s f n).frames h i = ctxGet s.graph s.frames h i := by
  apply ctxGet_congr
  intro a _
  simp only [setTarget, List.getElem?_modify]
  cases s.frames[a]? with
  | none => rfl
  | some fr => simp only [Option.map_eq_map, Option.map_some]; split <;> rfl

/-! ## Registration -/

theorem typeId_inj {s s' : Sched} (h : s.typeId = s'.typeId) : s = s' := by
  cases s <;> cases s' <;> simp_all [Sched.typeId] <;> omega

/-! ## Programs writing only their own context -/

theorem saveBody_writes (n : σ.T) : (saveBody n).Writes (fun c => c = 0) := by
  unfold saveBody saveAfter
  refine .withTarget (.runTriggers rfl ?_)
  rintro (_ | _)
  · exact .done _
  · refine .targetRead ?_
    rintro (_ | _)
    · exact .runTriggers rfl (by rintro (_ | _) <;> exact .done _)
    · exact .save rfl (.runTriggers rfl (by rintro (_ | _) <;> exact .done _))

theorem deleteBody_writes (i : σ.K) : (deleteBody i).Writes (fun c => c = 0) := by
  unfold deleteBody deleteAfter
  refine .get ?_
  rintro (_ | _)
  · exact .done _
  · refine .withTarget (.runTriggers rfl ?_)
    rintro (_ | _)
    · exact .done _
    · exact .delete rfl (.runTriggers rfl (by rintro (_ | _) <;> exact .done _))

end Plotline

namespace Plotline

open Std

set_option linter.unusedSectionVars false

variable {σ : Sig}

theorem Fires.det {E : Env σ} {f : Nat} {ts : List (Prog σ)} {s s1 s2 : St σ} {r1 r2 : Out (Except Error Unit)}
    (h1 : Fires E f ts s r1 s1) (h2 : Fires E f ts s r2 s2) : r1 = r2 ∧ s1 = s2 := by
  obtain ⟨a, ha⟩ := tryForEach_of_fires E h1
  obtain ⟨b, hb⟩ := tryForEach_of_fires E h2
  have ha' := tryForEach_mono_le E (Nat.le_max_left a b) ha
  have hb' := tryForEach_mono_le E (Nat.le_max_right a b) hb
  rw [ha'] at hb'
  simp only [Option.some.injEq, Prod.mk.injEq] at hb'
  exact hb'

theorem transact_mono_le (S : Schema σ) {fuel fuel' : Nat} (hle : fuel ≤ fuel') {pre : List (Operation σ.K σ.T)}
    {body : Prog σ} {r : Out (Except Error σ.V) × Schema σ} (h : S.transact fuel pre body = some r) :
    S.transact fuel' pre body = some r := by
  cases he : eval S.env fuel [0] body (S.begin pre) with
  | none => rw [transact_none_iff.2 he] at h; cases h
  | some q =>
    have he' := eval_mono_le S.env hle he
    unfold Schema.transact at h ⊢
    rw [he] at h; rw [he']; exact h

/-- Running a transaction given how its closure runs. -/
theorem transact_of_runs (S : Schema σ) {pre : List (Operation σ.K σ.T)} {body : Prog σ} {v : σ.V} {s : St σ}
    (h : Runs S.env [0] body (S.begin pre) (.ret (.ok v)) s) :
    ∃ fuel0, ∀ fuel, fuel0 ≤ fuel →
      S.transact fuel pre body = some (.ret (.ok v), { S with graph := commitRoot s, heap := s.heap }) := by
  obtain ⟨fuel0, h⟩ := h
  refine ⟨fuel0, fun fuel hle => transact_mono_le S hle ?_⟩
  unfold Schema.transact
  rw [h]

theorem transact_of_runs_err (S : Schema σ) {pre : List (Operation σ.K σ.T)} {body : Prog σ} {e : Error} {s : St σ}
    (h : Runs S.env [0] body (S.begin pre) (.ret (.error e)) s) :
    ∃ fuel0, ∀ fuel, fuel0 ≤ fuel →
      S.transact fuel pre body = some (.ret (.error e), { S with graph := s.graph, heap := s.heap }) := by
  obtain ⟨fuel0, h⟩ := h
  refine ⟨fuel0, fun fuel hle => transact_mono_le S hle ?_⟩
  unfold Schema.transact
  rw [h]

theorem runs_of_transact {S S' : Schema σ} {fuel : Nat} {pre : List (Operation σ.K σ.T)} {body : Prog σ}
    {out : Out (Except Error σ.V)} (h : S.transact fuel pre body = some (out, S')) :
    ∃ s, Runs S.env [0] body (S.begin pre) out s := by
  obtain ⟨s, he, _⟩ := transact_some h
  exact ⟨s, fuel, he⟩

theorem readTarget_setTarget (s : St σ) {f : Nat} (hf : f < s.frames.length) (n : σ.T) :
    readTarget (setTarget s f n) f = some n := by
  have : s.frames[f]? = some s.frames[f] := List.getElem?_eq_getElem hf
  simp [readTarget, setTarget, this]

theorem frame_eq_modify_self {s : St σ} {f : Nat} (fr : Frame σ.K σ.T) (hf : s.frames[f]? = some fr) :
    logOf s f = fr.ops := by simp [logOf, hf]

/-- A subtransaction, run. -/
theorem runs_tx (E : Env σ) {env : List Nat} {c f : Nat} (hc : env[c]? = some f) (body : Prog σ)
    (k : Except Error σ.V → Prog σ) (s s' : St σ) (out : Out (Except Error σ.V)) :
    Runs E env (.tx c body k) s out s' ↔
      ∃ o s1, Runs E (s.frames.length :: env) body (openChild s f) o s1 ∧
        match o with
        | .ret (.ok v) => Runs E env (k (.ok v)) (commitChild s1 s.frames.length) out s'
        | .ret (.error e) => Runs E env (k (.error e)) (closeChild s1 s.frames.length) out s'
        | .panic => out = .panic ∧ s' = closeChild s1 s.frames.length
        | .stuck => out = .stuck ∧ s' = closeChild s1 s.frames.length := by
  constructor
  · rintro ⟨fuel, h⟩
    cases fuel with
    | zero => simp [eval] at h
    | succ fuel =>
      simp only [eval, hc] at h
      cases hr : eval E fuel (s.frames.length :: env) body (openChild s f) with
      | none => simp [hr] at h
      | some q =>
        obtain ⟨o, s1⟩ := q
        rw [hr] at h
        refine ⟨o, s1, ⟨fuel, hr⟩, ?_⟩
        rcases o with (e | v) | _ | _
        · exact ⟨fuel, h⟩
        · exact ⟨fuel, h⟩
        · simp only [Option.some.injEq, Prod.mk.injEq] at h; exact ⟨h.1.symm, h.2.symm⟩
        · simp only [Option.some.injEq, Prod.mk.injEq] at h; exact ⟨h.1.symm, h.2.symm⟩
  · rintro ⟨o, s1, ⟨a, ha⟩, h⟩
    rcases o with (e | v) | _ | _
    · obtain ⟨b, hb⟩ := h
      refine ⟨max a b + 1, ?_⟩
      simp only [eval, hc]
      rw [eval_mono_le E (Nat.le_max_left a b) ha]
      exact eval_mono_le E (Nat.le_max_right a b) hb
    · obtain ⟨b, hb⟩ := h
      refine ⟨max a b + 1, ?_⟩
      simp only [eval, hc]
      rw [eval_mono_le E (Nat.le_max_left a b) ha]
      exact eval_mono_le E (Nat.le_max_right a b) hb
    · obtain ⟨rfl, rfl⟩ := h; exact ⟨a + 1, by simp only [eval, hc, ha]⟩
    · obtain ⟨rfl, rfl⟩ := h; exact ⟨a + 1, by simp only [eval, hc, ha]⟩

/-- Without triggers the closure of Save runs straight through. -/
theorem runs_saveBody_quiet (E : Env σ) (f : Nat) (env : List Nat) (n : σ.T) (s : St σ) (hf : f < s.frames.length)
    (hb : E.fire .beforeSave = []) (ha : E.fire .afterSave = []) :
    Runs E (f :: env) (saveBody n) s (.ret (.ok σ.unit)) (pushOp (setTarget s f n) f (.save n)) := by
  rw [runs_saveBody]
  refine ⟨.ret (.ok ()), setTarget s f n, by rw [hb]; exact .none _, .inl ⟨.ret (.ok ()), rfl, ?_, rfl⟩⟩
  rw [ha]
  simp only [midSave, readTarget_setTarget s hf]
  exact .none _

theorem runs_deleteBody_quiet (E : Env σ) (f : Nat) (env : List Nat) (i : σ.K) (n : σ.T) (s : St σ)
    (hn : ctxGet s.graph s.frames f i = some n) (hb : E.fire .beforeDelete = []) (ha : E.fire .afterDelete = []) :
    Runs E (f :: env) (deleteBody i) s (.ret (.ok σ.unit)) (pushOp (setTarget s f n) f (.delete i)) := by
  rw [runs_deleteBody]
  refine .inr ⟨n, .ret (.ok ()), setTarget s f n, hn, by rw [hb]; exact .none _, .inl ⟨.ret (.ok ()), rfl, ?_, rfl⟩⟩
  rw [ha]; exact .none _

/-- Targets that can be read stay readable under programs that do not panic while writing them. -/
theorem eval_target {E : Env σ} (hE : E.Every Prog.SafeTarget) {fuel : Nat} {env : List Nat} {p : Prog σ} {s s' : St σ}
    {out : Out (Except Error σ.V)} (hp : p.Every Prog.SafeTarget) (henv : ∀ e ∈ env, e < s.frames.length)
    (h : eval E fuel env p s = some (out, s')) (f : Nat) (hf : (readTarget s f).isSome) : (readTarget s' f).isSome := by
  have key : ∀ (s : St σ) (i : Nat) (u : Frame σ.K σ.T → Frame σ.K σ.T)
      (_ : ∀ fr, (u fr).target = fr.target ∨ ∃ n, (u fr).target = some ⟨n, false⟩) (f : Nat),
      (readTarget s f).isSome → (readTarget { s with frames := s.frames.modify i u } f).isSome := by
    intro s i u hu f h
    unfold readTarget at h ⊢
    simp only [List.getElem?_modify]
    cases hs : s.frames[f]? with
    | none => simp [hs] at h
    | some fr =>
      simp only [hs] at h
      by_cases hi : i = f
      · simp only [hi, if_true, Option.map_eq_map, Option.map_some]
        rcases hu fr with h' | ⟨n, h'⟩
        · rw [h']; exact h
        · rw [h']; rfl
      · simp only [hi, if_false, Option.map_eq_map, Option.map_some, id]; exact h
  refine eval_inv E Prog.SafeTarget (fun s s' => ∀ f, (readTarget s f).isSome → (readTarget s' f).isSome) ?_ hE fuel env p
    s s' out hp henv h f hf
  refine ⟨fun _ _ h => h, fun _ _ _ a b f h => b f (a f h), ?_, ?_, ?_, ?_, ?_, ?_, fun _ _ _ h => h,
    fun _ _ _ _ _ _ _ _ _ _ h => h, fun _ _ _ _ _ _ _ h => h, ?_, ?_⟩
  · intro s i c n k _ _; apply key; intro fr; exact .inl rfl
  · intro s i c n k _ _; apply key; intro fr; exact .inl rfl
  · intro s i n k _ _; apply key; intro fr; exact .inr ⟨_, rfl⟩
  · intro s i n c fn k hk _; apply key; intro fr; exact .inr ⟨(fn n).1, by rw [hk n]⟩
  · intro s i k _ _; apply key; intro fr; exact .inl rfl
  · intro s hp t fn k _ f h; exact h
  · intro s i s1 hi hl hr f h
    have hlt : f < s.frames.length := by
      unfold readTarget at h
      cases hs : s.frames[f]? with
      | none => simp [hs] at h
      | some fr => exact (List.getElem?_eq_some_iff.1 hs).1
    have h1 := hr f (by unfold readTarget; rw [openChild_below s i hlt]; exact h)
    unfold readTarget; rw [closeChild_below s1 hlt]; exact h1
  · intro s i s1 hi hl hr f h
    have hlt : f < s.frames.length := by
      unfold readTarget at h
      cases hs : s.frames[f]? with
      | none => simp [hs] at h
      | some fr => exact (List.getElem?_eq_some_iff.1 hs).1
    have h1 := hr f (by unfold readTarget; rw [openChild_below s i hlt]; exact h)
    have h2 : (readTarget (closeChild s1 s.frames.length) f).isSome := by
      unfold readTarget; rw [closeChild_below s1 hlt]; exact h1
    rcases commitChild_frames s1 s.frames.length with hc | ⟨fr, p, _, _, _, hc⟩
    · unfold readTarget; rw [hc]; exact h2
    · have := key (closeChild s1 s.frames.length) p (fun pf => { pf with ops := pf.ops ++ fr.ops }) (fun _ => .inl rfl) f h2
      unfold readTarget at this ⊢
      rw [hc]; exact this

theorem Fires.target {E : Env σ} {f : Nat} {ts : List (Prog σ)} {s s' : St σ}
    {r : Out (Except Error Unit)} (h : Fires E f ts s r s') (hE : E.Every Prog.SafeTarget)
    (hts : ∀ t ∈ ts, t.Every Prog.SafeTarget) (hf : f < s.frames.length) (ht : (readTarget s f).isSome) :
    (readTarget s' f).isSome := by
  have one : ∀ {t : Prog σ} {s s1 : St σ} {o : Out (Except Error σ.V)}, t.Every Prog.SafeTarget → f < s.frames.length →
      (readTarget s f).isSome → Runs E [f] t s o s1 → (readTarget s1 f).isSome ∧ f < s1.frames.length := by
    rintro t s s1 o hp hf ht ⟨fuel, h⟩
    have henv : ∀ e ∈ [f], e < s.frames.length := by simp [hf]
    exact ⟨eval_target hE hp henv h f ht, by rw [eval_len E henv h]; exact hf⟩
  induction h with
  | none s => exact ht
  | next h1 _ ih =>
    obtain ⟨a, b⟩ := one (hts _ (List.mem_cons_self ..)) hf ht h1
    exact ih (fun t h => hts t (List.mem_cons_of_mem _ h)) b a
  | error h1 => exact (one (hts _ (List.mem_cons_self ..)) hf ht h1).1
  | panic h1 => exact (one (hts _ (List.mem_cons_self ..)) hf ht h1).1
  | stuck h1 => exact (one (hts _ (List.mem_cons_self ..)) hf ht h1).1

/-! ## Registration -/

theorem withTrigger_sorted (ts : TriggerSet σ) (h : BTreeMap.Sorted ts.triggers.entries) (s : Sched) (t : Prog σ) :
    BTreeMap.Sorted (ts.withTrigger s t).triggers.entries := by
  unfold TriggerSet.withTrigger
  split
  · exact BTreeMap.sorted_insertL h
  · exact BTreeMap.sorted_insertL h

theorem select_withTrigger (ts : TriggerSet σ) (h : BTreeMap.Sorted ts.triggers.entries) (s s' : Sched) (t : Prog σ) :
    ((ts.withTrigger s t).select s').getD [] = if s = s' then (ts.select s').getD [] ++ [t] else (ts.select s').getD [] := by
  unfold TriggerSet.withTrigger TriggerSet.select
  by_cases hs : s = s'
  · subst hs
    simp only [if_true]
    split
    · rename_i l hl
      show (BTreeMap.findL _ (BTreeMap.insertL _ _ _)).getD [] = _
      rw [BTreeMap.findL_insertL h]; simp [hl]
    · rename_i hl
      show (BTreeMap.findL _ (BTreeMap.insertL _ _ _)).getD [] = _
      rw [BTreeMap.findL_insertL h]; simp [hl]
  · simp only [if_neg hs]
    have hne : compare s'.typeId s.typeId ≠ .eq := by
      intro h; exact hs (typeId_inj (LawfulEqOrd.eq_of_compare h)).symm
    split
    · show (BTreeMap.findL _ (BTreeMap.insertL _ _ _)).getD [] = _
      rw [BTreeMap.findL_insertL h, if_neg hne]; rfl
    · show (BTreeMap.findL _ (BTreeMap.insertL _ _ _)).getD [] = _
      rw [BTreeMap.findL_insertL h, if_neg hne]; rfl

theorem fire_registered (S : Schema σ) (h0 : S.env.triggers = TriggerSet.empty) (regs : List (Sched × Prog σ)) (s : Sched) :
    (S.registered regs).env.fire s = scheduled regs s := by
  have gen : ∀ (regs : List (Sched × Prog σ)) (S : Schema σ), BTreeMap.Sorted S.env.triggers.triggers.entries →
      (S.registered regs).env.fire s = S.env.fire s ++ scheduled regs s := by
    intro regs
    induction regs with
    | nil => intro S _; simp [Schema.registered, scheduled]
    | cons r regs ih =>
      intro S hS
      have : S.registered (r :: regs) = (S.withTrigger r.1 r.2).registered regs := rfl
      rw [this, ih _ (withTrigger_sorted _ hS _ _)]
      have h1 : (S.withTrigger r.1 r.2).env.fire s = if r.1 = s then S.env.fire s ++ [r.2] else S.env.fire s :=
        select_withTrigger _ hS _ _ _
      rw [h1]
      by_cases hr : r.1 = s <;> simp [scheduled, hr]
  rw [gen regs S (by rw [h0]; exact List.Pairwise.nil)]
  simp [Env.fire, h0, TriggerSet.empty, TriggerSet.select, BTreeMap.get, BTreeMap.empty, BTreeMap.findL]

theorem registered_graph (S : Schema σ) (regs : List (Sched × Prog σ)) :
    (S.registered regs).graph = S.graph ∧ (S.registered regs).heap = S.heap := by
  unfold Schema.registered
  induction regs generalizing S with
  | nil => exact ⟨rfl, rfl⟩
  | cons r regs ih => exact ih (S.withTrigger r.1 r.2)

theorem scheduled_nil {regs : List (Sched × Prog σ)} {s : Sched} (h : ∀ r ∈ regs, r.1 ≠ s) : scheduled regs s = [] := by
  simp only [scheduled, List.map_eq_nil_iff, List.filter_eq_nil_iff, decide_eq_true_eq]
  exact h

end Plotline
