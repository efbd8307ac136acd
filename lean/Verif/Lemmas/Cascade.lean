import Verif.Spec.Cascade
import Verif.Lemmas.Ops

/-! Helper lemmas about cascades of triggers. -/

namespace Plotline

open Std

set_option linter.unusedSectionVars false

variable {σ : Sig}

/-- Comes to an end from every state, with any contexts in scope. -/
def Ends (E : Env σ) (p : Prog σ) : Prop := ∀ env s, ∃ out s', Runs E env p s out s'

theorem fires_ends {E : Env σ} {f : Nat} {ts : List (Prog σ)} (h : ∀ t ∈ ts, Ends E t) :
    ∀ s, ∃ r s', Fires E f ts s r s' := by
  induction ts with
  | nil => intro s; exact ⟨_, _, .none s⟩
  | cons t ts ih =>
    intro s
    obtain ⟨out, s1, ht⟩ := h t (by simp) [f] s
    rcases out with (e | v) | _ | _
    · exact ⟨_, _, .error ht⟩
    · obtain ⟨r, s2, h2⟩ := ih (fun t ht => h t (by simp [ht])) s1
      exact ⟨_, _, .next ht h2⟩
    · exact ⟨_, _, .panic ht⟩
    · exact ⟨_, _, .stuck ht⟩

/-- A context that is not in scope. -/
theorem runs_out_of_scope {E : Env σ} {env : List Nat} {p : Prog σ} {s : St σ}
    (h : ∀ fuel, eval E (fuel + 1) env p s = some (.stuck, s)) : ∃ out s', Runs E env p s out s' :=
  ⟨.stuck, s, 1, h 0⟩

theorem ends_of_every {E : Env σ} {ok : Sched → Prop} (hok : ∀ s, ok s → ∀ t ∈ E.fire s, Ends E t) (p : Prog σ)
    (hp : p.Every (fun | .runTriggers _ s _ => ok s | _ => True)) : Ends E p := by
  induction p with
  | done r => intro env s; exact ⟨_, _, 1, rfl⟩
  | panic => intro env s; exact ⟨_, _, 1, rfl⟩
  | reenter => intro env s; exact ⟨_, _, 1, rfl⟩
  | save c n k ih =>
    intro env s
    cases hc : env[c]? with
    | none => exact runs_out_of_scope fun fuel => by simp only [eval, hc]
    | some f =>
      obtain ⟨o, s', h⟩ := ih hp.2 env (pushOp s f (.save n))
      exact ⟨o, s', (runs_step fun fuel => by simp only [eval, hc]).2 h⟩
  | delete c n k ih =>
    intro env s
    cases hc : env[c]? with
    | none => exact runs_out_of_scope fun fuel => by simp only [eval, hc]
    | some f =>
      obtain ⟨o, s', h⟩ := ih hp.2 env (pushOp s f (.delete n))
      exact ⟨o, s', (runs_step fun fuel => by simp only [eval, hc]).2 h⟩
  | get c i k ih =>
    intro env s
    cases hc : env[c]? with
    | none => exact runs_out_of_scope fun fuel => by simp only [eval, hc]
    | some f =>
      obtain ⟨o, s', h⟩ := ih (ctxGet s.graph s.frames f i) (hp.2 _) env s
      exact ⟨o, s', (runs_step fun fuel => by simp only [eval, hc]).2 h⟩
  | contains c i k ih =>
    intro env s
    cases hc : env[c]? with
    | none => exact runs_out_of_scope fun fuel => by simp only [eval, hc]
    | some f =>
      obtain ⟨o, s', h⟩ := ih (ctxContains s.graph s.frames f i) (hp.2 _) env s
      exact ⟨o, s', (runs_step fun fuel => by simp only [eval, hc]).2 h⟩
  | tx c body k ihb ihk =>
    intro env s
    cases hc : env[c]? with
    | none => exact runs_out_of_scope fun fuel => by simp only [eval, hc]
    | some f =>
      obtain ⟨o, s1, h1⟩ := ihb hp.2.1 (s.frames.length :: env) (openChild s f)
      rcases o with (e | v) | _ | _
      · obtain ⟨o, s', h⟩ := ihk (.error e) (hp.2.2 _) env (closeChild s1 s.frames.length)
        exact ⟨o, s', (runs_tx E hc ..).2 ⟨_, s1, h1, h⟩⟩
      · obtain ⟨o, s', h⟩ := ihk (.ok v) (hp.2.2 _) env (commitChild s1 s.frames.length)
        exact ⟨o, s', (runs_tx E hc ..).2 ⟨_, s1, h1, h⟩⟩
      · exact ⟨_, _, (runs_tx E hc ..).2 ⟨_, s1, h1, rfl, rfl⟩⟩
      · exact ⟨_, _, (runs_tx E hc ..).2 ⟨_, s1, h1, rfl, rfl⟩⟩
  | runTriggers c sch k ih =>
    intro env s
    cases hc : env[c]? with
    | none => exact runs_out_of_scope fun fuel => by simp only [eval, hc]
    | some f =>
      obtain ⟨r, s1, h1⟩ := fires_ends (f := f) (hok sch hp.1) s
      rcases r with x | _ | _
      · obtain ⟨o, s', h⟩ := ih x (hp.2 _) env s1
        exact ⟨o, s', (runs_runTriggers E hc ..).2 ⟨_, s1, h1, h⟩⟩
      · exact ⟨_, _, (runs_runTriggers E hc ..).2 ⟨_, s1, h1, rfl, rfl⟩⟩
      · exact ⟨_, _, (runs_runTriggers E hc ..).2 ⟨_, s1, h1, rfl, rfl⟩⟩
  | withTarget n k ih =>
    intro env s
    cases hc : env[0]? with
    | none => exact runs_out_of_scope fun fuel => by simp only [eval, hc]
    | some f =>
      obtain ⟨o, s', h⟩ := ih hp.2 env (setTarget s f n)
      exact ⟨o, s', (runs_step fun fuel => by simp only [eval, hc]).2 h⟩
  | targetRead c k ih =>
    intro env s
    cases hc : env[c]? with
    | none => exact runs_out_of_scope fun fuel => by simp only [eval, hc]
    | some f =>
      obtain ⟨o, s', h⟩ := ih (readTarget s f) (hp.2 _) env s
      exact ⟨o, s', (runs_step fun fuel => by simp only [eval, hc]).2 h⟩
  | targetWrite c fn k ih =>
    intro env s
    cases hc : env[c]? with
    | none => exact runs_out_of_scope fun fuel => by simp only [eval, hc]
    | some f =>
      cases hr : readTarget s f with
      | none =>
        obtain ⟨o, s', h⟩ := ih false (hp.2 _) env s
        exact ⟨o, s', (runs_step fun fuel => by simp only [eval, hc, hr]).2 h⟩
      | some n =>
        rcases hn : fn n with ⟨n', _ | _⟩
        · obtain ⟨o, s', h⟩ := ih true (hp.2 _) env (writeTarget s f n' false)
          exact ⟨o, s', (runs_step fun fuel => by simp only [eval, hc, hr, hn]).2 h⟩
        · exact ⟨.panic, writeTarget s f n' true, 1, by simp only [eval, hc, hr, hn]⟩
  | resRead t k ih =>
    intro env s
    cases hb : s.resBlocks E t false with
    | true => exact runs_out_of_scope fun fuel => by simp only [eval, hb, if_true]
    | false =>
      obtain ⟨o, s', h⟩ := ih ((E.resources.res t).peek s.heap) (hp.2 _) env s
      exact ⟨o, s', (runs_step fun fuel => by simp only [eval, hb, Bool.false_eq_true, if_false]).2 h⟩
  | resScope t excl body k ihb ihk =>
    intro env s
    cases hq : (E.resources.res t).lock with
    | none =>
      obtain ⟨o, s', h⟩ := ihk none (hp.2.2 _) env s
      exact ⟨o, s', (runs_step fun fuel => by simp only [eval, hq]).2 h⟩
    | some q =>
      cases hb : s.blocks q excl with
      | true => exact runs_out_of_scope fun fuel => by simp only [eval, hq, hb, if_true]
      | false =>
        cases hv : (E.resources.res t).peek s.heap with
        | none =>
          obtain ⟨o, s', h⟩ := ihk none (hp.2.2 _) env s
          exact ⟨o, s', (runs_step fun fuel => by simp only [eval, hq, hb, hv, Bool.false_eq_true, if_false]).2 h⟩
        | some v =>
          obtain ⟨o, s1, a, ha⟩ := ihb v (hp.2.1 v) env (lockRes s q excl)
          rcases o with r | _ | _
          · obtain ⟨o, s', b, hb'⟩ := ihk (some r) (hp.2.2 _) env (unlockRes s1)
            exact ⟨o, s', max a b + 1, by
              simp only [eval, hq, hb, hv, Bool.false_eq_true, if_false]
              rw [eval_mono_le E (Nat.le_max_left a b) ha]
              exact eval_mono_le E (Nat.le_max_right a b) hb'⟩
          · exact ⟨.panic, _, a + 1, by simp only [eval, hq, hb, hv, Bool.false_eq_true, if_false, ha]; rfl⟩
          · exact ⟨.stuck, _, a + 1, by simp only [eval, hq, hb, hv, Bool.false_eq_true, if_false, ha]; rfl⟩
  | resAssign t x k ih =>
    intro env s
    cases hq : (E.resources.res t).lock with
    | none => exact runs_out_of_scope fun fuel => by simp only [eval, hq]
    | some q =>
      cases hb : s.locks.contains (q, true) with
      | false => exact runs_out_of_scope fun fuel => by simp only [eval, hq, hb, Bool.false_eq_true, if_false]
      | true =>
        obtain ⟨o, s', h⟩ := ih hp.2 env (assignRes s q t x)
        exact ⟨o, s', (runs_step fun fuel => by simp only [eval, hq, hb, if_true]).2 h⟩
  | resWrite t fn k ih =>
    intro env s
    cases hb : s.resBlocks E t true with
    | true => exact runs_out_of_scope fun fuel => by simp only [eval, hb, if_true]
    | false =>
    rcases hw : (E.resources.res t).withMut s.heap (fun v => ((fn v).1, if (fn v).2 then none else some ()))
      with ⟨a, hp'⟩
    cases a with
    | unavailable =>
      obtain ⟨o, s', h⟩ := ih false (hp.2 _) env s
      exact ⟨o, s', (runs_step fun fuel => by simp only [eval, hb, Bool.false_eq_true, if_false, hw]).2 h⟩
    | ran x =>
      obtain ⟨o, s', h⟩ := ih true (hp.2 _) env { s with heap := hp' }
      exact ⟨o, s', (runs_step fun fuel => by simp only [eval, hb, Bool.false_eq_true, if_false, hw]).2 h⟩
    | panicked => exact ⟨.panic, { s with heap := hp' }, 1, by simp only [eval, hb, Bool.false_eq_true, if_false, hw]⟩
  | catchUnwind body k ihb ihk =>
    intro env s
    obtain ⟨o, s1, a, ha⟩ := ihb hp.2.1 env s
    rcases o with r | _ | _
    · obtain ⟨o, s', b, hb⟩ := ihk (some r) (hp.2.2 _) env s1
      exact ⟨o, s', max a b + 1, by
        simp only [eval]
        rw [eval_mono_le E (Nat.le_max_left a b) ha]
        exact eval_mono_le E (Nat.le_max_right a b) hb⟩
    · obtain ⟨o, s', b, hb⟩ := ihk none (hp.2.2 _) env s1
      exact ⟨o, s', max a b + 1, by
        simp only [eval]
        rw [eval_mono_le E (Nat.le_max_left a b) ha]
        exact eval_mono_le E (Nat.le_max_right a b) hb⟩
    · exact ⟨.stuck, s1, a + 1, by simp only [eval, ha]⟩
  | forget k ih =>
    intro env s
    cases hc : env[0]? with
    | none => exact runs_out_of_scope fun fuel => by simp only [eval, hc]
    | some f =>
      obtain ⟨o, s', h⟩ := ih hp.2 env (leakFrame s f)
      exact ⟨o, s', (runs_step fun fuel => by simp only [eval, hc]).2 h⟩

theorem every_mono {φ ψ : Prog σ → Prop} (h : ∀ p, φ p → ψ p) (p : Prog σ) (hp : p.Every φ) : p.Every ψ := by
  induction p with
  | done => exact h _ hp
  | panic => exact h _ hp
  | reenter => exact h _ hp
  | save c n k ih => exact ⟨h _ hp.1, ih hp.2⟩
  | delete c n k ih => exact ⟨h _ hp.1, ih hp.2⟩
  | get c i k ih => exact ⟨h _ hp.1, fun x => ih x (hp.2 x)⟩
  | contains c i k ih => exact ⟨h _ hp.1, fun x => ih x (hp.2 x)⟩
  | tx c body k ihb ihk => exact ⟨h _ hp.1, ihb hp.2.1, fun x => ihk x (hp.2.2 x)⟩
  | runTriggers c sch k ih => exact ⟨h _ hp.1, fun x => ih x (hp.2 x)⟩
  | withTarget n k ih => exact ⟨h _ hp.1, ih hp.2⟩
  | targetRead c k ih => exact ⟨h _ hp.1, fun x => ih x (hp.2 x)⟩
  | targetWrite c fn k ih => exact ⟨h _ hp.1, fun x => ih x (hp.2 x)⟩
  | resRead t k ih => exact ⟨h _ hp.1, fun x => ih x (hp.2 x)⟩
  | resWrite t fn k ih => exact ⟨h _ hp.1, fun x => ih x (hp.2 x)⟩
  | resScope t excl body k ihb ihk => exact ⟨h _ hp.1, fun v => ihb v (hp.2.1 v), fun x => ihk x (hp.2.2 x)⟩
  | resAssign t x k ih => exact ⟨h _ hp.1, ih hp.2⟩
  | catchUnwind body k ihb ihk => exact ⟨h _ hp.1, ihb hp.2.1, fun x => ihk x (hp.2.2 x)⟩
  | forget k ih => exact ⟨h _ hp.1, ih hp.2⟩

theorem layered_triggers_end {E : Env σ} {rank : Sched → Nat}
    (h : ∀ s, ∀ t ∈ E.fire s, t.Every (Prog.RunsBelow rank (rank s))) :
    ∀ n s, rank s < n → ∀ t ∈ E.fire s, Ends E t := by
  intro n
  induction n with
  | zero => intro s hs; omega
  | succ n ih =>
    intro s hs t ht
    refine ends_of_every (ok := fun s' => rank s' < n) ih t ?_
    refine every_mono ?_ t (h s t ht)
    intro p hp
    cases p <;> first | trivial | exact Nat.lt_of_lt_of_le hp (by omega)

theorem layered_ends {E : Env σ} (h : E.Layered) (p : Prog σ) : Ends E p := by
  obtain ⟨rank, h⟩ := h
  refine ends_of_every (ok := fun _ => True) (fun s _ => layered_triggers_end h _ s (Nat.lt_succ_self _)) p ?_
  refine every_mono ?_ p (every_true p)
  intro p _
  cases p <;> trivial

/-! ## Cascades without end -/

/-- Firing reaches a trigger if those before it do not fail, with whatever they all keep. -/
theorem fire_reaches_with {E : Env σ} {fuel f : Nat} {pre post : List (Prog σ)} {t : Prog σ} (hpre : ∀ t ∈ pre, NeverFails E t)
    {P : St σ → Prop} (hP : ∀ t ∈ pre, ∀ s out s', P s → Runs E [f] t s out s' → P s') :
    ∀ {s : St σ} {r : Out (Except Error Unit) × St σ}, P s → tryForEach (eval E fuel [f]) (pre ++ t :: post) s = some r →
    ∃ s1 r1, P s1 ∧ eval E fuel [f] t s1 = some r1 := by
  induction pre with
  | nil =>
    intro s r hs h
    simp only [List.nil_append, tryForEach] at h
    cases hr : eval E fuel [f] t s with
    | none => simp [hr] at h
    | some q => exact ⟨s, q, hs, hr⟩
  | cons u pre ih =>
    intro s r hs h
    simp only [List.cons_append, tryForEach] at h
    cases hr : eval E fuel [f] u s with
    | none => simp [hr] at h
    | some q =>
      obtain ⟨o, s1⟩ := q
      obtain ⟨v, rfl⟩ := hpre u (by simp) f s o s1 ⟨fuel, hr⟩
      simp only [hr] at h
      exact ih (fun t ht => hpre t (by simp [ht])) (fun t ht => hP t (by simp [ht])) (hP u (by simp) s _ s1 hs ⟨fuel, hr⟩) h

/-- Firing reaches a trigger if those before it do not fail. -/
theorem fire_reaches {E : Env σ} {fuel f : Nat} {pre post : List (Prog σ)} {t : Prog σ} (hpre : ∀ t ∈ pre, NeverFails E t)
    {s : St σ} {r : Out (Except Error Unit) × St σ} (h : tryForEach (eval E fuel [f]) (pre ++ t :: post) s = some r) :
    ∃ s1 r1, eval E fuel [f] t s1 = some r1 := by
  obtain ⟨s1, r1, _, h1⟩ := fire_reaches_with (P := fun _ => True) hpre (fun _ _ _ _ _ _ _ => trivial) trivial h
  exact ⟨s1, r1, h1⟩

/-- Firing all of them ends well if none fails. -/
theorem fire_ok {E : Env σ} {fuel f : Nat} {ts : List (Prog σ)} (hts : ∀ t ∈ ts, NeverFails E t) :
    ∀ {s s' : St σ} {r : Out (Except Error Unit)}, tryForEach (eval E fuel [f]) ts s = some (r, s') → r = .ret (.ok ()) := by
  induction ts with
  | nil => intro s s' r h; cases h; rfl
  | cons u ts ih =>
    intro s s' r h
    simp only [tryForEach] at h
    cases hr : eval E fuel [f] u s with
    | none => simp [hr] at h
    | some q =>
      obtain ⟨o, s1⟩ := q
      obtain ⟨v, rfl⟩ := hts u (by simp) f s o s1 ⟨fuel, hr⟩
      simp only [hr] at h
      exact ih (fun t ht => hts t (by simp [ht])) h

/-- What running a scheduler amounts to. -/
theorem eval_runTriggers {E : Env σ} {fuel f : Nat} {env : List Nat} {sch : Sched} {k : Except Error Unit → Prog σ}
    {s : St σ} {r : Out (Except Error σ.V) × St σ}
    (h : eval E (fuel + 1) (f :: env) (.runTriggers 0 sch k) s = some r) :
    ∃ r1 s1, tryForEach (eval E fuel [f]) (E.fire sch) s = some (r1, s1) ∧
      ∀ x, r1 = .ret x → eval E fuel (f :: env) (k x) s1 = some r := by
  simp only [eval, List.getElem?_cons_zero] at h
  unfold Env.fire
  cases hts : E.triggers.select sch with
  | none => simp only [hts] at h; exact ⟨_, s, rfl, fun x hx => by cases hx; exact h⟩
  | some ts =>
    simp only [hts] at h
    cases hr : tryForEach (eval E fuel [f]) ts s with
    | none => simp [hr] at h
    | some q =>
      obtain ⟨r1, s1⟩ := q
      rw [hr] at h
      exact ⟨r1, s1, by simpa using hr, fun x hx => by subst hx; exact h⟩

/-- The body of a subtransaction takes less fuel. -/
theorem eval_tx_body {E : Env σ} {fuel f : Nat} {env : List Nat} {body : Prog σ} {k : Except Error σ.V → Prog σ} {s : St σ}
    {r : Out (Except Error σ.V) × St σ} (h : eval E (fuel + 1) (f :: env) (.tx 0 body k) s = some r) :
    ∃ r1, eval E fuel (s.frames.length :: f :: env) body (openChild s f) = some r1 := by
  simp only [eval, List.getElem?_cons_zero] at h
  cases hr : eval E fuel (s.frames.length :: f :: env) body (openChild s f) with
  | none => simp [hr] at h
  | some q => exact ⟨q, rfl⟩

/-- The parts of a run of the closure of Save. -/
theorem eval_saveBody {E : Env σ} {fuel f : Nat} {env : List Nat} {n : σ.T} {s : St σ} {r : Out (Except Error σ.V) × St σ}
    (h : eval E fuel (f :: env) (saveBody n) s = some r) :
    ∃ fuel1 s1 r2 s2, fuel1 + 2 ≤ fuel ∧ tryForEach (eval E fuel1 [f]) (E.fire .beforeSave) s1 = some (r2, s2) ∧
      (r2 = .ret (.ok ()) → ∃ fuel3 s3 q3, fuel3 < fuel1 ∧
        tryForEach (eval E fuel3 [f]) (E.fire .afterSave) s3 = some q3) := by
  match fuel, h with
  | 0, h => simp [eval] at h
  | 1, h => simp [eval, saveBody] at h
  | fuel + 2, h =>
    unfold saveBody at h
    rw [eval] at h
    simp only [List.getElem?_cons_zero] at h
    obtain ⟨r2, s2, h2, h3⟩ := eval_runTriggers h
    refine ⟨fuel, _, r2, s2, Nat.le_refl _, h2, ?_⟩
    rintro rfl
    have h3 := h3 _ rfl
    simp only at h3
    match fuel, h3 with
    | 0, h3 => simp [eval] at h3
    | fuel + 1, h3 =>
      rw [eval] at h3
      simp only [List.getElem?_cons_zero] at h3
      cases hr : readTarget s2 f with
      | none =>
        simp only [hr] at h3
        match fuel, h3 with
        | 0, h3 => simp [eval] at h3
        | fuel + 1, h3 =>
          obtain ⟨r4, s4, h4, _⟩ := eval_runTriggers (show eval E (fuel + 1) (f :: env) saveAfter s2 = some r from h3)
          exact ⟨fuel, _, _, by omega, h4⟩
      | some m =>
        simp only [hr] at h3
        match fuel, h3 with
        | 0, h3 => simp [eval] at h3
        | 1, h3 => simp [eval] at h3
        | fuel + 2, h3 =>
          rw [eval] at h3
          simp only [List.getElem?_cons_zero] at h3
          obtain ⟨r4, s4, h4, _⟩ := eval_runTriggers
            (show eval E (fuel + 1) (f :: env) saveAfter _ = some r from h3)
          exact ⟨fuel, _, _, by omega, h4⟩

theorem save_in_before_diverges {E : Env σ} {pre post : List (Prog σ)} {m : σ.T} {k : Except Error σ.V → Prog σ}
    (hfire : E.fire .beforeSave = pre ++ Prog.saveOp 0 m k :: post) (hpre : ∀ t ∈ pre, NeverFails E t) :
    ∀ fuel f env n s, eval E fuel (f :: env) (saveBody n) s = none := by
  intro fuel
  induction fuel using Nat.strongRecOn with
  | ind fuel ih =>
    intro f env n s
    cases hr : eval E fuel (f :: env) (saveBody n) s with
    | none => rfl
    | some r =>
      obtain ⟨fuel1, s1, r2, s2, hle, h2, _⟩ := eval_saveBody hr
      rw [hfire] at h2
      obtain ⟨s3, r3, h3⟩ := fire_reaches hpre h2
      cases fuel1 with
      | zero => simp [eval] at h3
      | succ fuel1 =>
        obtain ⟨r4, h4⟩ := eval_tx_body h3
        rw [ih fuel1 (by omega)] at h4
        cases h4

theorem save_in_after_diverges {E : Env σ} {pre post : List (Prog σ)} {m : σ.T} {k : Except Error σ.V → Prog σ}
    (hbefore : ∀ t ∈ E.fire .beforeSave, NeverFails E t)
    (hfire : E.fire .afterSave = pre ++ Prog.saveOp 0 m k :: post) (hpre : ∀ t ∈ pre, NeverFails E t) :
    ∀ fuel f env n s, eval E fuel (f :: env) (saveBody n) s = none := by
  intro fuel
  induction fuel using Nat.strongRecOn with
  | ind fuel ih =>
    intro f env n s
    cases hr : eval E fuel (f :: env) (saveBody n) s with
    | none => rfl
    | some r =>
      obtain ⟨fuel1, s1, r2, s2, hle, h2, h3⟩ := eval_saveBody hr
      obtain ⟨fuel3, s3, q3, hlt, h4⟩ := h3 (fire_ok hbefore h2)
      rw [hfire] at h4
      obtain ⟨s5, r5, h5⟩ := fire_reaches hpre h4
      cases fuel3 with
      | zero => simp [eval] at h5
      | succ fuel3 =>
        obtain ⟨r6, h6⟩ := eval_tx_body h5
        rw [ih fuel3 (by omega)] at h6
        cases h6

theorem delete_in_before_diverges [LawfulSig σ] {E : Env σ} {pre post : List (Prog σ)} {j : σ.K} {k : Except Error σ.V → Prog σ}
    (hfire : E.fire .beforeDelete = pre ++ Prog.deleteOp 0 j k :: post) (hpre : ∀ t ∈ pre, NeverFails E t ∧ LosesNothing E t)
    {g : Graph σ.K σ.T} :
    ∀ fuel f env i s, Reachable g s → f < s.frames.length → (ctxGet s.graph s.frames f i).isSome →
      (ctxGet s.graph s.frames f j).isSome → eval E fuel (f :: env) (deleteBody i) s = none := by
  intro fuel
  induction fuel using Nat.strongRecOn with
  | ind fuel ih =>
    intro f env i s hs hf hi hj
    match fuel, ih with
    | 0, _ => rfl
    | 1, _ => simp only [deleteBody, eval, List.getElem?_cons_zero]
    | 2, _ =>
      obtain ⟨n, hn⟩ := Option.isSome_iff_exists.1 hi
      simp only [deleteBody, eval, List.getElem?_cons_zero, hn]
    | fuel + 3, ih =>
      obtain ⟨n, hn⟩ := Option.isSome_iff_exists.1 hi
      cases hr : eval E (fuel + 3) (f :: env) (deleteBody i) s with
      | none => rfl
      | some r =>
        unfold deleteBody at hr
        rw [eval] at hr
        simp only [List.getElem?_cons_zero, hn] at hr
        rw [eval] at hr
        simp only [List.getElem?_cons_zero] at hr
        obtain ⟨r2, s2, h2, _⟩ := eval_runTriggers hr
        rw [hfire] at h2
        obtain ⟨s1, r3, ⟨hs', hf', hj'⟩, h3⟩ := fire_reaches_with (fun t ht => (hpre t ht).1)
          (P := fun s => Reachable g s ∧ f < s.frames.length ∧ (ctxGet s.graph s.frames f j).isSome)
          (fun t ht s out s' ⟨h1, h2, h3⟩ hrun =>
            have henv : ∀ e ∈ [f], e < s.frames.length := by simpa using h2
            ⟨hrun.reachable henv h1, by rw [hrun.len henv]; exact h2, (hpre t ht).2 f s out s' j hrun h3⟩)
          ⟨Reachable.setTarget f n hs, by simpa [setTarget] using hf,
            by rw [show ctxGet (setTarget s f n).graph (setTarget s f n).frames f j = _ from ctxGet_setTarget s f f n j]; exact hj⟩ h2
        cases fuel with
        | zero => simp [eval] at h3
        | succ fuel =>
          obtain ⟨r4, h4⟩ := eval_tx_body h3
          have hget : ctxGet (openChild s1 f).graph (openChild s1 f).frames s1.frames.length = ctxGet s1.graph s1.frames f :=
            ctxGet_openChild hs' hf'
          rw [ih fuel (by omega) _ _ _ _ (Reachable.openChild f hf' hs') (by simp [openChild])
            (by rw [hget]; exact hj') (by rw [hget]; exact hj')] at h4
          cases h4

end Plotline
