import Verif.Lemmas.Component

/-! Putting triggers that return in the place of triggers that may hang. -/

namespace Plotline

set_option linter.unusedSectionVars false

variable {σ : Sig}

/-- Lists of triggers, the same or with another one at some places that ends like the first where the first does not hang. -/
inductive Tamed (E E' : Env σ) : List (Prog σ) → List (Prog σ) → Prop
  | nil : Tamed E E' [] []
  | keep {p : Prog σ} {l l' : List (Prog σ)} : Tamed E E' l l' → Tamed E E' (p :: l) (p :: l')
  | tame {p p' : Prog σ} {l l' : List (Prog σ)} :
      (∀ fuel env s o t, eval E fuel env p s = some (o, t) → o ≠ .stuck → ∃ fuel', eval E' fuel' env p' s = some (o, t)) →
      Tamed E E' l l' → Tamed E E' (p :: l) (p' :: l')

variable {E E' : Env σ}

theorem triggers_tame {fuel f : Nat}
    (ih : ∀ (p : Prog σ) (s t : St σ) (o : Out (Except Error σ.V)), eval E fuel [f] p s = some (o, t) → o ≠ .stuck →
      ∃ fuel', eval E' fuel' [f] p s = some (o, t))
    {l l' : List (Prog σ)} (hl : Tamed E E' l l') : ∀ (s t : St σ) (o : Out (Except Error Unit)),
      tryForEach (eval E fuel [f]) l s = some (o, t) → o ≠ .stuck →
      ∃ fuel', tryForEach (eval E' fuel' [f]) l' s = some (o, t) := by
  have step : ∀ (p p' : Prog σ) (l l' : List (Prog σ)),
      (∀ (s t : St σ) (o : Out (Except Error σ.V)), eval E fuel [f] p s = some (o, t) → o ≠ .stuck →
        ∃ fuel', eval E' fuel' [f] p' s = some (o, t)) →
      (∀ (s t : St σ) (o : Out (Except Error Unit)), tryForEach (eval E fuel [f]) l s = some (o, t) → o ≠ .stuck →
        ∃ fuel', tryForEach (eval E' fuel' [f]) l' s = some (o, t)) →
      ∀ (s t : St σ) (o : Out (Except Error Unit)), tryForEach (eval E fuel [f]) (p :: l) s = some (o, t) → o ≠ .stuck →
        ∃ fuel', tryForEach (eval E' fuel' [f]) (p' :: l') s = some (o, t) := by
    intro p p' l l' hp ihl s t o he hne
    simp only [tryForEach] at he
    cases hr : eval E fuel [f] p s with
    | none => simp [hr] at he
    | some q =>
      obtain ⟨o1, s1⟩ := q
      rw [hr] at he
      rcases o1 with (e | v) | _ | _
      · cases he
        obtain ⟨f1, h1⟩ := hp s _ _ hr (fun e => by cases e)
        exact ⟨f1, by simp only [tryForEach, h1]⟩
      · obtain ⟨f1, h1⟩ := hp s _ _ hr (fun e => by cases e)
        obtain ⟨f2, h2⟩ := ihl s1 t o he hne
        refine ⟨max f1 f2, ?_⟩
        simp only [tryForEach, eval_mono_le E' (Nat.le_max_left f1 f2) h1]
        exact tryForEach_mono_le E' (Nat.le_max_right f1 f2) h2
      · cases he
        obtain ⟨f1, h1⟩ := hp s _ _ hr (fun e => by cases e)
        exact ⟨f1, by simp only [tryForEach, h1]⟩
      · cases he; exact absurd rfl hne
  induction hl with
  | nil => intro s t o he _; cases he; exact ⟨0, rfl⟩
  | @keep p l l' _ ihl => exact step p p l l' (fun s t o => ih p s t o) ihl
  | @tame p p' l l' hp _ ihl => exact step p p' l l' (fun s t o => hp fuel [f] s o t) ihl

/-- A program that comes to an end with triggers that may hang does so with the others, in the same state. -/
theorem eval_tame (hr : E'.resources = E.resources) (hf : ∀ s, Tamed E E' (E.fire s) (E'.fire s)) :
    ∀ (fuel : Nat) (env : List Nat) (p : Prog σ) (s t : St σ) (o : Out (Except Error σ.V)), eval E fuel env p s = some (o, t) →
      o ≠ .stuck → ∃ fuel', eval E' fuel' env p s = some (o, t) := by
  have hblk : ∀ (s : St σ) (t : σ.Ty) (excl : Bool), s.resBlocks E' t excl = s.resBlocks E t excl := by
    intro s t excl; unfold St.resBlocks; rw [hr]
  intro fuel
  induction fuel with
  | zero => intro env p s t o h; simp [eval] at h
  | succ fuel ih =>
    intro env p s t o he hne
    have next : ∀ {q : Prog σ} {s1 : St σ} {env1 : List Nat} {p1 : Prog σ} {s0 : St σ},
        eval E fuel env1 q s1 = some (o, t) → (∀ f, eval E' (f + 1) env1 p1 s0 = eval E' f env1 q s1) →
        ∃ fuel', eval E' fuel' env1 p1 s0 = some (o, t) := by
      intro q s1 env1 p1 s0 he' hst
      obtain ⟨f1, h1⟩ := ih _ _ _ _ _ he' hne
      exact ⟨f1 + 1, by rw [hst]; exact h1⟩
    cases p with
    | done r => cases he; exact ⟨1, rfl⟩
    | panic => cases he; exact ⟨1, rfl⟩
    | reenter => cases he; exact absurd rfl hne
    | save c n k =>
      cases hc : env[c]? with
      | none => simp only [eval, hc] at he; cases he; exact absurd rfl hne
      | some f => simp only [eval, hc] at he; exact next he (fun f => by simp only [eval, hc])
    | delete c n k =>
      cases hc : env[c]? with
      | none => simp only [eval, hc] at he; cases he; exact absurd rfl hne
      | some f => simp only [eval, hc] at he; exact next he (fun f => by simp only [eval, hc])
    | get c i k =>
      cases hc : env[c]? with
      | none => simp only [eval, hc] at he; cases he; exact absurd rfl hne
      | some f => simp only [eval, hc] at he; exact next he (fun f => by simp only [eval, hc])
    | contains c i k =>
      cases hc : env[c]? with
      | none => simp only [eval, hc] at he; cases he; exact absurd rfl hne
      | some f => simp only [eval, hc] at he; exact next he (fun f => by simp only [eval, hc])
    | withTarget n k =>
      cases hc : env[0]? with
      | none => simp only [eval, hc] at he; cases he; exact absurd rfl hne
      | some f => simp only [eval, hc] at he; exact next he (fun f => by simp only [eval, hc])
    | forget k =>
      cases hc : env[0]? with
      | none => simp only [eval, hc] at he; cases he; exact absurd rfl hne
      | some f => simp only [eval, hc] at he; exact next he (fun f => by simp only [eval, hc])
    | targetRead c k =>
      cases hc : env[c]? with
      | none => simp only [eval, hc] at he; cases he; exact absurd rfl hne
      | some f => simp only [eval, hc] at he; exact next he (fun f => by simp only [eval, hc])
    | targetWrite c fn k =>
      cases hc : env[c]? with
      | none => simp only [eval, hc] at he; cases he; exact absurd rfl hne
      | some f =>
        simp only [eval, hc] at he
        cases hx : readTarget s f with
        | none => simp only [hx] at he; exact next he (fun f => by simp only [eval, hc, hx])
        | some n =>
          simp only [hx] at he
          rcases hy : fn n with ⟨n', b⟩
          cases b <;> simp only [hy] at he
          · exact next he (fun f => by simp only [eval, hc, hx, hy])
          · cases he; exact ⟨1, by simp only [eval, hc, hx, hy]⟩
    | tx c body k =>
      cases hc : env[c]? with
      | none => simp only [eval, hc] at he; cases he; exact absurd rfl hne
      | some f =>
        simp only [eval, hc] at he
        cases hr : eval E fuel (s.frames.length :: env) body (openChild s f) with
        | none => simp [hr] at he
        | some q =>
          obtain ⟨o1, s1⟩ := q
          rw [hr] at he
          have h1 : o1 ≠ .stuck → ∃ f1, eval E' f1 (s.frames.length :: env) body (openChild s f) = some (o1, s1) :=
            ih _ _ _ _ _ hr
          rcases o1 with (e | v) | _ | _
          · obtain ⟨f1, h1⟩ := h1 (fun e => by cases e)
            obtain ⟨f2, h2⟩ := ih _ _ _ _ _ he hne
            refine ⟨max f1 f2 + 1, ?_⟩
            simp only [eval, hc, eval_mono_le E' (Nat.le_max_left f1 f2) h1]
            exact eval_mono_le E' (Nat.le_max_right f1 f2) h2
          · obtain ⟨f1, h1⟩ := h1 (fun e => by cases e)
            obtain ⟨f2, h2⟩ := ih _ _ _ _ _ he hne
            refine ⟨max f1 f2 + 1, ?_⟩
            simp only [eval, hc, eval_mono_le E' (Nat.le_max_left f1 f2) h1]
            exact eval_mono_le E' (Nat.le_max_right f1 f2) h2
          · cases he
            obtain ⟨f1, h1⟩ := h1 (fun e => by cases e)
            exact ⟨f1 + 1, by simp only [eval, hc, h1]⟩
          · cases he; exact absurd rfl hne
    | runTriggers c sch k =>
      rw [eval_fire] at he
      cases hc : env[c]? with
      | none => simp only [hc] at he; cases he; exact absurd rfl hne
      | some f =>
        simp only [hc] at he
        cases hr : tryForEach (eval E fuel [f]) (E.fire sch) s with
        | none => simp [hr] at he
        | some q =>
          obtain ⟨o1, s1⟩ := q
          rw [hr] at he
          have h1 : o1 ≠ .stuck → ∃ f1, tryForEach (eval E' f1 [f]) (E'.fire sch) s = some (o1, s1) :=
            triggers_tame (fun p s t o => ih [f] p s t o) (hf sch) s s1 o1 hr
          rcases o1 with r | _ | _
          · obtain ⟨f1, h1⟩ := h1 (fun e => by cases e)
            obtain ⟨f2, h2⟩ := ih _ _ _ _ _ he hne
            refine ⟨max f1 f2 + 1, ?_⟩
            rw [eval_fire]
            simp only [hc, tryForEach_mono_le E' (Nat.le_max_left f1 f2) h1]
            exact eval_mono_le E' (Nat.le_max_right f1 f2) h2
          · cases he
            obtain ⟨f1, h1⟩ := h1 (fun e => by cases e)
            exact ⟨f1 + 1, by rw [eval_fire]; simp only [hc, h1]⟩
          · cases he; exact absurd rfl hne
    | resRead t k =>
      simp only [eval] at he
      split at he
      · cases he; exact absurd rfl hne
      · rename_i hb
        refine next he (fun f => ?_)
        simp only [eval]
        rw [hblk, if_neg hb, hr]
    | resWrite t fn k =>
      simp only [eval] at he
      split at he
      · cases he; exact absurd rfl hne
      · rename_i hb
        generalize hw : (E.resources.res t).withMut s.heap (fun v => ((fn v).1, if (fn v).2 then none else some ())) = w at he
        have hw' : (E'.resources.res t).withMut s.heap (fun v => ((fn v).1, if (fn v).2 then none else some ())) = w := by
          rw [hr]; exact hw
        obtain ⟨a, hp⟩ := w
        cases a with
        | unavailable => exact next he (fun f => by simp only [eval]; rw [hblk, if_neg hb, hw'])
        | ran u => exact next he (fun f => by simp only [eval]; rw [hblk, if_neg hb, hw'])
        | panicked => cases he; exact ⟨1, by simp only [eval]; rw [hblk, if_neg hb, hw']⟩
    | resScope t excl body k =>
      simp only [eval] at he
      cases hq : (E.resources.res t).lock with
      | none =>
        simp only [hq] at he
        exact next he (fun f => by simp only [eval, hr, hq])
      | some p =>
        simp only [hq] at he
        split at he
        · cases he; exact absurd rfl hne
        · rename_i hb
          cases hx : (E.resources.res t).peek s.heap with
          | none =>
            simp only [hx] at he
            exact next he (fun f => by simp only [eval, hr, hq]; rw [if_neg hb, hx])
          | some v =>
            simp only [hx] at he
            have key : ∀ f, eval E' (f + 1) env (.resScope t excl body k) s =
                match eval E' f env (body v) (lockRes s p excl) with
                | none => none
                | some (.ret r, s') => eval E' f env (k (some r)) (unlockRes s')
                | some (.panic, s') => some (.panic, unwindRes s' p excl)
                | some (.stuck, s') => some (.stuck, unlockRes s') := by
              intro f
              simp only [eval, hr, hq]
              rw [if_neg hb, hx]
              simp only
              generalize eval E' f env (body v) (lockRes s p excl) = q
              rcases q with _ | ⟨_ | _ | _, _⟩ <;> rfl
            cases hv : eval E fuel env (body v) (lockRes s p excl) with
            | none => simp [hv] at he
            | some q =>
              obtain ⟨o1, s1⟩ := q
              rw [hv] at he
              have h1 : o1 ≠ .stuck → ∃ f1, eval E' f1 env (body v) (lockRes s p excl) = some (o1, s1) := ih _ _ _ _ _ hv
              rcases o1 with r | _ | _
              · obtain ⟨f1, h1⟩ := h1 (fun e => by cases e)
                obtain ⟨f2, h2⟩ := ih _ _ _ _ _ he hne
                refine ⟨max f1 f2 + 1, ?_⟩
                rw [key, eval_mono_le E' (Nat.le_max_left f1 f2) h1]
                exact eval_mono_le E' (Nat.le_max_right f1 f2) h2
              · cases he
                obtain ⟨f1, h1⟩ := h1 (fun e => by cases e)
                exact ⟨f1 + 1, by rw [key, h1]⟩
              · cases he; exact absurd rfl hne
    | resAssign t x k =>
      simp only [eval] at he
      cases hq : (E.resources.res t).lock with
      | none => simp only [hq] at he; cases he; exact absurd rfl hne
      | some p =>
        simp only [hq] at he
        split at he
        · rename_i hc
          exact next he (fun f => by simp only [eval, hr, hq]; rw [if_pos hc])
        · cases he; exact absurd rfl hne
    | catchUnwind body k =>
      simp only [eval] at he
      cases hv : eval E fuel env body s with
      | none => simp [hv] at he
      | some q =>
        obtain ⟨o1, s1⟩ := q
        rw [hv] at he
        have h1 : o1 ≠ .stuck → ∃ f1, eval E' f1 env body s = some (o1, s1) := ih _ _ _ _ _ hv
        rcases o1 with r | _ | _
        · obtain ⟨f1, h1⟩ := h1 (fun e => by cases e)
          obtain ⟨f2, h2⟩ := ih _ _ _ _ _ he hne
          refine ⟨max f1 f2 + 1, ?_⟩
          simp only [eval, eval_mono_le E' (Nat.le_max_left f1 f2) h1]
          exact eval_mono_le E' (Nat.le_max_right f1 f2) h2
        · obtain ⟨f1, h1⟩ := h1 (fun e => by cases e)
          obtain ⟨f2, h2⟩ := ih _ _ _ _ _ he hne
          refine ⟨max f1 f2 + 1, ?_⟩
          simp only [eval, eval_mono_le E' (Nat.le_max_left f1 f2) h1]
          exact eval_mono_le E' (Nat.le_max_right f1 f2) h2
        · cases he; exact absurd rfl hne

end Plotline
