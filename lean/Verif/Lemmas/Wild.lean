import Verif.Lemmas.Tame

/-! The other way round: putting triggers that may hang in the place of triggers that return. -/

namespace Plotline

set_option linter.unusedSectionVars false

variable {σ : Sig}

/-- The program ends like this, or hangs. -/
def OrHangs (E : Env σ) (env : List Nat) (p : Prog σ) (s : St σ) (o : Out (Except Error σ.V)) (t : St σ) : Prop :=
  ∃ fuel, eval E fuel env p s = some (o, t) ∨ ∃ t', eval E fuel env p s = some (.stuck, t')

/-- Lists of triggers, the same or with another one at some places that ends like the first or hangs. -/
inductive Wild (E E' : Env σ) : List (Prog σ) → List (Prog σ) → Prop
  | nil : Wild E E' [] []
  | keep {p : Prog σ} {l l' : List (Prog σ)} : Wild E E' l l' → Wild E E' (p :: l) (p :: l')
  | wild {p p' : Prog σ} {l l' : List (Prog σ)} :
      (∀ fuel env s o t, eval E fuel env p s = some (o, t) → OrHangs E' env p' s o t) →
      Wild E E' l l' → Wild E E' (p :: l) (p' :: l')

variable {E E' : Env σ}

theorem triggers_wild {fuel f : Nat}
    (ih : ∀ (p : Prog σ) (s t : St σ) (o : Out (Except Error σ.V)), eval E fuel [f] p s = some (o, t) → OrHangs E' [f] p s o t)
    {l l' : List (Prog σ)} (hl : Wild E E' l l') : ∀ (s t : St σ) (o : Out (Except Error Unit)),
      tryForEach (eval E fuel [f]) l s = some (o, t) →
      ∃ fuel', tryForEach (eval E' fuel' [f]) l' s = some (o, t) ∨ ∃ t', tryForEach (eval E' fuel' [f]) l' s = some (.stuck, t') := by
  have step : ∀ (p p' : Prog σ) (l l' : List (Prog σ)),
      (∀ (s t : St σ) (o : Out (Except Error σ.V)), eval E fuel [f] p s = some (o, t) → OrHangs E' [f] p' s o t) →
      (∀ (s t : St σ) (o : Out (Except Error Unit)), tryForEach (eval E fuel [f]) l s = some (o, t) →
        ∃ fuel', tryForEach (eval E' fuel' [f]) l' s = some (o, t) ∨ ∃ t', tryForEach (eval E' fuel' [f]) l' s = some (.stuck, t')) →
      ∀ (s t : St σ) (o : Out (Except Error Unit)), tryForEach (eval E fuel [f]) (p :: l) s = some (o, t) →
        ∃ fuel', tryForEach (eval E' fuel' [f]) (p' :: l') s = some (o, t) ∨
          ∃ t', tryForEach (eval E' fuel' [f]) (p' :: l') s = some (.stuck, t') := by
    intro p p' l l' hp ihl s t o he
    simp only [tryForEach] at he
    cases hr : eval E fuel [f] p s with
    | none => simp [hr] at he
    | some q =>
      obtain ⟨o1, s1⟩ := q
      rw [hr] at he
      obtain ⟨f1, h1 | ⟨t', h1⟩⟩ := hp s _ _ hr
      · rcases o1 with (e | v) | _ | _
        · cases he; exact ⟨f1, .inl (by simp only [tryForEach, h1])⟩
        · obtain ⟨f2, h2⟩ := ihl s1 t o he
          refine ⟨max f1 f2, ?_⟩
          simp only [tryForEach, eval_mono_le E' (Nat.le_max_left f1 f2) h1]
          rcases h2 with h2 | ⟨t', h2⟩
          · exact .inl (tryForEach_mono_le E' (Nat.le_max_right f1 f2) h2)
          · exact .inr ⟨t', tryForEach_mono_le E' (Nat.le_max_right f1 f2) h2⟩
        · cases he; exact ⟨f1, .inl (by simp only [tryForEach, h1])⟩
        · cases he; exact ⟨f1, .inl (by simp only [tryForEach, h1])⟩
      · exact ⟨f1, .inr ⟨t', by simp only [tryForEach, h1]⟩⟩
  induction hl with
  | nil => intro s t o he; cases he; exact ⟨0, .inl rfl⟩
  | @keep p l l' _ ihl => exact step p p l l' (fun s t o => ih p s t o) ihl
  | @wild p p' l l' hp _ ihl => exact step p p' l l' (fun s t o => hp fuel [f] s o t) ihl

/-- A program that comes to an end with triggers does so with the ones that may hang, in the same state, or hangs. -/
theorem eval_wild (hr : E'.resources = E.resources) (hf : ∀ s, Wild E E' (E.fire s) (E'.fire s)) :
    ∀ (fuel : Nat) (env : List Nat) (p : Prog σ) (s t : St σ) (o : Out (Except Error σ.V)), eval E fuel env p s = some (o, t) →
      OrHangs E' env p s o t := by
  have hblk : ∀ (s : St σ) (t : σ.Ty) (excl : Bool), s.resBlocks E' t excl = s.resBlocks E t excl := by
    intro s t excl; unfold St.resBlocks; rw [hr]
  intro fuel
  induction fuel with
  | zero => intro env p s t o h; simp [eval] at h
  | succ fuel ih =>
    intro env p s t o he
    have now : ∀ {env1 : List Nat} {p1 : Prog σ} {s0 : St σ}, eval E' 1 env1 p1 s0 = some (o, t) → OrHangs E' env1 p1 s0 o t :=
      fun h => ⟨1, .inl h⟩
    have next : ∀ {q : Prog σ} {s1 : St σ} {env1 : List Nat} {p1 : Prog σ} {s0 : St σ},
        eval E fuel env1 q s1 = some (o, t) → (∀ f, eval E' (f + 1) env1 p1 s0 = eval E' f env1 q s1) →
        OrHangs E' env1 p1 s0 o t := by
      intro q s1 env1 p1 s0 he' hst
      obtain ⟨f1, h1 | ⟨t', h1⟩⟩ := ih _ _ _ _ _ he'
      · exact ⟨f1 + 1, .inl (by rw [hst]; exact h1)⟩
      · exact ⟨f1 + 1, .inr ⟨t', by rw [hst]; exact h1⟩⟩
    have andThen : ∀ {f1 : Nat} {q : Prog σ} {s1 : St σ} {env1 : List Nat} {p1 : Prog σ} {s0 : St σ},
        eval E fuel env1 q s1 = some (o, t) → (∀ f, f1 ≤ f → eval E' (f + 1) env1 p1 s0 = eval E' f env1 q s1) →
        OrHangs E' env1 p1 s0 o t := by
      intro f1 q s1 env1 p1 s0 he' hst
      obtain ⟨f2, h1 | ⟨t', h1⟩⟩ := ih _ _ _ _ _ he'
      · exact ⟨max f1 f2 + 1, .inl (by rw [hst _ (Nat.le_max_left ..)]; exact eval_mono_le E' (Nat.le_max_right f1 f2) h1)⟩
      · exact ⟨max f1 f2 + 1, .inr ⟨t', by rw [hst _ (Nat.le_max_left ..)]; exact eval_mono_le E' (Nat.le_max_right f1 f2) h1⟩⟩
    cases p with
    | done r => exact now he
    | panic => exact now he
    | reenter => exact now he
    | save c n k =>
      cases hc : env[c]? with
      | none => simp only [eval, hc] at he; cases he; exact now (by simp only [eval, hc])
      | some f => simp only [eval, hc] at he; exact next he (fun f => by simp only [eval, hc])
    | delete c n k =>
      cases hc : env[c]? with
      | none => simp only [eval, hc] at he; cases he; exact now (by simp only [eval, hc])
      | some f => simp only [eval, hc] at he; exact next he (fun f => by simp only [eval, hc])
    | get c i k =>
      cases hc : env[c]? with
      | none => simp only [eval, hc] at he; cases he; exact now (by simp only [eval, hc])
      | some f => simp only [eval, hc] at he; exact next he (fun f => by simp only [eval, hc])
    | contains c i k =>
      cases hc : env[c]? with
      | none => simp only [eval, hc] at he; cases he; exact now (by simp only [eval, hc])
      | some f => simp only [eval, hc] at he; exact next he (fun f => by simp only [eval, hc])
    | withTarget n k =>
      cases hc : env[0]? with
      | none => simp only [eval, hc] at he; cases he; exact now (by simp only [eval, hc])
      | some f => simp only [eval, hc] at he; exact next he (fun f => by simp only [eval, hc])
    | forget k =>
      cases hc : env[0]? with
      | none => simp only [eval, hc] at he; cases he; exact now (by simp only [eval, hc])
      | some f => simp only [eval, hc] at he; exact next he (fun f => by simp only [eval, hc])
    | targetRead c k =>
      cases hc : env[c]? with
      | none => simp only [eval, hc] at he; cases he; exact now (by simp only [eval, hc])
      | some f => simp only [eval, hc] at he; exact next he (fun f => by simp only [eval, hc])
    | targetWrite c fn k =>
      cases hc : env[c]? with
      | none => simp only [eval, hc] at he; cases he; exact now (by simp only [eval, hc])
      | some f =>
        simp only [eval, hc] at he
        cases hx : readTarget s f with
        | none => simp only [hx] at he; exact next he (fun f => by simp only [eval, hc, hx])
        | some n =>
          simp only [hx] at he
          rcases hy : fn n with ⟨n', b⟩
          cases b <;> simp only [hy] at he
          · exact next he (fun f => by simp only [eval, hc, hx, hy])
          · cases he; exact now (by simp only [eval, hc, hx, hy])
    | tx c body k =>
      cases hc : env[c]? with
      | none => simp only [eval, hc] at he; cases he; exact now (by simp only [eval, hc])
      | some f =>
        simp only [eval, hc] at he
        cases hr : eval E fuel (s.frames.length :: env) body (openChild s f) with
        | none => simp [hr] at he
        | some q =>
          obtain ⟨o1, s1⟩ := q
          rw [hr] at he
          obtain ⟨f1, h1 | ⟨t', h1⟩⟩ := ih _ _ _ _ _ hr
          · rcases o1 with (e | v) | _ | _
            · exact andThen (f1 := f1) he fun f hle => by simp only [eval, hc, eval_mono_le E' hle h1]
            · exact andThen (f1 := f1) he fun f hle => by simp only [eval, hc, eval_mono_le E' hle h1]
            · cases he; exact ⟨f1 + 1, .inl (by simp only [eval, hc, h1])⟩
            · cases he; exact ⟨f1 + 1, .inl (by simp only [eval, hc, h1])⟩
          · exact ⟨f1 + 1, .inr ⟨_, by simp only [eval, hc, h1]; rfl⟩⟩
    | runTriggers c sch k =>
      rw [eval_fire] at he
      cases hc : env[c]? with
      | none => simp only [hc] at he; cases he; exact now (by rw [eval_fire]; simp only [hc])
      | some f =>
        simp only [hc] at he
        cases hr : tryForEach (eval E fuel [f]) (E.fire sch) s with
        | none => simp [hr] at he
        | some q =>
          obtain ⟨o1, s1⟩ := q
          rw [hr] at he
          obtain ⟨f1, h1 | ⟨t', h1⟩⟩ := triggers_wild (fun p s t o => ih [f] p s t o) (hf sch) s s1 o1 hr
          · rcases o1 with r | _ | _
            · exact andThen (f1 := f1) he fun f hle => by rw [eval_fire]; simp only [hc, tryForEach_mono_le E' hle h1]
            · cases he; exact ⟨f1 + 1, .inl (by rw [eval_fire]; simp only [hc, h1])⟩
            · cases he; exact ⟨f1 + 1, .inl (by rw [eval_fire]; simp only [hc, h1])⟩
          · exact ⟨f1 + 1, .inr ⟨t', by rw [eval_fire]; simp only [hc, h1]⟩⟩
    | resRead t k =>
      simp only [eval] at he
      split at he
      · rename_i hb; cases he; exact now (by simp only [eval]; rw [hblk, if_pos hb])
      · rename_i hb
        refine next he (fun f => ?_)
        simp only [eval]
        rw [hblk, if_neg hb, hr]
    | resWrite t fn k =>
      simp only [eval] at he
      split at he
      · rename_i hb; cases he; exact now (by simp only [eval]; rw [hblk, if_pos hb])
      · rename_i hb
        generalize hw : (E.resources.res t).withMut s.heap (fun v => ((fn v).1, if (fn v).2 then none else some ())) = w at he
        have hw' : (E'.resources.res t).withMut s.heap (fun v => ((fn v).1, if (fn v).2 then none else some ())) = w := by
          rw [hr]; exact hw
        obtain ⟨a, hp⟩ := w
        cases a with
        | unavailable => exact next he (fun f => by simp only [eval]; rw [hblk, if_neg hb, hw'])
        | ran u => exact next he (fun f => by simp only [eval]; rw [hblk, if_neg hb, hw'])
        | panicked => cases he; exact now (by simp only [eval]; rw [hblk, if_neg hb, hw'])
    | resScope t excl body k =>
      simp only [eval] at he
      cases hq : (E.resources.res t).lock with
      | none =>
        simp only [hq] at he
        exact next he (fun f => by simp only [eval, hr, hq])
      | some p =>
        simp only [hq] at he
        split at he
        · rename_i hb; cases he; exact now (by simp only [eval, hr, hq]; rw [if_pos hb])
        · rename_i hb
          cases hx : (E.resources.res t).peek s.heap with
          | none =>
            simp only [hx] at he
            exact next he (fun f => by simp only [eval, hr, hq]; rw [if_neg hb, hx])
          | some v =>
            simp only [hx] at he
            have key : ∀ f, eval E' (f + 1) env (.resScope t excl body k) s =
                match eval E' f env (body v) (lockRes s p excl) with
                | none => none
                | some (.ret r, s') => eval E' f env (k (some r)) (unlockRes s')
                | some (.panic, s') => some (.panic, unwindRes s' p excl)
                | some (.stuck, s') => some (.stuck, unlockRes s') := by
              intro f
              simp only [eval, hr, hq]
              rw [if_neg hb, hx]
              simp only
              generalize eval E' f env (body v) (lockRes s p excl) = q
              rcases q with _ | ⟨_ | _ | _, _⟩ <;> rfl
            cases hv : eval E fuel env (body v) (lockRes s p excl) with
            | none => simp [hv] at he
            | some q =>
              obtain ⟨o1, s1⟩ := q
              rw [hv] at he
              obtain ⟨f1, h1 | ⟨t', h1⟩⟩ := ih _ _ _ _ _ hv
              · rcases o1 with r | _ | _
                · exact andThen (f1 := f1) he fun f hle => by rw [key, eval_mono_le E' hle h1]
                · cases he; exact ⟨f1 + 1, .inl (by rw [key, h1])⟩
                · cases he; exact ⟨f1 + 1, .inl (by rw [key, h1])⟩
              · exact ⟨f1 + 1, .inr ⟨unlockRes t', by rw [key, h1]⟩⟩
    | resAssign t x k =>
      simp only [eval] at he
      cases hq : (E.resources.res t).lock with
      | none => simp only [hq] at he; cases he; exact now (by simp only [eval, hr, hq])
      | some p =>
        simp only [hq] at he
        split at he
        · rename_i hc
          exact next he (fun f => by simp only [eval, hr, hq]; rw [if_pos hc])
        · rename_i hc; cases he; exact now (by simp only [eval, hr, hq]; rw [if_neg hc])
    | catchUnwind body k =>
      simp only [eval] at he
      cases hv : eval E fuel env body s with
      | none => simp [hv] at he
      | some q =>
        obtain ⟨o1, s1⟩ := q
        rw [hv] at he
        obtain ⟨f1, h1 | ⟨t', h1⟩⟩ := ih _ _ _ _ _ hv
        · rcases o1 with r | _ | _
          · exact andThen (f1 := f1) he fun f hle => by simp only [eval, eval_mono_le E' hle h1]
          · exact andThen (f1 := f1) he fun f hle => by simp only [eval, eval_mono_le E' hle h1]
          · cases he; exact ⟨f1 + 1, .inl (by simp only [eval, h1])⟩
        · exact ⟨f1 + 1, .inr ⟨t', by simp only [eval, h1]⟩⟩

/-- The second program ends like the first where the first does not hang, and the first like the second or hangs. -/
structure Softer (p p' : Prog σ) : Prop where
  tame : ∀ (E E' : Env σ), E'.resources = E.resources → ∀ fuel env s o t,
    eval E fuel env p s = some (o, t) → o ≠ .stuck → ∃ fuel', eval E' fuel' env p' s = some (o, t)
  wild : ∀ (E E' : Env σ), E'.resources = E.resources → ∀ fuel env s o t,
    eval E fuel env p' s = some (o, t) → OrHangs E' env p s o t

theorem Softer.done (r : Except Error σ.V) : Softer (σ := σ) (.done r) (.done r) := by
  refine ⟨fun E E' _ n env s o t he _ => ?_, fun E E' _ n env s o t he => ?_⟩
  · cases n with
    | zero => cases he
    | succ n => exact ⟨1, he⟩
  · cases n with
    | zero => cases he
    | succ n => exact ⟨1, .inl he⟩

theorem Softer.hangs (p : Prog σ) : Softer .reenter p := by
  refine ⟨fun E E' _ n env s o t he hne => ?_, fun E E' _ n env s o t he => ⟨1, .inr ⟨s, rfl⟩⟩⟩
  cases n with
  | zero => cases he
  | succ n => cases he; exact absurd rfl hne

theorem OrHangs.of {E' : Env σ} {env : List Nat} {p q : Prog σ} {s s1 t : St σ} {o : Out (Except Error σ.V)}
    (h : OrHangs E' env q s1 o t) (hst : ∀ f, eval E' (f + 1) env p s = eval E' f env q s1) : OrHangs E' env p s o t := by
  obtain ⟨f1, h1 | ⟨t', h1⟩⟩ := h
  · exact ⟨f1 + 1, .inl (by rw [hst]; exact h1)⟩
  · exact ⟨f1 + 1, .inr ⟨t', by rw [hst]; exact h1⟩⟩

theorem Softer.target {c : Nat} {k k' : Option σ.T → Prog σ} (h : ∀ a, Softer (k a) (k' a)) :
    Softer (.targetRead c k) (.targetRead c k') := by
  refine ⟨fun E E' hr n env s o t he hne => ?_, fun E E' hr n env s o t he => ?_⟩
  · cases n with
    | zero => cases he
    | succ n =>
      simp only [eval] at he
      cases hc : env[c]? with
      | none => rw [hc] at he; cases he; exact absurd rfl hne
      | some f =>
        rw [hc] at he
        obtain ⟨n', h'⟩ := (h _).tame E E' hr n env s o t he hne
        exact ⟨n' + 1, by simp only [eval, hc]; exact h'⟩
  · cases n with
    | zero => cases he
    | succ n =>
      simp only [eval] at he
      cases hc : env[c]? with
      | none => rw [hc] at he; cases he; exact ⟨1, .inl (by simp only [eval, hc])⟩
      | some f =>
        rw [hc] at he
        exact ((h _).wild E E' hr n env s o t he).of fun f => by simp only [eval, hc]

theorem Softer.read {t : σ.Ty} {k k' : Option (σ.Val t) → Prog σ} (h : ∀ a, Softer (k a) (k' a)) :
    Softer (.resRead t k) (.resRead t k') := by
  have hblk : ∀ {E E' : Env σ} (_ : E'.resources = E.resources) (s : St σ), s.resBlocks E' t false = s.resBlocks E t false := by
    intro E E' hr s; unfold St.resBlocks; rw [hr]
  refine ⟨fun E E' hr n env s o s1 he hne => ?_, fun E E' hr n env s o s1 he => ?_⟩
  · cases n with
    | zero => cases he
    | succ n =>
      simp only [eval] at he
      split at he
      · cases he; exact absurd rfl hne
      · rename_i hw
        obtain ⟨n', h'⟩ := (h _).tame E E' hr n env s o s1 he hne
        exact ⟨n' + 1, by simp only [eval]; rw [hblk hr, hr, if_neg hw]; exact h'⟩
  · cases n with
    | zero => cases he
    | succ n =>
      simp only [eval] at he
      split at he
      · rename_i hw; cases he; exact ⟨1, .inl (by simp only [eval]; rw [hblk hr, if_pos hw])⟩
      · rename_i hw
        exact ((h _).wild E E' hr n env s o s1 he).of fun f => by simp only [eval]; rw [hblk hr, hr, if_neg hw]

theorem Softer.write {t : σ.Ty} {fn : σ.Val t → σ.Val t × Bool} {k k' : Bool → Prog σ} (h : ∀ a, Softer (k a) (k' a)) :
    Softer (.resWrite t fn k) (.resWrite t fn k') := by
  have hblk : ∀ {E E' : Env σ} (_ : E'.resources = E.resources) (s : St σ), s.resBlocks E' t true = s.resBlocks E t true := by
    intro E E' hr s; unfold St.resBlocks; rw [hr]
  refine ⟨fun E E' hr n env s o s1 he hne => ?_, fun E E' hr n env s o s1 he => ?_⟩
  · cases n with
    | zero => cases he
    | succ n =>
      simp only [eval] at he
      split at he
      · cases he; exact absurd rfl hne
      · rename_i hw
        cases hm : (E.resources.res t).withMut s.heap (fun v => ((fn v).1, if (fn v).2 then none else some ())) with
        | mk r heap' =>
          rw [hm] at he
          cases r with
          | unavailable =>
            obtain ⟨n', h'⟩ := (h _).tame E E' hr n env s o s1 he hne
            exact ⟨n' + 1, by simp only [eval]; rw [hblk hr, hr, if_neg hw, hm]; exact h'⟩
          | ran u =>
            obtain ⟨n', h'⟩ := (h _).tame E E' hr n env _ o s1 he hne
            exact ⟨n' + 1, by simp only [eval]; rw [hblk hr, hr, if_neg hw, hm]; exact h'⟩
          | panicked => exact ⟨n + 1, by simp only [eval]; rw [hblk hr, hr, if_neg hw, hm]; exact he⟩
  · cases n with
    | zero => cases he
    | succ n =>
      simp only [eval] at he
      split at he
      · rename_i hw; cases he; exact ⟨1, .inl (by simp only [eval]; rw [hblk hr, if_pos hw])⟩
      · rename_i hw
        cases hm : (E.resources.res t).withMut s.heap (fun v => ((fn v).1, if (fn v).2 then none else some ())) with
        | mk r heap' =>
          rw [hm] at he
          cases r with
          | unavailable =>
            exact ((h _).wild E E' hr n env s o s1 he).of fun f => by simp only [eval]; rw [hblk hr, hr, if_neg hw, hm]
          | ran u =>
            exact ((h _).wild E E' hr n env _ o s1 he).of fun f => by simp only [eval]; rw [hblk hr, hr, if_neg hw, hm]
          | panicked => exact ⟨1, .inl (by simp only [eval]; rw [hblk hr, hr, if_neg hw, hm]; exact he)⟩

/-- Lists of triggers that differ in that only. -/
inductive Softened : List (Prog σ) → List (Prog σ) → Prop
  | nil : Softened [] []
  | keep {p : Prog σ} {l l' : List (Prog σ)} : Softened l l' → Softened (p :: l) (p :: l')
  | soft {p p' : Prog σ} {l l' : List (Prog σ)} : Softer p p' → Softened l l' → Softened (p :: l) (p' :: l')

theorem Softened.tamed (hr : E'.resources = E.resources) {l l' : List (Prog σ)} (h : Softened l l') : Tamed E E' l l' := by
  induction h with
  | nil => exact .nil
  | keep _ ih => exact .keep ih
  | soft h _ ih => exact .tame (h.tame E E' hr) ih

theorem Softened.wild (hr : E'.resources = E.resources) {l l' : List (Prog σ)} (h : Softened l l') : Wild E E' l' l := by
  induction h with
  | nil => exact .nil
  | keep _ ih => exact .keep ih
  | soft h _ ih => exact .wild (h.wild E E' hr) ih

theorem Softened.refl (l : List (Prog σ)) : Softened l l := by
  induction l with
  | nil => exact .nil
  | cons p l ih => exact .keep ih

theorem Softened.append {l l' m m' : List (Prog σ)} (h : Softened l l') (hm : Softened m m') : Softened (l ++ m) (l' ++ m') := by
  induction h with
  | nil => exact hm
  | keep _ ih => exact .keep ih
  | soft h _ ih => exact .soft h ih

/-- Schemas that differ in such triggers only. -/
structure Gentle (S S' : Schema σ) : Prop where
  graph : S'.graph = S.graph
  heap : S'.heap = S.heap
  resources : S'.env.resources = S.env.resources
  fires : ∀ s, Softened (S.env.fire s) (S'.env.fire s)

theorem Gentle.begin {S S' : Schema σ} (h : Gentle S S') (pre : List (Operation σ.K σ.T)) : S'.begin pre = S.begin pre := by
  unfold Schema.begin
  rw [guard_graph, guard_graph, h.graph, h.heap]

theorem transact_tame {S S' S1 : Schema σ} (h : Gentle S S')
    {fuel : Nat} {pre : List (Operation σ.K σ.T)} {body : Prog σ} {o : Out (Except Error σ.V)}
    (ht : S.transact fuel pre body = some (o, S1)) (hne : o ≠ .stuck) :
    ∃ fuel' S1', S'.transact fuel' pre body = some (o, S1') ∧ Gentle S1 S1' := by
  unfold Schema.transact at ht
  cases he : eval S.env fuel [0] body (S.begin pre) with
  | none => simp [he] at ht
  | some q =>
    obtain ⟨o1, s1⟩ := q
    rw [he] at ht
    have h1 : o1 ≠ .stuck → ∃ f1, eval S'.env f1 [0] body (S'.begin pre) = some (o1, s1) := by
      rw [h.begin]; exact eval_tame h.resources (fun s => (h.fires s).tamed h.resources) fuel [0] body _ _ _ he
    rcases o1 with (e | v) | _ | _
    · cases ht
      obtain ⟨f1, h1⟩ := h1 (fun e => by cases e)
      exact ⟨f1, { S' with graph := s1.graph, heap := s1.heap }, by unfold Schema.transact; rw [h1], rfl, rfl, h.resources, h.fires⟩
    · cases ht
      obtain ⟨f1, h1⟩ := h1 (fun e => by cases e)
      exact ⟨f1, { S' with graph := commitRoot s1, heap := s1.heap }, by unfold Schema.transact; rw [h1], rfl, rfl, h.resources, h.fires⟩
    · cases ht
      obtain ⟨f1, h1⟩ := h1 (fun e => by cases e)
      exact ⟨f1, { S' with graph := s1.graph, heap := s1.heap, poisoned := true }, by unfold Schema.transact; rw [h1], rfl, rfl,
        h.resources, h.fires⟩
    · cases ht; exact absurd rfl hne

theorem gives_tame {S S' S1 : Schema σ} {u : Use σ} {a : Seen σ} (hS : Sane S) (hS' : Sane S') (h : Gentle S S')
    (hg : Gives S u a S1) : ∃ S1', Gives S' u a S1' ∧ Gentle S1 S1' := by
  cases hg with
  | register t v =>
    refine ⟨_, .register S' t v, h.graph, ?_, ?_, h.fires⟩
    · show S'.heap ++ _ = S.heap ++ _; rw [h.heap]
    · show (S'.env.resources.withResource S'.heap t v).1 = (S.env.resources.withResource S.heap t v).1
      rw [h.heap, h.resources]
  | trigger s p =>
    refine ⟨_, .trigger S' s p, h.graph, h.heap, h.resources, fun s' => ?_⟩
    rw [fire_withTrigger hS, fire_withTrigger hS']
    split
    · exact (h.fires s').append (.refl _)
    · exact h.fires s'
  | tx ht hne =>
    obtain ⟨f, S1', h1, h2⟩ := transact_tame h ht hne
    exact ⟨S1', .tx h1 hne, h2⟩
  | update op =>
    refine ⟨_, .update S' op, ?_, h.heap, h.resources, h.fires⟩
    show S'.guard.applyOp op = S.guard.applyOp op
    rw [guard_graph, guard_graph, h.graph]
  | get i =>
    have : S.guard = S'.guard := by rw [guard_graph, guard_graph, h.graph]
    rw [this]; exact ⟨S', .get S' i, h⟩
  | iter =>
    have : S.guard = S'.guard := by rw [guard_graph, guard_graph, h.graph]
    rw [this]; exact ⟨S', .iter S', h⟩
  | read t =>
    rw [← h.heap, ← h.resources]; exact ⟨S', .read S' t, h⟩
  | write t f =>
    have := Gives.write S' t f
    rw [h.heap, h.resources] at this
    exact ⟨_, this, h.graph, rfl, h.resources, h.fires⟩

theorem session_tame [LawfulSig σ] {S S1 : Schema σ} {l : List (Use σ × Seen σ)} (hl : Session S l S1) :
    ∀ S' : Schema σ, Sane S → Sane S' → Gentle S S' → ∃ S1', Session S' l S1' ∧ Gentle S1 S1' := by
  induction hl with
  | nil S => intro S' _ _ h; exact ⟨S', .nil S', h⟩
  | cons h1 _ ih =>
    intro S' hS hS' h
    obtain ⟨S2', h2, h3⟩ := gives_tame hS hS' h h1
    obtain ⟨S1', h4, h5⟩ := ih S2' (sane_gives hS h1) (sane_gives hS' h2) h3
    exact ⟨S1', .cons h2 h4, h5⟩

theorem transact_wild {S S' S1' : Schema σ} (h : Gentle S S')
    {fuel : Nat} {pre : List (Operation σ.K σ.T)} {body : Prog σ} {o : Out (Except Error σ.V)}
    (ht : S'.transact fuel pre body = some (o, S1')) (hne : o ≠ .stuck) :
    (∃ fuel' S1, S.transact fuel' pre body = some (o, S1) ∧ Gentle S1 S1') ∨
      ∃ fuel' S1, S.transact fuel' pre body = some (.stuck, S1) := by
  unfold Schema.transact at ht
  cases he : eval S'.env fuel [0] body (S'.begin pre) with
  | none => simp [he] at ht
  | some q =>
    obtain ⟨o1, s1⟩ := q
    rw [he] at ht
    have h1 : OrHangs S.env [0] body (S.begin pre) o1 s1 := by
      rw [← h.begin]; exact eval_wild h.resources.symm (fun s => (h.fires s).wild h.resources.symm) fuel [0] body _ _ _ he
    obtain ⟨f1, h1 | ⟨t', h1⟩⟩ := h1
    · left
      rcases o1 with (e | v) | _ | _
      · cases ht
        exact ⟨f1, { S with graph := s1.graph, heap := s1.heap }, by unfold Schema.transact; rw [h1], rfl, rfl, h.resources, h.fires⟩
      · cases ht
        exact ⟨f1, { S with graph := commitRoot s1, heap := s1.heap }, by unfold Schema.transact; rw [h1], rfl, rfl, h.resources, h.fires⟩
      · cases ht
        exact ⟨f1, { S with graph := s1.graph, heap := s1.heap, poisoned := true }, by unfold Schema.transact; rw [h1], rfl, rfl,
          h.resources, h.fires⟩
      · cases ht; exact absurd rfl hne
    · right
      exact ⟨f1, { S with graph := t'.graph, heap := t'.heap }, by unfold Schema.transact; rw [h1]⟩

theorem gives_wild {S S' S1' : Schema σ} {u : Use σ} {a : Seen σ} (hS : Sane S) (hS' : Sane S') (h : Gentle S S')
    (hg : Gives S' u a S1') : (∃ S1, Gives S u a S1 ∧ Gentle S1 S1') ∨
      ∃ pre body fuel S1, u = .tx pre body ∧ S.transact fuel pre body = some (.stuck, S1) := by
  cases hg with
  | register t v =>
    refine .inl ⟨_, .register S t v, h.graph, ?_, ?_, h.fires⟩
    · show S'.heap ++ _ = S.heap ++ _; rw [h.heap]
    · show (S'.env.resources.withResource S'.heap t v).1 = (S.env.resources.withResource S.heap t v).1
      rw [h.heap, h.resources]
  | trigger s p =>
    refine .inl ⟨_, .trigger S s p, h.graph, h.heap, h.resources, fun s' => ?_⟩
    rw [fire_withTrigger hS, fire_withTrigger hS']
    split
    · exact (h.fires s').append (.refl _)
    · exact h.fires s'
  | tx ht hne =>
    rcases transact_wild h ht hne with ⟨f, S1, h1, h2⟩ | ⟨f, S1, h1⟩
    · exact .inl ⟨S1, .tx h1 hne, h2⟩
    · exact .inr ⟨_, _, f, S1, rfl, h1⟩
  | update op =>
    refine .inl ⟨_, .update S op, ?_, h.heap, h.resources, h.fires⟩
    show S'.guard.applyOp op = S.guard.applyOp op
    rw [guard_graph, guard_graph, h.graph]
  | get i =>
    have : S'.guard = S.guard := by rw [guard_graph, guard_graph, h.graph]
    rw [this]; exact .inl ⟨S, .get S i, h⟩
  | iter =>
    have : S'.guard = S.guard := by rw [guard_graph, guard_graph, h.graph]
    rw [this]; exact .inl ⟨S, .iter S, h⟩
  | read t =>
    rw [h.heap, h.resources]; exact .inl ⟨S, .read S t, h⟩
  | write t f =>
    have := Gives.write S t f
    rw [← h.heap, ← h.resources] at this
    exact .inl ⟨_, this, h.graph, rfl, h.resources, h.fires⟩

theorem session_wild [LawfulSig σ] {S' S1' : Schema σ} {l : List (Use σ × Seen σ)} (hl : Session S' l S1') :
    ∀ S : Schema σ, Sane S → Sane S' → Gentle S S' → (∃ S1, Session S l S1 ∧ Gentle S1 S1') ∨
      ∃ l1 pre body a l2 S2 fuel S3, l = l1 ++ (.tx pre body, a) :: l2 ∧ Session S l1 S2 ∧
        S2.transact fuel pre body = some (.stuck, S3) := by
  induction hl with
  | nil S' => intro S _ _ h; exact .inl ⟨S, .nil S, h⟩
  | @cons S' S2' S3' u a l h1 _ ih =>
    intro S hS hS' h
    rcases gives_wild hS hS' h h1 with ⟨S2, h2, h3⟩ | ⟨pre, body, f, S3, rfl, h3⟩
    · rcases ih S2 (sane_gives hS h2) (sane_gives hS' h1) h3 with ⟨S1, h4, h5⟩ | ⟨l1, pre, body, b, l2, S4, f, S5, e, h4, h5⟩
      · exact .inl ⟨S1, .cons h2 h4, h5⟩
      · exact .inr ⟨(u, a) :: l1, pre, body, b, l2, S4, f, S5, by rw [e]; rfl, .cons h2 h4, h5⟩
    · exact .inr ⟨[], pre, body, a, l, S, f, S3, rfl, .nil _, h3⟩

end Plotline
