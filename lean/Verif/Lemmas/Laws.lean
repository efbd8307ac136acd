import Verif.Spec.Laws
import Verif.Lemmas.Alike
import Verif.Lemmas.Contexts

/-! Rewriting by the laws is not noticed. -/

namespace Plotline

set_option linter.unusedSectionVars false

variable {σ : Sig}

/-! ## Running programs without fuel, given what firing triggers does -/

/-- Firing the triggers of a scheduler on a context. -/
abbrev Firing (σ : Sig) := Nat → Sched → St σ → Option (Out (Except Error Unit) × St σ)

/-- `eval` by recursion on the program. -/
def evalBy (R : ResourceSet σ.Ty) (fire : Firing σ) : Prog σ → List Nat → St σ → Option (Out (Except Error σ.V) × St σ)
  | .done r, _, s => some (.ret r, s)
  | .panic, _, s => some (.panic, s)
  | .reenter, _, s => some (.stuck, s)
  | .save c n k, env, s =>
    match env[c]? with
    | none => some (.stuck, s)
    | some f => evalBy R fire k env (pushOp s f (.save n))
  | .delete c i k, env, s =>
    match env[c]? with
    | none => some (.stuck, s)
    | some f => evalBy R fire k env (pushOp s f (.delete i))
  | .get c i k, env, s =>
    match env[c]? with
    | none => some (.stuck, s)
    | some f => evalBy R fire (k (ctxGet s.graph s.frames f i)) env s
  | .contains c i k, env, s =>
    match env[c]? with
    | none => some (.stuck, s)
    | some f => evalBy R fire (k (ctxContains s.graph s.frames f i)) env s
  | .tx c body k, env, s =>
    match env[c]? with
    | none => some (.stuck, s)
    | some f =>
      match evalBy R fire body (s.frames.length :: env) (openChild s f) with
      | none => none
      | some (.ret (.ok v), s') => evalBy R fire (k (.ok v)) env (commitChild s' s.frames.length)
      | some (.ret (.error e), s') => evalBy R fire (k (.error e)) env (closeChild s' s.frames.length)
      | some (.panic, s') => some (.panic, closeChild s' s.frames.length)
      | some (.stuck, s') => some (.stuck, closeChild s' s.frames.length)
  | .runTriggers c sch k, env, s =>
    match env[c]? with
    | none => some (.stuck, s)
    | some f =>
      match fire f sch s with
      | none => none
      | some (.ret r, s') => evalBy R fire (k r) env s'
      | some (.panic, s') => some (.panic, s')
      | some (.stuck, s') => some (.stuck, s')
  | .withTarget n k, env, s =>
    match env[0]? with
    | none => some (.stuck, s)
    | some f => evalBy R fire k env (setTarget s f n)
  | .targetRead c k, env, s =>
    match env[c]? with
    | none => some (.stuck, s)
    | some f => evalBy R fire (k (readTarget s f)) env s
  | .targetWrite c fn k, env, s =>
    match env[c]? with
    | none => some (.stuck, s)
    | some f =>
      match readTarget s f with
      | none => evalBy R fire (k false) env s
      | some n =>
        match fn n with
        | (n', false) => evalBy R fire (k true) env (writeTarget s f n' false)
        | (n', true) => some (.panic, writeTarget s f n' true)
  | .resRead t k, env, s =>
    if s.resBlocks ⟨TriggerSet.empty, R⟩ t false then some (.stuck, s)
    else evalBy R fire (k ((R.res t).peek s.heap)) env s
  | .resWrite t fn k, env, s =>
    if s.resBlocks ⟨TriggerSet.empty, R⟩ t true then some (.stuck, s)
    else match (R.res t).withMut s.heap (fun v => ((fn v).1, if (fn v).2 then none else some ())) with
    | (.unavailable, _) => evalBy R fire (k false) env s
    | (.ran _, heap') => evalBy R fire (k true) env { s with heap := heap' }
    | (.panicked, heap') => some (.panic, { s with heap := heap' })
  | .resScope t excl body k, env, s =>
    match (R.res t).lock with
    | none => evalBy R fire (k none) env s
    | some p =>
      if s.blocks p excl then some (.stuck, s)
      else match (R.res t).peek s.heap with
        | none => evalBy R fire (k none) env s
        | some v =>
          match evalBy R fire (body v) env (lockRes s p excl) with
          | none => none
          | some (.ret r, s') => evalBy R fire (k (some r)) env (unlockRes s')
          | some (.panic, s') => some (.panic, unwindRes s' p excl)
          | some (.stuck, s') => some (.stuck, unlockRes s')
  | .resAssign t x k, env, s =>
    match (R.res t).lock with
    | none => some (.stuck, s)
    | some p => if s.locks.contains (p, true) then evalBy R fire k env (assignRes s p t x) else some (.stuck, s)
  | .catchUnwind body k, env, s =>
    match evalBy R fire body env s with
    | none => none
    | some (.ret r, s') => evalBy R fire (k (some r)) env s'
    | some (.panic, s') => evalBy R fire (k none) env s'
    | some (.stuck, s') => some (.stuck, s')
  | .forget k, env, s =>
    match env[0]? with
    | none => some (.stuck, s)
    | some f => evalBy R fire k env (leakFrame s f)

/-- Firing triggers that fire triggers, up to so many levels. -/
def fireBy (E : Env σ) : Nat → Firing σ
  | 0 => fun _ sch s => if (E.fire sch).isEmpty then some (.ret (.ok ()), s) else none
  | n + 1 => fun f sch s => tryForEach (fun p s => evalBy E.resources (fireBy E n) p [f] s) (E.fire sch) s

theorem resBlocks_env {E E' : Env σ} (h : E'.resources = E.resources) (s : St σ) (t : σ.Ty) (excl : Bool) :
    s.resBlocks E' t excl = s.resBlocks E t excl := by unfold St.resBlocks; rw [h]

theorem evalBy_mono {R : ResourceSet σ.Ty} {fire fire' : Firing σ} (hf : ∀ f sch s r, fire f sch s = some r → fire' f sch s = some r)
    (p : Prog σ) : ∀ env s r, evalBy R fire p env s = some r → evalBy R fire' p env s = some r := by
  induction p with
  | done => intro env s r h; exact h
  | panic => intro env s r h; exact h
  | reenter => intro env s r h; exact h
  | save c n k ih =>
    intro env s r h; simp only [evalBy] at h ⊢
    split at h
    · exact h
    · exact ih _ _ _ h
  | delete c n k ih =>
    intro env s r h; simp only [evalBy] at h ⊢
    split at h
    · exact h
    · exact ih _ _ _ h
  | get c n k ih =>
    intro env s r h; simp only [evalBy] at h ⊢
    split at h
    · exact h
    · exact ih _ _ _ _ h
  | contains c n k ih =>
    intro env s r h; simp only [evalBy] at h ⊢
    split at h
    · exact h
    · exact ih _ _ _ _ h
  | tx c b k ihb ihk =>
    intro env s r h; simp only [evalBy] at h ⊢
    split at h
    · exact h
    · rename_i f hc
      cases hb : evalBy R fire b (s.frames.length :: env) (openChild s f) with
      | none => rw [hb] at h; cases h
      | some q =>
        rw [hb] at h
        simp only [ihb _ _ _ hb]
        obtain ⟨o, s1⟩ := q
        rcases o with (_ | _) | _ | _
        · exact ihk _ _ _ _ h
        · exact ihk _ _ _ _ h
        · exact h
        · exact h
  | runTriggers c sch k ih =>
    intro env s r h; simp only [evalBy] at h ⊢
    split at h
    · exact h
    · rename_i f hc
      cases hb : fire f sch s with
      | none => rw [hb] at h; cases h
      | some q =>
        rw [hb] at h
        simp only [hf _ _ _ _ hb]
        obtain ⟨o, s1⟩ := q
        rcases o with _ | _ | _
        · exact ih _ _ _ _ h
        · exact h
        · exact h
  | withTarget n k ih =>
    intro env s r h; simp only [evalBy] at h ⊢
    split at h
    · exact h
    · exact ih _ _ _ h
  | targetRead c k ih =>
    intro env s r h; simp only [evalBy] at h ⊢
    split at h
    · exact h
    · exact ih _ _ _ _ h
  | targetWrite c fn k ih =>
    intro env s r h; simp only [evalBy] at h ⊢
    split at h
    · exact h
    · split at h
      · exact ih _ _ _ _ h
      · split at h
        · exact ih _ _ _ _ h
        · exact h
  | resRead t k ih =>
    intro env s r h; simp only [evalBy] at h ⊢
    split at h
    · rename_i hc; rw [if_pos hc]; exact h
    · rename_i hc; rw [if_neg hc]; exact ih _ _ _ _ h
  | resWrite t fn k ih =>
    intro env s r h; simp only [evalBy] at h ⊢
    split at h
    · rename_i hc; rw [if_pos hc]; exact h
    · rename_i hc; rw [if_neg hc]
      split at h
      · exact ih _ _ _ _ h
      · exact ih _ _ _ _ h
      · exact h
  | resScope t excl b k ihb ihk =>
    intro env s r h; simp only [evalBy] at h ⊢
    split at h
    · exact ihk _ _ _ _ h
    · rename_i p hp
      split at h
      · rename_i hc; rw [if_pos hc]; exact h
      · rename_i hc; rw [if_neg hc]
        split at h
        · exact ihk _ _ _ _ h
        · rename_i v hv
          cases hb : evalBy R fire (b v) env (lockRes s p excl) with
          | none => rw [hb] at h; cases h
          | some q =>
            rw [hb] at h
            simp only [ihb _ _ _ _ hb]
            obtain ⟨o, s1⟩ := q
            rcases o with _ | _ | _
            · exact ihk _ _ _ _ h
            · exact h
            · exact h
  | resAssign t x k ih =>
    intro env s r h; simp only [evalBy] at h ⊢
    split at h
    · exact h
    · split at h
      · rename_i hc; rw [if_pos hc]; exact ih _ _ _ h
      · rename_i hc; rw [if_neg hc]; exact h
  | catchUnwind b k ihb ihk =>
    intro env s r h; simp only [evalBy] at h ⊢
    cases hb : evalBy R fire b env s with
    | none => rw [hb] at h; cases h
    | some q =>
      rw [hb] at h
      simp only [ihb _ _ _ hb]
      obtain ⟨o, s1⟩ := q
      rcases o with _ | _ | _
      · exact ihk _ _ _ _ h
      · exact ihk _ _ _ _ h
      · exact h
  | forget k ih =>
    intro env s r h; simp only [evalBy] at h ⊢
    split at h
    · exact h
    · exact ih _ _ _ h

theorem fireBy_succ (E : Env σ) (n : Nat) : ∀ f sch s r, fireBy E n f sch s = some r → fireBy E (n + 1) f sch s = some r := by
  induction n with
  | zero =>
    intro f sch s r h
    simp only [fireBy] at h ⊢
    split at h
    · rename_i he; rw [List.isEmpty_iff.mp he]; exact h
    · cases h
  | succ n ih =>
    intro f sch s r h
    exact tryForEach_mono (fun t s r h => evalBy_mono ih t [f] s r h) _ _ _ h

theorem fireBy_le (E : Env σ) {n m : Nat} (h : n ≤ m) : ∀ f sch s r, fireBy E n f sch s = some r → fireBy E m f sch s = some r := by
  induction h with
  | refl => intro f sch s r h; exact h
  | step _ ih => intro f sch s r h; exact fireBy_succ E _ f sch s r (ih f sch s r h)

theorem evalBy_of_eval (E : Env σ) (fuel : Nat) : ∀ (p : Prog σ) (env : List Nat) (s : St σ) (r : Out (Except Error σ.V) × St σ),
    eval E fuel env p s = some r → evalBy E.resources (fireBy E fuel) p env s = some r := by
  induction fuel with
  | zero => intro p env s r h; simp [eval] at h
  | succ fuel ih =>
    have ih' : ∀ (p : Prog σ) (env : List Nat) (s : St σ) (r : Out (Except Error σ.V) × St σ),
        eval E fuel env p s = some r → evalBy E.resources (fireBy E (fuel + 1)) p env s = some r :=
      fun p env s r h => evalBy_mono (fireBy_succ E fuel) p env s r (ih p env s r h)
    have hrb : ∀ (s : St σ) t excl, s.resBlocks ⟨TriggerSet.empty, E.resources⟩ t excl = s.resBlocks E t excl :=
      fun s t excl => resBlocks_env rfl s t excl
    intro p env s r h
    cases p with
    | done => simpa only [eval, evalBy] using h
    | panic => simpa only [eval, evalBy] using h
    | reenter => simpa only [eval, evalBy] using h
    | save c n k =>
      simp only [eval] at h; simp only [evalBy]
      split at h
      · rename_i hc; simp only [hc]; exact h
      · rename_i hc; simp only [hc]; exact ih' _ _ _ _ h
    | delete c n k =>
      simp only [eval] at h; simp only [evalBy]
      split at h
      · rename_i hc; simp only [hc]; exact h
      · rename_i hc; simp only [hc]; exact ih' _ _ _ _ h
    | get c n k =>
      simp only [eval] at h; simp only [evalBy]
      split at h
      · rename_i hc; simp only [hc]; exact h
      · rename_i hc; simp only [hc]; exact ih' _ _ _ _ h
    | contains c n k =>
      simp only [eval] at h; simp only [evalBy]
      split at h
      · rename_i hc; simp only [hc]; exact h
      · rename_i hc; simp only [hc]; exact ih' _ _ _ _ h
    | tx c b k =>
      simp only [eval] at h; simp only [evalBy]
      split at h
      · rename_i hc; simp only [hc]; exact h
      · rename_i f hc
        simp only [hc]
        cases hb : eval E fuel (s.frames.length :: env) b (openChild s f) with
        | none => rw [hb] at h; cases h
        | some q =>
          rw [hb] at h
          simp only [ih' _ _ _ _ hb]
          obtain ⟨o, s1⟩ := q
          rcases o with (_ | _) | _ | _
          · exact ih' _ _ _ _ h
          · exact ih' _ _ _ _ h
          · exact h
          · exact h
    | runTriggers c sch k =>
      simp only [eval] at h; simp only [evalBy]
      split at h
      · rename_i hc; simp only [hc]; exact h
      · rename_i f hc
        simp only [hc]
        cases hsel : E.triggers.select sch with
        | none =>
          rw [hsel] at h
          simp only [fireBy, Env.fire, hsel, Option.getD_none, tryForEach]
          exact ih' _ _ _ _ h
        | some ts =>
          rw [hsel] at h
          simp only [fireBy, Env.fire, hsel, Option.getD_some]
          cases hb : tryForEach (eval E fuel [f]) ts s with
          | none => simp only [hb] at h; cases h
          | some q =>
            simp only [hb] at h
            have := tryForEach_mono (run' := fun p s => evalBy E.resources (fireBy E fuel) p [f] s)
              (fun t s r h => ih t [f] s r h) ts _ _ hb
            simp only [this]
            obtain ⟨o, s1⟩ := q
            rcases o with _ | _ | _
            · exact ih' _ _ _ _ h
            · exact h
            · exact h
    | withTarget n k =>
      simp only [eval] at h; simp only [evalBy]
      split at h
      · rename_i hc; simp only [hc]; exact h
      · rename_i hc; simp only [hc]; exact ih' _ _ _ _ h
    | targetRead c k =>
      simp only [eval] at h; simp only [evalBy]
      split at h
      · rename_i hc; simp only [hc]; exact h
      · rename_i hc; simp only [hc]; exact ih' _ _ _ _ h
    | targetWrite c fn k =>
      simp only [eval] at h; simp only [evalBy]
      split at h
      · rename_i hc; simp only [hc]; exact h
      · rename_i hc
        simp only [hc]
        split at h
        · rename_i hr; simp only [hr]; exact ih' _ _ _ _ h
        · rename_i hr
          simp only [hr]
          split at h
          · rename_i hx; simp only [hx]; exact ih' _ _ _ _ h
          · rename_i hx; simp only [hx]; exact h
    | resRead t k =>
      simp only [eval] at h; simp only [evalBy, hrb]
      split at h
      · rename_i hc; rw [if_pos hc]; exact h
      · rename_i hc; rw [if_neg hc]; exact ih' _ _ _ _ h
    | resWrite t fn k =>
      simp only [eval] at h; simp only [evalBy, hrb]
      split at h
      · rename_i hc; rw [if_pos hc]; exact h
      · rename_i hc; rw [if_neg hc]
        split at h
        · rename_i hx; simp only [hx]; exact ih' _ _ _ _ h
        · rename_i hx; simp only [hx]; exact ih' _ _ _ _ h
        · rename_i hx; simp only [hx]; exact h
    | resScope t excl b k =>
      simp only [eval] at h; simp only [evalBy]
      split at h
      · rename_i hp; simp only [hp]; exact ih' _ _ _ _ h
      · rename_i p hp
        simp only [hp]
        split at h
        · rename_i hc; rw [if_pos hc]; exact h
        · rename_i hc; rw [if_neg hc]
          split at h
          · rename_i hv; simp only [hv]; exact ih' _ _ _ _ h
          · rename_i v hv
            simp only [hv]
            cases hb : eval E fuel env (b v) (lockRes s p excl) with
            | none => rw [hb] at h; cases h
            | some q =>
              rw [hb] at h
              simp only [ih' _ _ _ _ hb]
              obtain ⟨o, s1⟩ := q
              rcases o with _ | _ | _
              · exact ih' _ _ _ _ h
              · exact h
              · exact h
    | resAssign t x k =>
      simp only [eval] at h; simp only [evalBy]
      split at h
      · rename_i hp; simp only [hp]; exact h
      · rename_i hp
        simp only [hp]
        split at h
        · rename_i hc; rw [if_pos hc]; exact ih' _ _ _ _ h
        · rename_i hc; rw [if_neg hc]; exact h
    | catchUnwind b k =>
      simp only [eval] at h; simp only [evalBy]
      cases hb : eval E fuel env b s with
      | none => rw [hb] at h; cases h
      | some q =>
        rw [hb] at h
        simp only [ih' _ _ _ _ hb]
        obtain ⟨o, s1⟩ := q
        rcases o with _ | _ | _
        · exact ih' _ _ _ _ h
        · exact ih' _ _ _ _ h
        · exact h
    | forget k =>
      simp only [eval] at h; simp only [evalBy]
      split at h
      · rename_i hc; simp only [hc]; exact h
      · rename_i hc; simp only [hc]; exact ih' _ _ _ _ h

theorem tryForEach_fuel (E : Env σ) {f : Nat} {run : Prog σ → St σ → Option (Out (Except Error σ.V) × St σ)}
    (hrun : ∀ t s r, run t s = some r → ∃ fuel, eval E fuel [f] t s = some r) (ts : List (Prog σ)) :
    ∀ s r, tryForEach run ts s = some r → ∃ fuel, tryForEach (eval E fuel [f]) ts s = some r := by
  induction ts with
  | nil => intro s r h; exact ⟨0, h⟩
  | cons t ts ih =>
    intro s r h
    simp only [tryForEach] at h
    cases hr : run t s with
    | none => simp [hr] at h
    | some q =>
      rw [hr] at h
      obtain ⟨fuel, hf⟩ := hrun _ _ _ hr
      obtain ⟨o, s1⟩ := q
      rcases o with (_ | _) | _ | _
      · exact ⟨fuel, by simpa only [tryForEach, hf] using h⟩
      · obtain ⟨fuel', h'⟩ := ih _ _ h
        refine ⟨max fuel fuel', ?_⟩
        simp only [tryForEach, eval_mono_le E (Nat.le_max_left fuel fuel') hf]
        exact tryForEach_mono (fun t s r h => eval_mono_le E (Nat.le_max_right fuel fuel') h) _ _ _ h'
      · exact ⟨fuel, by simpa only [tryForEach, hf] using h⟩
      · exact ⟨fuel, by simpa only [tryForEach, hf] using h⟩

theorem eval_of_evalBy (E : Env σ) (n : Nat) : ∀ (p : Prog σ) (env : List Nat) (s : St σ) (r : Out (Except Error σ.V) × St σ),
    evalBy E.resources (fireBy E n) p env s = some r → ∃ fuel, eval E fuel env p s = some r := by
  induction n using Nat.strongRecOn with
  | _ n ihn =>
  have hrb : ∀ (s : St σ) t excl, s.resBlocks ⟨TriggerSet.empty, E.resources⟩ t excl = s.resBlocks E t excl :=
    fun s t excl => resBlocks_env rfl s t excl
  intro p
  induction p with
  | done => intro env s r h; exact ⟨1, h⟩
  | panic => intro env s r h; exact ⟨1, h⟩
  | reenter => intro env s r h; exact ⟨1, h⟩
  | save c _ k ih =>
    intro env s r h; simp only [evalBy] at h
    split at h
    · rename_i hc; exact ⟨1, by simpa only [eval, hc] using h⟩
    · rename_i hc; obtain ⟨fuel, h'⟩ := ih _ _ _ h; exact ⟨fuel + 1, by simpa only [eval, hc] using h'⟩
  | delete c _ k ih =>
    intro env s r h; simp only [evalBy] at h
    split at h
    · rename_i hc; exact ⟨1, by simpa only [eval, hc] using h⟩
    · rename_i hc; obtain ⟨fuel, h'⟩ := ih _ _ _ h; exact ⟨fuel + 1, by simpa only [eval, hc] using h'⟩
  | get c _ k ih =>
    intro env s r h; simp only [evalBy] at h
    split at h
    · rename_i hc; exact ⟨1, by simpa only [eval, hc] using h⟩
    · rename_i hc; obtain ⟨fuel, h'⟩ := ih _ _ _ _ h; exact ⟨fuel + 1, by simpa only [eval, hc] using h'⟩
  | contains c _ k ih =>
    intro env s r h; simp only [evalBy] at h
    split at h
    · rename_i hc; exact ⟨1, by simpa only [eval, hc] using h⟩
    · rename_i hc; obtain ⟨fuel, h'⟩ := ih _ _ _ _ h; exact ⟨fuel + 1, by simpa only [eval, hc] using h'⟩
  | tx c b k ihb ihk =>
    intro env s r h; simp only [evalBy] at h
    split at h
    · rename_i hc; exact ⟨1, by simpa only [eval, hc] using h⟩
    · rename_i f hc
      cases hb : evalBy E.resources (fireBy E n) b (s.frames.length :: env) (openChild s f) with
      | none => rw [hb] at h; cases h
      | some q =>
        rw [hb] at h
        obtain ⟨fuel, hf⟩ := ihb _ _ _ hb
        obtain ⟨o, s1⟩ := q
        rcases o with (_ | _) | _ | _
        · obtain ⟨fuel', h'⟩ := ihk _ _ _ _ h
          exact ⟨max fuel fuel' + 1, by simpa only [eval, hc, eval_mono_le E (Nat.le_max_left fuel fuel') hf] using eval_mono_le E (Nat.le_max_right fuel fuel') h'⟩
        · obtain ⟨fuel', h'⟩ := ihk _ _ _ _ h
          exact ⟨max fuel fuel' + 1, by simpa only [eval, hc, eval_mono_le E (Nat.le_max_left fuel fuel') hf] using eval_mono_le E (Nat.le_max_right fuel fuel') h'⟩
        · exact ⟨fuel + 1, by simpa only [eval, hc, hf] using h⟩
        · exact ⟨fuel + 1, by simpa only [eval, hc, hf] using h⟩
  | runTriggers c sch k ih =>
    intro env s r h; simp only [evalBy] at h
    split at h
    · rename_i hc; exact ⟨1, by simpa only [eval, hc] using h⟩
    · rename_i f hc
      cases n with
      | zero =>
        simp only [fireBy] at h
        by_cases he : (E.fire sch).isEmpty = true
        · rw [if_pos he] at h
          obtain ⟨fuel, h'⟩ := ih _ _ _ _ h
          refine ⟨fuel + 1, ?_⟩
          rw [List.isEmpty_iff] at he
          simp only [eval, hc]
          cases hsel : E.triggers.select sch with
          | none => exact h'
          | some ts =>
            simp only [Env.fire, hsel, Option.getD_some] at he
            subst he
            simpa only [tryForEach] using h'
        · rw [if_neg he] at h; cases h
      | succ n =>
        cases hb : fireBy E (n + 1) f sch s with
        | none => rw [hb] at h; cases h
        | some q =>
          rw [hb] at h
          simp only [fireBy] at hb
          obtain ⟨fuel, hf⟩ := tryForEach_fuel E (fun t s r h => ihn n (Nat.lt_succ_self n) t [f] s r h) _ _ _ hb
          cases hsel : E.triggers.select sch with
          | none =>
            simp only [Env.fire, hsel, Option.getD_none, tryForEach, Option.some.injEq] at hf
            subst hf
            obtain ⟨fuel', h'⟩ := ih _ _ _ _ h
            exact ⟨fuel' + 1, by simpa only [eval, hc, hsel] using h'⟩
          | some ts =>
            simp only [Env.fire, hsel, Option.getD_some] at hf
            obtain ⟨o, s1⟩ := q
            rcases o with _ | _ | _
            · obtain ⟨fuel', h'⟩ := ih _ _ _ _ h
              refine ⟨max fuel fuel' + 1, ?_⟩
              have := tryForEach_mono (run' := eval E (max fuel fuel') [f])
                (fun t s r h => eval_mono_le E (Nat.le_max_left fuel fuel') h) _ _ _ hf
              simpa only [eval, hc, hsel, this] using eval_mono_le E (Nat.le_max_right fuel fuel') h'
            · exact ⟨fuel + 1, by simpa only [eval, hc, hsel, hf] using h⟩
            · exact ⟨fuel + 1, by simpa only [eval, hc, hsel, hf] using h⟩
  | withTarget _ k ih =>
    intro env s r h; simp only [evalBy] at h
    split at h
    · rename_i hc; exact ⟨1, by simpa only [eval, hc] using h⟩
    · rename_i hc; obtain ⟨fuel, h'⟩ := ih _ _ _ h; exact ⟨fuel + 1, by simpa only [eval, hc] using h'⟩
  | targetRead c k ih =>
    intro env s r h; simp only [evalBy] at h
    split at h
    · rename_i hc; exact ⟨1, by simpa only [eval, hc] using h⟩
    · rename_i hc; obtain ⟨fuel, h'⟩ := ih _ _ _ _ h; exact ⟨fuel + 1, by simpa only [eval, hc] using h'⟩
  | targetWrite c fn k ih =>
    intro env s r h; simp only [evalBy] at h
    split at h
    · rename_i hc; exact ⟨1, by simpa only [eval, hc] using h⟩
    · rename_i hc
      split at h
      · rename_i hr
        obtain ⟨fuel, h'⟩ := ih _ _ _ _ h; exact ⟨fuel + 1, by simpa only [eval, hc, hr] using h'⟩
      · rename_i hr
        split at h
        · rename_i hx
          obtain ⟨fuel, h'⟩ := ih _ _ _ _ h; exact ⟨fuel + 1, by simpa only [eval, hc, hr, hx] using h'⟩
        · rename_i hx
          exact ⟨1, by simpa only [eval, hc, hr, hx] using h⟩
  | resRead t k ih =>
    intro env s r h; simp only [evalBy, hrb] at h
    split at h
    · rename_i hc; exact ⟨1, by simpa only [eval, hc, if_true] using h⟩
    · rename_i hc; obtain ⟨fuel, h'⟩ := ih _ _ _ _ h; exact ⟨fuel + 1, by rw [eval, if_neg hc]; exact h'⟩
  | resWrite t fn k ih =>
    intro env s r h; simp only [evalBy, hrb] at h
    split at h
    · rename_i hc; exact ⟨1, by simpa only [eval, hc, if_true] using h⟩
    · rename_i hc
      split at h
      · rename_i hx; obtain ⟨fuel, h'⟩ := ih _ _ _ _ h; exact ⟨fuel + 1, by rw [eval, if_neg hc]; simpa only [hx] using h'⟩
      · rename_i hx; obtain ⟨fuel, h'⟩ := ih _ _ _ _ h; exact ⟨fuel + 1, by rw [eval, if_neg hc]; simpa only [hx] using h'⟩
      · rename_i hx; exact ⟨1, by rw [eval, if_neg hc]; simpa only [hx] using h⟩
  | resScope t excl b k ihb ihk =>
    intro env s r h; simp only [evalBy] at h
    split at h
    · rename_i hc; obtain ⟨fuel, h'⟩ := ihk _ _ _ _ h; exact ⟨fuel + 1, by simpa only [eval, hc] using h'⟩
    · rename_i p hc
      split at h
      · rename_i hbl; exact ⟨1, by simpa only [eval, hc, hbl, if_true] using h⟩
      · rename_i hbl
        split at h
        · rename_i hv
          obtain ⟨fuel, h'⟩ := ihk _ _ _ _ h
          exact ⟨fuel + 1, by simp only [eval, hc]; rw [if_neg hbl]; simpa only [hv] using h'⟩
        · rename_i v hv
          cases hb : evalBy E.resources (fireBy E n) (b v) env (lockRes s p excl) with
          | none => rw [hb] at h; cases h
          | some q =>
            rw [hb] at h
            obtain ⟨fuel, hf⟩ := ihb _ _ _ _ hb
            obtain ⟨o, s1⟩ := q
            rcases o with _ | _ | _
            · obtain ⟨fuel', h'⟩ := ihk _ _ _ _ h
              refine ⟨max fuel fuel' + 1, ?_⟩
              simp only [eval, hc]; rw [if_neg hbl]
              simpa only [hv, eval_mono_le E (Nat.le_max_left fuel fuel') hf] using eval_mono_le E (Nat.le_max_right fuel fuel') h'
            · exact ⟨fuel + 1, by simp only [eval, hc]; rw [if_neg hbl]; simpa only [hv, hf] using h⟩
            · exact ⟨fuel + 1, by simp only [eval, hc]; rw [if_neg hbl]; simpa only [hv, hf] using h⟩
  | resAssign t x k ih =>
    intro env s r h; simp only [evalBy] at h
    split at h
    · rename_i hc; exact ⟨1, by simpa only [eval, hc] using h⟩
    · rename_i hc
      split at h
      · rename_i hx; obtain ⟨fuel, h'⟩ := ih _ _ _ h; exact ⟨fuel + 1, by simp only [eval, hc]; rw [if_pos hx]; exact h'⟩
      · rename_i hx; exact ⟨1, by simp only [eval, hc]; rw [if_neg hx]; exact h⟩
  | catchUnwind b k ihb ihk =>
    intro env s r h; simp only [evalBy] at h
    cases hb : evalBy E.resources (fireBy E n) b env s with
    | none => rw [hb] at h; cases h
    | some q =>
      rw [hb] at h
      obtain ⟨fuel, hf⟩ := ihb _ _ _ hb
      obtain ⟨o, s1⟩ := q
      rcases o with _ | _ | _
      · obtain ⟨fuel', h'⟩ := ihk _ _ _ _ h
        exact ⟨max fuel fuel' + 1, by simpa only [eval, eval_mono_le E (Nat.le_max_left fuel fuel') hf] using eval_mono_le E (Nat.le_max_right fuel fuel') h'⟩
      · obtain ⟨fuel', h'⟩ := ihk _ _ _ _ h
        exact ⟨max fuel fuel' + 1, by simpa only [eval, eval_mono_le E (Nat.le_max_left fuel fuel') hf] using eval_mono_le E (Nat.le_max_right fuel fuel') h'⟩
      · exact ⟨fuel + 1, by simpa only [eval, hf] using h⟩
  | forget k ih =>
    intro env s r h; simp only [evalBy] at h
    split at h
    · rename_i hc; exact ⟨1, by simpa only [eval, hc] using h⟩
    · rename_i hc; obtain ⟨fuel, h'⟩ := ih _ _ _ h; exact ⟨fuel + 1, by simpa only [eval, hc] using h'⟩

end Plotline
