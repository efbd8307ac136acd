import Verif.Spec.Programs
import Verif.Lemmas.Transaction

/-! Helper lemmas about `eval`: relational invariants, fuel monotonicity, reachability of states. -/

namespace Plotline

open Std

set_option linter.unusedSectionVars false

variable {σ : Sig}

/-- A relation between states kept by every primitive step a program satisfying `φ` may take. -/
structure StepInv (φ : Prog σ → Prop) (R : St σ → St σ → Prop) : Prop where
  refl : ∀ s, R s s
  trans : ∀ s s' s'', R s s' → R s' s'' → R s s''
  save : ∀ s f c n k, φ (.save c n k) → f < s.frames.length → R s (pushOp s f (.save n))
  delete : ∀ s f c i k, φ (.delete c i k) → f < s.frames.length → R s (pushOp s f (.delete i))
  setTarget : ∀ s f n k, φ (.withTarget n k) → f < s.frames.length → R s (setTarget s f n)
  writeTarget : ∀ s f n c fn k, φ (.targetWrite c fn k) → f < s.frames.length →
    R s (writeTarget s f (fn n).1 (fn n).2)
  leak : ∀ s f k, φ (.forget k) → f < s.frames.length → R s (leakFrame s f)
  heap : ∀ s h t fn k, φ (.resWrite t fn k) → R s { s with heap := h }
  locks : ∀ s l, R s { s with locks := l }
  unwind : ∀ s l h t excl body k, φ (.resScope t excl body k) → (excl = false → h = s.heap) →
    R s { s with locks := l, heap := h }
  assign : ∀ s h t x k, φ (.resAssign t x k) → R s { s with heap := h }
  close : ∀ s f s1, f < s.frames.length → s1.frames.length = s.frames.length + 1 → R (openChild s f) s1 →
    R s (closeChild s1 s.frames.length)
  commit : ∀ s f s1, f < s.frames.length → s1.frames.length = s.frames.length + 1 → R (openChild s f) s1 →
    R s (commitChild s1 s.frames.length)

theorem tryForEach_inv {R : St σ → St σ → Prop} {run : Prog σ → St σ → Option (Out (Except Error σ.V) × St σ)}
    (hrefl : ∀ s, R s s) (htrans : ∀ s s' s'', R s s' → R s' s'' → R s s'') (I : St σ → Prop)
    (ts : List (Prog σ))
    (hrun : ∀ t ∈ ts, ∀ s out s', I s → run t s = some (out, s') → R s s' ∧ I s') :
    ∀ s out s', I s → tryForEach run ts s = some (out, s') → R s s' := by
  induction ts with
  | nil =>
    intro s out s' _ h
    simp only [tryForEach, Option.some.injEq, Prod.mk.injEq] at h
    rw [← h.2]; exact hrefl _
  | cons t ts ih =>
    intro s out s' hi h
    simp only [tryForEach] at h
    cases hr : run t s with
    | none => simp [hr] at h
    | some r =>
      obtain ⟨o, s1⟩ := r
      rw [hr] at h
      obtain ⟨hg, hi1⟩ := hrun t (List.mem_cons_self ..) s o s1 hi hr
      rcases o with (_ | _) | _ | _
      · simp only [Option.some.injEq, Prod.mk.injEq] at h; rw [← h.2]; exact hg
      · exact htrans _ _ _ hg (ih (fun t ht => hrun t (List.mem_cons_of_mem _ ht)) s1 out s' hi1 h)
      · simp only [Option.some.injEq, Prod.mk.injEq] at h; rw [← h.2]; exact hg
      · simp only [Option.some.injEq, Prod.mk.injEq] at h; rw [← h.2]; exact hg

theorem eval_len (E : Env σ) {fuel : Nat} {env : List Nat} {p : Prog σ} {s s' : St σ}
    {out : Out (Except Error σ.V)} (henv : ∀ e ∈ env, e < s.frames.length)
    (h : eval E fuel env p s = some (out, s')) : s'.frames.length = s.frames.length :=
  (eval_grows_any E fuel env p s s' out henv h).len

theorem eval_inv (E : Env σ) (φ : Prog σ → Prop) (R : St σ → St σ → Prop) (hR : StepInv φ R) (hE : E.Every φ)
    (fuel : Nat) : ∀ (env : List Nat) (p : Prog σ) (s s' : St σ) (out : Out (Except Error σ.V)),
    p.Every φ → (∀ e ∈ env, e < s.frames.length) → eval E fuel env p s = some (out, s') → R s s' := by
  induction fuel with
  | zero => intro env p s s' out _ _ h; simp [eval] at h
  | succ fuel ih =>
    intro env p s s' out hp henv h
    have keep : ∀ s1 : St σ, R s s1 → s1.frames.length = s.frames.length →
        ∀ p : Prog σ, p.Every φ → eval E fuel env p s1 = some (out, s') → R s s' := by
      intro s1 hg hl p hp he
      refine hR.trans _ _ _ hg (ih env p s1 s' out hp ?_ he)
      intro e he; rw [hl]; exact henv e he
    have stop : ∀ s1 : St σ, R s s1 → ∀ o : Out (Except Error σ.V), some (o, s1) = some (out, s') → R s s' := by
      intro s1 hg o he
      simp only [Option.some.injEq, Prod.mk.injEq] at he
      rw [← he.2]; exact hg
    cases p with
    | done r => simp only [eval] at h; exact stop s (hR.refl _) _ h
    | panic => simp only [eval] at h; exact stop s (hR.refl _) _ h
    | reenter => simp only [eval] at h; exact stop s (hR.refl _) _ h
    | save c n k =>
      simp only [eval] at h
      split at h
      · exact stop s (hR.refl _) _ h
      · rename_i f hf
        exact keep _ (hR.save _ _ _ _ _ hp.1 (henv f (List.mem_of_getElem? hf))) (by simp [pushOp]) _ hp.2 h
    | delete c i k =>
      simp only [eval] at h
      split at h
      · exact stop s (hR.refl _) _ h
      · rename_i f hf
        exact keep _ (hR.delete _ _ _ _ _ hp.1 (henv f (List.mem_of_getElem? hf))) (by simp [pushOp]) _ hp.2 h
    | get c i k =>
      simp only [eval] at h
      split at h
      · exact stop s (hR.refl _) _ h
      · exact keep s (hR.refl _) rfl _ (hp.2 _) h
    | contains c i k =>
      simp only [eval] at h
      split at h
      · exact stop s (hR.refl _) _ h
      · exact keep s (hR.refl _) rfl _ (hp.2 _) h
    | tx c body k =>
      simp only [eval] at h
      split at h
      · exact stop s (hR.refl _) _ h
      · rename_i f hf
        have hfl := henv f (List.mem_of_getElem? hf)
        cases hr : eval E fuel (s.frames.length :: env) body (openChild s f) with
        | none => simp [hr] at h
        | some r =>
          obtain ⟨o, s1⟩ := r
          rw [hr] at h
          have henv' : ∀ e ∈ s.frames.length :: env, e < (openChild s f).frames.length := by
            intro e he
            simp only [openChild, List.length_append, List.length_singleton]
            rcases List.mem_cons.1 he with rfl | he
            · omega
            · have := henv e he; omega
          have hl := eval_len E henv' hr
          simp only [openChild, List.length_append, List.length_singleton] at hl
          have hg := ih _ _ _ _ _ hp.2.1 henv' hr
          have hlc : (closeChild s1 s.frames.length).frames.length = s.frames.length := by
            simp [closeChild, hl]
          have hlk : (commitChild s1 s.frames.length).frames.length = s.frames.length := by
            rcases commitChild_frames s1 s.frames.length with h | ⟨_, _, _, _, _, h⟩ <;> rw [h] <;> simp [hl]
          rcases o with (e | v) | _ | _
          · exact keep _ (hR.close _ _ _ hfl hl hg) hlc _ (hp.2.2 _) h
          · exact keep _ (hR.commit _ _ _ hfl hl hg) hlk _ (hp.2.2 _) h
          · exact stop _ (hR.close _ _ _ hfl hl hg) _ h
          · exact stop _ (hR.close _ _ _ hfl hl hg) _ h
    | runTriggers c sch k =>
      simp only [eval] at h
      split at h
      · exact stop s (hR.refl _) _ h
      · rename_i f hf
        have hfl := henv f (List.mem_of_getElem? hf)
        split at h
        · exact keep s (hR.refl _) rfl _ (hp.2 _) h
        · rename_i ts hts
          cases hr : tryForEach (eval E fuel [f]) ts s with
          | none => simp [hr] at h
          | some r =>
            obtain ⟨o, s1⟩ := r
            rw [hr] at h
            have hboth : R s s1 ∧ s1.frames.length = s.frames.length := by
              refine tryForEach_inv (R := fun s s' => R s s' ∧ s'.frames.length = s.frames.length)
                (fun s => ⟨hR.refl s, rfl⟩) (fun _ _ _ a b => ⟨hR.trans _ _ _ a.1 b.1, b.2.trans a.2⟩)
                (fun s => f < s.frames.length) ts ?_ s o s1 hfl hr
              intro t ht s out s' hi he
              have henv1 : ∀ e ∈ [f], e < s.frames.length := by
                intro e he; simp only [List.mem_singleton] at he; rw [he]; exact hi
              have hl := eval_len E henv1 he
              exact ⟨⟨ih [f] t s s' out (hE _ _ hts t ht) henv1 he, hl⟩, by rw [hl]; exact hi⟩
            rcases o with r | _ | _
            · exact keep s1 hboth.1 hboth.2 _ (hp.2 _) h
            · exact stop s1 hboth.1 _ h
            · exact stop s1 hboth.1 _ h
    | withTarget n k =>
      simp only [eval] at h
      split at h
      · exact stop s (hR.refl _) _ h
      · rename_i f hf
        exact keep _ (hR.setTarget _ _ _ _ hp.1 (henv f (List.mem_of_getElem? hf))) (by simp [setTarget]) _ hp.2 h
    | targetRead c k =>
      simp only [eval] at h
      split at h
      · exact stop s (hR.refl _) _ h
      · exact keep s (hR.refl _) rfl _ (hp.2 _) h
    | targetWrite c fn k =>
      simp only [eval] at h
      split at h
      · exact stop s (hR.refl _) _ h
      · rename_i f hf
        split at h
        · exact keep s (hR.refl _) rfl _ (hp.2 _) h
        · rename_i n _
          have hw := hR.writeTarget s f n c fn k hp.1 (henv f (List.mem_of_getElem? hf))
          split at h
          · rename_i n' hn; rw [hn] at hw
            exact keep _ hw (by simp [writeTarget]) _ (hp.2 _) h
          · rename_i n' hn; rw [hn] at hw
            exact stop _ hw _ h
    | resRead t k =>
      simp only [eval] at h
      split at h
      · exact stop s (hR.refl _) _ h
      · exact keep s (hR.refl _) rfl _ (hp.2 _) h
    | resWrite t fn k =>
      simp only [eval] at h
      split at h
      · exact stop s (hR.refl _) _ h
      · split at h
        · exact keep s (hR.refl _) rfl _ (hp.2 _) h
        · rename_i x hp' _
          exact keep _ (hR.heap s hp' _ _ _ hp.1) rfl _ (hp.2 _) h
        · rename_i hp' _
          exact stop _ (hR.heap s hp' _ _ _ hp.1) _ h
    | resScope t excl body k =>
      simp only [eval] at h
      split at h
      · exact keep s (hR.refl _) rfl _ (hp.2.2 _) h
      · rename_i q _
        split at h
        · exact stop s (hR.refl _) _ h
        · split at h
          · exact keep s (hR.refl _) rfl _ (hp.2.2 _) h
          · rename_i v _
            cases hr : eval E fuel env (body v) (lockRes s q excl) with
            | none => simp [hr] at h
            | some r =>
              obtain ⟨o, s1⟩ := r
              rw [hr] at h
              have hg := hR.trans _ _ _ (hR.locks s ((q, excl) :: s.locks)) (ih _ _ _ _ _ (hp.2.1 v) henv hr)
              have hl := eval_len E (s := lockRes s q excl) henv hr
              rcases o with r | _ | _
              · exact keep (unlockRes s1) (hR.trans _ _ _ hg (hR.locks _ _)) hl _ (hp.2.2 _) h
              · exact stop _ (hR.trans _ _ _ hg (hR.unwind _ _ _ _ _ _ _ hp.1 fun he => by rw [he]; rfl)) _ h
              · exact stop _ (hR.trans _ _ _ hg (hR.locks _ _)) _ h
    | resAssign t x k =>
      simp only [eval] at h
      split at h
      · exact stop s (hR.refl _) _ h
      · split at h
        · exact keep (assignRes s _ t x) (hR.assign s _ _ _ _ hp.1) rfl _ hp.2 h
        · exact stop s (hR.refl _) _ h
    | catchUnwind body k =>
      simp only [eval] at h
      cases hr : eval E fuel env body s with
      | none => simp [hr] at h
      | some r =>
        obtain ⟨o, s1⟩ := r
        rw [hr] at h
        have hg := ih _ _ _ _ _ hp.2.1 henv hr
        have hl := eval_len E henv hr
        rcases o with r | _ | _
        · exact keep s1 hg hl _ (hp.2.2 _) h
        · exact keep s1 hg hl _ (hp.2.2 _) h
        · exact stop s1 hg _ h
    | forget k =>
      simp only [eval] at h
      split at h
      · exact stop s (hR.refl _) _ h
      · rename_i f hf
        exact keep _ (hR.leak _ _ _ hp.1 (henv f (List.mem_of_getElem? hf))) (by simp [leakFrame]) _ hp.2 h

theorem every_true (p : Prog σ) : p.Every (fun _ => True) := by
  induction p <;> simp_all [Prog.Every]

theorem Env.every_true (E : Env σ) : E.Every (fun _ => True) := fun _ _ _ t _ => Plotline.every_true t

/-! ## Reachability -/

theorem eval_reachable (E : Env σ) {g : Graph σ.K σ.T} {fuel : Nat} {env : List Nat} {p : Prog σ} {s s' : St σ}
    {out : Out (Except Error σ.V)} (hs : Reachable g s) (henv : ∀ e ∈ env, e < s.frames.length)
    (h : eval E fuel env p s = some (out, s')) : Reachable g s' := by
  refine eval_inv E (fun _ => True) (fun s s' => Reachable g s → Reachable g s') ?_ E.every_true fuel env p s s' out
    (every_true p) henv h hs
  refine ⟨fun _ h => h, fun _ _ _ a b h => b (a h), ?_, ?_, ?_, ?_, ?_, ?_, ?_, ?_, ?_, ?_, ?_⟩
  · intro s f c n k _ _ h; exact .push _ _ h
  · intro s f c n k _ _ h; exact .push _ _ h
  · intro s f n k _ _ h; exact .setTarget _ _ h
  · intro s f n c fn k _ _ h; exact .writeTarget _ _ _ h
  · intro s f k _ _ h; exact .leak _ h
  · intro s hp t fn k _ h; exact .heap _ h
  · intro s l h; exact .locks _ h
  · intro s l hp t e b k _ _ h; exact .heap (s := { s with locks := l }) _ (.locks _ h)
  · intro s hp t x k _ h; exact .heap _ h
  · intro s f s1 hf hl hr h
    exact .close _ (Nat.lt_of_le_of_lt (Nat.zero_le _) hf) hl.symm (hr (.openChild f hf h))
  · intro s f s1 hf hl hr h
    exact .commit _ (Nat.lt_of_le_of_lt (Nat.zero_le _) hf) hl.symm (hr (.openChild f hf h))

/-! ## Fuel -/

theorem tryForEach_mono {run run' : Prog σ → St σ → Option (Out (Except Error σ.V) × St σ)}
    (hrun : ∀ t s r, run t s = some r → run' t s = some r) (ts : List (Prog σ)) :
    ∀ s r, tryForEach run ts s = some r → tryForEach run' ts s = some r := by
  induction ts with
  | nil => intro s r h; exact h
  | cons t ts ih =>
    intro s r h
    simp only [tryForEach] at h ⊢
    cases hr : run t s with
    | none => simp [hr] at h
    | some q =>
      rw [hr] at h
      rw [hrun _ _ _ hr]
      obtain ⟨o, s1⟩ := q
      rcases o with (_ | _) | _ | _
      · exact h
      · exact ih _ _ h
      · exact h
      · exact h

theorem eval_mono (E : Env σ) {fuel : Nat} : ∀ {env : List Nat} {p : Prog σ} {s : St σ}
    {r : Out (Except Error σ.V) × St σ}, eval E fuel env p s = some r → eval E (fuel + 1) env p s = some r := by
  induction fuel with
  | zero => intro env p s r h; simp [eval] at h
  | succ fuel ih =>
    intro env p s r h
    cases p with
    | done => exact h
    | panic => exact h
    | reenter => exact h
    | save c n k =>
      simp only [eval] at h; rw [eval]
      split at h
      · exact h
      · exact ih h
    | delete c i k =>
      simp only [eval] at h; rw [eval]
      split at h
      · exact h
      · exact ih h
    | get c i k =>
      simp only [eval] at h; rw [eval]
      split at h
      · exact h
      · exact ih h
    | contains c i k =>
      simp only [eval] at h; rw [eval]
      split at h
      · exact h
      · exact ih h
    | tx c body k =>
      simp only [eval] at h; rw [eval]
      cases hf : env[c]? with
      | none => simp_all
      | some f =>
        simp only [hf] at h
        simp only
        cases hr : eval E fuel (s.frames.length :: env) body (openChild s f) with
        | none => simp [hr] at h
        | some q =>
          rw [ih hr]
          rw [hr] at h
          obtain ⟨o, s1⟩ := q
          rcases o with (_ | _) | _ | _
          · exact ih h
          · exact ih h
          · exact h
          · exact h
    | runTriggers c sch k =>
      simp only [eval] at h; rw [eval]
      cases hf : env[c]? with
      | none => simp_all
      | some f =>
        simp only [hf] at h
        simp only
        cases hts : E.triggers.select sch with
        | none => simp only [hts] at h; exact ih h
        | some ts =>
          simp only [hts] at h
          simp only
          cases hr : tryForEach (eval E fuel [f]) ts s with
          | none => simp [hr] at h
          | some q =>
            rw [tryForEach_mono (run' := eval E (fuel + 1) [f]) (fun _ _ _ h => ih h) ts _ _ hr]
            rw [hr] at h
            obtain ⟨o, s1⟩ := q
            rcases o with _ | _ | _
            · exact ih h
            · exact h
            · exact h
    | withTarget n k =>
      simp only [eval] at h; rw [eval]
      split at h
      · exact h
      · exact ih h
    | targetRead c k =>
      simp only [eval] at h; rw [eval]
      split at h
      · exact h
      · exact ih h
    | targetWrite c fn k =>
      simp only [eval] at h; rw [eval]
      cases hf : env[c]? with
      | none => simp_all
      | some f =>
        simp only [hf] at h
        simp only
        cases hrt : readTarget s f with
        | none => simp only [hrt] at h; exact ih h
        | some n =>
          simp only [hrt] at h
          simp only
          rcases hn : fn n with ⟨n', b⟩
          rw [hn] at h
          cases b
          · exact ih h
          · exact h
    | resRead t k =>
      simp only [eval] at h; rw [eval]
      split at h
      · rename_i hb; rw [if_pos hb]; exact h
      · rename_i hb; rw [if_neg hb]; exact ih h
    | resScope t excl body k =>
      simp only [eval] at h; rw [eval]
      cases hq : (E.resources.res t).lock with
      | none => simp only [hq] at h; exact ih h
      | some q =>
        simp only [hq] at h
        simp only
        cases hb : s.blocks q excl with
        | true => simpa [hb] using h
        | false =>
          simp only [hb, Bool.false_eq_true, if_false] at h
          simp only [Bool.false_eq_true, if_false]
          cases hv : (E.resources.res t).peek s.heap with
          | none => simp only [hv] at h; exact ih h
          | some v =>
            simp only [hv] at h
            simp only
            cases hr : eval E fuel env (body v) (lockRes s q excl) with
            | none => simp [hr] at h
            | some r =>
              rw [ih hr]
              rw [hr] at h
              obtain ⟨o, s1⟩ := r
              rcases o with _ | _ | _
              · exact ih h
              · exact h
              · exact h
    | resAssign t x k =>
      simp only [eval] at h; rw [eval]
      cases hq : (E.resources.res t).lock with
      | none => simpa [hq] using h
      | some q =>
        simp only [hq] at h
        simp only
        split at h
        · rename_i hb; rw [if_pos hb]; exact ih h
        · rename_i hb; rw [if_neg hb]; exact h
    | resWrite t fn k =>
      simp only [eval] at h; rw [eval]
      split at h
      · rename_i hb; rw [if_pos hb]; exact h
      rename_i hb
      rw [if_neg hb]
      rcases hw : (E.resources.res t).withMut s.heap (fun v => ((fn v).1, if (fn v).2 then none else some ()))
        with ⟨a, hp⟩
      rw [hw] at h
      cases a with
      | unavailable => exact ih h
      | ran x => exact ih h
      | panicked => exact h
    | catchUnwind body k =>
      simp only [eval] at h; rw [eval]
      cases hr : eval E fuel env body s with
      | none => simp [hr] at h
      | some q =>
        rw [ih hr]
        rw [hr] at h
        obtain ⟨o, s1⟩ := q
        rcases o with _ | _ | _
        · exact ih h
        · exact ih h
        · exact h
    | forget k =>
      simp only [eval] at h; rw [eval]
      split at h
      · exact h
      · exact ih h

theorem eval_mono_le (E : Env σ) {fuel fuel' : Nat} (hle : fuel ≤ fuel') {env : List Nat} {p : Prog σ} {s : St σ}
    {r : Out (Except Error σ.V) × St σ} (h : eval E fuel env p s = some r) : eval E fuel' env p s = some r := by
  induction hle with
  | refl => exact h
  | step _ ih => exact eval_mono E ih

theorem eval_det (E : Env σ) {fuel fuel' : Nat} {env : List Nat} {p : Prog σ} {s : St σ}
    {r r' : Out (Except Error σ.V) × St σ} (h : eval E fuel env p s = some r) (h' : eval E fuel' env p s = some r') :
    r = r' := by
  rcases Nat.le_total fuel fuel' with hle | hle
  · have := eval_mono_le E hle h; rw [this] at h'; exact Option.some.inj h'
  · have := eval_mono_le E hle h'; rw [h] at this; exact Option.some.inj this

end Plotline
