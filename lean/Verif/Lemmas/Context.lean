import Verif.Lemmas.Eval

/-! Helper lemmas connecting `eval` on contexts with what contexts read. -/

namespace Plotline

open Std

set_option linter.unusedSectionVars false

variable {σ : Sig}

/-- Same parents and logs for all frames below `n`: same readings. -/
theorem ctxGet_below {g : Graph σ.K σ.T} {fs fs' : List (Frame σ.K σ.T)} (hwf : FramesWF fs) {n f : Nat} (hf : f < n)
    (h : ∀ a, a < n → (fs'[a]?).map (fun fr => (fr.parent, fr.ops)) = (fs[a]?).map (fun fr => (fr.parent, fr.ops)))
    (i : σ.K) : ctxGet g fs' f i = ctxGet g fs f i :=
  ctxGet_congr f (fun a ha => h a (Nat.lt_of_le_of_lt (ha.le hwf) hf)) i

theorem openChild_below (s : St σ) (f : Nat) {a : Nat} (ha : a < s.frames.length) :
    (openChild s f).frames[a]? = s.frames[a]? := by
  simp only [openChild]; rw [List.getElem?_append_left ha]

theorem openChild_env {s : St σ} {f : Nat} {env : List Nat} (henv : ∀ e ∈ env, e < s.frames.length) :
    ∀ e ∈ s.frames.length :: env, e < (openChild s f).frames.length := by
  intro e he
  simp only [openChild, List.length_append, List.length_singleton]
  rcases List.mem_cons.1 he with rfl | he
  · omega
  · have := henv e he; omega

/-- The opened child after its body ran. -/
theorem child_after {E : Env σ} {fuel : Nat} {env : List Nat} {body : Prog σ} {s s1 : St σ} {f : Nat}
    {out : Out (Except Error σ.V)} (henv : ∀ e ∈ env, e < s.frames.length)
    (h : eval E fuel (s.frames.length :: env) body (openChild s f) = some (out, s1)) :
    s1.frames.length = s.frames.length + 1 ∧ s1.graph = s.graph ∧
    ∃ fr, s1.frames[s.frames.length]? = some fr ∧ fr.parent = some f := by
  have hg := eval_grows_any E fuel _ body _ s1 out (openChild_env henv) h
  refine ⟨?_, hg.graph, child_frame hg⟩
  have := hg.len
  simpa [openChild] using this

/-- What a body restricted to its own context leaves of the enclosing contexts. -/
theorem own_writes_below {E : Env σ} {fuel : Nat} {env : List Nat} {body : Prog σ} {s s1 : St σ} {f : Nat}
    {out : Out (Except Error σ.V)} (henv : ∀ e ∈ env, e < s.frames.length) (hw : body.Writes (fun c => c = 0))
    (h : eval E fuel (s.frames.length :: env) body (openChild s f) = some (out, s1)) {a : Nat}
    (ha : a < s.frames.length) :
    (s1.frames[a]?).map (fun fr => (fr.parent, fr.ops)) = (s.frames[a]?).map (fun fr => (fr.parent, fr.ops)) := by
  have hg := eval_grows E fuel _ _ _ _ _ _ hw (openChild_env henv) h
  have hfr : s.frames[a]? = some s.frames[a] := List.getElem?_eq_getElem ha
  obtain ⟨fr', hf', hpar, _, _, hQ⟩ := hg.frames a s.frames[a] (by rw [openChild_below s f ha]; exact hfr)
  rw [hf', hfr]
  simp only [Option.map_some, Option.some.injEq, Prod.mk.injEq]
  refine ⟨hpar, hQ ?_⟩
  rintro ⟨c, rfl, hc⟩
  simp only [List.getElem?_cons_zero, Option.some.injEq] at hc
  omega

/-- Every frame below the dropped child is kept. -/
theorem closeChild_below (s1 : St σ) {n a : Nat} (ha : a < n) :
    (closeChild s1 n).frames[a]? = s1.frames[a]? := by
  simp [closeChild, List.getElem?_take, ha]

/-- The frames after a successful commit of the youngest child. -/
theorem commitChild_eq {s1 : St σ} {n f : Nat} {fr : Frame σ.K σ.T} (hfr : s1.frames[n]? = some fr)
    (hpar : fr.parent = some f) (hl : fr.leaked = false) :
    (commitChild s1 n).frames = (s1.frames.take n).modify f fun pf => { pf with ops := pf.ops ++ fr.ops } := by
  simp [commitChild, hfr, hpar, hl]

theorem commitChild_graph (s1 : St σ) (n : Nat) : (commitChild s1 n).graph = s1.graph := by
  unfold commitChild closeChild
  split
  · rfl
  · split
    · rfl
    · split <;> rfl

section
variable [LawfulSig σ]

theorem ctxGet_commit {s1 : St σ} (hwf : FramesWF s1.frames) {n f : Nat} {fr : Frame σ.K σ.T}
    (hfr : s1.frames[n]? = some fr) (hpar : fr.parent = some f) (hl : fr.leaked = false) (hlen : s1.frames.length = n + 1) :
    ctxGet (commitChild s1 n).graph (commitChild s1 n).frames f = ctxGet s1.graph s1.frames n := by
  have hlt := hwf _ _ _ hfr hpar
  rw [ctxGet_applyAll_parent hfr hpar hlt, commitChild_graph]
  have hff : s1.frames[f]? = some s1.frames[f] := List.getElem?_eq_getElem (by omega)
  have hcf : (commitChild s1 n).frames[f]? = some { s1.frames[f] with ops := s1.frames[f].ops ++ fr.ops } := by
    rw [commitChild_eq hfr hpar hl, List.getElem?_modify, List.getElem?_take, if_pos hlt, hff]
    simp
  have hbelow : ∀ a, a < f → (commitChild s1 n).frames[a]? = s1.frames[a]? := by
    intro a ha
    rw [commitChild_eq hfr hpar hl, List.getElem?_modify, List.getElem?_take, if_pos (by omega)]
    have : ¬ f = a := by omega
    simp [this]
  cases hp : s1.frames[f].parent with
  | none =>
    rw [ctxGet_applyAll_root hcf hp, ctxGet_applyAll_root hff hp, applyAll_append]
  | some p =>
    have hpf := hwf _ _ _ hff hp
    rw [ctxGet_applyAll_parent hcf hp hpf, ctxGet_applyAll_parent hff hp hpf, applyAll_append]
    congr 2
    funext i
    exact ctxGet_below hwf hpf (fun a ha => by rw [hbelow a ha]) i

theorem ctxGet_commit_other {s1 : St σ} (hwf : FramesWF s1.frames) {n f h : Nat} (hn : h < n)
    {fr : Frame σ.K σ.T} (hfr : s1.frames[n]? = some fr) (hpar : fr.parent = some f) (hw : ¬ Within s1.frames f h)
    (i : σ.K) :
    ctxGet (commitChild s1 n).graph (commitChild s1 n).frames h i = ctxGet s1.graph s1.frames h i := by
  rw [commitChild_graph]
  apply ctxGet_congr
  intro a ha
  have hah := ha.le hwf
  have hne : f ≠ a := fun e => hw (e ▸ ha)
  have hane : a ≠ f := fun e => hne e.symm
  rcases commitChild_frames s1 n with h' | ⟨fr', p, hfr', _, hp', h'⟩
  · rw [h', List.getElem?_take, if_pos (by omega)]
  · have : p = f := by rw [hfr] at hfr'; cases hfr'; rw [hpar] at hp'; cases hp'; rfl
    subst this
    rw [h', List.getElem?_modify, List.getElem?_take, if_pos (by omega)]
    simp [hne]

end

theorem begin_env (S : Schema σ) (pre : List (Operation σ.K σ.T)) :
    ∀ e ∈ [0], e < (S.begin pre).frames.length := by simp [Schema.begin]

theorem begin_reachable (S : Schema σ) (pre : List (Operation σ.K σ.T)) : Reachable S.graph (S.begin pre) := by
  have : S.guard = S.graph := by unfold Schema.guard; split <;> rfl
  unfold Schema.begin; rw [this]; exact .start pre S.heap

/-- The root frame after a closure ran. -/
theorem root_after {S : Schema σ} {fuel : Nat} {pre : List (Operation σ.K σ.T)} {body : Prog σ} {s : St σ}
    {out : Out (Except Error σ.V)} (h : eval S.env fuel [0] body (S.begin pre) = some (out, s)) :
    s.graph = S.graph ∧ ∃ fr, s.frames = [fr] ∧ fr.parent = none ∧ pre <+: fr.ops := by
  have hg := eval_grows_any S.env fuel [0] body _ s out (begin_env S pre) h
  have hr := eval_reachable S.env (begin_reachable S pre) (begin_env S pre) h
  refine ⟨hr.graph, ?_⟩
  obtain ⟨fr', hf', hpar, hpre, _⟩ := hg.frames 0 ⟨none, pre, none, false⟩ rfl
  have hl : s.frames.length = 1 := hg.len
  refine ⟨fr', ?_, hpar, hpre⟩
  match hs : s.frames, hl with
  | [x], _ => rw [hs] at hf'; simp only [List.getElem?_cons_zero, Option.some.injEq] at hf'; rw [hf']

/-- `transact` by cases. -/
theorem transact_some {S S' : Schema σ} {fuel : Nat} {pre : List (Operation σ.K σ.T)} {body : Prog σ}
    {out : Out (Except Error σ.V)} (h : S.transact fuel pre body = some (out, S')) :
    ∃ s, eval S.env fuel [0] body (S.begin pre) = some (out, s) ∧ S'.env = S.env ∧ S'.heap = s.heap ∧
      ((∃ v, out = .ret (.ok v)) → S'.graph = commitRoot s) ∧
      ((∀ v, out ≠ .ret (.ok v)) → S'.graph = S.graph) := by
  unfold Schema.transact at h
  cases he : eval S.env fuel [0] body (S.begin pre) with
  | none => simp [he] at h
  | some r =>
    obtain ⟨o, s⟩ := r
    rw [he] at h
    have hgr := (root_after he).1
    rcases o with (e | v) | _ | _ <;> simp only [Option.some.injEq, Prod.mk.injEq] at h <;> obtain ⟨rfl, rfl⟩ := h
    · exact ⟨s, rfl, rfl, rfl, fun ⟨_, h⟩ => (by cases h), fun _ => hgr⟩
    · exact ⟨s, rfl, rfl, rfl, fun _ => rfl, fun h => absurd rfl (h v)⟩
    · exact ⟨s, rfl, rfl, rfl, fun ⟨_, h⟩ => (by cases h), fun _ => hgr⟩
    · exact ⟨s, rfl, rfl, rfl, fun ⟨_, h⟩ => (by cases h), fun _ => hgr⟩

theorem transact_none_iff {S : Schema σ} {fuel : Nat} {pre : List (Operation σ.K σ.T)} {body : Prog σ} :
    S.transact fuel pre body = none ↔ eval S.env fuel [0] body (S.begin pre) = none := by
  unfold Schema.transact
  cases he : eval S.env fuel [0] body (S.begin pre) with
  | none => simp
  | some r => obtain ⟨o, s⟩ := r; rcases o with (e | v) | _ | _ <;> simp

/-- Whether a context is leaked changes only if it is the running program's own context and the program leaks it. -/
theorem eval_leaked {E : Env σ} (hE : E.Holds) (fuel : Nat) : ∀ (env : List Nat) (p : Prog σ) (s s' : St σ)
    (out : Out (Except Error σ.V)), (∀ e ∈ env, e < s.frames.length) → eval E fuel env p s = some (out, s') →
    ∀ f, f < s.frames.length → (p.Holds ∨ env[0]? ≠ some f) →
    (s'.frames[f]?).map Frame.leaked = (s.frames[f]?).map Frame.leaked := by
  have key : ∀ (l : List (Frame σ.K σ.T)) (i : Nat) (u : Frame σ.K σ.T → Frame σ.K σ.T) (f : Nat)
      (_ : ∀ fr, f = i → (u fr).leaked = fr.leaked),
      ((l.modify i u)[f]?).map Frame.leaked = (l[f]?).map Frame.leaked := by
    intro l i u f hu
    rw [List.getElem?_modify]
    cases l[f]? with
    | none => rfl
    | some fr =>
      simp only [Option.map_eq_map, Option.map_some]
      split
      · rename_i h; simp [hu fr h.symm]
      · rfl
  induction fuel with
  | zero => intro env p s s' out _ h; simp [eval] at h
  | succ fuel ih =>
    intro env p s s' out henv h f hf hh
    -- continue as `p'` from `s1`
    have keep : ∀ (s1 : St σ) (p' : Prog σ), s1.frames.length = s.frames.length →
        (s1.frames[f]?).map Frame.leaked = (s.frames[f]?).map Frame.leaked → (p'.Holds ∨ env[0]? ≠ some f) →
        eval E fuel env p' s1 = some (out, s') →
        (s'.frames[f]?).map Frame.leaked = (s.frames[f]?).map Frame.leaked := by
      intro s1 p' hl he hp' hr
      rw [← he]
      exact ih env p' s1 s' out (by rw [hl]; exact henv) hr f (by rw [hl]; exact hf) hp'
    cases p with
    | done r => simp only [eval, Option.some.injEq, Prod.mk.injEq] at h; rw [← h.2]
    | panic => simp only [eval, Option.some.injEq, Prod.mk.injEq] at h; rw [← h.2]
    | reenter => simp only [eval, Option.some.injEq, Prod.mk.injEq] at h; rw [← h.2]
    | save c n k =>
      simp only [eval] at h
      split at h
      · simp only [Option.some.injEq, Prod.mk.injEq] at h; rw [← h.2]
      · exact keep (pushOp s _ _) k (by simp [pushOp]) (key _ _ _ _ (fun _ _ => rfl)) hh h
    | delete c i k =>
      simp only [eval] at h
      split at h
      · simp only [Option.some.injEq, Prod.mk.injEq] at h; rw [← h.2]
      · exact keep (pushOp s _ _) k (by simp [pushOp]) (key _ _ _ _ (fun _ _ => rfl)) hh h
    | get c i k =>
      simp only [eval] at h
      split at h
      · simp only [Option.some.injEq, Prod.mk.injEq] at h; rw [← h.2]
      · exact keep s _ rfl rfl (hh.imp_left fun h => h _) h
    | contains c i k =>
      simp only [eval] at h
      split at h
      · simp only [Option.some.injEq, Prod.mk.injEq] at h; rw [← h.2]
      · exact keep s _ rfl rfl (hh.imp_left fun h => h _) h
    | tx c body k =>
      simp only [eval] at h
      split at h
      · simp only [Option.some.injEq, Prod.mk.injEq] at h; rw [← h.2]
      · rename_i p hp
        have hpl := henv p (List.mem_of_getElem? hp)
        cases hr : eval E fuel (s.frames.length :: env) body (openChild s p) with
        | none => simp [hr] at h
        | some q =>
          obtain ⟨o, s1⟩ := q
          rw [hr] at h
          have hl1 : s1.frames.length = s.frames.length + 1 := by
            rw [eval_len E (openChild_env henv) hr]; simp [openChild]
          have h1 := ih _ body _ s1 o (openChild_env henv) hr f (by simp [openChild]; omega)
            (.inr (by simp only [List.getElem?_cons_zero, ne_eq, Option.some.injEq]; omega))
          rw [openChild_below s p hf] at h1
          have hcl : ((closeChild s1 s.frames.length).frames[f]?).map Frame.leaked = (s.frames[f]?).map Frame.leaked := by
            rw [closeChild_below s1 hf]; exact h1
          have hcn : (closeChild s1 s.frames.length).frames.length = s.frames.length := by simp [closeChild, hl1]
          have hcm : ((commitChild s1 s.frames.length).frames[f]?).map Frame.leaked = (s.frames[f]?).map Frame.leaked ∧
              (commitChild s1 s.frames.length).frames.length = s.frames.length := by
            rcases commitChild_frames s1 s.frames.length with h | ⟨fr, p, _, _, _, h⟩
            · rw [h]; exact ⟨hcl, hcn⟩
            · rw [h]
              refine ⟨?_, by simp [hl1]⟩
              exact (key (closeChild s1 s.frames.length).frames p (fun pf => { pf with ops := pf.ops ++ fr.ops }) f
                (fun _ _ => rfl)).trans hcl
          rcases o with (e | v) | _ | _
          · exact keep _ _ hcn hcl (hh.imp_left fun h => h _) h
          · exact keep _ _ hcm.2 hcm.1 (hh.imp_left fun h => h _) h
          · simp only [Option.some.injEq, Prod.mk.injEq] at h; rw [← h.2]; exact hcl
          · simp only [Option.some.injEq, Prod.mk.injEq] at h; rw [← h.2]; exact hcl
    | runTriggers c sch k =>
      simp only [eval] at h
      split at h
      · simp only [Option.some.injEq, Prod.mk.injEq] at h; rw [← h.2]
      · rename_i p hp
        have hpl := henv p (List.mem_of_getElem? hp)
        split at h
        · exact keep s _ rfl rfl (hh.imp_left fun h => h _) h
        · rename_i ts hts
          cases hr : tryForEach (eval E fuel [p]) ts s with
          | none => simp [hr] at h
          | some q =>
            obtain ⟨o, s1⟩ := q
            rw [hr] at h
            have hinv := tryForEach_inv (R := fun (a b : St σ) => f < a.frames.length → p < a.frames.length →
                (b.frames[f]?).map Frame.leaked = (a.frames[f]?).map Frame.leaked ∧ b.frames.length = a.frames.length)
              (fun _ _ _ => ⟨rfl, rfl⟩)
              (fun a b c hab hbc h1 h2 => by
                obtain ⟨x1, x2⟩ := hab h1 h2
                obtain ⟨y1, y2⟩ := hbc (by rw [x2]; exact h1) (by rw [x2]; exact h2)
                exact ⟨y1.trans x1, y2.trans x2⟩)
              (fun _ => True) ts
              (fun t ht a out' b _ hab => ⟨fun h1 h2 => by
                have hen : ∀ e ∈ [p], e < a.frames.length := by simp [h2]
                exact ⟨ih [p] t a b out' hen hab f h1 (.inl (hE sch ts hts t ht)), eval_len E hen hab⟩, trivial⟩)
              s o s1 trivial hr hf hpl
            rcases o with r | _ | _
            · exact keep s1 _ hinv.2 hinv.1 (hh.imp_left fun h => h _) h
            · simp only [Option.some.injEq, Prod.mk.injEq] at h; rw [← h.2]; exact hinv.1
            · simp only [Option.some.injEq, Prod.mk.injEq] at h; rw [← h.2]; exact hinv.1
    | withTarget n k =>
      simp only [eval] at h
      split at h
      · simp only [Option.some.injEq, Prod.mk.injEq] at h; rw [← h.2]
      · exact keep (setTarget s _ _) k (by simp [setTarget]) (key _ _ _ _ (fun _ _ => rfl)) hh h
    | targetRead c k =>
      simp only [eval] at h
      split at h
      · simp only [Option.some.injEq, Prod.mk.injEq] at h; rw [← h.2]
      · exact keep s _ rfl rfl (hh.imp_left fun h => h _) h
    | targetWrite c fn k =>
      simp only [eval] at h
      split at h
      · simp only [Option.some.injEq, Prod.mk.injEq] at h; rw [← h.2]
      · split at h
        · exact keep s _ rfl rfl (hh.imp_left fun h => h _) h
        · split at h
          · exact keep (writeTarget s _ _ _) _ (by simp [writeTarget]) (key _ _ _ _ (fun _ _ => rfl))
              (hh.imp_left fun h => h _) h
          · simp only [Option.some.injEq, Prod.mk.injEq] at h; rw [← h.2]; exact key _ _ _ _ (fun _ _ => rfl)
    | resRead t k =>
      simp only [eval] at h
      split at h
      · simp only [Option.some.injEq, Prod.mk.injEq] at h; rw [← h.2]
      · exact keep s _ rfl rfl (hh.imp_left fun h => h _) h
    | resWrite t fn k =>
      simp only [eval] at h
      split at h
      · simp only [Option.some.injEq, Prod.mk.injEq] at h; rw [← h.2]
      · split at h
        · exact keep s _ rfl rfl (hh.imp_left fun h => h _) h
        · rename_i hp _; exact keep { s with heap := hp } _ rfl rfl (hh.imp_left fun h => h _) h
        · simp only [Option.some.injEq, Prod.mk.injEq] at h; rw [← h.2]
    | resScope t excl body k =>
      simp only [eval] at h
      split at h
      · exact keep s _ rfl rfl (hh.imp_left fun h => h.2 _) h
      · rename_i q _
        split at h
        · simp only [Option.some.injEq, Prod.mk.injEq] at h; rw [← h.2]
        · split at h
          · exact keep s _ rfl rfl (hh.imp_left fun h => h.2 _) h
          · rename_i v _
            cases hr : eval E fuel env (body v) (lockRes s q excl) with
            | none => simp [hr] at h
            | some r =>
              obtain ⟨o, s1⟩ := r
              rw [hr] at h
              have h1 := ih env (body v) (lockRes s q excl) s1 o henv hr f hf (hh.imp_left fun h => h.1 v)
              have hl1 := eval_len E (s := lockRes s q excl) henv hr
              rcases o with r | _ | _
              · exact keep (unlockRes s1) _ hl1 h1 (hh.imp_left fun h => h.2 _) h
              · simp only [Option.some.injEq, Prod.mk.injEq] at h; rw [← h.2]; exact h1
              · simp only [Option.some.injEq, Prod.mk.injEq] at h; rw [← h.2]; exact h1
    | resAssign t x k =>
      simp only [eval] at h
      split at h
      · simp only [Option.some.injEq, Prod.mk.injEq] at h; rw [← h.2]
      · split at h
        · exact keep (assignRes s _ t x) k rfl rfl hh h
        · simp only [Option.some.injEq, Prod.mk.injEq] at h; rw [← h.2]
    | catchUnwind body k =>
      simp only [eval] at h
      cases hr : eval E fuel env body s with
      | none => simp [hr] at h
      | some q =>
        obtain ⟨o, s1⟩ := q
        rw [hr] at h
        have h1 := ih env body s s1 o henv hr f hf (hh.imp_left fun h => h.1)
        have hl1 := eval_len E henv hr
        rcases o with r | _ | _
        · exact keep s1 _ hl1 h1 (hh.imp_left fun h => h.2 _) h
        · exact keep s1 _ hl1 h1 (hh.imp_left fun h => h.2 _) h
        · simp only [Option.some.injEq, Prod.mk.injEq] at h; rw [← h.2]; exact h1
    | forget k =>
      simp only [eval] at h
      split at h
      · simp only [Option.some.injEq, Prod.mk.injEq] at h; rw [← h.2]
      · rename_i p hp
        rcases hh with hh | hh
        · exact hh.elim
        · refine keep (leakFrame s p) k (by simp [leakFrame]) (key _ _ _ _ (fun _ he => ?_)) (.inr hh) h
          exact absurd (by rw [hp, he]) hh

/-- Logs do not change under quiet programs. -/
theorem eval_quiet {E : Env σ} (hE : E.Every Prog.Quiet) {fuel : Nat} {env : List Nat} {p : Prog σ} {s s' : St σ}
    {out : Out (Except Error σ.V)} (hp : p.Every Prog.Quiet) (henv : ∀ e ∈ env, e < s.frames.length)
    (h : eval E fuel env p s = some (out, s')) (f : Nat) (hf : f < s.frames.length) :
    (s'.frames[f]?).map Frame.ops = (s.frames[f]?).map Frame.ops := by
  have key : ∀ (s : St σ) (i : Nat) (u : Frame σ.K σ.T → Frame σ.K σ.T) (_ : ∀ fr, (u fr).ops = fr.ops) (f : Nat),
      ((s.frames.modify i u)[f]?).map Frame.ops = (s.frames[f]?).map Frame.ops := by
    intro s i u hu f
    rw [List.getElem?_modify]
    cases s.frames[f]? with
    | none => rfl
    | some fr => simp only [Option.map_eq_map, Option.map_some]; split <;> simp [hu]
  refine eval_inv E Prog.Quiet (fun s s' => ∀ f, f < s.frames.length →
    (s'.frames[f]?).map Frame.ops = (s.frames[f]?).map Frame.ops ∧ f < s'.frames.length) ?_ hE fuel env p s s' out hp
    henv h f hf |>.1
  refine ⟨fun _ _ h => ⟨rfl, h⟩, fun _ _ _ a b f hf => ⟨(b f (a f hf).2).1.trans (a f hf).1, (b f (a f hf).2).2⟩,
    ?_, ?_, ?_, ?_, ?_, ?_, fun _ _ _ hf => ⟨rfl, hf⟩, fun _ _ _ _ _ _ _ _ _ _ hf => ⟨rfl, hf⟩,
    fun _ _ _ _ _ _ _ hf => ⟨rfl, hf⟩, ?_, ?_⟩
  · intro s i c n k hk _; exact absurd hk (by simp [Prog.Quiet])
  · intro s i c n k hk _; exact absurd hk (by simp [Prog.Quiet])
  · intro s i n k _ _ f hf; exact ⟨by apply key; intro _; rfl, by simpa [setTarget] using hf⟩
  · intro s i n c fn k _ _ f hf; exact ⟨by apply key; intro _; rfl, by simpa [writeTarget] using hf⟩
  · intro s i k _ _ f hf; exact ⟨by apply key; intro _; rfl, by simpa [leakFrame] using hf⟩
  · intro s hp t fn k _ f hf; exact ⟨rfl, hf⟩
  · intro s i s1 hi hl hr f hf
    have := hr f (by simp [openChild]; omega)
    rw [openChild_below s i hf] at this
    rw [closeChild_below s1 hf]
    exact ⟨this.1, by simp [closeChild, hl]; omega⟩
  · intro s i s1 hi hl hr f hf
    have := hr f (by simp [openChild]; omega)
    rw [openChild_below s i hf] at this
    have hn := (hr s.frames.length (by simp [openChild])).1
    rcases commitChild_frames s1 s.frames.length with h | ⟨fr, p, hfr, _, _, h⟩
    · rw [h, List.getElem?_take, if_pos hf]
      exact ⟨this.1, by simp [hl]; omega⟩
    · rw [h]
      refine ⟨?_, by simp [hl]; omega⟩
      have hops : fr.ops = [] := by rw [hfr] at hn; simpa [openChild] using hn
      refine (key (closeChild s1 s.frames.length) p (fun pf => { pf with ops := pf.ops ++ fr.ops })
        (fun _ => by simp [hops]) f).trans ?_
      rw [closeChild_below s1 hf]
      exact this.1

/-- Resources do not change under programs that do not write them. -/
theorem eval_heap {E : Env σ} (hE : E.Every Prog.NoResWrite) {fuel : Nat} {env : List Nat} {p : Prog σ} {s s' : St σ}
    {out : Out (Except Error σ.V)} (hp : p.Every Prog.NoResWrite) (henv : ∀ e ∈ env, e < s.frames.length)
    (h : eval E fuel env p s = some (out, s')) : s'.heap = s.heap := by
  refine eval_inv E Prog.NoResWrite (fun s s' => s'.heap = s.heap) ?_ hE fuel env p s s' out hp henv h
  refine ⟨fun _ => rfl, fun _ _ _ a b => b.trans a, fun _ _ _ _ _ _ _ => rfl, fun _ _ _ _ _ _ _ => rfl,
    fun _ _ _ _ _ _ => rfl, fun _ _ _ _ _ _ _ _ => rfl, fun _ _ _ _ _ => rfl, ?_, fun _ _ => rfl, ?_, ?_, ?_, ?_⟩
  · intro s hp t fn k hk; exact absurd hk (by simp [Prog.NoResWrite])
  · intro s l hp t e b k hk hh; exact hh hk
  · intro s hp t x k hk; exact absurd hk (by simp [Prog.NoResWrite])
  · intro s f s1 _ _ h; exact h
  · intro s f s1 _ _ h
    rw [show s.heap = s1.heap from h.symm]
    unfold commitChild closeChild
    split
    · rfl
    · split
      · rfl
      · split <;> rfl

end Plotline
