import Verif.Spec.Group
import Verif.Lemmas.Context

/-! Helper lemmas for C89: a state inside another one. -/

namespace Plotline

open Std

variable {σ : Sig}

theorem uses_all (p : Prog σ) : ∀ W : Nat → Prop, (∀ c, W c) → p.Uses W := by
  induction p with
  | done | panic | reenter => intro W h; trivial
  | save c n k ih | delete c n k ih => intro W h; exact ⟨h _, ih W h⟩
  | get c i k ih | contains c i k ih | runTriggers c i k ih | targetRead c k ih | targetWrite c f k ih =>
    intro W h; exact ⟨h _, fun a => ih a W h⟩
  | tx c body k ihb ih =>
    intro W h
    exact ⟨h _, ihb _ fun c => .inr (h _), fun a => ih a W h⟩
  | withTarget n k ih => intro W h; exact ⟨h _, ih W h⟩
  | forget k ih => intro W h; exact ⟨h _, ih W h⟩
  | resRead t k ih | resWrite t f k ih => intro W h a; exact ih a W h
  | resScope t e body k ihb ih => intro W h; exact ⟨fun v => ihb v W h, fun a => ih a W h⟩
  | resAssign t x k ih => intro W h; exact ih W h
  | catchUnwind body k ihb ih => intro W h; exact ⟨ihb W h, fun a => ih a W h⟩

/-- A frame of a transaction, as one of a subtransaction of context `f`, with `d` frames before it. -/
def lift (d f : Nat) (fr : Frame σ.K σ.T) : Frame σ.K σ.T :=
  { fr with parent := some (match fr.parent with
    | none => f
    | some p => d + p) }

/-- The state `s` of a transaction, as that of a subtransaction opened on context `f` of `s0`. -/
def embed (s0 : St σ) (f : Nat) (s : St σ) : St σ :=
  { graph := s0.graph, frames := s0.frames ++ s.frames.map (lift s0.frames.length f), heap := s.heap, locks := s.locks }

section
variable (s0 : St σ) (f : Nat)

theorem embed_frame (s : St σ) (h : Nat) :
    (embed s0 f s).frames[s0.frames.length + h]? = (s.frames[h]?).map (lift s0.frames.length f) := by
  simp [embed, List.getElem?_append_right]

theorem embed_below (s : St σ) {a : Nat} (ha : a < s0.frames.length) : (embed s0 f s).frames[a]? = s0.frames[a]? := by
  simp only [embed]; rw [List.getElem?_append_left ha]

theorem embed_len (s : St σ) : (embed s0 f s).frames.length = s0.frames.length + s.frames.length := by simp [embed]

theorem embed_modify (s : St σ) (h : Nat) (u : Frame σ.K σ.T → Frame σ.K σ.T)
    (hu : ∀ fr, u (lift s0.frames.length f fr) = lift s0.frames.length f (u fr)) :
    (embed s0 f s).frames.modify (s0.frames.length + h) u =
      s0.frames ++ (s.frames.modify h u).map (lift s0.frames.length f) := by
  apply List.ext_getElem?
  intro a
  rw [List.getElem?_modify]
  by_cases ha : a < s0.frames.length
  · rw [embed_below s0 f s ha, List.getElem?_append_left ha]
    have : ¬ s0.frames.length + h = a := by omega
    simp [this]
  · obtain ⟨b, rfl⟩ : ∃ b, a = s0.frames.length + b := ⟨a - s0.frames.length, by omega⟩
    rw [embed_frame, List.getElem?_append_right (by omega), List.getElem?_map, Nat.add_sub_cancel_left, List.getElem?_modify]
    by_cases hb : h = b
    · subst hb
      cases s.frames[h]? <;> simp [hu]
    · have : ¬ s0.frames.length + h = s0.frames.length + b := by omega
      simp [this, hb]

theorem embed_push (s : St σ) (h : Nat) (op : Operation σ.K σ.T) :
    pushOp (embed s0 f s) (s0.frames.length + h) op = embed s0 f (pushOp s h op) := by
  unfold pushOp
  rw [embed_modify]
  · rfl
  · intro fr; rfl

theorem embed_setTarget (s : St σ) (h : Nat) (n : σ.T) :
    setTarget (embed s0 f s) (s0.frames.length + h) n = embed s0 f (setTarget s h n) := by
  unfold setTarget
  rw [embed_modify]
  · rfl
  · intro fr; rfl

theorem embed_writeTarget (s : St σ) (h : Nat) (n : σ.T) (b : Bool) :
    writeTarget (embed s0 f s) (s0.frames.length + h) n b = embed s0 f (writeTarget s h n b) := by
  unfold writeTarget
  rw [embed_modify]
  · rfl
  · intro fr; rfl

theorem embed_leak (s : St σ) (h : Nat) :
    leakFrame (embed s0 f s) (s0.frames.length + h) = embed s0 f (leakFrame s h) := by
  unfold leakFrame
  rw [embed_modify]
  · rfl
  · intro fr; rfl

theorem embed_readTarget (s : St σ) (h : Nat) :
    readTarget (embed s0 f s) (s0.frames.length + h) = readTarget s h := by
  unfold readTarget
  rw [embed_frame]
  cases s.frames[h]? <;> rfl

theorem embed_open (s : St σ) (h : Nat) :
    openChild (embed s0 f s) (s0.frames.length + h) = embed s0 f (openChild s h) := by
  simp [openChild, embed, lift]

theorem embed_close (s : St σ) (n : Nat) :
    closeChild (embed s0 f s) (s0.frames.length + n) = embed s0 f (closeChild s n) := by
  simp only [closeChild, embed, List.take_append, List.map_take, Nat.add_sub_cancel_left]
  rw [List.take_of_length_le (by omega)]

theorem embed_commit (s : St σ) (n h : Nat) (fr : Frame σ.K σ.T) (hfr : s.frames[n]? = some fr) (hp : fr.parent = some h) :
    commitChild (embed s0 f s) (s0.frames.length + n) = embed s0 f (commitChild s n) := by
  unfold commitChild
  rw [embed_frame, hfr]
  simp only [Option.map_some, lift, hp]
  split
  · exact embed_close s0 f s n
  · have h1 : (embed s0 f s).frames.take (s0.frames.length + n) = (embed s0 f (closeChild s n)).frames :=
      congrArg St.frames (embed_close s0 f s n)
    rw [h1, embed_modify]
    · rfl
    · intro _; rfl

variable {s0 f} {g G : Graph σ.K σ.T}

/-- What contexts inside read. -/
theorem embed_get (h0 : Reachable g s0) (hf : f < s0.frames.length) (hG : G.get = ctxGet s0.graph s0.frames f) {s : St σ}
    (hs : Reachable G s) (h : Nat) (hh : h < s.frames.length) (i : σ.K) :
    ctxGet (embed s0 f s).graph (embed s0 f s).frames (s0.frames.length + h) i = ctxGet s.graph s.frames h i := by
  induction h using Nat.strongRecOn with
  | _ h ih =>
    have hfr : s.frames[h]? = some s.frames[h] := List.getElem?_eq_getElem hh
    have hfr' := embed_frame s0 f s h
    rw [hfr, Option.map_some] at hfr'
    rw [ctxGet_some hfr, ctxGet_some hfr']
    show (match s.frames[h].ops.reverse.find? (fun op => op.id == i) with
      | some (.save node) => some node
      | some (.delete _) => none
      | none => _) = _
    cases s.frames[h].ops.reverse.find? (fun op => op.id == i) with
    | some o => cases o <;> rfl
    | none =>
      cases hp : s.frames[h].parent with
      | none =>
        simp only [lift, hp]
        rw [if_pos (by omega), hs.graph, congrFun hG i]
        exact ctxGet_below h0.wf (n := s0.frames.length) hf (fun a ha => by rw [embed_below s0 f s ha]) i
      | some p =>
        have hlt := hs.wf _ _ _ hfr hp
        simp only [lift, hp]
        rw [if_pos (by omega), if_pos hlt]
        exact ih p hlt (by omega)

end

/-- How the contexts in scope inside are found outside. -/
def Scoped (d : Nat) (W : Nat → Prop) (env env' : List Nat) : Prop := ∀ c, W c → env'[c]? = (env[c]?).map (d + ·)

theorem tryForEach_embed {run run' : Prog σ → St σ → Option (Out (Except Error σ.V) × St σ)} (e : St σ → St σ)
    (I : St σ → Prop) (ts : List (Prog σ))
    (hrun : ∀ t ∈ ts, ∀ s, I s → run' t (e s) = (run t s).map (fun r => (r.1, e r.2)) ∧ ∀ r, run t s = some r → I r.2) :
    ∀ s, I s → tryForEach run' ts (e s) = (tryForEach run ts s).map (fun r => (r.1, e r.2)) := by
  induction ts with
  | nil => intro s _; rfl
  | cons t ts ih =>
    intro s hs
    obtain ⟨h1, h2⟩ := hrun t (List.mem_cons_self ..) s hs
    simp only [tryForEach]
    rw [h1]
    cases hr : run t s with
    | none => rfl
    | some r =>
      obtain ⟨o, s1⟩ := r
      rcases o with (_ | _) | _ | _
      · rfl
      · exact ih (fun t ht => hrun t (List.mem_cons_of_mem _ ht)) s1 (h2 _ hr)
      · rfl
      · rfl

/-- A program inside does what it does alone. -/
theorem eval_embed (E : Env σ) {s0 : St σ} {f : Nat} {g G : Graph σ.K σ.T} (h0 : Reachable g s0) (hf : f < s0.frames.length)
    (hG : G.get = ctxGet s0.graph s0.frames f) (fuel : Nat) : ∀ (W : Nat → Prop) (env env' : List Nat) (p : Prog σ) (s : St σ),
    Scoped s0.frames.length W env env' → p.Uses W → (∀ e ∈ env, e < s.frames.length) → Reachable G s →
    eval E fuel env' p (embed s0 f s) = (eval E fuel env p s).map fun r => (r.1, embed s0 f r.2) := by
  induction fuel with
  | zero => intros; rfl
  | succ fuel ih =>
    intro W env env' p s hsc hp henv hs
    cases p with
    | done r => rfl
    | panic => rfl
    | reenter => rfl
    | save c n k =>
      simp only [eval]
      rw [hsc c hp.1]
      cases hc : env[c]? with
      | none => rfl
      | some h =>
        simp only [Option.map_some]
        rw [embed_push]
        exact ih W env env' k _ hsc hp.2 (by simpa [pushOp] using henv) (.push _ _ hs)
    | delete c i k =>
      simp only [eval]
      rw [hsc c hp.1]
      cases hc : env[c]? with
      | none => rfl
      | some h =>
        simp only [Option.map_some]
        rw [embed_push]
        exact ih W env env' k _ hsc hp.2 (by simpa [pushOp] using henv) (.push _ _ hs)
    | get c i k =>
      simp only [eval]
      rw [hsc c hp.1]
      cases hc : env[c]? with
      | none => rfl
      | some h =>
        simp only [Option.map_some]
        rw [embed_get h0 hf hG hs h (henv h (List.mem_of_getElem? hc))]
        exact ih W env env' _ _ hsc (hp.2 _) henv hs
    | contains c i k =>
      simp only [eval]
      rw [hsc c hp.1]
      cases hc : env[c]? with
      | none => rfl
      | some h =>
        simp only [Option.map_some]
        rw [ctxContains_eq, ctxContains_eq, embed_get h0 hf hG hs h (henv h (List.mem_of_getElem? hc))]
        exact ih W env env' _ _ hsc (hp.2 _) henv hs
    | tx c body k =>
      simp only [eval]
      rw [hsc c hp.1]
      cases hc : env[c]? with
      | none => rfl
      | some h =>
        have hh := henv h (List.mem_of_getElem? hc)
        simp only [Option.map_some]
        rw [embed_open, embed_len]
        have hsc' : Scoped s0.frames.length (fun c => c = 0 ∨ W (c - 1)) (s.frames.length :: env)
            ((s0.frames.length + s.frames.length) :: env') := by
          intro c hw
          cases c with
          | zero => rfl
          | succ c =>
            simp only [List.getElem?_cons_succ]
            exact hsc c (by simpa using hw)
        rw [ih _ _ _ body (openChild s h) hsc' hp.2.1 (openChild_env henv) (.openChild h hh hs)]
        cases hr : eval E fuel (s.frames.length :: env) body (openChild s h) with
        | none => rfl
        | some r =>
          obtain ⟨o, s1⟩ := r
          obtain ⟨hl, _, fr, hfr, hpar⟩ := child_after henv hr
          have hs1 := eval_reachable E (.openChild h hh hs) (openChild_env henv) hr
          have hpos : 0 < s.frames.length := by omega
          have hlc : (closeChild s1 s.frames.length).frames.length = s.frames.length := by simp [closeChild, hl]
          have hlk : (commitChild s1 s.frames.length).frames.length = s.frames.length := by
            rcases commitChild_frames s1 s.frames.length with h | ⟨_, _, _, _, _, h⟩ <;> rw [h] <;> simp [hl]
          rcases o with (e | v) | _ | _
          · simp only [Option.map_some]
            rw [embed_close]
            exact ih W env env' _ _ hsc (hp.2.2 _) (fun e he => by rw [hlc]; exact henv e he) (.close _ hpos hl.symm hs1)
          · simp only [Option.map_some]
            rw [embed_commit _ _ _ _ _ _ hfr hpar]
            exact ih W env env' _ _ hsc (hp.2.2 _) (fun e he => by rw [hlk]; exact henv e he) (.commit _ hpos hl.symm hs1)
          · simp only [Option.map_some]
            rw [embed_close]
          · simp only [Option.map_some]
            rw [embed_close]
    | runTriggers c sch k =>
      simp only [eval]
      rw [hsc c hp.1]
      cases hc : env[c]? with
      | none => rfl
      | some h =>
        have hh := henv h (List.mem_of_getElem? hc)
        simp only [Option.map_some]
        cases hts : E.triggers.select sch with
        | none => exact ih W env env' _ _ hsc (hp.2 _) henv hs
        | some ts =>
          simp only
          have he := tryForEach_embed (run := eval E fuel [h]) (run' := eval E fuel [s0.frames.length + h]) (embed s0 f)
            (fun s => Reachable G s ∧ h < s.frames.length) ts (by
              intro t _ s hs
              have h1 : ∀ e ∈ [h], e < s.frames.length := by intro e he; rw [List.mem_singleton.1 he]; exact hs.2
              refine ⟨ih (fun _ => True) _ _ t s (fun c _ => ?_) (uses_all t _ fun _ => trivial) h1 hs.1, fun r hr => ?_⟩
              · cases c <;> rfl
              · exact ⟨eval_reachable E hs.1 h1 hr, by rw [eval_len E h1 hr]; exact hs.2⟩) s ⟨hs, hh⟩
          rw [he]
          cases hr : tryForEach (eval E fuel [h]) ts s with
          | none => rfl
          | some r =>
            obtain ⟨o, s1⟩ := r
            have hboth : (Reachable G s → Reachable G s1) ∧ s1.frames.length = s.frames.length := by
              refine tryForEach_inv (R := fun s s' => (Reachable G s → Reachable G s') ∧ s'.frames.length = s.frames.length)
                (fun s => ⟨fun h => h, rfl⟩) (fun _ _ _ a b => ⟨fun h => b.1 (a.1 h), b.2.trans a.2⟩)
                (fun s => h < s.frames.length) ts ?_ s o s1 hh hr
              intro t _ s out s' hi he
              have henv1 : ∀ e ∈ [h], e < s.frames.length := by
                intro e he; simp only [List.mem_singleton] at he; rw [he]; exact hi
              have hl := eval_len E henv1 he
              exact ⟨⟨fun hs => eval_reachable E hs henv1 he, hl⟩, by rw [hl]; exact hi⟩
            rcases o with r | _ | _
            · exact ih W env env' _ _ hsc (hp.2 _) (fun e he => by rw [hboth.2]; exact henv e he) (hboth.1 hs)
            · rfl
            · rfl
    | withTarget n k =>
      simp only [eval]
      rw [hsc 0 hp.1]
      cases hc : env[0]? with
      | none => rfl
      | some h =>
        simp only [Option.map_some]
        rw [embed_setTarget]
        exact ih W env env' k _ hsc hp.2 (by simpa [setTarget] using henv) (.setTarget _ _ hs)
    | targetRead c k =>
      simp only [eval]
      rw [hsc c hp.1]
      cases hc : env[c]? with
      | none => rfl
      | some h =>
        simp only [Option.map_some]
        rw [embed_readTarget]
        exact ih W env env' _ _ hsc (hp.2 _) henv hs
    | targetWrite c fn k =>
      simp only [eval]
      rw [hsc c hp.1]
      cases hc : env[c]? with
      | none => rfl
      | some h =>
        simp only [Option.map_some]
        rw [embed_readTarget]
        cases readTarget s h with
        | none => exact ih W env env' _ _ hsc (hp.2 _) henv hs
        | some n =>
          simp only
          split
          · rw [embed_writeTarget]
            exact ih W env env' _ _ hsc (hp.2 _) (by simpa [writeTarget] using henv) (.writeTarget _ _ _ hs)
          · rw [embed_writeTarget]; rfl
    | resRead t k =>
      simp only [eval]
      have hb : (embed s0 f s).resBlocks E t false = s.resBlocks E t false := rfl
      rw [hb]
      split
      · rfl
      · exact ih W env env' _ _ hsc (hp _) henv hs
    | resWrite t fn k =>
      simp only [eval]
      have hb : (embed s0 f s).resBlocks E t true = s.resBlocks E t true := rfl
      rw [hb]
      split
      · rfl
      · have hh : (embed s0 f s).heap = s.heap := rfl
        rw [hh]
        split
        · exact ih W env env' _ _ hsc (hp _) henv hs
        · rename_i hp' _
          exact ih W env env' _ { s with heap := hp' } hsc (hp _) henv (.heap _ hs)
        · rfl
    | resScope t excl body k =>
      simp only [eval]
      cases hl : (E.resources.res t).lock with
      | none => exact ih W env env' _ _ hsc (hp.2 _) henv hs
      | some q =>
        simp only
        have hb : (embed s0 f s).blocks q excl = s.blocks q excl := rfl
        rw [hb]
        split
        · rfl
        · have hh : (embed s0 f s).heap = s.heap := rfl
          rw [hh]
          cases (E.resources.res t).peek s.heap with
          | none => exact ih W env env' _ _ hsc (hp.2 _) henv hs
          | some v =>
            have he := ih W env env' (body v) (lockRes s q excl) hsc (hp.1 v) henv (.locks _ hs)
            have h1 : lockRes (embed s0 f s) q excl = embed s0 f (lockRes s q excl) := rfl
            simp only
            rw [h1, he]
            cases hr : eval E fuel env (body v) (lockRes s q excl) with
            | none => rfl
            | some r =>
              obtain ⟨o, s1⟩ := r
              have hs1 := eval_reachable (s := lockRes s q excl) E (.locks _ hs) henv hr
              have hl1 := eval_len (s := lockRes s q excl) E henv hr
              rcases o with r | _ | _
              · exact ih W env env' _ (unlockRes s1) hsc (hp.2 _)
                  (fun e he => by have := henv e he; simp only [unlockRes, hl1]; exact this) (.locks _ hs1)
              · rfl
              · rfl
    | resAssign t x k =>
      simp only [eval]
      cases hl : (E.resources.res t).lock with
      | none => rfl
      | some q =>
        simp only
        have hh : (embed s0 f s).locks = s.locks := rfl
        rw [hh]
        split
        · exact ih W env env' k (assignRes s q t x) hsc hp henv (.heap _ hs)
        · rfl
    | catchUnwind body k =>
      simp only [eval]
      rw [ih W env env' body s hsc hp.1 henv hs]
      cases hr : eval E fuel env body s with
      | none => rfl
      | some r =>
        obtain ⟨o, s1⟩ := r
        have hs1 := eval_reachable E hs henv hr
        have hl1 := eval_len E henv hr
        rcases o with r | _ | _
        · exact ih W env env' _ _ hsc (hp.2 _) (fun e he => by rw [hl1]; exact henv e he) hs1
        · exact ih W env env' _ _ hsc (hp.2 _) (fun e he => by rw [hl1]; exact henv e he) hs1
        · rfl
    | forget k =>
      simp only [eval]
      rw [hsc 0 hp.1]
      cases hc : env[0]? with
      | none => rfl
      | some h =>
        simp only [Option.map_some]
        rw [embed_leak]
        exact ih W env env' k _ hsc hp.2 (by simpa [leakFrame] using henv) (.leak _ hs)

end Plotline
