import Verif.Spec.Transaction
import Verif.Lemmas.Graph

/-! Helper lemmas about contexts, frames and `eval`. -/

namespace Plotline

open Std

set_option linter.unusedSectionVars false

variable {σ : Sig}

/-! ## Maps and operation lists -/

section
variable {K T : Type} [BEq K] [Identify T K]

theorem applyAll_append (m : FMap K T) (a b : List (Operation K T)) :
    m.applyAll (a ++ b) = (m.applyAll a).applyAll b := by simp [FMap.applyAll]

theorem applyAll_find [EquivBEq K] (m : FMap K T) (ops : List (Operation K T)) (q : K) :
    m.applyAll ops q =
      match ops.reverse.find? (fun op => op.id == q) with
      | some (.save n) => some n
      | some (.delete _) => none
      | none => m q := by
  induction ops generalizing m with
  | nil => rfl
  | cons op t ih =>
    have : m.applyAll (op :: t) = (m.apply op).applyAll t := rfl
    rw [this, ih, List.reverse_cons, List.find?_append]
    cases ht : t.reverse.find? (fun op => op.id == q) with
    | some o => cases o <;> simp
    | none =>
      simp only [Option.none_or, List.find?_cons, List.find?_nil]
      cases op with
      | save n =>
        simp only [FMap.apply, FMap.put, Operation.id]
        rw [BEq.comm]
        cases h : (id n == q) <;> simp
      | delete i =>
        simp only [FMap.apply, FMap.del, Operation.id]
        rw [BEq.comm]
        cases h : (i == q) <;> simp

end

section
variable {K T : Type} [Ord K] [TransOrd K] [BEq K] [LawfulBEqOrd K] [Identify T K]

theorem valid_applyOp (g : Graph K T) (h : g.Valid) (op : Operation K T) : (g.applyOp op).Valid := by
  cases op with
  | save n => exact Graph.valid_insert g n h
  | delete i => exact Graph.valid_remove g i h

theorem valid_commit (g : Graph K T) (h : g.Valid) (ops : List (Operation K T)) : (g.commit ops).Valid := by
  induction ops generalizing g with
  | nil => exact h
  | cons op t ih => exact ih _ (valid_applyOp g h op)

theorem get_applyOp (g : Graph K T) (h : g.Valid) (op : Operation K T) : (g.applyOp op).get = FMap.apply g.get op := by
  funext q
  cases op with
  | save n => exact Graph.get_insert g n h q
  | delete i => exact Graph.get_remove g i h q

theorem get_commit (g : Graph K T) (h : g.Valid) (ops : List (Operation K T)) :
    (g.commit ops).get = FMap.applyAll g.get ops := by
  induction ops generalizing g with
  | nil => rfl
  | cons op t ih =>
    have : g.commit (op :: t) = (g.applyOp op).commit t := rfl
    rw [this, ih _ (valid_applyOp g h op), get_applyOp g h]
    rfl

end

/-! ## The shape of the context tree -/

/-- Every parent pointer points to an earlier frame. -/
def FramesWF {K T : Type} (fs : List (Frame K T)) : Prop :=
  ∀ (f : Nat) (fr : Frame K T) (p : Nat), fs[f]? = some fr → fr.parent = some p → p < f

/-- Changing frames in place without changing parents. -/
theorem FramesWF.modify {fs : List (Frame σ.K σ.T)} (h : FramesWF fs) (i : Nat) (u : Frame σ.K σ.T → Frame σ.K σ.T)
    (hu : ∀ fr, (u fr).parent = fr.parent) : FramesWF (fs.modify i u) := by
  intro f fr p hf hp
  rw [List.getElem?_modify] at hf
  cases hfs : fs[f]? with
  | none => simp [hfs] at hf
  | some fr0 =>
    rw [hfs] at hf
    simp only [Option.map_eq_map, Option.map_some, Option.some.injEq] at hf
    apply h f fr0 p hfs
    split at hf <;> subst hf
    · rw [← hu]; exact hp
    · exact hp

theorem FramesWF.take {fs : List (Frame σ.K σ.T)} (h : FramesWF fs) (n : Nat) : FramesWF (fs.take n) := by
  intro f fr p hf hp
  rw [List.getElem?_take] at hf
  split at hf
  · exact h f fr p hf hp
  · cases hf

theorem FramesWF.push {fs : List (Frame σ.K σ.T)} (h : FramesWF fs) (fr : Frame σ.K σ.T)
    (hp : ∀ p, fr.parent = some p → p < fs.length) : FramesWF (fs ++ [fr]) := by
  intro f fr' p hf hpar
  rw [List.getElem?_append] at hf
  split at hf
  · exact h f fr' p hf hpar
  · rename_i hlt
    have h0 : f - fs.length = 0 := by
      cases hx : f - fs.length with
      | zero => rfl
      | succ m => rw [hx] at hf; simp at hf
    rw [h0] at hf
    simp only [List.getElem?_cons_zero, Option.some.injEq] at hf
    subst hf
    have := hp p hpar
    omega

theorem commitChild_frames (s : St σ) (n : Nat) :
    (commitChild s n).frames = s.frames.take n ∨
    ∃ fr p, s.frames[n]? = some fr ∧ fr.leaked = false ∧ fr.parent = some p ∧
      (commitChild s n).frames = (s.frames.take n).modify p fun pf => { pf with ops := pf.ops ++ fr.ops } := by
  unfold commitChild
  split
  · exact .inl rfl
  · rename_i fr hfr
    split
    · exact .inl rfl
    · rename_i hl
      split
      · exact .inl rfl
      · rename_i p hp
        exact .inr ⟨fr, p, hfr, by simpa using hl, hp, rfl⟩

theorem Reachable.wf {g : Graph σ.K σ.T} {s : St σ} (h : Reachable g s) : FramesWF s.frames := by
  induction h with
  | start pre heap =>
    intro f fr p hf hp
    cases f with
    | zero => simp only [List.getElem?_cons_zero, Option.some.injEq] at hf; subst hf; cases hp
    | succ n => simp at hf
  | push f op _ ih => exact ih.modify _ _ fun _ => rfl
  | openChild f hf _ ih => exact ih.push _ (by intro p hp; cases hp; exact hf)
  | close n _ _ _ ih => exact ih.take n
  | commit n _ _ _ ih =>
    rcases commitChild_frames _ n with h | ⟨fr, p, _, _, _, h⟩
    · rw [h]; exact ih.take n
    · rw [h]; exact (ih.take n).modify _ _ fun _ => rfl
  | setTarget f n _ ih => exact ih.modify _ _ fun _ => rfl
  | writeTarget f n b _ ih => exact ih.modify _ _ fun _ => rfl
  | leak f _ ih => exact ih.modify _ _ fun _ => rfl
  | heap h _ ih => exact ih
  | locks l _ ih => exact ih

theorem Reachable.graph {g : Graph σ.K σ.T} {s : St σ} (h : Reachable g s) : s.graph = g := by
  induction h with
  | start => rfl
  | push f op _ ih => exact ih
  | openChild f hf _ ih => exact ih
  | close n _ _ _ ih => exact ih
  | commit n _ _ _ ih =>
    rw [← ih]; unfold commitChild closeChild
    split
    · rfl
    · split
      · rfl
      · split <;> rfl
  | setTarget f n _ ih => exact ih
  | writeTarget f n b _ ih => exact ih
  | leak f _ ih => exact ih
  | heap h _ ih => exact ih
  | locks l _ ih => exact ih

/-! ## `ctxGet` -/

theorem ctxGet_some {g : Graph σ.K σ.T} {frames : List (Frame σ.K σ.T)} {f : Nat} {fr : Frame σ.K σ.T}
    (hf : frames[f]? = some fr) (i : σ.K) :
    ctxGet g frames f i =
      match fr.ops.reverse.find? (fun op => op.id == i) with
      | some (.save node) => some node
      | some (.delete _) => none
      | none =>
        match fr.parent with
        | none => g.get i
        | some p => if p < f then ctxGet g frames p i else g.get i := by
  rw [ctxGet]; simp only [hf]; rfl

theorem ctxContains_eq (g : Graph σ.K σ.T) (frames : List (Frame σ.K σ.T)) (f : Nat) (i : σ.K) :
    ctxContains g frames f i = (ctxGet g frames f i).isSome := by
  induction f using Nat.strongRecOn with
  | _ f ih =>
    rw [ctxContains, ctxGet]
    cases hf : frames[f]? with
    | none => rfl
    | some fr =>
      simp only
      cases fr.ops.reverse.find? (fun op => op.id == i) with
      | some o => cases o <;> rfl
      | none =>
        simp only
        cases fr.parent with
        | none => rfl
        | some p =>
          simp only
          split
          · rename_i h; exact ih p h
          · rfl

section
variable [LawfulSig σ]

theorem ctxGet_applyAll_parent {g : Graph σ.K σ.T} {frames : List (Frame σ.K σ.T)} {f p : Nat} {fr : Frame σ.K σ.T}
    (hf : frames[f]? = some fr) (hp : fr.parent = some p) (hlt : p < f) :
    ctxGet g frames f = FMap.applyAll (ctxGet g frames p) fr.ops := by
  funext i
  rw [ctxGet_some hf, applyAll_find, hp]
  cases fr.ops.reverse.find? (fun op => op.id == i) with
  | some o => cases o <;> rfl
  | none => simp [hlt]

theorem ctxGet_applyAll_root {g : Graph σ.K σ.T} {frames : List (Frame σ.K σ.T)} {f : Nat} {fr : Frame σ.K σ.T}
    (hf : frames[f]? = some fr) (hp : fr.parent = none) :
    ctxGet g frames f = FMap.applyAll g.get fr.ops := by
  funext i
  rw [ctxGet_some hf, applyAll_find, hp]
  cases fr.ops.reverse.find? (fun op => op.id == i) with
  | some o => cases o <;> rfl
  | none => rfl

theorem ctxGet_pending {g : Graph σ.K σ.T} {frames : List (Frame σ.K σ.T)} (hwf : FramesWF frames) {f : Nat}
    {ops : List (Operation σ.K σ.T)} (hp : Pending frames f ops) :
    ctxGet g frames f = FMap.applyAll g.get ops := by
  induction hp with
  | root hf hpar => exact ctxGet_applyAll_root hf hpar
  | child hf hpar _ ih => rw [ctxGet_applyAll_parent hf hpar (hwf _ _ _ hf hpar), ih, applyAll_append]

end

theorem pending_exists {frames : List (Frame σ.K σ.T)} (hwf : FramesWF frames) {f : Nat} (hf : f < frames.length) :
    ∃ ops, Pending frames f ops := by
  induction f using Nat.strongRecOn with
  | _ f ih =>
    have hfr : frames[f]? = some frames[f] := List.getElem?_eq_getElem hf
    cases hp : frames[f].parent with
    | none => exact ⟨_, .root hfr hp⟩
    | some p =>
      have hlt := hwf _ _ _ hfr hp
      obtain ⟨ops, h⟩ := ih p hlt (Nat.lt_trans hlt hf)
      exact ⟨_, .child hfr hp h⟩

/-- The reading of a context depends only on the parents and logs of its ancestors. -/
theorem ctxGet_congr {g : Graph σ.K σ.T} {fs fs' : List (Frame σ.K σ.T)} (f : Nat)
    (h : ∀ a, Within fs a f →
      (fs'[a]?).map (fun fr => (fr.parent, fr.ops)) = (fs[a]?).map (fun fr => (fr.parent, fr.ops))) (i : σ.K) :
    ctxGet g fs' f i = ctxGet g fs f i := by
  induction f using Nat.strongRecOn with
  | _ f ih =>
    have h0 := h f .self
    cases hf : fs[f]? with
    | none =>
      rw [hf] at h0
      cases hf' : fs'[f]? with
      | none => rw [ctxGet, ctxGet]; simp [hf, hf']
      | some fr' => rw [hf'] at h0; simp at h0
    | some fr =>
      rw [hf] at h0
      cases hf' : fs'[f]? with
      | none => rw [hf'] at h0; simp at h0
      | some fr' =>
        rw [hf'] at h0
        simp only [Option.map_some, Option.some.injEq, Prod.mk.injEq] at h0
        rw [ctxGet_some hf, ctxGet_some hf', h0.1, h0.2]
        cases fr.ops.reverse.find? (fun op => op.id == i) with
        | some o => cases o <;> rfl
        | none =>
          simp only
          cases hp : fr.parent with
          | none => rfl
          | some p =>
            simp only
            split
            · rename_i hlt
              apply ih p hlt
              intro a ha
              exact h a (.child hf hp ha)
            · rfl

theorem Within.le {fs : List (Frame σ.K σ.T)} (hwf : FramesWF fs) {a f : Nat} (h : Within fs a f) : a ≤ f := by
  induction h with
  | self => exact Nat.le_refl _
  | child hf hp _ ih => have := hwf _ _ _ hf hp; omega

/-! ## How running a program changes the frames -/

/-- From `s` to `s'`: same graph, same number of frames, parents kept, logs only extended; frames outside `P` untouched and
logs outside `Q` unchanged. -/
structure Grows (P Q : Nat → Prop) (s s' : St σ) : Prop where
  graph : s'.graph = s.graph
  len : s'.frames.length = s.frames.length
  frames : ∀ f fr, s.frames[f]? = some fr → ∃ fr', s'.frames[f]? = some fr' ∧ fr'.parent = fr.parent ∧
    fr.ops <+: fr'.ops ∧ (¬ P f → fr' = fr) ∧ (¬ Q f → fr'.ops = fr.ops)

namespace Grows
variable {P Q P' Q' : Nat → Prop} {s s' s'' : St σ}

theorem refl (P Q : Nat → Prop) (s : St σ) : Grows P Q s s :=
  ⟨rfl, rfl, fun _ fr h => ⟨fr, h, rfl, List.prefix_refl _, fun _ => rfl, fun _ => rfl⟩⟩

theorem trans (h : Grows P Q s s') (h' : Grows P Q s' s'') : Grows P Q s s'' := by
  refine ⟨h'.graph.trans h.graph, h'.len.trans h.len, ?_⟩
  intro f fr hf
  obtain ⟨fr', hf', a1, a2, a3, a4⟩ := h.frames f fr hf
  obtain ⟨fr'', hf'', b1, b2, b3, b4⟩ := h'.frames f fr' hf'
  exact ⟨fr'', hf'', b1.trans a1, a2.trans b2, fun hp => (b3 hp).trans (a3 hp), fun hq => (b4 hq).trans (a4 hq)⟩

theorem mono (h : Grows P Q s s') (hP : ∀ f, P f → P' f) (hQ : ∀ f, Q f → Q' f) : Grows P' Q' s s' := by
  refine ⟨h.graph, h.len, ?_⟩
  intro f fr hf
  obtain ⟨fr', hf', a1, a2, a3, a4⟩ := h.frames f fr hf
  exact ⟨fr', hf', a1, a2, fun hp => a3 fun h => hp (hP f h), fun hq => a4 fun h => hq (hQ f h)⟩

/-- Changing only the resources. -/
theorem ofHeap (h : Heap σ.Val) : Grows P Q s { s with heap := h } :=
  ⟨rfl, rfl, fun _ fr h => ⟨fr, h, rfl, List.prefix_refl _, fun _ => rfl, fun _ => rfl⟩⟩

theorem ofLocks (h : Heap σ.Val) (l : List (Nat × Bool)) : Grows P Q s { s with heap := h, locks := l } :=
  ⟨rfl, rfl, fun _ fr h => ⟨fr, h, rfl, List.prefix_refl _, fun _ => rfl, fun _ => rfl⟩⟩

/-- Changing one frame in place. -/
theorem modify (f : Nat) (u : Frame σ.K σ.T → Frame σ.K σ.T) (hP : P f) (hpar : ∀ fr, (u fr).parent = fr.parent)
    (hops : ∀ fr : Frame σ.K σ.T, fr.ops <+: (u fr).ops) (hQ : Q f ∨ ∀ fr, (u fr).ops = fr.ops) :
    Grows P Q s { s with frames := s.frames.modify f u } := by
  refine ⟨rfl, by simp, ?_⟩
  intro i fr hi
  by_cases h : f = i
  · subst h
    refine ⟨u fr, by simp [hi], hpar fr, hops fr, fun h => absurd hP h, fun h => ?_⟩
    rcases hQ with hQ | hQ
    · exact absurd hQ h
    · exact hQ fr
  · exact ⟨fr, by simp [hi, h], rfl, List.prefix_refl _, fun _ => rfl, fun _ => rfl⟩

theorem pushOp {f : Nat} (op : Operation σ.K σ.T) (hP : P f) (hQ : Q f) : Grows P Q s (pushOp s f op) :=
  .modify f (fun fr => { fr with ops := fr.ops ++ [op] }) hP (fun _ => rfl) (fun _ => ⟨_, rfl⟩) (.inl hQ)

theorem setTarget {f : Nat} (n : σ.T) (hP : P f) : Grows P Q s (setTarget s f n) :=
  .modify f (fun fr => { fr with target := some ⟨n, false⟩ }) hP (fun _ => rfl) (fun _ => List.prefix_refl _)
    (.inr fun _ => rfl)

theorem writeTarget {f : Nat} (n : σ.T) (b : Bool) (hP : P f) : Grows P Q s (writeTarget s f n b) :=
  .modify f (fun fr => { fr with target := some ⟨n, b⟩ }) hP (fun _ => rfl) (fun _ => List.prefix_refl _)
    (.inr fun _ => rfl)

theorem leakFrame {f : Nat} (hP : P f) : Grows P Q s (leakFrame s f) :=
  .modify f (fun fr => { fr with leaked := true }) hP (fun _ => rfl) (fun _ => List.prefix_refl _)
    (.inr fun _ => rfl)

/-- Opening a child, running something that grows, and dropping the child. -/
theorem close {f n : Nat} (hn : n = s.frames.length)
    (h : Grows P' Q' (openChild s f) s') (hP : ∀ i, i < n → P' i → P i) (hQ : ∀ i, i < n → Q' i → Q i) :
    Grows P Q s (closeChild s' n) := by
  subst hn
  have hlen := h.len
  simp only [openChild, List.length_append, List.length_singleton] at hlen
  refine ⟨h.graph, ?_, ?_⟩
  · simp only [closeChild, List.length_take]; omega
  · intro i fr hi
    have hlt : i < s.frames.length := (List.getElem?_eq_some_iff.1 hi).1
    obtain ⟨fr', hf', a1, a2, a3, a4⟩ := h.frames i fr (by
      simp only [openChild]; rw [List.getElem?_append_left hlt]; exact hi)
    refine ⟨fr', ?_, a1, a2, fun hp => a3 fun h => hp (hP i hlt h), fun hq => a4 fun h => hq (hQ i hlt h)⟩
    simp only [closeChild]
    rw [List.getElem?_take, if_pos hlt]; exact hf'

end Grows

/-- The frame of a freshly opened child after something ran inside it. -/
theorem child_frame {P Q : Nat → Prop} {s s' : St σ} {f : Nat} (h : Grows P Q (openChild s f) s') :
    ∃ fr, s'.frames[s.frames.length]? = some fr ∧ fr.parent = some f := by
  obtain ⟨fr', hf', a1, _⟩ := h.frames s.frames.length { parent := some f, ops := [], target := none, leaked := false }
    (by simp [openChild])
  exact ⟨fr', hf', a1⟩

/-- Committing the child opened on `f`. -/
theorem Grows.commit {P Q P' Q' : Nat → Prop} {s s' : St σ} {f n : Nat} (hn : n = s.frames.length)
    (h : Grows P' Q' (openChild s f) s') (hP : ∀ i, i < n → P' i → P i) (hQ : ∀ i, i < n → Q' i → Q i)
    (hPf : P f) (hQf : Q f) : Grows P Q s (commitChild s' n) := by
  have hc := Grows.close hn h hP hQ
  subst hn
  obtain ⟨fr, hfr, hpar⟩ := child_frame h
  unfold commitChild
  simp only [hfr, hpar]
  split
  · exact hc
  · refine hc.trans (Grows.modify (s := closeChild s' s.frames.length) f _ hPf ?_ ?_ (.inl hQf))
    · intro _; rfl
    · intro pf; exact ⟨fr.ops, rfl⟩

theorem tryForEach_grows {P Q : Nat → Prop} {run : Prog σ → St σ → Option (Out (Except Error σ.V) × St σ)}
    (I : St σ → Prop) (hI : ∀ s s', Grows P Q s s' → I s → I s')
    (hrun : ∀ t s out s', I s → run t s = some (out, s') → Grows P Q s s') :
    ∀ ts s out s', I s → tryForEach run ts s = some (out, s') → Grows P Q s s' := by
  intro ts
  induction ts with
  | nil =>
    intro s out s' _ h
    simp only [tryForEach, Option.some.injEq, Prod.mk.injEq] at h
    rw [← h.2]; exact .refl _ _ _
  | cons t ts ih =>
    intro s out s' hi h
    simp only [tryForEach] at h
    cases hr : run t s with
    | none => simp [hr] at h
    | some r =>
      obtain ⟨o, s1⟩ := r
      rw [hr] at h
      have hg := hrun t s o s1 hi hr
      rcases o with (_ | _) | _ | _
      · simp only [Option.some.injEq, Prod.mk.injEq] at h; rw [← h.2]; exact hg
      · exact hg.trans (ih s1 out s' (hI _ _ hg hi) h)
      · simp only [Option.some.injEq, Prod.mk.injEq] at h; rw [← h.2]; exact hg
      · simp only [Option.some.injEq, Prod.mk.injEq] at h; rw [← h.2]; exact hg

theorem writes_all (p : Prog σ) : ∀ W : Nat → Prop, (∀ c, W c) → p.Writes W := by
  induction p with
  | done r => intro W _; exact .done r
  | panic => intro W _; exact .panic
  | reenter => intro W _; exact .reenter
  | save c n k ih => intro W h; exact .save (h c) (ih W h)
  | delete c n k ih => intro W h; exact .delete (h c) (ih W h)
  | get c i k ih => intro W h; exact .get fun x => ih x W h
  | contains c i k ih => intro W h; exact .contains fun x => ih x W h
  | tx c body k ihb ihk => intro W h; exact .tx (h c) (ihb _ fun c => .inr (h _)) fun x => ihk x W h
  | runTriggers c s k ih => intro W h; exact .runTriggers (h c) fun x => ih x W h
  | withTarget n k ih => intro W h; exact .withTarget (ih W h)
  | targetRead c k ih => intro W h; exact .targetRead fun x => ih x W h
  | targetWrite c f k ih => intro W h; exact .targetWrite fun x => ih x W h
  | resRead t k ih => intro W h; exact .resRead fun x => ih x W h
  | resWrite t f k ih => intro W h; exact .resWrite fun x => ih x W h
  | resScope t e b k ihb ihk => intro W h; exact .resScope (fun v => ihb v W h) fun x => ihk x W h
  | resAssign t x k ih => intro W h; exact .resAssign (ih W h)
  | catchUnwind b k ihb ihk => intro W h; exact .catchUnwind (ihb W h) fun x => ihk x W h
  | forget k ih => intro W h; exact .forget (ih W h)

/-- Main invariant: running a program that writes only contexts `W` extends only the logs of those contexts, touches only
the contexts in scope, and leaves graph and tree shape alone. -/
theorem eval_grows (E : Env σ) (fuel : Nat) : ∀ (W : Nat → Prop) (env : List Nat) (p : Prog σ) (s s' : St σ)
    (out : Out (Except Error σ.V)), p.Writes W → (∀ e ∈ env, e < s.frames.length) →
    eval E fuel env p s = some (out, s') →
    Grows (fun f => f ∈ env) (fun f => ∃ c, W c ∧ env[c]? = some f) s s' := by
  induction fuel with
  | zero => intro W env p s s' out _ _ h; simp [eval] at h
  | succ fuel ih =>
    intro W env p s s' out hw henv h
    have keep : ∀ s1 : St σ, Grows (fun f => f ∈ env) (fun f => ∃ c, W c ∧ env[c]? = some f) s s1 →
        ∀ p : Prog σ, p.Writes W → eval E fuel env p s1 = some (out, s') →
        Grows (fun f => f ∈ env) (fun f => ∃ c, W c ∧ env[c]? = some f) s s' := by
      intro s1 hg p hp he
      refine hg.trans (ih W env p s1 s' out hp ?_ he)
      intro e he; rw [hg.len]; exact henv e he
    have stop : ∀ s1 : St σ, Grows (fun f => f ∈ env) (fun f => ∃ c, W c ∧ env[c]? = some f) s s1 →
        ∀ o : Out (Except Error σ.V), some (o, s1) = some (out, s') →
        Grows (fun f => f ∈ env) (fun f => ∃ c, W c ∧ env[c]? = some f) s s' := by
      intro s1 hg o he
      simp only [Option.some.injEq, Prod.mk.injEq] at he
      rw [← he.2]; exact hg
    cases hw with
    | done r => simp only [eval] at h; exact stop s (.refl _ _ _) _ h
    | panic => simp only [eval] at h; exact stop s (.refl _ _ _) _ h
    | reenter => simp only [eval] at h; exact stop s (.refl _ _ _) _ h
    | @save _ c n k hc hk =>
      simp only [eval] at h
      split at h
      · exact stop s (.refl _ _ _) _ h
      · rename_i f hf
        exact keep _ (.pushOp _ (List.mem_of_getElem? hf) ⟨c, hc, hf⟩) _ hk h
    | @delete _ c i k hc hk =>
      simp only [eval] at h
      split at h
      · exact stop s (.refl _ _ _) _ h
      · rename_i f hf
        exact keep _ (.pushOp _ (List.mem_of_getElem? hf) ⟨c, hc, hf⟩) _ hk h
    | get hk =>
      simp only [eval] at h
      split at h
      · exact stop s (.refl _ _ _) _ h
      · exact keep s (.refl _ _ _) _ (hk _) h
    | contains hk =>
      simp only [eval] at h
      split at h
      · exact stop s (.refl _ _ _) _ h
      · exact keep s (.refl _ _ _) _ (hk _) h
    | @tx _ c body k hc hb hk =>
      simp only [eval] at h
      split at h
      · exact stop s (.refl _ _ _) _ h
      · rename_i f hf
        have hfm := List.mem_of_getElem? hf
        cases hr : eval E fuel (s.frames.length :: env) body (openChild s f) with
        | none => simp [hr] at h
        | some r =>
          obtain ⟨o, s1⟩ := r
          rw [hr] at h
          have hg := ih _ _ _ _ _ _ hb (by
            intro e he
            simp only [openChild, List.length_append, List.length_singleton]
            rcases List.mem_cons.1 he with rfl | he
            · omega
            · have := henv e he; omega) hr
          have hP : ∀ i, i < s.frames.length → i ∈ s.frames.length :: env → i ∈ env := by
            intro i hi hm
            rcases List.mem_cons.1 hm with rfl | hm
            · omega
            · exact hm
          have hQ : ∀ i, i < s.frames.length →
              (∃ c, (c = 0 ∨ W (c - 1)) ∧ (s.frames.length :: env)[c]? = some i) →
              ∃ c, W c ∧ env[c]? = some i := by
            rintro i hi ⟨c, hc, hm⟩
            cases c with
            | zero => simp only [List.getElem?_cons_zero, Option.some.injEq] at hm; omega
            | succ c =>
              refine ⟨c, ?_, by simpa using hm⟩
              rcases hc with hc | hc
              · cases hc
              · exact hc
          rcases o with (e | v) | _ | _
          · exact keep _ (.close rfl hg hP hQ) _ (hk _) h
          · exact keep _ (.commit rfl hg hP hQ hfm ⟨c, hc, hf⟩) _ (hk _) h
          · exact stop _ (.close rfl hg hP hQ) _ h
          · exact stop _ (.close rfl hg hP hQ) _ h
    | @runTriggers _ c sch k hc hk =>
      simp only [eval] at h
      split at h
      · exact stop s (.refl _ _ _) _ h
      · rename_i f hf
        have hfm := List.mem_of_getElem? hf
        split at h
        · exact keep s (.refl _ _ _) _ (hk _) h
        · rename_i ts _
          cases hr : tryForEach (eval E fuel [f]) ts s with
          | none => simp [hr] at h
          | some r =>
            obtain ⟨o, s1⟩ := r
            rw [hr] at h
            have hg : Grows (fun f => f ∈ env) (fun f => ∃ c, W c ∧ env[c]? = some f) s s1 := by
              refine (tryForEach_grows (P := fun i => i ∈ [f])
                (Q := fun i => ∃ c : Nat, True ∧ ([f] : List Nat)[c]? = some i)
                (fun s => f < s.frames.length) ?_ ?_ ts s o s1 (henv f hfm) hr).mono ?_ ?_
              · intro s s' hg hi; rw [hg.len]; exact hi
              · intro t s o s' hi he
                exact ih (fun _ => True) [f] t s s' o (writes_all t _ fun _ => trivial)
                  (by intro e he; simp only [List.mem_singleton] at he; rw [he]; exact hi) he
              · intro i hi; simp only [List.mem_singleton] at hi; rw [hi]; exact hfm
              · rintro i ⟨c', _, hm⟩
                cases c' with
                | zero => simp only [List.getElem?_cons_zero, Option.some.injEq] at hm; subst hm; exact ⟨c, hc, hf⟩
                | succ m => simp at hm
            rcases o with r | _ | _
            · exact keep s1 hg _ (hk _) h
            · exact stop s1 hg _ h
            · exact stop s1 hg _ h
    | withTarget hk =>
      simp only [eval] at h
      split at h
      · exact stop s (.refl _ _ _) _ h
      · rename_i f hf
        exact keep _ (.setTarget _ (List.mem_of_getElem? hf)) _ hk h
    | targetRead hk =>
      simp only [eval] at h
      split at h
      · exact stop s (.refl _ _ _) _ h
      · exact keep s (.refl _ _ _) _ (hk _) h
    | targetWrite hk =>
      simp only [eval] at h
      split at h
      · exact stop s (.refl _ _ _) _ h
      · rename_i f hf
        split at h
        · exact keep s (.refl _ _ _) _ (hk _) h
        · split at h
          · exact keep _ (.writeTarget _ _ (List.mem_of_getElem? hf)) _ (hk _) h
          · exact stop _ (.writeTarget _ _ (List.mem_of_getElem? hf)) _ h
    | resRead hk =>
      simp only [eval] at h
      split at h
      · exact stop s (.refl _ _ _) _ h
      · exact keep s (.refl _ _ _) _ (hk _) h
    | resWrite hk =>
      simp only [eval] at h
      split at h
      · exact stop s (.refl _ _ _) _ h
      · split at h
        · exact keep s (.refl _ _ _) _ (hk _) h
        · exact keep _ (.ofHeap _) _ (hk _) h
        · exact stop _ (.ofHeap _) _ h
    | @resScope _ t excl body k hb hk =>
      simp only [eval] at h
      split at h
      · exact keep s (.refl _ _ _) _ (hk _) h
      · rename_i p _
        split at h
        · exact stop s (.refl _ _ _) _ h
        · split at h
          · exact keep s (.refl _ _ _) _ (hk _) h
          · rename_i v _
            cases hr : eval E fuel env (body v) (lockRes s p excl) with
            | none => simp [hr] at h
            | some r =>
              obtain ⟨o, s1⟩ := r
              rw [hr] at h
              have hg := (Grows.ofLocks (s := s) s.heap ((p, excl) :: s.locks)).trans (ih _ _ _ _ _ _ (hb v) henv hr)
              rcases o with r | _ | _
              · exact keep _ (hg.trans (.ofLocks _ _)) _ (hk _) h
              · exact stop _ (hg.trans (.ofLocks _ _)) _ h
              · exact stop _ (hg.trans (.ofLocks _ _)) _ h
    | resAssign hk =>
      simp only [eval] at h
      split at h
      · exact stop s (.refl _ _ _) _ h
      · split at h
        · exact keep _ (.ofHeap _) _ hk h
        · exact stop s (.refl _ _ _) _ h
    | @catchUnwind _ body k hb hk =>
      simp only [eval] at h
      cases hr : eval E fuel env body s with
      | none => simp [hr] at h
      | some r =>
        obtain ⟨o, s1⟩ := r
        rw [hr] at h
        have hg := ih _ _ _ _ _ _ hb henv hr
        rcases o with r | _ | _
        · exact keep s1 hg _ (hk _) h
        · exact keep s1 hg _ (hk _) h
        · exact stop s1 hg _ h
    | forget hk =>
      simp only [eval] at h
      split at h
      · exact stop s (.refl _ _ _) _ h
      · rename_i f hf
        exact keep _ (.leakFrame (List.mem_of_getElem? hf)) _ hk h

/-- The invariant without any assumption on the program. -/
theorem eval_grows_any (E : Env σ) (fuel : Nat) (env : List Nat) (p : Prog σ) (s s' : St σ)
    (out : Out (Except Error σ.V)) (henv : ∀ e ∈ env, e < s.frames.length)
    (h : eval E fuel env p s = some (out, s')) : Grows (fun f => f ∈ env) (fun f => f ∈ env) s s' :=
  (eval_grows E fuel (fun _ => True) env p s s' out (writes_all p _ fun _ => trivial) henv h).mono
    (fun _ h => h) (fun _ ⟨_, _, h⟩ => List.mem_of_getElem? h)

end Plotline
