import Verif.Spec.Scopes
import Verif.Lemmas.Interleave
import Verif.Lemmas.Triggers
import Verif.Lemmas.Resource

/-! Lemmas about closures of `with` and `with_mut` that make API calls. -/

namespace Plotline

set_option linter.unusedSectionVars false

variable {σ : Sig}

/-- A relation between states kept by every step on resources a program satisfying `φ` may take, and by whatever happens to
contexts. -/
structure LockInv (E : Env σ) (φ : Prog σ → Prop) (R : St σ → St σ → Prop) : Prop where
  trans : ∀ s s' s'', R s s' → R s' s'' → R s s''
  frames : ∀ s fs, R s { s with frames := fs }
  write : ∀ s t p fn k heap, φ (.resWrite t fn k) → (E.resources.res t).lock = some p → s.blocks p true = false →
    heap.length = s.heap.length → (∀ q, q ≠ p → heap[q]? = s.heap[q]?) →
    (∀ cell, heap[p]? = some cell → s.heap[p]? = some cell ∨ cell.val.1 = t) → R s { s with heap := heap }
  scope : ∀ s s1 t p excl body k, φ (.resScope t excl body k) → (E.resources.res t).lock = some p →
    s.blocks p excl = false → R (lockRes s p excl) s1 → R s (unlockRes s1)
  unwind : ∀ s s1 t p excl body k, φ (.resScope t excl body k) → (E.resources.res t).lock = some p →
    s.blocks p excl = false → R (lockRes s p excl) s1 → R s (unwindRes s1 p excl)
  assign : ∀ s t p x k, φ (.resAssign t x k) → (E.resources.res t).lock = some p → (p, true) ∈ s.locks →
    R s (assignRes s p t x)

theorem commitChild_eq_frames (s : St σ) (n : Nat) : ∃ fs, commitChild s n = { s with frames := fs } := by
  unfold commitChild closeChild
  split
  · exact ⟨_, rfl⟩
  · split
    · exact ⟨_, rfl⟩
    · split
      · exact ⟨_, rfl⟩
      · exact ⟨_, rfl⟩

theorem withMut_others {t : σ.Ty} {R : Type} (r : Res t) (heap heap' : Heap σ.Val) (f : σ.Val t → σ.Val t × Option R) (a : Access R)
    (h : r.withMut heap f = (a, heap')) (p : Nat) (hp : r.lock = some p) (q : Nat) (hq : q ≠ p) : heap'[q]? = heap[q]? := by
  unfold Res.withMut at h
  rw [hp] at h
  have hset : ∀ c, (heap.set p c)[q]? = heap[q]? := fun c => List.getElem?_set_ne (Ne.symm hq)
  simp only at h
  split at h
  · cases h; rfl
  · split at h
    · cases h; rfl
    · split at h
      · cases h; rfl
      · split at h
        · cases h; exact hset _
        · cases h; exact hset _

theorem withMut_typed {t : σ.Ty} {R : Type} (r : Res t) (heap heap' : Heap σ.Val) (f : σ.Val t → σ.Val t × Option R) (a : Access R)
    (h : r.withMut heap f = (a, heap')) (p : Nat) (hp : r.lock = some p) (cell : Lock (Dyn σ.Val)) (hc : heap'[p]? = some cell) :
    heap[p]? = some cell ∨ cell.val.1 = t := by
  unfold Res.withMut at h
  rw [hp] at h
  have hset : ∀ c, (heap.set p c)[p]? = some cell → c = cell := by
    intro c hc
    rw [List.getElem?_set_self'] at hc
    cases hh : heap[p]? with
    | none => rw [hh] at hc; cases hc
    | some x => rw [hh] at hc; cases hc; rfl
  simp only at h
  split at h
  · cases h; exact .inl hc
  · split at h
    · cases h; exact .inl hc
    · split at h
      · cases h; exact .inl hc
      · split at h
        · cases h; right; rw [← hset _ hc]
        · cases h; right; rw [← hset _ hc]

theorem withMut_length {t : σ.Ty} {R : Type} (r : Res t) (heap heap' : Heap σ.Val) (f : σ.Val t → σ.Val t × Option R)
    (a : Access R) (h : r.withMut heap f = (a, heap')) : heap'.length = heap.length := by
  unfold Res.withMut at h
  split at h
  · cases h; rfl
  · split at h
    · cases h; rfl
    · split at h
      · cases h; rfl
      · split at h
        · cases h; rfl
        · split at h
          · cases h; exact List.length_set
          · cases h; exact List.length_set

theorem eval_lockInv (E : Env σ) (φ : Prog σ → Prop) (R : St σ → St σ → Prop) (hR : LockInv E φ R) (hE : E.Every φ)
    (fuel : Nat) : ∀ (env : List Nat) (p : Prog σ) (s s' : St σ) (out : Out (Except Error σ.V)),
    p.Every φ → eval E fuel env p s = some (out, s') → R s s' := by
  have hrefl : ∀ s, R s s := fun s => hR.frames s s.frames
  induction fuel with
  | zero => intro env p s s' out _ h; simp [eval] at h
  | succ fuel ih =>
    intro env p s s' out hp h
    have keep : ∀ s1 : St σ, R s s1 → ∀ p : Prog σ, p.Every φ → eval E fuel env p s1 = some (out, s') → R s s' :=
      fun s1 hg p hp he => hR.trans _ _ _ hg (ih env p s1 s' out hp he)
    have stop : ∀ s1 : St σ, R s s1 → ∀ o : Out (Except Error σ.V), some (o, s1) = some (out, s') → R s s' := by
      intro s1 hg o he
      simp only [Option.some.injEq, Prod.mk.injEq] at he
      rw [← he.2]; exact hg
    cases p with
    | done r => simp only [eval] at h; exact stop s (hrefl _) _ h
    | panic => simp only [eval] at h; exact stop s (hrefl _) _ h
    | reenter => simp only [eval] at h; exact stop s (hrefl _) _ h
    | save c n k =>
      simp only [eval] at h
      split at h
      · exact stop s (hrefl _) _ h
      · exact keep _ (hR.frames _ _) _ hp.2 h
    | delete c i k =>
      simp only [eval] at h
      split at h
      · exact stop s (hrefl _) _ h
      · exact keep _ (hR.frames _ _) _ hp.2 h
    | get c i k =>
      simp only [eval] at h
      split at h
      · exact stop s (hrefl _) _ h
      · exact keep s (hrefl _) _ (hp.2 _) h
    | contains c i k =>
      simp only [eval] at h
      split at h
      · exact stop s (hrefl _) _ h
      · exact keep s (hrefl _) _ (hp.2 _) h
    | tx c body k =>
      simp only [eval] at h
      split at h
      · exact stop s (hrefl _) _ h
      · rename_i f hf
        cases hr : eval E fuel (s.frames.length :: env) body (openChild s f) with
        | none => simp [hr] at h
        | some r =>
          obtain ⟨o, s1⟩ := r
          rw [hr] at h
          have hg : R s s1 := hR.trans _ _ _ (hR.frames _ _) (ih _ _ _ _ _ hp.2.1 hr)
          have hcl : R s (closeChild s1 s.frames.length) := hR.trans _ _ _ hg (hR.frames _ _)
          have hcm : R s (commitChild s1 s.frames.length) := by
            obtain ⟨fs, e⟩ := commitChild_eq_frames s1 s.frames.length
            rw [e]; exact hR.trans _ _ _ hg (hR.frames _ _)
          rcases o with (e | v) | _ | _
          · exact keep _ hcl _ (hp.2.2 _) h
          · exact keep _ hcm _ (hp.2.2 _) h
          · exact stop _ hcl _ h
          · exact stop _ hcl _ h
    | runTriggers c sch k =>
      simp only [eval] at h
      split at h
      · exact stop s (hrefl _) _ h
      · rename_i f hf
        split at h
        · exact keep s (hrefl _) _ (hp.2 _) h
        · rename_i ts hts
          cases hr : tryForEach (eval E fuel [f]) ts s with
          | none => simp [hr] at h
          | some r =>
            obtain ⟨o, s1⟩ := r
            rw [hr] at h
            have hg := tryForEach_inv hrefl hR.trans (fun _ => True) ts
              (fun t ht s out s' _ he => ⟨ih _ _ _ _ _ (hE sch ts hts t ht) he, trivial⟩) s o s1 trivial hr
            rcases o with r | _ | _
            · exact keep _ hg _ (hp.2 _) h
            · exact stop _ hg _ h
            · exact stop _ hg _ h
    | withTarget n k =>
      simp only [eval] at h
      split at h
      · exact stop s (hrefl _) _ h
      · exact keep _ (hR.frames _ _) _ hp.2 h
    | targetRead c k =>
      simp only [eval] at h
      split at h
      · exact stop s (hrefl _) _ h
      · exact keep s (hrefl _) _ (hp.2 _) h
    | targetWrite c fn k =>
      simp only [eval] at h
      split at h
      · exact stop s (hrefl _) _ h
      · split at h
        · exact keep s (hrefl _) _ (hp.2 _) h
        · split at h
          · exact keep _ (hR.frames _ _) _ (hp.2 _) h
          · exact stop _ (hR.frames _ _) _ h
    | resRead t k =>
      simp only [eval] at h
      split at h
      · exact stop s (hrefl _) _ h
      · exact keep s (hrefl _) _ (hp.2 _) h
    | resWrite t fn k =>
      simp only [eval] at h
      split at h
      · exact stop s (hrefl _) _ h
      · rename_i hb
        cases hl : (E.resources.res t).lock with
        | none =>
          have : (E.resources.res t).withMut s.heap (fun v => ((fn v).1, if (fn v).2 then none else some ())) =
              (.unavailable, s.heap) := by unfold Res.withMut; rw [hl]
          rw [this] at h
          exact keep s (hrefl _) _ (hp.2 _) h
        | some q =>
          have hq : s.blocks q true = false := by
            unfold St.resBlocks at hb; rw [hl] at hb; simpa using hb
          split at h
          · exact keep s (hrefl _) _ (hp.2 _) h
          · rename_i r heap' hw
            exact keep _ (hR.write s t q fn k heap' hp.1 hl hq (withMut_length _ _ _ _ _ hw) (withMut_others _ _ _ _ _ hw q hl) (withMut_typed _ _ _ _ _ hw q hl)) _ (hp.2 _) h
          · rename_i heap' hw
            exact stop _ (hR.write s t q fn k heap' hp.1 hl hq (withMut_length _ _ _ _ _ hw) (withMut_others _ _ _ _ _ hw q hl) (withMut_typed _ _ _ _ _ hw q hl)) _ h
    | resScope t excl body k =>
      simp only [eval] at h
      split at h
      · exact keep s (hrefl _) _ (hp.2.2 _) h
      · rename_i q hl
        split at h
        · exact stop s (hrefl _) _ h
        · rename_i hb
          have hq : s.blocks q excl = false := by simpa using hb
          split at h
          · exact keep s (hrefl _) _ (hp.2.2 _) h
          · rename_i v hv
            cases hr : eval E fuel env (body v) (lockRes s q excl) with
            | none => simp [hr] at h
            | some r =>
              obtain ⟨o, s1⟩ := r
              rw [hr] at h
              have hg := ih _ _ _ _ _ (hp.2.1 v) hr
              rcases o with r | _ | _
              · exact keep _ (hR.scope s s1 t q excl body k hp.1 hl hq hg) _ (hp.2.2 _) h
              · exact stop _ (hR.unwind s s1 t q excl body k hp.1 hl hq hg) _ h
              · exact stop _ (hR.scope s s1 t q excl body k hp.1 hl hq hg) _ h
    | resAssign t x k =>
      simp only [eval] at h
      split at h
      · exact stop s (hrefl _) _ h
      · rename_i q hl
        split at h
        · rename_i hc
          exact keep _ (hR.assign s t q x k hp.1 hl (List.contains_iff_mem.1 hc)) _ hp.2 h
        · exact stop s (hrefl _) _ h
    | catchUnwind body k =>
      simp only [eval] at h
      cases hr : eval E fuel env body s with
      | none => simp [hr] at h
      | some r =>
        obtain ⟨o, s1⟩ := r
        rw [hr] at h
        have hg := ih _ _ _ _ _ hp.2.1 hr
        rcases o with r | _ | _
        · exact keep _ hg _ (hp.2.2 _) h
        · exact keep _ hg _ (hp.2.2 _) h
        · exact stop _ hg _ h
    | forget k =>
      simp only [eval] at h
      split at h
      · exact stop s (hrefl _) _ h
      · exact keep _ (hR.frames _ _) _ hp.2 h

/-- Guards are released whatever happens. -/
theorem eval_locks (E : Env σ) {fuel : Nat} {env : List Nat} {p : Prog σ} {s s' : St σ} {out : Out (Except Error σ.V)}
    (h : eval E fuel env p s = some (out, s')) : s'.locks = s.locks := by
  refine eval_lockInv E (fun _ => True) (fun s s' => s'.locks = s.locks) ⟨?_, ?_, ?_, ?_, ?_, ?_⟩
    (fun _ _ _ t _ => every_true t) fuel env p s s' out (every_true p) h
  · intro s s' s'' h h'; exact h'.trans h
  · intros; rfl
  · intros; rfl
  · intro s s1 t p excl body k _ _ _ h
    show s1.locks.tail = _
    rw [h]; rfl
  · intro s s1 t p excl body k _ _ _ h
    show s1.locks.tail = _
    rw [h]; rfl
  · intros; rfl

/-- Running code makes no cells. -/
theorem eval_heap_length (E : Env σ) {fuel : Nat} {env : List Nat} {p : Prog σ} {s s' : St σ} {out : Out (Except Error σ.V)}
    (h : eval E fuel env p s = some (out, s')) : s'.heap.length = s.heap.length := by
  refine eval_lockInv E (fun _ => True) (fun s s' => s'.heap.length = s.heap.length) ⟨?_, ?_, ?_, ?_, ?_, ?_⟩
    (fun _ _ _ t _ => every_true t) fuel env p s s' out (every_true p) h
  · intro s s' s'' h h'; exact h'.trans h
  · intros; rfl
  · intros; assumption
  · intro s s1 t p excl body k _ _ _ h; exact h
  · intro s s1 t p excl body k _ _ _ h
    refine Eq.trans ?_ h
    show (if excl then s1.heap.modify p fun cell => { cell with poisoned := true } else s1.heap).length = _
    split
    · exact List.length_modify ..
    · rfl
  · intros; exact List.length_set

theorem blocks_iff (s : St σ) (p : Nat) (excl : Bool) :
    s.blocks p excl = true ↔ (p, true) ∈ s.locks ∨ (excl = true ∧ (p, false) ∈ s.locks) := by
  unfold St.blocks
  rw [List.any_eq_true]
  constructor
  · rintro ⟨⟨q, e⟩, hm, h⟩
    simp only [Bool.and_eq_true, beq_iff_eq, Bool.or_eq_true] at h
    obtain ⟨rfl, h⟩ := h
    cases e with
    | true => exact .inl hm
    | false => exact .inr ⟨by simpa using h, hm⟩
  · rintro (h | ⟨h, h'⟩)
    · exact ⟨_, h, by simp⟩
    · exact ⟨_, h', by simp [h]⟩

theorem resBlocks_iff (E : Env σ) (s : St σ) (t : σ.Ty) (excl : Bool) :
    s.resBlocks E t excl = true ↔ ∃ p, (E.resources.res t).lock = some p ∧ s.blocks p excl = true := by
  unfold St.resBlocks
  split
  · rename_i h; rw [h]; simp
  · rename_i p h; rw [h]; simp

/-- A cell in use is not changed by others. -/
theorem eval_cell (E : Env σ) (q : Nat) {fuel : Nat} {env : List Nat} {p : Prog σ} {s s' : St σ} {out : Out (Except Error σ.V)}
    (hE : E.Every fun p => ∀ t x k, p = .resAssign t x k → (E.resources.res t).lock ≠ some q)
    (hp : p.Every fun p => ∀ t x k, p = .resAssign t x k → (E.resources.res t).lock ≠ some q)
    (h : eval E fuel env p s = some (out, s')) (hq : ∃ excl, (q, excl) ∈ s.locks) : s'.heap[q]? = s.heap[q]? := by
  have := eval_lockInv E _ (fun s s' => s'.locks = s.locks ∧ ((∃ excl, (q, excl) ∈ s.locks) → s'.heap[q]? = s.heap[q]?))
    ⟨?_, ?_, ?_, ?_, ?_, ?_⟩ hE fuel env p s s' out hp h
  · exact this.2 hq
  · intro s s' s'' h h'
    exact ⟨h'.1.trans h.1, fun hq => (h'.2 (by rw [h.1]; exact hq)).trans (h.2 hq)⟩
  · intros; exact ⟨rfl, fun _ => rfl⟩
  · intro s t p fn k heap _ hl hb _ hheap _
    refine ⟨rfl, fun ⟨e, hq⟩ => hheap q ?_⟩
    rintro rfl
    have : s.blocks q true = true := (blocks_iff ..).2 (by cases e <;> simp [hq])
    rw [this] at hb; cases hb
  · intro s s1 t p excl body k _ hl hb h
    refine ⟨?_, fun ⟨e, hq⟩ => h.2 ⟨e, List.mem_cons_of_mem _ hq⟩⟩
    show s1.locks.tail = _
    rw [h.1]; rfl
  · intro s s1 t p excl body k _ hl hb h
    refine ⟨?_, fun ⟨e, hq⟩ => ?_⟩
    · show s1.locks.tail = _
      rw [h.1]; rfl
    · refine Eq.trans ?_ (h.2 ⟨e, List.mem_cons_of_mem _ hq⟩)
      show (if excl then s1.heap.modify p fun cell => { cell with poisoned := true } else s1.heap)[q]? = _
      cases excl with
      | false => rfl
      | true =>
        have hne : p ≠ q := by
          rintro rfl
          have : s.blocks p true = true := (blocks_iff ..).2 (by cases e <;> simp [hq])
          rw [this] at hb; cases hb
        rw [if_pos rfl, List.getElem?_modify]
        simp [hne]
  · intro s t p x k hφ hl _
    refine ⟨rfl, fun _ => ?_⟩
    show (s.heap.set p _)[q]? = _
    exact List.getElem?_set_ne fun e => hφ t x k rfl (by rw [hl, e])

/-- A cell being read is not changed at all. -/
theorem eval_cell_shared (E : Env σ) (q : Nat) {fuel : Nat} {env : List Nat} {p : Prog σ} {s s' : St σ}
    {out : Out (Except Error σ.V)} (h : eval E fuel env p s = some (out, s')) (hq : (q, false) ∈ s.locks)
    (hn : (q, true) ∉ s.locks) : s'.heap[q]? = s.heap[q]? := by
  have := eval_lockInv E (fun _ => True)
    (fun s s' => s'.locks = s.locks ∧ ((q, false) ∈ s.locks → (q, true) ∉ s.locks → s'.heap[q]? = s.heap[q]?))
    ⟨?_, ?_, ?_, ?_, ?_, ?_⟩ (fun _ _ _ t _ => every_true t) fuel env p s s' out (every_true p) h
  · exact this.2 hq hn
  · intro s s' s'' h h'
    exact ⟨h'.1.trans h.1, fun hq hn => (h'.2 (by rw [h.1]; exact hq) (by rw [h.1]; exact hn)).trans (h.2 hq hn)⟩
  · intros; exact ⟨rfl, fun _ _ => rfl⟩
  · intro s t p fn k heap _ hl hb _ hheap _
    refine ⟨rfl, fun hq _ => hheap q ?_⟩
    rintro rfl
    rw [(blocks_iff ..).2 (.inr ⟨rfl, hq⟩)] at hb; cases hb
  · intro s s1 t p excl body k _ hl hb h
    refine ⟨?_, fun hq hn => h.2 (List.mem_cons_of_mem _ hq) fun hm => ?_⟩
    · show s1.locks.tail = _
      rw [h.1]; rfl
    · rcases List.mem_cons.1 hm with e | hm
      · cases e
        rw [(blocks_iff ..).2 (.inr ⟨rfl, hq⟩)] at hb; cases hb
      · exact hn hm
  · intro s s1 t p excl body k _ hl hb h
    have hne : (q, false) ∈ s.locks → excl = true → p ≠ q := by
      rintro hq rfl rfl
      rw [(blocks_iff ..).2 (.inr ⟨rfl, hq⟩)] at hb; cases hb
    refine ⟨?_, fun hq hn => ?_⟩
    · show s1.locks.tail = _
      rw [h.1]; rfl
    · refine Eq.trans ?_ (h.2 (List.mem_cons_of_mem _ hq) fun hm => ?_)
      · show (if excl then s1.heap.modify p fun cell => { cell with poisoned := true } else s1.heap)[q]? = _
        cases excl with
        | false => rfl
        | true =>
          rw [if_pos rfl, List.getElem?_modify]
          simp [hne hq rfl]
      · rcases List.mem_cons.1 hm with e | hm
        · injection e with e1 e2
          exact hne hq e2.symm e1.symm
        · exact hn hm
  · intro s t p x k _ hl hm
    refine ⟨rfl, fun _ hn => ?_⟩
    show (s.heap.set p _)[q]? = _
    exact List.getElem?_set_ne fun (e : p = q) => hn (e ▸ hm)

/-! ## Blocking -/

/-- What is locked is what is declared to be in use. -/
structure InUse (E : Env σ) (held : List (σ.Ty × Bool)) (locks : List (Nat × Bool)) : Prop where
  declared : ∀ p excl, (p, excl) ∈ locks → ∃ t, (t, excl) ∈ held ∧ (E.resources.res t).lock = some p
  locked : ∀ t excl, (t, excl) ∈ held → ∃ p, (p, excl) ∈ locks ∧ (E.resources.res t).lock = some p

theorem InUse.cons {E : Env σ} {held : List (σ.Ty × Bool)} {locks : List (Nat × Bool)} (h : InUse E held locks) {t : σ.Ty} {p : Nat}
    (hl : (E.resources.res t).lock = some p) (excl : Bool) : InUse E ((t, excl) :: held) ((p, excl) :: locks) := by
  constructor
  · intro q e hm
    rcases List.mem_cons.1 hm with e | hm
    · cases e; exact ⟨t, List.mem_cons_self .., hl⟩
    · obtain ⟨u, h1, h2⟩ := h.declared q e hm
      exact ⟨u, List.mem_cons_of_mem _ h1, h2⟩
  · intro u e hm
    rcases List.mem_cons.1 hm with e | hm
    · cases e; exact ⟨p, List.mem_cons_self .., hl⟩
    · obtain ⟨q, h1, h2⟩ := h.locked u e hm
      exact ⟨q, List.mem_cons_of_mem _ h1, h2⟩

theorem InUse.free {E : Env σ} (hE : E.OwnCells) {held : List (σ.Ty × Bool)} {s : St σ} (h : InUse E held s.locks) {t : σ.Ty}
    {p : Nat} (hl : (E.resources.res t).lock = some p) {excl : Bool} (h1 : (t, true) ∉ held)
    (h2 : excl = true → (t, false) ∉ held) : s.blocks p excl = false := by
  cases hb : s.blocks p excl with
  | false => rfl
  | true =>
    rcases (blocks_iff ..).1 hb with hm | ⟨he, hm⟩
    · obtain ⟨u, hu, hp⟩ := h.declared _ _ hm
      rw [hE u t p hp hl] at hu
      exact absurd hu h1
    · obtain ⟨u, hu, hp⟩ := h.declared _ _ hm
      rw [hE u t p hp hl] at hu
      exact absurd hu (h2 he)

theorem tryForEach_not_stuck {run : Prog σ → St σ → Option (Out (Except Error σ.V) × St σ)} (I : St σ → Prop) (ts : List (Prog σ))
    (hrun : ∀ t ∈ ts, ∀ s out s', I s → run t s = some (out, s') → out ≠ .stuck ∧ I s') :
    ∀ s out s', I s → tryForEach run ts s = some (out, s') → out ≠ .stuck := by
  induction ts with
  | nil => intro s out s' _ h; cases h; intro h; cases h
  | cons t ts ih =>
    intro s out s' hi h
    simp only [tryForEach] at h
    cases hr : run t s with
    | none => simp [hr] at h
    | some r =>
      obtain ⟨o, s1⟩ := r
      rw [hr] at h
      obtain ⟨hg, hi1⟩ := hrun t (List.mem_cons_self ..) s o s1 hi hr
      rcases o with (_ | _) | _ | _
      · cases h; intro h; cases h
      · exact ih (fun t ht => hrun t (List.mem_cons_of_mem _ ht)) s1 out s' hi1 h
      · cases h; intro h; cases h
      · exact absurd rfl hg

theorem eval_not_stuck (E : Env σ) (fires : Sched → List (σ.Ty × Bool) → Prop) (hE : E.Disciplined fires) (hc : E.OwnCells)
    (fuel : Nat) : ∀ (env : List Nat) (held : List (σ.Ty × Bool)) (p : Prog σ) (s s' : St σ) (out : Out (Except Error σ.V)),
    p.Disciplined fires env.length held → InUse E held s.locks → eval E fuel env p s = some (out, s') → out ≠ .stuck := by
  induction fuel with
  | zero => intro env held p s s' out _ _ h; simp [eval] at h
  | succ fuel ih =>
    intro env held p s s' out hp hu h
    have ctx : ∀ {c : Nat}, c < env.length → ∃ f, env[c]? = some f := fun h => ⟨_, List.getElem?_eq_getElem h⟩
    have go : ∀ (s1 : St σ) (p : Prog σ), eval E fuel env p s1 = some (out, s') →
        p.Disciplined fires env.length held → s1.locks = s.locks → out ≠ .stuck :=
      fun s1 p h hp hl => ih env held p s1 s' out hp (by rw [hl]; exact hu) h
    cases p with
    | done r => cases h; intro h; cases h
    | panic => cases h; intro h; cases h
    | reenter => exact hp.elim
    | save c n k =>
      obtain ⟨f, hf⟩ := ctx hp.1
      simp only [eval, hf] at h
      exact go _ _ h hp.2 rfl
    | delete c i k =>
      obtain ⟨f, hf⟩ := ctx hp.1
      simp only [eval, hf] at h
      exact go _ _ h hp.2 rfl
    | get c i k =>
      obtain ⟨f, hf⟩ := ctx hp.1
      simp only [eval, hf] at h
      exact go _ _ h (hp.2 _) rfl
    | contains c i k =>
      obtain ⟨f, hf⟩ := ctx hp.1
      simp only [eval, hf] at h
      exact go _ _ h (hp.2 _) rfl
    | tx c body k =>
      obtain ⟨f, hf⟩ := ctx hp.1
      simp only [eval, hf] at h
      cases hr : eval E fuel (s.frames.length :: env) body (openChild s f) with
      | none => simp [hr] at h
      | some r =>
        obtain ⟨o, s1⟩ := r
        rw [hr] at h
        have hn := ih (s.frames.length :: env) held body (openChild s f) s1 o hp.2.1 hu hr
        have hl : s1.locks = (openChild s f).locks := eval_locks E hr
        rcases o with (e | v) | _ | _
        · exact ih env held _ _ _ _ (hp.2.2 _) (by rw [show (closeChild s1 _).locks = s1.locks from rfl, hl]; exact hu) h
        · exact ih env held _ _ _ _ (hp.2.2 _) (by
            obtain ⟨fs, e⟩ := commitChild_eq_frames s1 s.frames.length
            rw [e]; show InUse E held s1.locks; rw [hl]; exact hu) h
        · cases h; intro h; cases h
        · exact absurd rfl hn
    | runTriggers c sch k =>
      obtain ⟨f, hf⟩ := ctx hp.1
      simp only [eval, hf] at h
      cases hs : E.triggers.select sch with
      | none =>
        rw [hs] at h
        exact go _ _ h (hp.2.2 _) rfl
      | some ts =>
        simp only [hs] at h
        cases hr : tryForEach (eval E fuel [f]) ts s with
        | none => simp [hr] at h
        | some r =>
          obtain ⟨o, s1⟩ := r
          rw [hr] at h
          have hts : ∀ t ∈ ts, t.Disciplined fires 1 held := by
            intro t ht
            refine hE sch held hp.2.1 t ?_
            unfold Env.fire; rw [hs]; exact ht
          have hn := tryForEach_not_stuck (fun s1 => s1.locks = s.locks) ts (fun t ht s1 out s2 hi he =>
            ⟨ih [f] held _ _ _ _ (hts t ht) (by rw [hi]; exact hu) he, (eval_locks E he).trans hi⟩) s o s1 rfl hr
          have hl : s1.locks = s.locks := tryForEach_inv (R := fun s s' => s'.locks = s.locks) (fun _ => rfl)
            (fun _ _ _ h h' => h'.trans h) (fun _ => True) ts (fun t ht s out s' _ he => ⟨eval_locks E he, trivial⟩) s o s1
            trivial hr
          rcases o with r | _ | _
          · exact ih env held _ _ _ _ (hp.2.2 _) (by rw [hl]; exact hu) h
          · cases h; intro h; cases h
          · exact absurd rfl hn
    | withTarget n k =>
      obtain ⟨f, hf⟩ := ctx hp.1
      simp only [eval, hf] at h
      exact go _ _ h hp.2 rfl
    | targetRead c k =>
      obtain ⟨f, hf⟩ := ctx hp.1
      simp only [eval, hf] at h
      exact go _ _ h (hp.2 _) rfl
    | targetWrite c fn k =>
      obtain ⟨f, hf⟩ := ctx hp.1
      simp only [eval, hf] at h
      split at h
      · exact go _ _ h (hp.2 _) rfl
      · split at h
        · exact go _ _ h (hp.2 _) rfl
        · cases h; intro h; cases h
    | resRead t k =>
      have hb : s.resBlocks E t false = false := by
        unfold St.resBlocks
        split
        · rfl
        · rename_i p hl; exact hu.free hc hl hp.1 fun h => by cases h
      simp only [eval, hb, Bool.false_eq_true, if_false] at h
      exact go _ _ h (hp.2 _) rfl
    | resWrite t fn k =>
      have hb : s.resBlocks E t true = false := by
        unfold St.resBlocks
        split
        · rfl
        · rename_i p hl; exact hu.free hc hl (hp.1 _) fun _ => hp.1 _
      simp only [eval, hb, Bool.false_eq_true, if_false] at h
      split at h
      · exact go _ _ h (hp.2 _) rfl
      · exact go _ _ h (hp.2 _) rfl
      · cases h; intro h; cases h
    | resScope t excl body k =>
      simp only [eval] at h
      split at h
      · exact go _ _ h (hp.2.2.2 _) rfl
      · rename_i q hl
        rw [hu.free hc hl hp.1 hp.2.1] at h
        simp only [Bool.false_eq_true, if_false] at h
        split at h
        · exact go _ _ h (hp.2.2.2 _) rfl
        · rename_i v hv
          cases hr : eval E fuel env (body v) (lockRes s q excl) with
          | none => simp [hr] at h
          | some r =>
            obtain ⟨o, s1⟩ := r
            rw [hr] at h
            have hn := ih env _ _ _ _ _ (hp.2.2.1 v) (hu.cons hl excl) hr
            have hl1 : s1.locks = (q, excl) :: s.locks := eval_locks E hr
            rcases o with r | _ | _
            · refine ih env held _ _ _ _ (hp.2.2.2 _) ?_ h
              show InUse E held s1.locks.tail
              rw [hl1]; exact hu
            · cases h; intro h; cases h
            · exact absurd rfl hn
    | resAssign t x k =>
      obtain ⟨q, hm, hl⟩ := hu.locked t true hp.1
      simp only [eval, hl, List.contains_iff_mem.2 hm, if_true] at h
      exact go _ _ h hp.2 rfl
    | catchUnwind body k =>
      simp only [eval] at h
      cases hr : eval E fuel env body s with
      | none => simp [hr] at h
      | some r =>
        obtain ⟨o, s1⟩ := r
        rw [hr] at h
        have hn := ih env held _ _ _ _ hp.1 hu hr
        have hl : s1.locks = s.locks := eval_locks E hr
        rcases o with r | _ | _
        · exact ih env held _ _ _ _ (hp.2 _) (by rw [hl]; exact hu) h
        · exact ih env held _ _ _ _ (hp.2 _) (by rw [hl]; exact hu) h
        · exact absurd rfl hn
    | forget k =>
      obtain ⟨f, hf⟩ := ctx hp.1
      simp only [eval, hf] at h
      exact go _ _ h hp.2 rfl

/-! ## Locks and the call stack -/

theorem step_locks (E : Env σ) {c c' : Conf σ} (h : c.step E = some c') (hc : c.st.locks = openScopes c.stack) :
    c'.st.locks = openScopes c'.stack := by
  obtain ⟨control, K, s⟩ := c
  replace hc : s.locks = openScopes K := hc
  cases control with
  | run env p =>
    cases p <;> simp only [Conf.step] at h
    case done => cases h; exact hc
    case panic => cases h; exact hc
    case reenter => cases h; exact hc
    case catchUnwind => cases h; exact hc
    case runTriggers =>
      split at h
      · cases h; exact hc
      · split at h <;> cases h <;> exact hc
    case targetWrite =>
      split at h
      · cases h; exact hc
      · split at h
        · cases h; exact hc
        · split at h <;> cases h <;> exact hc
    case resWrite =>
      split at h
      · cases h; exact hc
      · split at h <;> cases h <;> exact hc
    case resScope t excl body k =>
      split at h
      · cases h; exact hc
      · split at h
        · cases h; exact hc
        · split at h
          · cases h; exact hc
          · cases h
            show (_, excl) :: s.locks = _ :: openScopes K
            rw [hc]
    case resAssign =>
      split at h
      · cases h; exact hc
      · split at h <;> cases h <;> exact hc
    all_goals (split at h <;> cases h <;> exact hc)
  | back out =>
    cases K with
    | nil => rcases out with (e | v) | _ | _ <;> cases h
    | cons κ K =>
      cases κ with
      | tx n env k =>
        rcases out with (e | v) | _ | _
        · cases h; exact hc
        · cases h
          obtain ⟨fs, e⟩ := commitChild_eq_frames s n
          show (commitChild s n).locks = _
          rw [e]; exact hc
        · cases h; exact hc
        · cases h
      | triggers f rest env k =>
        rcases out with (e | v) | _ | _ <;> cases rest <;> cases h <;> exact hc
      | resScope p excl env k =>
        rcases out with r | _ | _
        · cases h
          show s.locks.tail = _
          rw [hc]; rfl
        · cases h
          show s.locks.tail = _
          rw [hc]; rfl
        · cases h
      | catchUnwind env k => rcases out with r | _ | _ <;> cases h <;> exact hc

theorem steps_locks {E : Env σ} {c c' : Conf σ} (h : Conf.Steps E c c') (hc : c.st.locks = openScopes c.stack) :
    c'.st.locks = openScopes c'.stack := by
  induction h with
  | refl => exact hc
  | head h1 _ ih => exact ih (step_locks E h1 hc)

/-! ## Scopes, run -/

theorem runs_resScope (E : Env σ) {env : List Nat} {t : σ.Ty} {p : Nat} {excl : Bool} {v : σ.Val t} {body : σ.Val t → Prog σ}
    {k : Option (Except Error σ.V) → Prog σ} {s s' : St σ} {out : Out (Except Error σ.V)}
    (hp : (E.resources.res t).lock = some p) (hb : s.blocks p excl = false) (hv : (E.resources.res t).peek s.heap = some v) :
    Runs E env (.resScope t excl body k) s out s' ↔
      ∃ o s1, Runs E env (body v) (lockRes s p excl) o s1 ∧
        match o with
        | .ret r => Runs E env (k (some r)) (unlockRes s1) out s'
        | .panic => out = .panic ∧ s' = unwindRes s1 p excl
        | .stuck => out = .stuck ∧ s' = unlockRes s1 := by
  constructor
  · rintro ⟨fuel, h⟩
    cases fuel with
    | zero => simp [eval] at h
    | succ fuel =>
      simp only [eval, hp, hb, hv, Bool.false_eq_true, if_false] at h
      cases hr : eval E fuel env (body v) (lockRes s p excl) with
      | none => simp [hr] at h
      | some q =>
        obtain ⟨o, s1⟩ := q
        rw [hr] at h
        refine ⟨o, s1, ⟨fuel, hr⟩, ?_⟩
        rcases o with r | _ | _
        · exact ⟨fuel, h⟩
        · simp only [Option.some.injEq, Prod.mk.injEq] at h; exact ⟨h.1.symm, h.2.symm⟩
        · simp only [Option.some.injEq, Prod.mk.injEq] at h; exact ⟨h.1.symm, h.2.symm⟩
  · rintro ⟨o, s1, ⟨a, ha⟩, h⟩
    rcases o with r | _ | _
    · obtain ⟨b, hb'⟩ := h
      refine ⟨max a b + 1, ?_⟩
      simp only [eval, hp, hb, hv, Bool.false_eq_true, if_false]
      rw [eval_mono_le E (Nat.le_max_left a b) ha]
      exact eval_mono_le E (Nat.le_max_right a b) hb'
    · obtain ⟨rfl, rfl⟩ := h; exact ⟨a + 1, by simp only [eval, hp, hb, hv, Bool.false_eq_true, if_false, ha]⟩
    · obtain ⟨rfl, rfl⟩ := h; exact ⟨a + 1, by simp only [eval, hp, hb, hv, Bool.false_eq_true, if_false, ha]⟩

theorem runs_now {E : Env σ} {env : List Nat} {p : Prog σ} {s s' s1 : St σ} {out o : Out (Except Error σ.V)}
    (h : ∀ fuel, eval E (fuel + 1) env p s = some (o, s1)) : Runs E env p s out s' ↔ out = o ∧ s' = s1 := by
  constructor
  · rintro ⟨fuel, hr⟩
    cases fuel with
    | zero => simp [eval] at hr
    | succ fuel => rw [h] at hr; cases hr; exact ⟨rfl, rfl⟩
  · rintro ⟨rfl, rfl⟩; exact ⟨1, h 0⟩

theorem made_cells [LawfulSig σ] {S : Schema σ} (h : Made S) :
    BTreeMap.Sorted S.env.resources.resources.entries ∧
    (∀ t p, S.env.resources.resources.get t = some p → p < S.heap.length) ∧
    ∀ t u p, S.env.resources.resources.get t = some p → S.env.resources.resources.get u = some p → t = u := by
  induction h with
  | fromGraph g => exact ⟨List.Pairwise.nil, fun _ _ h => (by cases h), fun _ _ _ h => (by cases h)⟩
  | @withResource S t v _ ih =>
    obtain ⟨h1, h2, h3⟩ := ih
    have hget : ∀ u, (S.withResource t v).env.resources.resources.get u =
        if u = t then some S.heap.length else S.env.resources.resources.get u := by
      intro u
      have := BTreeMap.findL_insertL (k := t) (q := u) (v := S.heap.length) h1
      refine this.trans ?_
      by_cases e : u = t
      · rw [if_pos e, if_pos (by rw [e]; exact Std.ReflCmp.compare_self)]
      · rw [if_neg e, if_neg (fun h => e (Std.LawfulEqCmp.eq_of_compare h))]; rfl
    refine ⟨BTreeMap.sorted_insertL h1, fun u p hu => ?_, fun u w p hu hw => ?_⟩
    · rw [hget] at hu
      show p < (S.heap ++ [_]).length
      rw [List.length_append]
      split at hu
      · cases hu; simp
      · have := h2 u p hu; simp; omega
    · rw [hget] at hu hw
      split at hu
      · split at hw
        · rename_i e1 e2; rw [e1, e2]
        · cases hu; exact absurd (h2 w _ hw) (Nat.lt_irrefl _)
      · split at hw
        · cases hw; exact absurd (h2 u _ hu) (Nat.lt_irrefl _)
        · exact h3 u w p hu hw
  | withTrigger s t _ ih => exact ih
  | @transact S S' fuel pre body out _ ht ih =>
    obtain ⟨s, he, henv, hheap, _⟩ := transact_some ht
    have hl : S'.heap.length = S.heap.length := by rw [hheap]; exact eval_heap_length S.env he
    rw [henv, hl]; exact ih

/-- Resources hold values of their type. -/
def Env.Typed (E : Env σ) (heap : Heap σ.Val) : Prop :=
  ∀ t p, (E.resources.res t).lock = some p → ∀ cell, heap[p]? = some cell → cell.val.1 = t

theorem eval_typed {E : Env σ} (hE : E.OwnCells) {fuel : Nat} {env : List Nat} {p : Prog σ} {s s' : St σ}
    {out : Out (Except Error σ.V)} (h : eval E fuel env p s = some (out, s')) : E.Typed s.heap → E.Typed s'.heap := by
  refine eval_lockInv E (fun _ => True) (fun s s' => E.Typed s.heap → E.Typed s'.heap) ⟨?_, ?_, ?_, ?_, ?_, ?_⟩
    (fun _ _ _ t _ => every_true t) fuel env p s s' out (every_true p) h
  · intro s s' s'' h h' ht; exact h' (h ht)
  · intro s fs ht; exact ht
  · intro s t p fn k heap _ hl _ _ hother hcell ht u q hu cell hc
    by_cases e : q = p
    · subst e
      rw [hE u t q hu hl]
      rcases hcell cell hc with h | h
      · exact ht t q hl cell h
      · exact h
    · rw [hother q e] at hc; exact ht u q hu cell hc
  · intro s s1 t p excl body k _ _ _ h; exact h
  · intro s s1 t p excl body k _ _ _ h ht u q hu cell hc
    have h1 := h ht
    have hc : (if excl then s1.heap.modify p fun cell => { cell with poisoned := true } else s1.heap)[q]? = some cell := hc
    split at hc
    · rw [List.getElem?_modify] at hc
      cases hx : s1.heap[q]? with
      | none => rw [hx] at hc; cases hc
      | some x =>
        rw [hx] at hc
        have := h1 u q hu x hx
        have hc : (if p = q then { x with poisoned := true } else x) = cell := Option.some.inj hc
        rw [← hc]
        split <;> exact this
    · exact h1 u q hu cell hc
  · intro s t p x k _ hl _ ht u q hu cell hc
    have hc : (s.heap.set p ⟨⟨t, x⟩, false⟩)[q]? = some cell := hc
    by_cases e : q = p
    · subst e
      rw [hE u t q hu hl]
      rw [List.getElem?_set_self'] at hc
      cases hx : s.heap[q]? with
      | none => rw [hx] at hc; cases hc
      | some y => rw [hx] at hc; cases hc; rfl
    · rw [List.getElem?_set_ne (Ne.symm e)] at hc; exact ht u q hu cell hc

theorem made_typed [LawfulSig σ] {S : Schema σ} (h : Made S) : S.env.Typed S.heap := by
  induction h with
  | fromGraph g => intro t p h; cases h
  | @withResource S t v hm ih =>
    obtain ⟨h1, h2, h3⟩ := made_cells hm
    intro u p hu cell hc
    have hget : (S.withResource t v).env.resources.resources.get u =
        if u = t then some S.heap.length else S.env.resources.resources.get u := by
      have := BTreeMap.findL_insertL (k := t) (q := u) (v := S.heap.length) h1
      refine this.trans ?_
      by_cases e : u = t
      · rw [if_pos e, if_pos (by rw [e]; exact Std.ReflCmp.compare_self)]
      · rw [if_neg e, if_neg (fun h => e (Std.LawfulEqCmp.eq_of_compare h))]; rfl
    have hu : (S.withResource t v).env.resources.resources.get u = some p := hu
    have hc : (S.heap ++ [⟨⟨t, v⟩, false⟩])[p]? = some cell := hc
    rw [hget] at hu
    split at hu
    · rename_i e
      cases hu
      rw [List.getElem?_concat_length] at hc
      cases hc; exact e.symm
    · rw [List.getElem?_append_left (h2 u p hu)] at hc
      exact ih u p hu cell hc
  | withTrigger s t _ ih => exact ih
  | @transact S S' fuel pre body out hm ht ih =>
    obtain ⟨s, he, henv, hheap, _⟩ := transact_some ht
    rw [henv, hheap]
    exact eval_typed (fun t u p => (made_cells hm).2.2 t u p) he ih

end Plotline
