import Verif.Spec.Private
import Verif.Lemmas.Alike

/-! The evaluator on schemas that differ in components only. -/

namespace Plotline

set_option linter.unusedSectionVars false

variable {σ : Sig}

/-! ## Cells -/

theorem peek_poison_self {t : σ.Ty} (r : Res t) (heap : Heap σ.Val) {p : Nat} (hp : r.lock = some p) :
    r.peek (heap.modify p fun cell => { cell with poisoned := true }) = none := by
  unfold Res.peek
  rw [hp]
  simp only [List.getElem?_modify_eq]
  cases heap[p]? <;> rfl

theorem peek_poison_other {t : σ.Ty} (r : Res t) (heap : Heap σ.Val) {p : Nat} (hp : r.lock ≠ some p) :
    r.peek (heap.modify p fun cell => { cell with poisoned := true }) = r.peek heap := by
  apply peek_congr
  intro q hq
  rw [List.getElem?_modify]
  simp only [if_neg (fun (e : p = q) => hp (by rw [e]; exact hq))]
  simp

/-- The cells are those of one resource of the rest of the program. -/
def SameOff (H : σ.Ty → Prop) (E E' : Env σ) (p p' : Nat) : Prop :=
  ∃ t, ¬ H t ∧ (E.resources.res t).lock = some p ∧ (E'.resources.res t).lock = some p'

/-- The same guards are held. -/
inductive LocksMix (H : σ.Ty → Prop) (E E' : Env σ) : List (Nat × Bool) → List (Nat × Bool) → Prop
  | nil : LocksMix H E E' [] []
  | cons {p p' : Nat} {l l' : List (Nat × Bool)} (e : Bool) : SameOff H E E' p p' → LocksMix H E E' l l' →
      LocksMix H E E' ((p, e) :: l) ((p', e) :: l')

theorem SameOff.symm {H : σ.Ty → Prop} {E E' : Env σ} {p p' : Nat} (h : SameOff H E E' p p') : SameOff H E' E p' p := by
  obtain ⟨t, h1, h2, h3⟩ := h
  exact ⟨t, h1, h3, h2⟩

theorem LocksMix.symm {H : σ.Ty → Prop} {E E' : Env σ} {l l' : List (Nat × Bool)} (h : LocksMix H E E' l l') :
    LocksMix H E' E l' l := by
  induction h with
  | nil => exact .nil
  | cons e h1 _ ih => exact .cons e h1.symm ih

theorem LocksMix.left {H : σ.Ty → Prop} {E E' : Env σ} {l l' : List (Nat × Bool)} (h : LocksMix H E E' l l') {p : Nat} {e : Bool}
    (hm : (p, e) ∈ l) : ∃ p', SameOff H E E' p p' ∧ (p', e) ∈ l' := by
  induction h with
  | nil => cases hm
  | @cons q q' l l' e' h1 _ ih =>
    rcases List.mem_cons.1 hm with hm | hm
    · cases hm; exact ⟨q', h1, List.mem_cons_self⟩
    · obtain ⟨p', h2, h3⟩ := ih hm
      exact ⟨p', h2, List.mem_cons_of_mem _ h3⟩

theorem LocksMix.tail {H : σ.Ty → Prop} {E E' : Env σ} {l l' : List (Nat × Bool)} (h : LocksMix H E E' l l') :
    LocksMix H E E' l.tail l'.tail := by
  cases h with
  | nil => exact .nil
  | cons _ _ h2 => exact h2

/-- Two states that differ in components only. -/
structure MixSt (H N : σ.Ty → Prop) (E E' : Env σ) (s s' : St σ) : Prop where
  frames : s'.frames = s.frames
  graph : s'.graph = s.graph
  reads : ∀ t, ¬ H t → (E'.resources.res t).peek s'.heap = (E.resources.res t).peek s.heap
  absent : ∀ t, H t → N t → (E.resources.res t).peek s.heap = none
  absent' : ∀ t, H t → N t → (E'.resources.res t).peek s'.heap = none
  locks : LocksMix H E E' s.locks s'.locks
  inHeap : InHeap E s.heap
  inHeap' : InHeap E' s'.heap

/-- The same of the schemas. -/
structure MixEnv (H N : σ.Ty → Prop) (E E' : Env σ) : Prop where
  own : E.OwnCells
  own' : E'.OwnCells
  fires : ∀ s, Woven H N (E.fire s) (E'.fire s)

theorem Woven.symm {H N : σ.Ty → Prop} {l l' : List (Prog σ)} (h : Woven H N l l') : Woven H N l' l := by
  induction h with
  | nil => exact .nil
  | keep h1 _ ih => exact .keep h1 ih
  | left h1 _ ih => exact .right h1 ih
  | right h1 _ ih => exact .left h1 ih

theorem MixSt.symm {H N : σ.Ty → Prop} {E E' : Env σ} {s s' : St σ} (h : MixSt H N E E' s s') : MixSt H N E' E s' s :=
  ⟨h.frames.symm, h.graph.symm, fun t ht => (h.reads t ht).symm, h.absent', h.absent, h.locks.symm, h.inHeap', h.inHeap⟩

theorem MixEnv.symm {H N : σ.Ty → Prop} {E E' : Env σ} (h : MixEnv H N E E') : MixEnv H N E' E :=
  ⟨h.own', h.own, fun s => (h.fires s).symm⟩

/-- What a component changes. -/
structure Unmoved (H N : σ.Ty → Prop) (E : Env σ) (s s' : St σ) : Prop where
  frames : s'.frames = s.frames
  graph : s'.graph = s.graph
  locks : s'.locks = s.locks
  reads : ∀ t, ¬ H t → (E.resources.res t).peek s'.heap = (E.resources.res t).peek s.heap
  absent : ∀ t, H t → N t → (E.resources.res t).peek s'.heap = none
  length : s'.heap.length = s.heap.length

theorem MixSt.moveLeft {H N : σ.Ty → Prop} {E E' : Env σ} {s s' s2 : St σ} (h : MixSt H N E E' s s') (hu : Unmoved H N E s s2) :
    MixSt H N E E' s2 s' :=
  ⟨h.frames.trans hu.frames.symm, h.graph.trans hu.graph.symm, fun t ht => (h.reads t ht).trans (hu.reads t ht).symm, hu.absent,
    h.absent', by rw [hu.locks]; exact h.locks, fun t p hp => by rw [hu.length]; exact h.inHeap t p hp, h.inHeap'⟩

theorem MixSt.moveRight {H N : σ.Ty → Prop} {E E' : Env σ} {s s' s2 : St σ} (h : MixSt H N E E' s s') (hu : Unmoved H N E' s' s2) :
    MixSt H N E E' s s2 := (h.symm.moveLeft hu).symm

theorem LocksMix.off {H : σ.Ty → Prop} {E E' : Env σ} {l l' : List (Nat × Bool)} (h : LocksMix H E E' l l') :
    ∀ x ∈ l, ∃ t, ¬ H t ∧ (E.resources.res t).lock = some x.1 := by
  intro x hx
  obtain ⟨p', ⟨t, h1, h2, _⟩, _⟩ := h.left (p := x.1) (e := x.2) hx
  exact ⟨t, h1, h2⟩

/-- A component runs to its end, and changes nothing but its own resources. -/
theorem observer_runs {H N : σ.Ty → Prop} {E : Env σ} (hE : E.OwnCells) {o : Prog σ} (ho : Observes H N o) :
    ∀ (f : Nat) (s : St σ), (∀ x ∈ s.locks, ∃ t, ¬ H t ∧ (E.resources.res t).lock = some x.1) →
      (∀ t, H t → N t → (E.resources.res t).peek s.heap = none) → InHeap E s.heap →
      ∃ fuel v s2, eval E fuel [f] o s = some (.ret (.ok v), s2) ∧ Unmoved H N E s s2 := by
  have free : ∀ (s : St σ) (t : σ.Ty) (excl : Bool), H t → (∀ x ∈ s.locks, ∃ t, ¬ H t ∧ (E.resources.res t).lock = some x.1) →
      s.resBlocks E t excl = false := by
    intro s t excl ht hl
    cases hb : s.resBlocks E t excl with
    | false => rfl
    | true =>
      unfold St.resBlocks at hb
      split at hb
      · cases hb
      · rename_i p hp
        rw [blocks_iff] at hb
        rcases hb with hb | ⟨_, hb⟩
        · obtain ⟨u, h1, h2⟩ := hl _ hb
          exact absurd ht (by rw [hE _ _ _ hp h2]; exact h1)
        · obtain ⟨u, h1, h2⟩ := hl _ hb
          exact absurd ht (by rw [hE _ _ _ hp h2]; exact h1)
  induction ho with
  | done v => intro f s hl ha hi; exact ⟨1, v, s, rfl, rfl, rfl, rfl, fun _ _ => rfl, ha, rfl⟩
  | get i _ ih =>
    intro f s hl ha hi
    obtain ⟨fuel, v, s2, h1, h2⟩ := ih (ctxGet s.graph s.frames f i) f s hl ha hi
    exact ⟨fuel + 1, v, s2, h1, h2⟩
  | contains i _ ih =>
    intro f s hl ha hi
    obtain ⟨fuel, v, s2, h1, h2⟩ := ih (ctxContains s.graph s.frames f i) f s hl ha hi
    exact ⟨fuel + 1, v, s2, h1, h2⟩
  | target _ ih =>
    intro f s hl ha hi
    obtain ⟨fuel, v, s2, h1, h2⟩ := ih (readTarget s f) f s hl ha hi
    exact ⟨fuel + 1, v, s2, h1, h2⟩
  | @read t k ht _ ih =>
    intro f s hl ha hi
    obtain ⟨fuel, v, s2, h1, h2⟩ := ih _ (ha t ht) f s hl ha hi
    refine ⟨fuel + 1, v, s2, ?_, h2⟩
    simp only [eval]
    rw [if_neg (by rw [free s t false ht hl]; simp)]
    exact h1
  | @write t fn k ht hfn _ ih =>
    intro f s hl ha hi
    cases hx : (E.resources.res t).peek s.heap with
    | none =>
      obtain ⟨fuel, v, s2, h1, h2⟩ := ih false f s hl ha hi
      refine ⟨fuel + 1, v, s2, ?_, h2⟩
      simp only [eval]
      rw [if_neg (by rw [free s t true ht hl]; simp), withMut_peek, hx]
      exact h1
    | some x =>
      obtain ⟨p, hq⟩ := peek_lock hx
      have hoff : ∀ u, u ≠ t → ∀ c, (E.resources.res u).peek (s.heap.set p c) = (E.resources.res u).peek s.heap := fun u hu c =>
        peek_cell_other _ _ (fun hq' => hu (hE _ _ _ hq' hq)) c
      have ha' : ∀ u, H u → N u → (E.resources.res u).peek (s.heap.set p ⟨⟨t, (fn x).1⟩, false⟩) = none := by
        intro u hu hn
        rw [hoff u (fun e => by subst e; rw [ha u hu hn] at hx; cases hx)]
        exact ha u hu hn
      obtain ⟨fuel, v, s2, h1, h2⟩ := ih true f { s with heap := s.heap.set p ⟨⟨t, (fn x).1⟩, false⟩ } hl ha'
        (fun u q hq => by show q < (s.heap.set p _).length; rw [List.length_set]; exact hi u q hq)
      refine ⟨fuel + 1, v, s2, ?_, h2.frames, h2.graph, h2.locks, fun u hu => ?_, h2.absent, ?_⟩
      · simp only [eval]
        rw [if_neg (by rw [free s t true ht hl]; simp), withMut_peek, hx, hq]
        simp only [hfn, Bool.false_eq_true, if_false]
        exact h1
      · rw [h2.reads u hu]
        exact hoff u (fun e => hu (e ▸ ht)) _
      · rw [h2.length]; exact List.length_set

/-! ## Programs -/

theorem eval_fire (E : Env σ) (fuel : Nat) (env : List Nat) (c : Nat) (sch : Sched) (k : Except Error Unit → Prog σ) (s : St σ) :
    eval E (fuel + 1) env (.runTriggers c sch k) s =
      match env[c]? with
      | none => some (.stuck, s)
      | some f =>
        match tryForEach (eval E fuel [f]) (E.fire sch) s with
        | none => none
        | some (.ret r, s') => eval E fuel env (k r) s'
        | some (.panic, s') => some (.panic, s')
        | some (.stuck, s') => some (.stuck, s') := by
  simp only [eval, Env.fire]
  cases env[c]? with
  | none => rfl
  | some f => cases E.triggers.select sch <;> rfl

section
variable {H N : σ.Ty → Prop} {E E' : Env σ}

theorem MixSt.with_frames {s s' : St σ} (h : MixSt H N E E' s s') {t t' : St σ} (e1 : t.heap = s.heap) (e2 : t'.heap = s'.heap)
    (e3 : t.locks = s.locks) (e4 : t'.locks = s'.locks) (hs : SameTx t t') : MixSt H N E E' t t' :=
  ⟨hs.1, hs.2, by rw [e1, e2]; exact h.reads, by rw [e1]; exact h.absent, by rw [e2]; exact h.absent',
    by rw [e3, e4]; exact h.locks, by rw [e1]; exact h.inHeap, by rw [e2]; exact h.inHeap'⟩

theorem commitChild_cells (s : St σ) (n : Nat) : (commitChild s n).heap = s.heap ∧ (commitChild s n).locks = s.locks := by
  unfold commitChild closeChild
  split
  · exact ⟨rfl, rfl⟩
  · split
    · exact ⟨rfl, rfl⟩
    · split <;> exact ⟨rfl, rfl⟩

theorem MixSt.blocks (hE : MixEnv H N E E') {s s' : St σ} (h : MixSt H N E E' s s') {t : σ.Ty} {excl : Bool}
    (hb : s'.resBlocks E' t excl = true) : s.resBlocks E t excl = true := by
  unfold St.resBlocks at hb
  split at hb
  · cases hb
  · rename_i p' hp'
    have key : ∀ e, (p', e) ∈ s'.locks → ∃ p, (E.resources.res t).lock = some p ∧ (p, e) ∈ s.locks := by
      intro e hm
      obtain ⟨p, ⟨u, h1, h2, h3⟩, h4⟩ := h.locks.symm.left hm
      cases hE.own' _ _ _ hp' h2
      exact ⟨p, h3, h4⟩
    rw [blocks_iff] at hb
    rcases hb with hb | ⟨hx, hb⟩
    · obtain ⟨p, h1, h2⟩ := key _ hb
      simp only [St.resBlocks, h1]
      rw [blocks_iff]; exact .inl h2
    · obtain ⟨p, h1, h2⟩ := key _ hb
      simp only [St.resBlocks, h1]
      rw [blocks_iff]; exact .inr ⟨hx, h2⟩

theorem MixSt.blocks_eq (hE : MixEnv H N E E') {s s' : St σ} (h : MixSt H N E E' s s') (t : σ.Ty) (excl : Bool) :
    s'.resBlocks E' t excl = s.resBlocks E t excl := by
  have h1 := h.blocks hE (t := t) (excl := excl)
  have h2 := h.symm.blocks hE.symm (t := t) (excl := excl)
  cases hx : s'.resBlocks E' t excl <;> cases hy : s.resBlocks E t excl <;> simp_all

theorem MixSt.set (hE : MixEnv H N E E') {s s' : St σ} (h : MixSt H N E E' s s') {t : σ.Ty} (ht : ¬ H t) {p p' : Nat}
    (hp : (E.resources.res t).lock = some p) (hp' : (E'.resources.res t).lock = some p') (x : σ.Val t) (b : Bool) :
    MixSt H N E E' { s with heap := s.heap.set p ⟨⟨t, x⟩, b⟩ } { s' with heap := s'.heap.set p' ⟨⟨t, x⟩, b⟩ } := by
  have hoff : ∀ u, u ≠ t → (E.resources.res u).peek (s.heap.set p ⟨⟨t, x⟩, b⟩) = (E.resources.res u).peek s.heap := fun u hu =>
    peek_cell_other _ _ (fun hq' => hu (hE.own _ _ _ hq' hp)) _
  have hoff' : ∀ u, u ≠ t → (E'.resources.res u).peek (s'.heap.set p' ⟨⟨t, x⟩, b⟩) = (E'.resources.res u).peek s'.heap :=
    fun u hu => peek_cell_other _ _ (fun hq' => hu (hE.own' _ _ _ hq' hp')) _
  refine ⟨h.frames, h.graph, fun u hu => ?_, fun u hu hn => ?_, fun u hu hn => ?_, h.locks, fun u q hq => ?_, fun u q hq => ?_⟩
  · by_cases e : u = t
    · subst e
      rw [peek_cell_self _ _ hp (h.inHeap _ _ hp), peek_cell_self _ _ hp' (h.inHeap' _ _ hp')]
    · rw [hoff u e, hoff' u e]; exact h.reads u hu
  · rw [hoff u (fun e => ht (e ▸ hu))]; exact h.absent u hu hn
  · rw [hoff' u (fun e => ht (e ▸ hu))]; exact h.absent' u hu hn
  · show q < (s.heap.set p _).length
    rw [List.length_set]; exact h.inHeap u q hq
  · show q < (s'.heap.set p' _).length
    rw [List.length_set]; exact h.inHeap' u q hq

theorem MixSt.unlock {s s' : St σ} (h : MixSt H N E E' s s') : MixSt H N E E' (unlockRes s) (unlockRes s') := by
  refine ⟨h.frames, h.graph, h.reads, h.absent, h.absent', ?_, h.inHeap, h.inHeap'⟩
  show LocksMix H E E' s.locks.tail s'.locks.tail
  exact h.locks.tail

theorem MixSt.unwind (hE : MixEnv H N E E') {s s' : St σ} (h : MixSt H N E E' s s') {t : σ.Ty} (ht : ¬ H t) {p p' : Nat}
    (hp : (E.resources.res t).lock = some p) (hp' : (E'.resources.res t).lock = some p') (excl : Bool) :
    MixSt H N E E' (unwindRes s p excl) (unwindRes s' p' excl) := by
  cases excl with
  | false => exact h.unlock
  | true =>
    have hu := h.unlock
    have hoff : ∀ u, u ≠ t → (E.resources.res u).peek (unwindRes s p true).heap = (E.resources.res u).peek s.heap := fun u hu =>
      peek_poison_other _ _ (fun hq' => hu (hE.own _ _ _ hq' hp))
    have hoff' : ∀ u, u ≠ t → (E'.resources.res u).peek (unwindRes s' p' true).heap = (E'.resources.res u).peek s'.heap :=
      fun u hu => peek_poison_other _ _ (fun hq' => hu (hE.own' _ _ _ hq' hp'))
    refine ⟨h.frames, h.graph, fun u hu => ?_, fun u hu hn => ?_, fun u hu hn => ?_, hu.locks, fun u q hq => ?_, fun u q hq => ?_⟩
    · by_cases e : u = t
      · subst e
        exact (peek_poison_self _ _ hp').trans (peek_poison_self _ _ hp).symm
      · rw [hoff u e, hoff' u e]; exact h.reads u hu
    · rw [hoff u (fun e => ht (e ▸ hu))]; exact h.absent u hu hn
    · rw [hoff' u (fun e => ht (e ▸ hu))]; exact h.absent' u hu hn
    · show q < (s.heap.modify p _).length
      rw [List.length_modify]; exact h.inHeap u q hq
    · show q < (s'.heap.modify p' _).length
      rw [List.length_modify]; exact h.inHeap' u q hq

theorem MixSt.lock {s s' : St σ} (h : MixSt H N E E' s s') {t : σ.Ty} (ht : ¬ H t) {p p' : Nat}
    (hp : (E.resources.res t).lock = some p) (hp' : (E'.resources.res t).lock = some p') (excl : Bool) :
    MixSt H N E E' (lockRes s p excl) (lockRes s' p' excl) :=
  ⟨h.frames, h.graph, h.reads, h.absent, h.absent', .cons excl ⟨t, ht, hp, hp'⟩ h.locks, h.inHeap, h.inHeap'⟩

/-- Triggers one after another. -/
theorem tryForEach_mix (hE : MixEnv H N E E') {fuel f : Nat}
    (ih : ∀ (p : Prog σ) (s s' t : St σ) (o : Out (Except Error σ.V)), p.Avoids H → MixSt H N E E' s s' →
      eval E fuel [f] p s = some (o, t) → ∃ fuel' t', eval E' fuel' [f] p s' = some (o, t') ∧ MixSt H N E E' t t')
    {l l' : List (Prog σ)} (hl : Woven H N l l') : ∀ (s s' t : St σ) (o : Out (Except Error Unit)), MixSt H N E E' s s' →
      tryForEach (eval E fuel [f]) l s = some (o, t) →
      ∃ fuel' t', tryForEach (eval E' fuel' [f]) l' s' = some (o, t') ∧ MixSt H N E E' t t' := by
  induction hl with
  | nil => intro s s' t o h he; cases he; exact ⟨0, s', rfl, h⟩
  | @keep p l l' hp _ ihl =>
    intro s s' t o h he
    simp only [tryForEach] at he
    cases hr : eval E fuel [f] p s with
    | none => simp [hr] at he
    | some q =>
      obtain ⟨o1, s2⟩ := q
      rw [hr] at he
      obtain ⟨f1, s2', h1, h2⟩ := ih p s s' s2 o1 hp h hr
      rcases o1 with (e | w) | _ | _
      · cases he; exact ⟨f1, s2', by simp only [tryForEach, h1], h2⟩
      · obtain ⟨f2, t', h3, h4⟩ := ihl s2 s2' t o h2 he
        refine ⟨max f1 f2, t', ?_, h4⟩
        simp only [tryForEach, eval_mono_le E' (Nat.le_max_left f1 f2) h1]
        exact tryForEach_mono_le E' (Nat.le_max_right f1 f2) h3
      · cases he; exact ⟨f1, s2', by simp only [tryForEach, h1], h2⟩
      · cases he; exact ⟨f1, s2', by simp only [tryForEach, h1], h2⟩
  | @left p l l' hp _ ihl =>
    intro s s' t o h he
    obtain ⟨f1, v, s2, h1, h2⟩ := observer_runs hE.own hp f s h.locks.off h.absent h.inHeap
    simp only [tryForEach] at he
    cases hr : eval E fuel [f] p s with
    | none => simp [hr] at he
    | some q =>
      cases eval_det E hr h1
      rw [hr] at he
      exact ihl s2 s' t o (h.moveLeft h2) he
  | @right p l l' hp _ ihl =>
    intro s s' t o h he
    obtain ⟨f1, v, s2, h1, h2⟩ := observer_runs hE.own' hp f s' h.locks.symm.off h.absent' h.inHeap'
    obtain ⟨f2, t', h3, h4⟩ := ihl s s2 t o (h.moveRight h2) he
    refine ⟨max f1 f2, t', ?_, h4⟩
    simp only [tryForEach, eval_mono_le E' (Nat.le_max_left f1 f2) h1]
    exact tryForEach_mono_le E' (Nat.le_max_right f1 f2) h3

theorem eval_mix (hE : MixEnv H N E E') : ∀ (fuel : Nat) (env : List Nat) (p : Prog σ) (s s' t : St σ) (o : Out (Except Error σ.V)),
    p.Avoids H → MixSt H N E E' s s' → eval E fuel env p s = some (o, t) →
    ∃ fuel' t', eval E' fuel' env p s' = some (o, t') ∧ MixSt H N E E' t t' := by
  intro fuel
  induction fuel with
  | zero => intro env p s s' t o _ _ h; simp [eval] at h
  | succ fuel ih =>
    intro env p s s' t o hp hm he
    have next : ∀ {q : Prog σ} {s1 s1' : St σ} {env1 : List Nat} {p1 : Prog σ} {s0' : St σ},
        eval E fuel env1 q s1 = some (o, t) → q.Avoids H → MixSt H N E E' s1 s1' →
        (∀ f, eval E' (f + 1) env1 p1 s0' = eval E' f env1 q s1') →
        ∃ fuel' t', eval E' fuel' env1 p1 s0' = some (o, t') ∧ MixSt H N E E' t t' := by
      intro q s1 s1' env1 p1 s0' he' hq hm' hst
      obtain ⟨f1, t', h1, h2⟩ := ih _ _ _ _ _ _ hq hm' he'
      exact ⟨f1 + 1, t', by rw [hst]; exact h1, h2⟩
    cases p with
    | done r => cases he; exact ⟨1, s', rfl, hm⟩
    | panic => cases he; exact ⟨1, s', rfl, hm⟩
    | reenter => cases he; exact ⟨1, s', rfl, hm⟩
    | save c n k =>
      cases hc : env[c]? with
      | none => simp only [eval, hc] at he; cases he; exact ⟨1, s', by simp only [eval, hc], hm⟩
      | some f =>
        simp only [eval, hc] at he
        exact next (s1' := pushOp s' f (.save n)) he hp
          (hm.with_frames rfl rfl rfl rfl ⟨by simp only [pushOp, hm.frames], hm.graph⟩) (fun f => by simp only [eval, hc])
    | delete c n k =>
      cases hc : env[c]? with
      | none => simp only [eval, hc] at he; cases he; exact ⟨1, s', by simp only [eval, hc], hm⟩
      | some f =>
        simp only [eval, hc] at he
        exact next (s1' := pushOp s' f (.delete n)) he hp
          (hm.with_frames rfl rfl rfl rfl ⟨by simp only [pushOp, hm.frames], hm.graph⟩) (fun f => by simp only [eval, hc])
    | get c i k =>
      cases hc : env[c]? with
      | none => simp only [eval, hc] at he; cases he; exact ⟨1, s', by simp only [eval, hc], hm⟩
      | some f =>
        simp only [eval, hc] at he
        exact next he (hp _) hm (fun f => by simp only [eval, hc, hm.frames, hm.graph])
    | contains c i k =>
      cases hc : env[c]? with
      | none => simp only [eval, hc] at he; cases he; exact ⟨1, s', by simp only [eval, hc], hm⟩
      | some f =>
        simp only [eval, hc] at he
        exact next he (hp _) hm (fun f => by simp only [eval, hc, hm.frames, hm.graph])
    | tx c body k =>
      cases hc : env[c]? with
      | none => simp only [eval, hc] at he; cases he; exact ⟨1, s', by simp only [eval, hc], hm⟩
      | some f =>
        simp only [eval, hc] at he
        have hopen : MixSt H N E E' (openChild s f) (openChild s' f) :=
          hm.with_frames rfl rfl rfl rfl ⟨by simp only [openChild, hm.frames], hm.graph⟩
        cases hr : eval E fuel (s.frames.length :: env) body (openChild s f) with
        | none => simp [hr] at he
        | some q =>
          obtain ⟨o1, s1⟩ := q
          rw [hr] at he
          obtain ⟨f1, s1', h1, h2⟩ := ih _ _ _ _ _ _ hp.1 hopen hr
          rw [← hm.frames] at h1
          have hclose : MixSt H N E E' (closeChild s1 s.frames.length) (closeChild s1' s.frames.length) :=
            h2.with_frames rfl rfl rfl rfl ⟨by simp only [closeChild, h2.frames], h2.graph⟩
          rcases o1 with (e | v) | _ | _
          · obtain ⟨f2, t', h3, h4⟩ := ih _ _ _ _ _ _ (hp.2 (.error e)) hclose he
            refine ⟨max f1 f2 + 1, t', ?_, h4⟩
            simp only [eval, hc, eval_mono_le E' (Nat.le_max_left f1 f2) h1]
            rw [hm.frames]
            exact eval_mono_le E' (Nat.le_max_right f1 f2) h3
          · have hcommit : MixSt H N E E' (commitChild s1 s.frames.length) (commitChild s1' s.frames.length) :=
              h2.with_frames (commitChild_cells _ _).1 (commitChild_cells _ _).1 (commitChild_cells _ _).2 (commitChild_cells _ _).2
                (commitChild_same ⟨h2.frames, h2.graph⟩ _)
            obtain ⟨f2, t', h3, h4⟩ := ih _ _ _ _ _ _ (hp.2 (.ok v)) hcommit he
            refine ⟨max f1 f2 + 1, t', ?_, h4⟩
            simp only [eval, hc, eval_mono_le E' (Nat.le_max_left f1 f2) h1]
            rw [hm.frames]
            exact eval_mono_le E' (Nat.le_max_right f1 f2) h3
          · cases he
            exact ⟨f1 + 1, closeChild s1' s.frames.length, by simp only [eval, hc, h1]; rw [hm.frames], hclose⟩
          · cases he
            exact ⟨f1 + 1, closeChild s1' s.frames.length, by simp only [eval, hc, h1]; rw [hm.frames], hclose⟩
    | runTriggers c sch k =>
      rw [eval_fire] at he
      cases hc : env[c]? with
      | none => simp only [hc] at he; cases he; exact ⟨1, s', by simp only [eval, hc], hm⟩
      | some f =>
        simp only [hc] at he
        cases hr : tryForEach (eval E fuel [f]) (E.fire sch) s with
        | none => simp [hr] at he
        | some q =>
          obtain ⟨o1, s1⟩ := q
          rw [hr] at he
          obtain ⟨f1, s1', h1, h2⟩ := tryForEach_mix hE (fun p s s' t o => ih [f] p s s' t o) (hE.fires sch) s s' s1 o1 hm hr
          rcases o1 with r | _ | _
          · obtain ⟨f2, t', h3, h4⟩ := ih _ _ _ _ _ _ (hp r) h2 he
            refine ⟨max f1 f2 + 1, t', ?_, h4⟩
            rw [eval_fire]
            simp only [hc, tryForEach_mono_le E' (Nat.le_max_left f1 f2) h1]
            exact eval_mono_le E' (Nat.le_max_right f1 f2) h3
          · cases he; exact ⟨f1 + 1, s1', by rw [eval_fire]; simp only [hc, h1], h2⟩
          · cases he; exact ⟨f1 + 1, s1', by rw [eval_fire]; simp only [hc, h1], h2⟩
    | withTarget n k =>
      cases hc : env[0]? with
      | none => simp only [eval, hc] at he; cases he; exact ⟨1, s', by simp only [eval, hc], hm⟩
      | some f =>
        simp only [eval, hc] at he
        exact next (s1' := setTarget s' f n) he hp
          (hm.with_frames rfl rfl rfl rfl ⟨by simp only [setTarget, hm.frames], hm.graph⟩) (fun f => by simp only [eval, hc])
    | forget k =>
      cases hc : env[0]? with
      | none => simp only [eval, hc] at he; cases he; exact ⟨1, s', by simp only [eval, hc], hm⟩
      | some f =>
        simp only [eval, hc] at he
        exact next (s1' := leakFrame s' f) he hp
          (hm.with_frames rfl rfl rfl rfl ⟨by simp only [leakFrame, hm.frames], hm.graph⟩) (fun f => by simp only [eval, hc])
    | targetRead c k =>
      cases hc : env[c]? with
      | none => simp only [eval, hc] at he; cases he; exact ⟨1, s', by simp only [eval, hc], hm⟩
      | some f =>
        simp only [eval, hc] at he
        have e : readTarget s' f = readTarget s f := by simp only [readTarget, hm.frames]
        exact next he (hp _) hm (fun f => by simp only [eval, hc, e])
    | targetWrite c fn k =>
      cases hc : env[c]? with
      | none => simp only [eval, hc] at he; cases he; exact ⟨1, s', by simp only [eval, hc], hm⟩
      | some f =>
        simp only [eval, hc] at he
        have e : readTarget s' f = readTarget s f := by simp only [readTarget, hm.frames]
        cases hx : readTarget s f with
        | none =>
          simp only [hx] at he
          exact next he (hp _) hm (fun f => by simp only [eval, hc, e, hx])
        | some n =>
          simp only [hx] at he
          have hw : ∀ n' b, MixSt H N E E' (writeTarget s f n' b) (writeTarget s' f n' b) := fun n' b =>
            hm.with_frames rfl rfl rfl rfl ⟨by simp only [writeTarget, hm.frames], hm.graph⟩
          rcases hy : fn n with ⟨n', b⟩
          cases b
          · simp only [hy] at he
            exact next he (hp _) (hw _ _) (fun f => by simp only [eval, hc, e, hx, hy])
          · simp only [hy] at he
            cases he
            exact ⟨1, _, by simp only [eval, hc, e, hx, hy], hw _ _⟩
    | resRead t k =>
      obtain ⟨ht, hk⟩ := hp
      simp only [eval] at he
      split at he
      · rename_i hb
        cases he
        exact ⟨1, s', by simp only [eval]; rw [hm.blocks_eq hE, if_pos hb], hm⟩
      · rename_i hb
        refine next he (hk _) hm (fun f => ?_)
        simp only [eval]
        rw [hm.blocks_eq hE, if_neg hb, hm.reads _ ht]
    | resWrite t fn k =>
      obtain ⟨ht, hk⟩ := hp
      simp only [eval] at he
      split at he
      · rename_i hb
        cases he
        exact ⟨1, s', by simp only [eval]; rw [hm.blocks_eq hE, if_pos hb], hm⟩
      · rename_i hb
        rw [withMut_peek] at he
        cases hx : (E.resources.res t).peek s.heap with
        | none =>
          simp only [hx] at he
          refine next he (hk _) hm (fun f => ?_)
          simp only [eval]
          rw [hm.blocks_eq hE, if_neg hb, withMut_peek, hm.reads _ ht, hx]
        | some v =>
          obtain ⟨p, hq⟩ := peek_lock hx
          obtain ⟨p', hq'⟩ := peek_lock ((hm.reads t ht).trans hx)
          simp only [hx, hq] at he
          have hset := hm.set hE ht hq hq' (fn v).1
          cases hf : (fn v).2
          · simp only [hf, Bool.false_eq_true, if_false] at he
            refine next he (hk _) (hset false) (fun f => ?_)
            simp only [eval]
            rw [hm.blocks_eq hE, if_neg hb, withMut_peek, hm.reads _ ht, hx, hq']
            simp only [hf, Bool.false_eq_true, if_false]
            rfl
          · simp only [hf, if_true] at he
            cases he
            refine ⟨1, _, ?_, hset true⟩
            simp only [eval]
            rw [hm.blocks_eq hE, if_neg hb, withMut_peek, hm.reads _ ht, hx, hq']
            simp only [hf, if_true]
            rfl
    | resScope t excl body k =>
      obtain ⟨ht, hbody, hk⟩ := hp
      have hbl := hm.blocks_eq hE t excl
      have none_case : ∀ (E : Env σ) (s : St σ) (fuel : Nat), s.resBlocks E t excl = false → (E.resources.res t).peek s.heap = none →
          eval E (fuel + 1) env (.resScope t excl body k) s = eval E fuel env (k none) s := by
        intro E s fuel hb hx
        simp only [eval]
        split
        · rfl
        · rename_i p hq
          simp only [St.resBlocks, hq] at hb
          rw [if_neg (by rw [hb]; simp), hx]
      have stuck_case : ∀ (E : Env σ) (s : St σ) (fuel : Nat), s.resBlocks E t excl = true →
          eval E (fuel + 1) env (.resScope t excl body k) s = some (.stuck, s) := by
        intro E s fuel hb
        simp only [eval]
        split
        · rename_i hq; simp only [St.resBlocks, hq] at hb; cases hb
        · rename_i p hq
          simp only [St.resBlocks, hq] at hb
          rw [if_pos hb]
      cases hb : s.resBlocks E t excl with
      | true =>
        rw [stuck_case E s fuel hb] at he
        cases he
        exact ⟨1, s', stuck_case E' s' 0 (hbl.trans hb), hm⟩
      | false =>
        cases hx : (E.resources.res t).peek s.heap with
        | none =>
          rw [none_case E s fuel hb hx] at he
          exact next he (hk _) hm (fun f => none_case E' s' f (hbl.trans hb) ((hm.reads t ht).trans hx))
        | some v =>
          obtain ⟨p, hq⟩ := peek_lock hx
          obtain ⟨p', hq'⟩ := peek_lock ((hm.reads t ht).trans hx)
          have hb1 := hb
          have hb2 := hbl.trans hb
          simp only [St.resBlocks, hq] at hb1
          simp only [St.resBlocks, hq'] at hb2
          simp only [eval, hq] at he
          rw [if_neg (by rw [hb1]; simp), hx] at he
          simp only at he
          have key : ∀ f, eval E' (f + 1) env (.resScope t excl body k) s' =
              match eval E' f env (body v) (lockRes s' p' excl) with
              | none => none
              | some (.ret r, s') => eval E' f env (k (some r)) (unlockRes s')
              | some (.panic, s') => some (.panic, unwindRes s' p' excl)
              | some (.stuck, s') => some (.stuck, unlockRes s') := by
            intro f
            simp only [eval, hq']
            rw [if_neg (by rw [hb2]; simp), (hm.reads t ht).trans hx]
            simp only
            generalize eval E' f env (body v) (lockRes s' p' excl) = q
            rcases q with _ | ⟨_ | _ | _, _⟩ <;> rfl
          cases hr : eval E fuel env (body v) (lockRes s p excl) with
          | none => simp [hr] at he
          | some q =>
            obtain ⟨o1, s1⟩ := q
            rw [hr] at he
            obtain ⟨f1, s1', h1, h2⟩ := ih _ _ _ _ _ _ (hbody v) (hm.lock ht hq hq' excl) hr
            rcases o1 with r | _ | _
            · obtain ⟨f2, t', h3, h4⟩ := ih _ _ _ _ _ _ (hk (some r)) h2.unlock he
              refine ⟨max f1 f2 + 1, t', ?_, h4⟩
              rw [key, eval_mono_le E' (Nat.le_max_left f1 f2) h1]
              exact eval_mono_le E' (Nat.le_max_right f1 f2) h3
            · cases he
              exact ⟨f1 + 1, _, by rw [key, h1], h2.unwind hE ht hq hq' excl⟩
            · cases he
              exact ⟨f1 + 1, _, by rw [key, h1], h2.unlock⟩
    | resAssign t x k =>
      obtain ⟨ht, hk⟩ := hp
      have right : ∀ {E E' : Env σ} {s s' : St σ}, MixEnv H N E E' → MixSt H N E E' s s' → ∀ p, (E.resources.res t).lock = some p →
          s.locks.contains (p, true) = true → ∃ p', (E'.resources.res t).lock = some p' ∧ s'.locks.contains (p', true) = true := by
        intro E E' s s' hE hm p hq hc
        obtain ⟨p', ⟨u, h1, h2, h3⟩, h4⟩ := hm.locks.left (p := p) (e := true) (by simpa using hc)
        cases hE.own _ _ _ hq h2
        exact ⟨p', h3, by simpa using h4⟩
      have stuck_case : ∀ (E : Env σ) (s : St σ) (fuel : Nat),
          (¬ ∃ p, (E.resources.res t).lock = some p ∧ s.locks.contains (p, true) = true) →
          eval E (fuel + 1) env (.resAssign t x k) s = some (.stuck, s) := by
        intro E s fuel hn
        simp only [eval]
        split
        · rfl
        · rename_i p hq
          rw [if_neg (fun hc => hn ⟨p, hq, hc⟩)]
      by_cases hx : ∃ p, (E.resources.res t).lock = some p ∧ s.locks.contains (p, true) = true
      · obtain ⟨p, hq, hc⟩ := hx
        obtain ⟨p', hq', hc'⟩ := right hE hm p hq hc
        simp only [eval, hq] at he
        rw [if_pos hc] at he
        refine next he hk (hm.set hE ht hq hq' x false) (fun f => ?_)
        simp only [eval, hq']
        rw [if_pos hc']
        rfl
      · rw [stuck_case E s fuel hx] at he
        cases he
        refine ⟨1, s', stuck_case E' s' 0 (fun ⟨p', hq', hc'⟩ => hx ?_), hm⟩
        obtain ⟨p, h1, h2⟩ := right hE.symm hm.symm p' hq' hc'
        exact ⟨p, h1, h2⟩
    | catchUnwind body k =>
      simp only [eval] at he
      cases hr : eval E fuel env body s with
      | none => simp [hr] at he
      | some q =>
        obtain ⟨o1, s1⟩ := q
        rw [hr] at he
        obtain ⟨f1, s1', h1, h2⟩ := ih _ _ _ _ _ _ hp.1 hm hr
        rcases o1 with r | _ | _
        · obtain ⟨f2, t', h3, h4⟩ := ih _ _ _ _ _ _ (hp.2 (some r)) h2 he
          refine ⟨max f1 f2 + 1, t', ?_, h4⟩
          simp only [eval, eval_mono_le E' (Nat.le_max_left f1 f2) h1]
          exact eval_mono_le E' (Nat.le_max_right f1 f2) h3
        · obtain ⟨f2, t', h3, h4⟩ := ih _ _ _ _ _ _ (hp.2 none) h2 he
          refine ⟨max f1 f2 + 1, t', ?_, h4⟩
          simp only [eval, eval_mono_le E' (Nat.le_max_left f1 f2) h1]
          exact eval_mono_le E' (Nat.le_max_right f1 f2) h3
        · cases he
          exact ⟨f1 + 1, s1', by simp only [eval, h1], h2⟩

end

/-! ## Schemas -/

section
variable {H N : σ.Ty → Prop}

theorem Woven.snoc {l l' : List (Prog σ)} (h : Woven H N l l') {p : Prog σ} (hp : p.Avoids H) :
    Woven H N (l ++ [p]) (l' ++ [p]) := by
  induction h with
  | nil => exact .keep hp .nil
  | keep h1 _ ih => exact .keep h1 ih
  | left h1 _ ih => exact .left h1 ih
  | right h1 _ ih => exact .right h1 ih

theorem Woven.extra {l l' : List (Prog σ)} (h : Woven H N l l') {p : Prog σ} (hp : Observes H N p) : Woven H N l (l' ++ [p]) := by
  induction h with
  | nil => exact .right hp .nil
  | keep h1 _ ih => exact .keep h1 ih
  | left h1 _ ih => exact .left h1 ih
  | right h1 _ ih => exact .right h1 ih

theorem Beside.symm {S S' : Schema σ} (h : Beside H N S S') : Beside H N S' S :=
  ⟨fun i => (h.nodes i).symm, fun s => (h.fires s).symm, fun t ht => (h.reads t ht).symm, h.absent', h.absent⟩

theorem Beside.env {S S' : Schema σ} (h : Beside H N S S') (hS : Sane S) (hS' : Sane S') : MixEnv H N S.env S'.env :=
  ⟨hS.own, hS'.own, h.fires⟩

theorem Beside.start {S S' : Schema σ} (h : Beside H N S S') (hg : S'.graph = S.graph) (hS : Sane S) (hS' : Sane S')
    (pre : List (Operation σ.K σ.T)) : MixSt H N S.env S'.env (S.begin pre) (S'.begin pre) :=
  ⟨rfl, by simp only [Schema.begin, guard_graph]; exact hg, h.reads, h.absent, h.absent', .nil, hS.inHeap, hS'.inHeap⟩

/-- The schema after a closure that came to this end. -/
theorem transact_of_eval {S : Schema σ} {fuel : Nat} {pre : List (Operation σ.K σ.T)} {body : Prog σ} {out : Out (Except Error σ.V)}
    {s : St σ} (h : eval S.env fuel [0] body (S.begin pre) = some (out, s)) :
    ∃ S1, S.transact fuel pre body = some (out, S1) := by
  unfold Schema.transact
  rw [h]
  rcases out with (e | v) | _ | _ <;> exact ⟨_, rfl⟩

theorem transact_mix {S S' S1 : Schema σ} (hS : Sane S) (hS' : Sane S') (hb : Beside H N S S') (hg : S'.graph = S.graph)
    {fuel : Nat} {pre : List (Operation σ.K σ.T)} {body : Prog σ} (hp : body.Avoids H) {out : Out (Except Error σ.V)}
    (h : S.transact fuel pre body = some (out, S1)) :
    ∃ fuel' S1', S'.transact fuel' pre body = some (out, S1') ∧ Beside H N S1 S1' ∧ S1'.graph = S1.graph := by
  obtain ⟨s, he, henv, hheap, hok, hfail⟩ := transact_some h
  obtain ⟨f', s', he', hm⟩ := eval_mix (hb.env hS hS') fuel [0] body _ _ s out hp (hb.start hg hS hS' pre) he
  obtain ⟨S1', ht'⟩ := transact_of_eval he'
  obtain ⟨s2, he2, henv', hheap', hok', hfail'⟩ := transact_some ht'
  rw [he'] at he2
  cases he2
  have hgr : S1'.graph = S1.graph := by
    rcases out with (e | v) | _ | _
    · rw [hfail (by intro v hv; cases hv), hfail' (by intro v hv; cases hv), hg]
    · rw [hok ⟨v, rfl⟩, hok' ⟨v, rfl⟩]; unfold commitRoot; rw [hm.frames, hm.graph]
    · rw [hfail (by intro v hv; cases hv), hfail' (by intro v hv; cases hv), hg]
    · rw [hfail (by intro v hv; cases hv), hfail' (by intro v hv; cases hv), hg]
  refine ⟨f', S1', ht', ⟨fun i => by rw [guard_graph, guard_graph, hgr], fun u => by rw [henv, henv']; exact hb.fires u,
    fun t ht => ?_, fun t ht hn => ?_, fun t ht hn => ?_⟩, hgr⟩
  · rw [henv, henv', hheap, hheap']; exact hm.reads t ht
  · rw [henv, hheap]; exact hm.absent t ht hn
  · rw [henv', hheap']; exact hm.absent' t ht hn

/-- A use by the rest of the program. -/
theorem gives_keep [LawfulSig σ] {S S' S1 : Schema σ} (hS : Sane S) (hS' : Sane S') (hb : Beside H N S S')
    (hg : S'.graph = S.graph) {u : Use σ} (hu : u.Avoids H) {a : Seen σ} (h : Gives S u a S1) :
    ∃ S1', Gives S' u a S1' ∧ Beside H N S1 S1' ∧ S1'.graph = S1.graph := by
  have hgg : S'.guard = S.guard := by rw [guard_graph, guard_graph, hg]
  cases h with
  | register t v =>
    have ht : ¬ H t := hu
    refine ⟨_, .register S' t v, ⟨fun i => ?_, hb.fires, fun w hw => ?_, fun w hw hn => ?_, fun w hw hn => ?_⟩, hg⟩
    · rw [guard_graph, guard_graph]; exact congrArg (·.get i) hg
    · rw [peek_withResource hS, peek_withResource hS']; split
      · rfl
      · exact hb.reads w hw
    · rw [peek_withResource hS, dif_neg (fun e : w = t => ht (e ▸ hw))]; exact hb.absent w hw hn
    · rw [peek_withResource hS', dif_neg (fun e : w = t => ht (e ▸ hw))]; exact hb.absent' w hw hn
  | trigger s p =>
    refine ⟨_, .trigger S' s p, ⟨fun i => ?_, fun w => ?_, hb.reads, hb.absent, hb.absent'⟩, hg⟩
    · rw [guard_graph, guard_graph]; exact congrArg (·.get i) hg
    · rw [fire_withTrigger hS, fire_withTrigger hS']
      split
      · exact (hb.fires w).snoc hu
      · exact hb.fires w
  | tx ht hne =>
    obtain ⟨f', S1', h1, h2, h3⟩ := transact_mix hS hS' hb hg hu ht
    exact ⟨S1', .tx h1 hne, h2, h3⟩
  | update op =>
    refine ⟨_, .update S' op, ⟨fun i => ?_, hb.fires, hb.reads, hb.absent, hb.absent'⟩, by rw [hgg]⟩
    show Graph.get (Schema.guard _) i = Graph.get (Schema.guard _) i
    simp only [guard_graph, hg]
  | get i => exact ⟨S', by rw [← hgg]; exact .get S' i, hb, hg⟩
  | iter => exact ⟨S', by rw [← hgg]; exact .iter S', hb, hg⟩
  | read t => exact ⟨S', by rw [← hb.reads t hu]; exact .read S' t, hb, hg⟩
  | write t f =>
    have ht : ¬ H t := hu
    refine ⟨{ S' with heap := ((S'.env.resources.res t).withMut S'.heap fun v => ((f v).1, if (f v).2 then none else some ())).2 },
      ?_, ⟨fun i => ?_, hb.fires, fun w hw => ?_, fun w hw hn => ?_, fun w hw hn => ?_⟩, hg⟩
    · have : ((S.env.resources.res t).withMut S.heap fun v => ((f v).1, if (f v).2 then none else some ())).1 =
          ((S'.env.resources.res t).withMut S'.heap fun v => ((f v).1, if (f v).2 then none else some ())).1 := by
        rw [withMut_peek, withMut_peek, hb.reads t ht]
        cases hx : (S.env.resources.res t).peek S.heap with
        | none => rfl
        | some v =>
          obtain ⟨p, hq⟩ := peek_lock hx
          obtain ⟨p', hq'⟩ := peek_lock ((hb.reads t ht).trans hx)
          rw [hq, hq']
      rw [this]; exact .write S' t f
    · rw [guard_graph, guard_graph]; exact congrArg (·.get i) hg
    · show (S'.env.resources.res w).peek _ = (S.env.resources.res w).peek _
      rw [write_reads hS, write_reads hS', hb.reads w hw]; rfl
    · show (S.env.resources.res w).peek _ = none
      rw [write_reads hS, hb.absent w hw hn]
      simp only [ResAct.on]
      rw [dif_neg (fun e : t = w => ht (e ▸ hw))]
    · show (S'.env.resources.res w).peek _ = none
      rw [write_reads hS', hb.absent' w hw hn]
      simp only [ResAct.on]
      rw [dif_neg (fun e : t = w => ht (e ▸ hw))]

/-- A component's closure run on its own. -/
theorem transact_observer {S S' : Schema σ} (hS' : Sane S') (hb : Beside H N S S') {body : Prog σ} (ho : Observes H N body) :
    ∃ fuel v S1', S'.transact fuel [] body = some (.ret (.ok v), S1') ∧ Beside H N S S1' ∧ S1'.graph = S'.graph := by
  obtain ⟨fuel, v, s2, he, hun⟩ := observer_runs hS'.own ho 0 (S'.begin []) (fun x hx => by cases hx) hb.absent' hS'.inHeap
  obtain ⟨S1', ht⟩ := transact_of_eval he
  obtain ⟨s, he2, henv, hheap, hok, _⟩ := transact_some ht
  rw [he] at he2
  cases he2
  have hgr : S1'.graph = S'.graph := by
    rw [hok ⟨v, rfl⟩]
    unfold commitRoot
    rw [hun.frames, hun.graph]
    simp only [Schema.begin, List.getElem?_cons_zero]
    exact guard_graph S'
  refine ⟨fuel, v, S1', ht, ⟨fun i => ?_, fun u => by rw [henv]; exact hb.fires u, fun t h => ?_, hb.absent, fun t h hn => ?_⟩, hgr⟩
  · rw [guard_graph, hgr]; have := hb.nodes i; rw [guard_graph S'] at this; exact this
  · rw [henv, hheap, hun.reads t h]; exact hb.reads t h
  · rw [henv, hheap]; exact hun.absent t h hn

/-- A use by a component. -/
theorem gives_extra [LawfulSig σ] {S S' S1' : Schema σ} (hS' : Sane S') (hb : Beside H N S S') (hg : S'.graph = S.graph)
    {u : Use σ} (hu : u.Private H N) {a : Seen σ} (h : Gives S' u a S1') : Beside H N S S1' ∧ S1'.graph = S.graph := by
  cases h with
  | register t v =>
    obtain ⟨ht, hn⟩ := hu
    refine ⟨⟨fun i => ?_, hb.fires, fun w hw => ?_, hb.absent, fun w hw hn' => ?_⟩, hg⟩
    · rw [guard_graph, guard_graph]; exact congrArg (·.get i) hg
    · rw [peek_withResource hS', dif_neg (fun e : w = t => hw (e ▸ ht))]; exact hb.reads w hw
    · rw [peek_withResource hS', dif_neg (fun e : w = t => hn (e ▸ hn'))]; exact hb.absent' w hw hn'
  | trigger s p =>
    refine ⟨⟨fun i => ?_, fun w => ?_, hb.reads, hb.absent, hb.absent'⟩, hg⟩
    · rw [guard_graph, guard_graph]; exact congrArg (·.get i) hg
    · rw [fire_withTrigger hS']
      split
      · exact (hb.fires w).extra hu
      · exact hb.fires w
  | @tx _ fuel pre body o ht hne =>
    obtain ⟨hpre, ho⟩ := hu
    subst hpre
    obtain ⟨f1, v, S2, h1, h2, h3⟩ := transact_observer hS' hb ho
    obtain ⟨s, he, _⟩ := transact_some ht
    obtain ⟨s2, he2, _⟩ := transact_some h1
    have hd : S.env = S.env → some (o, S1') = some (Out.ret (Except.ok v), S2) := by
      intro _
      have e := eval_det S'.env he he2
      rw [← h1, ← ht]
      unfold Schema.transact
      rw [he, he2, e]
    cases hd rfl
    exact ⟨h2, h3.trans hg⟩
  | update op => exact hu.elim
  | get i => exact ⟨hb, hg⟩
  | iter => exact ⟨hb, hg⟩
  | read t => exact ⟨hb, hg⟩
  | write t f =>
    have ht : H t := hu
    refine ⟨⟨fun i => ?_, hb.fires, fun w hw => ?_, hb.absent, fun w hw hn => ?_⟩, hg⟩
    · rw [guard_graph, guard_graph]; exact congrArg (·.get i) hg
    · show (S'.env.resources.res w).peek _ = _
      rw [write_reads hS', ← hb.reads w hw]
      simp only [ResAct.on]
      rw [dif_neg (fun e : t = w => hw (e ▸ ht))]
    · show (S'.env.resources.res w).peek _ = none
      rw [write_reads hS', hb.absent' w hw hn]
      simp only [ResAct.on]
      split
      · rename_i e; subst e; rfl
      · rfl

theorem private_runs {S S' : Schema σ} (hS' : Sane S') (hb : Beside H N S S') {u : Use σ} (hu : u.Private H N) :
    ∃ a S1', Gives S' u a S1' := by
  cases u with
  | register t v => exact ⟨_, _, .register S' t v⟩
  | trigger s p => exact ⟨_, _, .trigger S' s p⟩
  | tx pre body =>
    obtain ⟨hpre, ho⟩ := hu
    subst hpre
    obtain ⟨f1, v, S2, h1, _⟩ := transact_observer hS' hb ho
    exact ⟨_, _, .tx h1 (fun h => by cases h)⟩
  | update op => exact hu.elim
  | get i => exact ⟨_, _, .get S' i⟩
  | iter => exact ⟨_, _, .iter S'⟩
  | read t => exact ⟨_, _, .read S' t⟩
  | write t f => exact ⟨_, _, .write S' t f⟩

/-- Uses by components can be added anywhere. -/
theorem session_insert [LawfulSig σ] {S S1 : Schema σ} {l : List (Use σ × Seen σ)} (h : Session S l S1) {us us' : List (Use σ)}
    (hus : us = l.map (·.1)) (hi : Insert H N (fun u => u) us us') {S' : Schema σ} (hS : Sane S) (hS' : Sane S')
    (hb : Beside H N S S') (hg : S'.graph = S.graph) :
    ∃ l' S1', l'.map (·.1) = us' ∧ Insert H N (·.1) l l' ∧ Session S' l' S1' ∧ Beside H N S1 S1' ∧ S1'.graph = S1.graph := by
  induction hi generalizing S l S' with
  | nil =>
    cases l with
    | nil => cases h; exact ⟨[], S', rfl, .nil, .nil _, hb, hg⟩
    | cons x l => cases hus
  | @keep x us us' hx _ ih =>
    cases h with
    | nil => cases hus
    | @cons _ S2 _ u a l h1 h2 =>
      cases hus
      obtain ⟨S2', g1, g2, g3⟩ := gives_keep hS hS' hb hg hx h1
      obtain ⟨l', S1', e1, e2, e3, e4, e5⟩ := ih h2 rfl (sane_gives hS h1) (sane_gives hS' g1) g2 g3
      exact ⟨(u, a) :: l', S1', by simp [e1], .keep hx e2, .cons g1 e3, e4, e5⟩
  | @extra x us us' hx _ ih =>
    obtain ⟨a, S2', g1⟩ := private_runs hS' hb hx
    obtain ⟨g2, g3⟩ := gives_extra hS' hb hg hx g1
    obtain ⟨l', S1', e1, e2, e3, e4, e5⟩ := ih h hus hS (sane_gives hS' g1) g2 g3
    exact ⟨(x, a) :: l', S1', by simp [e1], .extra hx e2, .cons g1 e3, e4, e5⟩

/-- Uses by components can be left out. -/
theorem session_erase [LawfulSig σ] {l l' : List (Use σ × Seen σ)} (hi : Insert H N (·.1) l l') {S S' S1' : Schema σ}
    (h : Session S' l' S1') (hS : Sane S) (hS' : Sane S') (hb : Beside H N S S') (hg : S'.graph = S.graph) :
    ∃ S1, Session S l S1 ∧ Beside H N S1 S1' ∧ S1'.graph = S1.graph := by
  induction hi generalizing S S' with
  | nil => cases h; exact ⟨S, .nil _, hb, hg⟩
  | keep hx _ ih =>
    cases h with
    | cons h1 h2 =>
      obtain ⟨S2, g1, g2, g3⟩ := gives_keep hS' hS hb.symm hg.symm hx h1
      obtain ⟨S1, e1, e2, e3⟩ := ih h2 (sane_gives hS g1) (sane_gives hS' h1) g2.symm g3.symm
      exact ⟨S1, .cons g1 e1, e2, e3⟩
  | extra hx _ ih =>
    cases h with
    | cons h1 h2 =>
      obtain ⟨g2, g3⟩ := gives_extra hS' hb hg hx h1
      exact ih h2 hS (sane_gives hS' h1) g2 g3

/-- The same with the graph of the other schema. -/
theorem Sane.with_graph {S S' : Schema σ} (hS : Sane S) (hS' : Sane S') : Sane { S' with graph := S.graph } :=
  ⟨hS.valid, hS'.triggers, hS'.resources, hS'.own, hS'.inHeap⟩

theorem Beside.alike {S S' : Schema σ} (hb : Beside H N S S') : Alike S' { S' with graph := S.graph } :=
  ⟨fun i => by have := hb.nodes i; rw [guard_graph, guard_graph] at this ⊢; exact this.symm, fun _ => rfl, fun _ => rfl⟩

theorem Beside.with_graph {S S' : Schema σ} (hb : Beside H N S S') : Beside H N S { S' with graph := S.graph } :=
  ⟨fun i => by rw [guard_graph, guard_graph], hb.fires, hb.reads, hb.absent, hb.absent'⟩

theorem Beside.of_alike {S S' S2' : Schema σ} (hb : Beside H N S S2') (ha : Alike S2' S') : Beside H N S S' :=
  ⟨fun i => (ha.nodes i).trans (hb.nodes i), fun s => by rw [ha.fires]; exact hb.fires s,
    fun t ht => (ha.reads t).trans (hb.reads t ht), hb.absent, fun t ht hn => (ha.reads t).trans (hb.absent' t ht hn)⟩

end

end Plotline
