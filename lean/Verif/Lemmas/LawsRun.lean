import Verif.Lemmas.LawsEach

/-! Whole transactions and sessions with rewritten closures and triggers. -/

namespace Plotline

open Std

set_option linter.unusedSectionVars false

variable {σ : Sig}

theorem Pairwise2.imp {α : Type} {R R' : α → α → Prop} (h : ∀ a b, R a b → R' a b) {l l' : List α} (hl : Pairwise2 R l l') :
    Pairwise2 R' l l' := by
  induction hl with
  | nil => exact .nil
  | cons h1 _ ih => exact .cons (h _ _ h1) ih

theorem Pairwise2.flip {α : Type} {R R' : α → α → Prop} (h : ∀ a b, R a b → R' b a) {l l' : List α} (hl : Pairwise2 R l l') :
    Pairwise2 R' l' l := by
  induction hl with
  | nil => exact .nil
  | cons h1 _ ih => exact .cons (h _ _ h1) ih

theorem Pairwise2.append {α : Type} {R : α → α → Prop} {l l' m m' : List α} (hl : Pairwise2 R l l') (hm : Pairwise2 R m m') :
    Pairwise2 R (l ++ m) (l' ++ m') := by
  induction hl with
  | nil => exact hm
  | cons h1 _ ih => exact .cons h1 ih

theorem Pairwise2.isEmpty {α : Type} {R : α → α → Prop} {l l' : List α} (hl : Pairwise2 R l l') : l'.isEmpty = l.isEmpty := by
  cases hl <;> rfl

/-- Running rewritten triggers one after another. -/
theorem tryForEach_equiv {quiet : Sched → Prop} {R : ResourceSet σ.Ty} {fire fire' : Firing σ} (hf : FireRel fire fire')
    (hq : Silent quiet fire) (hq' : Silent quiet fire') {f : Nat} {l l' : List (Prog σ)} (hl : Pairwise2 (Equiv quiet 1) l l') :
    ∀ {s s' : St σ}, f < s.frames.length → StSim s s' →
      Rel s.frames.length (tryForEach (fun p s => evalBy R fire p [f] s) l s) (tryForEach (fun p s => evalBy R fire' p [f] s) l' s') := by
  induction hl with
  | nil => intro s s' _ hs; exact .ends _ hs rfl
  | cons h1 _ ih =>
    intro s s' hlt hs
    have hr := h1 R fire fire' hf hq hq' [f] s s' ⟨Nat.le_refl 1, List.pairwise_singleton _ _, fun e he => by simp at he; omega⟩ hs
    simp only [tryForEach]
    generalize evalBy R fire _ [f] s = x at hr ⊢
    generalize evalBy R fire' _ [f] s' = y at hr ⊢
    cases hr with
    | none => exact .none
    | stuck _ _ => exact .stuck _ _
    | ends o h1 hn =>
      rcases o with (e | v) | _ | _
      · exact .ends _ h1 hn
      · have := ih (by omega) h1
        rwa [hn] at this
      · exact .ends _ h1 hn
      · exact .stuck _ _

theorem fireBy_silent {quiet : Sched → Prop} {E : Env σ} (h : ∀ s, quiet s → E.fire s = []) (n : Nat) : Silent quiet (fireBy E n) := by
  intro f sch s hs
  cases n <;> simp [fireBy, h sch hs, tryForEach]

theorem fireBy_equiv {quiet : Sched → Prop} {E E' : Env σ} (hr : E'.resources = E.resources)
    (hf : ∀ s, Pairwise2 (Equiv quiet 1) (E.fire s) (E'.fire s)) (hq : ∀ s, quiet s → E.fire s = []) (hq' : ∀ s, quiet s → E'.fire s = []) (n : Nat) :
    FireRel (fireBy E n) (fireBy E' n) := by
  induction n with
  | zero =>
    intro f sch s s' hlt hs
    simp only [fireBy, (hf sch).isEmpty]
    split
    · exact .ends _ hs rfl
    · exact .none
  | succ n ih =>
    intro f sch s s' hlt hs
    simp only [fireBy, hr]
    exact tryForEach_equiv ih (fireBy_silent hq n) (fireBy_silent hq' n) (hf sch) hlt hs

theorem get_commit_lastOp [LawfulSig σ] {g : Graph σ.K σ.T} (hg : g.Valid) (ops : List (Operation σ.K σ.T)) (i : σ.K) :
    (g.commit ops).get i = (lastOp ops i).getD (g.get i) := by
  rw [get_commit _ hg, applyAll_find, lastOp_says, says]
  split <;> rename_i h <;> simp only [h] <;> rfl

theorem eval_equiv {quiet : Sched → Prop} {E E' : Env σ} (hr : E'.resources = E.resources)
    (hf : ∀ s, Pairwise2 (Equiv quiet 1) (E.fire s) (E'.fire s)) (hq : ∀ s, quiet s → E.fire s = []) {p q : Prog σ}
    (hpq : Equiv quiet 1 p q) {f : Nat} {s s' : St σ} (hlt : f < s.frames.length) (hs : StSim s s') {fuel : Nat}
    {o : Out (Except Error σ.V)} {s1 : St σ} (h : eval E fuel [f] p s = some (o, s1)) :
    ∃ fuel' s1', eval E' fuel' [f] q s' = some (o, s1') ∧ (o ≠ .stuck → StSim s1 s1') := by
  have hq' : ∀ s, quiet s → E'.fire s = [] := fun s h => by
    have := hf s
    rw [hq s h] at this
    generalize E'.fire s = x at this ⊢
    cases this; rfl
  have h1 := evalBy_of_eval E fuel p [f] s _ h
  have hrel := hpq E.resources (fireBy E fuel) (fireBy E' fuel) (fireBy_equiv hr hf hq hq' fuel) (fireBy_silent hq fuel)
    (fireBy_silent hq' fuel) [f] s s' ⟨Nat.le_refl 1, List.pairwise_singleton _ _, fun e he => by simp at he; omega⟩ hs
  rw [h1] at hrel
  generalize hy : evalBy E.resources (fireBy E' fuel) q [f] s' = y at hrel
  cases hrel with
  | stuck _ s2 =>
    obtain ⟨fuel', h2⟩ := eval_of_evalBy E' fuel q [f] s' _ (hr ▸ hy)
    exact ⟨fuel', s2, h2, fun h => (h rfl).elim⟩
  | ends _ h3 hn =>
    obtain ⟨fuel', h2⟩ := eval_of_evalBy E' fuel q [f] s' _ (hr ▸ hy)
    exact ⟨fuel', _, h2, fun _ => h3⟩

/-- A transaction with a rewritten closure on a schema with rewritten triggers and the same cells. -/
theorem transact_equiv [LawfulSig σ] {quiet : Sched → Prop} {S S' S1 : Schema σ} (hS : S.graph.Valid) (hS' : S'.graph.Valid)
    (hg : ∀ i, S'.guard.get i = S.guard.get i) (hr : S'.env.resources = S.env.resources) (hh : S'.heap = S.heap)
    (hf : ∀ s, Pairwise2 (Equiv quiet 1) (S.env.fire s) (S'.env.fire s)) (hq : ∀ s, quiet s → S.env.fire s = [])
    {pre pre' : List (Operation σ.K σ.T)} (hpre : ∀ i, lastOp pre' i = lastOp pre i) {b b' : Prog σ} (hb : Equiv quiet 1 b b') {fuel : Nat}
    {o : Out (Except Error σ.V)} (h : S.transact fuel pre b = some (o, S1)) :
    ∃ fuel' S1', S'.transact fuel' pre' b' = some (o, S1') ∧ S1'.env = S'.env ∧
      (o ≠ .stuck → S1'.heap = S1.heap ∧ ∀ i, S1'.guard.get i = S1.guard.get i) := by
  have hs : StSim (S.begin pre) (S'.begin pre') := by
    refine ⟨fun i n h => by rw [beq_comm']; exact Graph.get_some_id S.guard (by rw [guard_graph]; exact hS) h, hg, fun a => ?_, hh, rfl⟩
    cases a with
    | zero => exact .some ⟨rfl, rfl, rfl, hpre⟩
    | succ a => exact .none
  unfold Schema.transact at h
  cases he : eval S.env fuel [0] b (S.begin pre) with
  | none => rw [he] at h; cases h
  | some r =>
    obtain ⟨o', s⟩ := r
    obtain ⟨fuel', s', he', hs'⟩ := eval_equiv hr hf hq hb (by show 0 < 1; omega) hs he
    have hgs := (root_after he).1
    have hgs' := (root_after he').1
    have hroot : o' ≠ .stuck → ∀ i, (commitRoot s').get i = (commitRoot s).get i := by
      intro hne i
      have hsim := hs' hne
      have h0 := hsim.frames 0
      have hgi := hsim.graph i
      unfold commitRoot
      generalize s.frames[0]? = x at h0 ⊢
      generalize s'.frames[0]? = y at h0 ⊢
      cases h0 with
      | none => exact hgi
      | some hfr =>
        simp only [hfr.leaked]
        split
        · exact hgi
        · rw [get_commit_lastOp (by rw [hgs']; exact hS'), get_commit_lastOp (by rw [hgs]; exact hS), hfr.says, hgi]
    rw [he] at h
    rcases o' with (e | v) | _ | _
    · simp only [Option.some.injEq, Prod.mk.injEq] at h
      obtain ⟨rfl, rfl⟩ := h
      refine ⟨fuel', { S' with graph := s'.graph, heap := s'.heap }, by unfold Schema.transact; rw [he'], rfl, fun hne => ⟨(hs' hne).heap, fun i => ?_⟩⟩
      simp only [guard_graph]; exact (hs' hne).graph i
    · simp only [Option.some.injEq, Prod.mk.injEq] at h
      obtain ⟨rfl, rfl⟩ := h
      refine ⟨fuel', { S' with graph := commitRoot s', heap := s'.heap }, by unfold Schema.transact; rw [he'], rfl, fun hne => ⟨(hs' hne).heap, fun i => ?_⟩⟩
      simp only [guard_graph]; exact hroot hne i
    · simp only [Option.some.injEq, Prod.mk.injEq] at h
      obtain ⟨rfl, rfl⟩ := h
      refine ⟨fuel', { S' with graph := s'.graph, heap := s'.heap, poisoned := true }, by unfold Schema.transact; rw [he'], rfl, fun hne => ⟨(hs' hne).heap, fun i => ?_⟩⟩
      simp only [guard_graph]; exact (hs' hne).graph i
    · simp only [Option.some.injEq, Prod.mk.injEq] at h
      obtain ⟨rfl, rfl⟩ := h
      exact ⟨fuel', { S' with graph := s'.graph, heap := s'.heap }, by unfold Schema.transact; rw [he'], rfl, fun hne => (hne rfl).elim⟩

/-- A schema with the triggers of another. -/
def withTriggersOf (S' S : Schema σ) : Schema σ := { S' with env := { S'.env with triggers := S.env.triggers } }

theorem Rewritten.alike {quiet : Sched → Prop} {S S' : Schema σ} (h : Rewritten quiet S S') : Alike S (withTriggersOf S' S) :=
  ⟨h.nodes, fun _ => rfl, h.reads⟩

theorem sane_withTriggersOf {S S' : Schema σ} (hS : Sane S) (hS' : Sane S') : Sane (withTriggersOf S' S) :=
  ⟨hS'.valid, hS.triggers, hS'.resources, hS'.own, hS'.inHeap⟩

theorem gives_get {S S1 : Schema σ} {i : σ.K} {a : Seen σ} (h : Gives S (.get i) a S1) : a = .node (S.guard.get i) ∧ S1 = S := by
  cases h; exact ⟨rfl, rfl⟩

theorem gives_iter {S S1 : Schema σ} {a : Seen σ} (h : Gives S .iter a S1) : a = .nodes S.guard.iter ∧ S1 = S := by
  cases h; exact ⟨rfl, rfl⟩

theorem gives_read {S S1 : Schema σ} {t : σ.Ty} {a : Seen σ} (h : Gives S (.read t) a S1) :
    a = .value t ((S.env.resources.res t).peek S.heap) ∧ S1 = S := by
  cases h; exact ⟨rfl, rfl⟩

theorem gives_write {S S1 : Schema σ} {t : σ.Ty} {f : σ.Val t → σ.Val t × Bool} {a : Seen σ} (h : Gives S (.write t f) a S1) :
    a = .wrote ((S.env.resources.res t).withMut S.heap fun v => ((f v).1, if (f v).2 then none else some ())).1 ∧
    S1 = { S with heap := ((S.env.resources.res t).withMut S.heap fun v => ((f v).1, if (f v).2 then none else some ())).2 } := by
  cases h; exact ⟨rfl, rfl⟩

theorem gives_rewritten [LawfulSig σ] {quiet : Sched → Prop} {S S' S1 : Schema σ} {u u' : Use σ} {a : Seen σ} (hS : Sane S) (hS' : Sane S')
    (hr : Rewritten quiet S S') (hu : Redone quiet u u') (h : Gives S u a S1) : ∃ S1', Gives S' u' a S1' ∧ Rewritten quiet S1 S1' := by
  obtain ⟨M1, hM, hal⟩ := gives_alike hS (sane_withTriggersOf hS hS') hr.alike h
  have hfires : ∀ {S2 : Schema σ}, S1.env.triggers = S.env.triggers → S2.env.triggers = S'.env.triggers →
      (∀ i, S2.guard.get i = M1.guard.get i) →
      (∀ t, (S2.env.resources.res t).peek S2.heap = (M1.env.resources.res t).peek M1.heap) → Rewritten quiet S1 S2 := by
    intro S2 h1 h2 h3 h4
    refine ⟨fun i => (h3 i).trans (hal.nodes i), fun s => ?_, fun s hs => ?_, fun t => (h4 t).trans (hal.reads t)⟩
    · have := hr.fires s
      simpa only [Env.fire, h1, h2] using this
    · have := hr.silent s hs
      simpa only [Env.fire, h1] using this
  cases hu with
  | tx hpre hb =>
    cases hM with
    | tx ht hne =>
      have henv : S1.env = S.env := by
        cases h with
        | tx ht' _ => exact (transact_some ht').choose_spec.2.1
      obtain ⟨fuel', S1', h1, h2, h3⟩ := transact_equiv (S' := S') (sane_withTriggersOf hS hS').valid hS'.valid (fun i => rfl) rfl rfl
        (fun s => (hr.fires s).imp fun _ _ h => same_equiv h) hr.silent hpre (same_equiv hb) ht
      obtain ⟨h4, h5⟩ := h3 hne
      have hM1 : M1.env = (withTriggersOf S' S).env := (transact_some ht).choose_spec.2.1
      refine ⟨S1', .tx h1 hne, hfires (by rw [henv]) (by rw [h2]) h5 fun t => ?_⟩
      rw [h4, h2, hM1]
      rfl
  | trigger hs hp =>
    cases h
    refine ⟨_, .trigger S' _ _, hr.nodes, fun s => ?_, fun s hs' => ?_, hr.reads⟩
    · rw [fire_withTrigger hS, fire_withTrigger hS']
      split
      · exact (hr.fires s).append (.cons hp .nil)
      · exact hr.fires s
    · rw [fire_withTrigger hS]
      split
      · rename_i e; subst e; exact (hs hs').elim
      · exact hr.silent s hs'
  | register t v =>
    cases h; cases hM
    exact ⟨_, .register S' t v, hfires rfl rfl (fun _ => rfl) fun _ => rfl⟩
  | update op =>
    cases h; cases hM
    exact ⟨_, .update S' op, hfires rfl rfl (fun _ => rfl) fun _ => rfl⟩
  | get i =>
    obtain ⟨_, rfl⟩ := gives_get h
    obtain ⟨e, _⟩ := gives_get hM
    rw [e]
    exact ⟨_, .get S' i, hr⟩
  | iter =>
    obtain ⟨_, rfl⟩ := gives_iter h
    obtain ⟨e, _⟩ := gives_iter hM
    rw [e]
    exact ⟨_, .iter S', hr⟩
  | read t =>
    obtain ⟨_, rfl⟩ := gives_read h
    obtain ⟨e, _⟩ := gives_read hM
    rw [e]
    exact ⟨_, .read S' t, hr⟩
  | write t f =>
    obtain ⟨_, e1⟩ := gives_write h
    obtain ⟨e, e2⟩ := gives_write hM
    rw [e]
    exact ⟨_, .write S' t f, hfires (by rw [e1]) rfl (fun _ => by rw [e2]; rfl) fun _ => by rw [e2]; rfl⟩

theorem session_rewritten [LawfulSig σ] {quiet : Sched → Prop} {S S1 : Schema σ} {l : List (Use σ × Seen σ)} (h : Session S l S1) :
    ∀ {S' : Schema σ} {l' : List (Use σ × Seen σ)}, Sane S → Sane S' → Rewritten quiet S S' →
      Pairwise2 (fun x y => Redone quiet x.1 y.1 ∧ y.2 = x.2) l l' → ∃ S1', Session S' l' S1' ∧ Rewritten quiet S1 S1' := by
  induction h with
  | nil S =>
    intro S' l' hS hS' hr hl
    cases hl
    exact ⟨S', .nil S', hr⟩
  | cons h1 _ ih =>
    intro S' l' hS hS' hr hl
    cases hl with
    | @cons _ y _ l2 hy hl =>
      obtain ⟨u', a'⟩ := y
      obtain ⟨hu, rfl⟩ := hy
      obtain ⟨S2, h2, h3⟩ := gives_rewritten hS hS' hr hu h1
      obtain ⟨S3, h4, h5⟩ := ih (sane_gives hS h1) (sane_gives hS' h2) h3 hl
      exact ⟨S3, .cons h2 h4, h5⟩

theorem Same.refl {quiet : Sched → Prop} (p : Prog σ) : ∀ d, Same quiet d p p := by
  induction p with
  | done r => exact fun d => .done d r
  | panic => exact fun d => .panic d
  | reenter => exact fun d => .reenter d
  | save c n k ih => exact fun d => .save c n (ih d)
  | delete c i k ih => exact fun d => .delete c i (ih d)
  | get c i k ih => exact fun d => .get c i fun a => ih a d
  | contains c i k ih => exact fun d => .contains c i fun a => ih a d
  | tx c b k ihb ih => exact fun d => .tx c (ihb _) fun a => ih a d
  | runTriggers c s k ih => exact fun d => .runTriggers c s fun a => ih a d
  | withTarget n k ih => exact fun d => .withTarget n (ih d)
  | targetRead c k ih => exact fun d => .targetRead c fun a => ih a d
  | targetWrite c f k ih => exact fun d => .targetWrite c f fun a => ih a d
  | resRead t k ih => exact fun d => .resRead t fun a => ih a d
  | resWrite t f k ih => exact fun d => .resWrite t f fun a => ih a d
  | resScope t e b k ihb ih => exact fun d => .resScope t e (fun v => ihb v d) fun a => ih a d
  | resAssign t x k ih => exact fun d => .resAssign t x (ih d)
  | catchUnwind b k ihb ih => exact fun d => .catchUnwind (ihb d) fun a => ih a d
  | forget k ih => exact fun d => .forget (ih d)

theorem Rewritten.symm {quiet : Sched → Prop} {S S' : Schema σ} (h : Rewritten quiet S S') : Rewritten quiet S' S :=
  ⟨fun i => (h.nodes i).symm, fun s => (h.fires s).flip fun _ _ h => h.symm, fun s hs => by
    have := h.fires s
    rw [h.silent s hs] at this
    generalize S'.env.fire s = x at this ⊢
    cases this; rfl, fun t => (h.reads t).symm⟩

theorem Redone.symm {quiet : Sched → Prop} {u u' : Use σ} (h : Redone quiet u u') : Redone quiet u' u := by
  cases h with
  | tx h1 h2 => exact .tx (fun i => (h1 i).symm) h2.symm
  | trigger h1 h2 => exact .trigger h1 h2.symm
  | register t v => exact .register t v
  | update op => exact .update op
  | get i => exact .get i
  | iter => exact .iter
  | read t => exact .read t
  | write t f => exact .write t f

end Plotline
