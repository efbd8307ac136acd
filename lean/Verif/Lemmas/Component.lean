import Verif.Spec.Component
import Verif.Lemmas.Private

/-! Programs that leave the resources of a component alone do not break its invariant. -/

namespace Plotline

set_option linter.unusedSectionVars false

variable {σ : Sig}

theorem put_self {m : Readings σ} (t : σ.Ty) (v : Option (σ.Val t)) : m.put t v t = v := dif_pos rfl

theorem put_other {m : Readings σ} {t u : σ.Ty} (v : Option (σ.Val t)) (h : t ≠ u) : m.put t v u = m u := dif_neg h

/-- What can be read in a state. -/
def St.readings (E : Env σ) (s : St σ) : Readings σ := fun t => (E.resources.res t).peek s.heap

/-- The guards held are of other types. -/
def LocksOff (H : σ.Ty → Prop) (E : Env σ) (s : St σ) : Prop := ∀ x ∈ s.locks, ∃ t, ¬ H t ∧ (E.resources.res t).lock = some x.1

theorem LocksOff.free {H : σ.Ty → Prop} {E : Env σ} (hE : E.OwnCells) {s : St σ} (hl : LocksOff H E s) {t : σ.Ty} (ht : H t)
    (excl : Bool) : s.resBlocks E t excl = false := by
  cases hb : s.resBlocks E t excl with
  | false => rfl
  | true =>
    unfold St.resBlocks at hb
    split at hb
    · cases hb
    · rename_i p hp
      rw [blocks_iff] at hb
      rcases hb with hb | ⟨_, hb⟩
      · obtain ⟨u, h1, h2⟩ := hl _ hb
        exact absurd ht (by rw [hE _ _ _ hp h2]; exact h1)
      · obtain ⟨u, h1, h2⟩ := hl _ hb
        exact absurd ht (by rw [hE _ _ _ hp h2]; exact h1)

theorem readings_set {E : Env σ} (hE : E.OwnCells) {s : St σ} (hi : InHeap E s.heap) {t : σ.Ty} {p : Nat}
    (hp : (E.resources.res t).lock = some p) (x : σ.Val t) (b : Bool) :
    ({ s with heap := s.heap.set p ⟨⟨t, x⟩, b⟩ } : St σ).readings E = (s.readings E).put t (if b then none else some x) := by
  funext u
  unfold Readings.put
  split
  · rename_i e
    subst e
    show (E.resources.res t).peek (s.heap.set p ⟨⟨t, x⟩, b⟩) = _
    rw [peek_cell_self _ _ hp (hi _ _ hp)]
  · rename_i e
    exact peek_cell_other _ _ (fun hq => e (hE _ _ _ hp hq)) _

/-- A trigger of a component does what `acts` says. -/
theorem confined_acts {H : σ.Ty → Prop} {E : Env σ} (hE : E.OwnCells) {p : Prog σ} (hp : Confined H p) (f : Nat) :
    ∀ (s : St σ), LocksOff H E s → InHeap E s.heap → ∃ fuel s', eval E fuel [f] p s =
      some ((p.acts (ctxGet s.graph s.frames f) (ctxContains s.graph s.frames f) (readTarget s f) (s.readings E)).1, s') ∧
      s'.readings E = (p.acts (ctxGet s.graph s.frames f) (ctxContains s.graph s.frames f) (readTarget s f) (s.readings E)).2 ∧
      s'.graph = s.graph ∧ s'.frames = s.frames ∧ s'.locks = s.locks ∧ s'.heap.length = s.heap.length := by
  induction hp with
  | done r => intro s _ _; exact ⟨1, s, rfl, rfl, rfl, rfl, rfl, rfl⟩
  | panic => intro s _ _; exact ⟨1, s, rfl, rfl, rfl, rfl, rfl, rfl⟩
  | reenter => intro s _ _; exact ⟨1, s, rfl, rfl, rfl, rfl, rfl, rfl⟩
  | get i _ ih =>
    intro s hl hi
    obtain ⟨fuel, s', h1, h2⟩ := ih (ctxGet s.graph s.frames f i) s hl hi
    exact ⟨fuel + 1, s', h1, h2⟩
  | contains i _ ih =>
    intro s hl hi
    obtain ⟨fuel, s', h1, h2⟩ := ih (ctxContains s.graph s.frames f i) s hl hi
    exact ⟨fuel + 1, s', h1, h2⟩
  | target _ ih =>
    intro s hl hi
    obtain ⟨fuel, s', h1, h2⟩ := ih (readTarget s f) s hl hi
    exact ⟨fuel + 1, s', h1, h2⟩
  | @read t k ht _ ih =>
    intro s hl hi
    obtain ⟨fuel, s', h1, h2⟩ := ih (s.readings E t) s hl hi
    refine ⟨fuel + 1, s', ?_, h2⟩
    simp only [eval]
    rw [if_neg (by rw [hl.free hE ht]; simp)]
    exact h1
  | @write t fn k ht _ ih =>
    intro s hl hi
    have hb := hl.free hE ht true
    cases hx : (E.resources.res t).peek s.heap with
    | none =>
      obtain ⟨fuel, s', h1, h2⟩ := ih false s hl hi
      have hx' : s.readings E t = none := hx
      refine ⟨fuel + 1, s', ?_, ?_⟩
      · simp only [eval]
        rw [if_neg (by rw [hb]; simp), withMut_peek, hx]
        simp only [Prog.acts, hx']
        exact h1
      · simp only [Prog.acts, hx']; exact h2
    | some v =>
      obtain ⟨q, hq⟩ := peek_lock hx
      have hx' : s.readings E t = some v := hx
      cases hf : (fn v).2 with
      | true =>
        refine ⟨1, { s with heap := s.heap.set q ⟨⟨t, (fn v).1⟩, true⟩ }, ?_, ?_, rfl, rfl, rfl, ?_⟩
        · simp only [eval]
          rw [if_neg (by rw [hb]; simp), withMut_peek, hx, hq]
          simp only [hf, if_true, Prog.acts, hx']
          rfl
        · rw [readings_set hE hi hq]
          simp only [Prog.acts, hx', hf, if_true]
        · exact List.length_set
      | false =>
        obtain ⟨fuel, s', h1, h2, h3, h4, h5, h6⟩ := ih true { s with heap := s.heap.set q ⟨⟨t, (fn v).1⟩, false⟩ } hl
          (fun u p hu => by show p < (s.heap.set q _).length; rw [List.length_set]; exact hi u p hu)
        rw [readings_set hE hi hq] at h1 h2
        refine ⟨fuel + 1, s', ?_, ?_, h3, h4, h5, h6.trans List.length_set⟩
        · simp only [eval]
          rw [if_neg (by rw [hb]; simp), withMut_peek, hx, hq]
          simp only [hf, Bool.false_eq_true, if_false, Prog.acts, hx']
          exact h1
        · simp only [Prog.acts, hx', hf, Bool.false_eq_true, if_false]
          exact h2

section
variable {H : σ.Ty → Prop} {P : Readings σ → Prop} {E : Env σ}

/-- The invariant holds, and can be relied on. -/
structure Intact (H : σ.Ty → Prop) (P : Readings σ → Prop) (E : Env σ) (s : St σ) : Prop where
  locks : LocksOff H E s
  inHeap : InHeap E s.heap
  holds : P (s.readings E)

/-- The state differs in other things. -/
theorem Intact.same {s s' : St σ} (h : Intact H P E s) (e1 : s'.heap = s.heap) (e2 : s'.locks = s.locks) : Intact H P E s' := by
  refine ⟨?_, ?_, ?_⟩
  · unfold LocksOff; rw [e2]; exact h.locks
  · rw [e1]; exact h.inHeap
  · have : s'.readings E = s.readings E := by unfold St.readings; rw [e1]
    rw [this]; exact h.holds

/-- Triggers of a component, one after the other. -/
theorem group_acts (hE : E.OwnCells) {fuel f : Nat} {b : List (Prog σ)} (hb : ∀ p ∈ b, Confined H p) :
    ∀ (s s' : St σ) (o : Out (Except Error Unit)), LocksOff H E s → InHeap E s.heap →
      tryForEach (eval E fuel [f]) b s = some (o, s') →
      o = (actsAll (ctxGet s.graph s.frames f) (ctxContains s.graph s.frames f) (readTarget s f) b (s.readings E)).1 ∧
      s'.readings E = (actsAll (ctxGet s.graph s.frames f) (ctxContains s.graph s.frames f) (readTarget s f) b (s.readings E)).2 ∧
      LocksOff H E s' ∧ InHeap E s'.heap := by
  induction b with
  | nil => intro s s' o hl hi h; cases h; exact ⟨rfl, rfl, hl, hi⟩
  | cons p b ih =>
    intro s s' o hl hi h
    obtain ⟨fuel1, s1, h1, h2, h3, h4, h5, h6⟩ := confined_acts hE (hb p List.mem_cons_self) f s hl hi
    have hl1 : LocksOff H E s1 := by unfold LocksOff; rw [h5]; exact hl
    have hi1 : InHeap E s1.heap := fun t q hq => by rw [h6]; exact hi t q hq
    have hrt : readTarget s1 f = readTarget s f := by unfold readTarget; rw [h4]
    simp only [tryForEach] at h
    cases hr : eval E fuel [f] p s with
    | none => simp [hr] at h
    | some q =>
      cases eval_det E hr h1
      rw [hr] at h
      have step := ih (fun p hp => hb p (List.mem_cons_of_mem _ hp)) s1 s' o hl1 hi1
      rw [h3, h4, hrt, h2] at step
      simp only [actsAll]
      generalize hq : Prog.acts (ctxGet s.graph s.frames f) (ctxContains s.graph s.frames f) (readTarget s f) p (s.readings E) = q
        at h h2 step
      obtain ⟨o1, m⟩ := q
      rcases o1 with (e | v) | _ | _
      · cases h; exact ⟨rfl, h2, hl1, hi1⟩
      · exact step h
      · cases h; exact ⟨rfl, h2, hl1, hi1⟩
      · cases h; exact ⟨rfl, h2, hl1, hi1⟩

theorem tryForEach_append (run : Prog σ → St σ → Option (Out (Except Error σ.V) × St σ)) (a b : List (Prog σ)) (s : St σ) :
    tryForEach run (a ++ b) s =
      match tryForEach run a s with
      | some (.ret (.ok _), s') => tryForEach run b s'
      | r => r := by
  induction a generalizing s with
  | nil => rfl
  | cons p a ih =>
    simp only [List.cons_append, tryForEach]
    rcases run p s with _ | ⟨(e | v) | _ | _, s1⟩
    · rfl
    · rfl
    · exact ih s1
    · rfl
    · rfl

theorem triggers_intact (hE : E.OwnCells) {fuel f : Nat}
    (ih : ∀ (p : Prog σ) (s t : St σ) (o : Out (Except Error σ.V)), p.Avoids H → Intact H P E s →
      eval E fuel [f] p s = some (o, t) → o ≠ .stuck → Intact H P E t)
    {l : List (Prog σ)} (hl : Grouped H P l) : ∀ (s t : St σ) (o : Out (Except Error Unit)), Intact H P E s →
      tryForEach (eval E fuel [f]) l s = some (o, t) → o ≠ .stuck → Intact H P E t := by
  induction hl with
  | nil => intro s t o h he _; cases he; exact h
  | @other p l hp _ ihl =>
    intro s t o h he hne
    simp only [tryForEach] at he
    cases hr : eval E fuel [f] p s with
    | none => simp [hr] at he
    | some q =>
      obtain ⟨o1, s1⟩ := q
      rw [hr] at he
      rcases o1 with (e | v) | _ | _
      · cases he; exact ih p s _ _ hp h hr (fun e => by cases e)
      · exact ihl s1 t o (ih p s _ _ hp h hr (fun e => by cases e)) he hne
      · cases he; exact ih p s _ _ hp h hr (fun e => by cases e)
      · cases he; exact absurd rfl hne
  | @own b l hb hP _ ihl =>
    intro s t o h he hne
    rw [tryForEach_append] at he
    cases hr : tryForEach (eval E fuel [f]) b s with
    | none => rw [hr] at he; cases he
    | some q =>
      obtain ⟨o1, s1⟩ := q
      obtain ⟨h1, h2, h3, h4⟩ := group_acts hE hb s s1 o1 h.locks h.inHeap hr
      have key : o1 ≠ .stuck → Intact H P E s1 := fun hne => ⟨h3, h4, by
        rw [h2]; exact hP _ _ _ _ h.holds (by rw [← h1]; exact hne)⟩
      rw [hr] at he
      rcases o1 with (e | v) | _ | _
      · cases he; exact key (fun e => by cases e)
      · exact ihl s1 t o (key (fun e => by cases e)) he hne
      · cases he; exact key (fun e => by cases e)
      · cases he; exact absurd rfl hne

theorem Intact.other (hP : OnlyOf H P) {s s' : St σ} (h : Intact H P E s) (h1 : LocksOff H E s') (h2 : InHeap E s'.heap)
    (h3 : ∀ t, H t → s'.readings E t = s.readings E t) : Intact H P E s' := ⟨h1, h2, hP _ _ h3 h.holds⟩

theorem Intact.set (hE : E.OwnCells) (hP : OnlyOf H P) {s : St σ} (h : Intact H P E s) {t : σ.Ty} (ht : ¬ H t) {p : Nat}
    (hp : (E.resources.res t).lock = some p) (x : σ.Val t) (b : Bool) :
    Intact H P E { s with heap := s.heap.set p ⟨⟨t, x⟩, b⟩ } := by
  refine h.other hP h.locks (fun u q hq => ?_) (fun u hu => ?_)
  · show q < (s.heap.set p _).length; rw [List.length_set]; exact h.inHeap u q hq
  · rw [readings_set hE h.inHeap hp]
    exact dif_neg (fun e : t = u => ht (by rw [e]; exact hu))

theorem Intact.unlock {s : St σ} (h : Intact H P E s) : Intact H P E (unlockRes s) :=
  ⟨fun x hx => h.locks x (List.mem_of_mem_tail hx), h.inHeap, h.holds⟩

theorem Intact.lock {s : St σ} (h : Intact H P E s) {t : σ.Ty} (ht : ¬ H t) {p : Nat} (hp : (E.resources.res t).lock = some p)
    (excl : Bool) : Intact H P E (lockRes s p excl) := by
  refine ⟨fun x hx => ?_, h.inHeap, h.holds⟩
  rcases List.mem_cons.1 hx with rfl | hx
  · exact ⟨t, ht, hp⟩
  · exact h.locks x hx

theorem Intact.unwind (hE : E.OwnCells) (hP : OnlyOf H P) {s : St σ} (h : Intact H P E s) {t : σ.Ty} (ht : ¬ H t) {p : Nat}
    (hp : (E.resources.res t).lock = some p) (excl : Bool) : Intact H P E (unwindRes s p excl) := by
  cases excl with
  | false => exact h.unlock
  | true =>
    refine h.other hP h.unlock.locks (fun u q hq => ?_) (fun u hu => ?_)
    · show q < (s.heap.modify p _).length; rw [List.length_modify]; exact h.inHeap u q hq
    · exact peek_poison_other _ _ (fun hq => ht (by rw [hE _ _ _ hp hq]; exact hu))

/-- A program that avoids the types of a component leaves its invariant intact, whatever else it does. -/
theorem eval_intact (hE : E.OwnCells) (hP : OnlyOf H P) (hf : ∀ s, Grouped H P (E.fire s)) :
    ∀ (fuel : Nat) (env : List Nat) (p : Prog σ) (s t : St σ) (o : Out (Except Error σ.V)), p.Avoids H → Intact H P E s →
      eval E fuel env p s = some (o, t) → o ≠ .stuck → Intact H P E t := by
  intro fuel
  induction fuel with
  | zero => intro env p s t o _ _ h; simp [eval] at h
  | succ fuel ih =>
    intro env p s t o hp hm he hne
    have next : ∀ {q : Prog σ} {s1 : St σ} {env1 : List Nat} {o1 : Out (Except Error σ.V)} {t1 : St σ},
        eval E fuel env1 q s1 = some (o1, t1) → o1 ≠ .stuck → q.Avoids H → Intact H P E s1 → Intact H P E t1 :=
      fun he hne hq hm => ih _ _ _ _ _ hq hm he hne
    cases p with
    | done r => cases he; exact hm
    | panic => cases he; exact hm
    | reenter => cases he; exact absurd rfl hne
    | save c n k =>
      cases hc : env[c]? with
      | none => simp only [eval, hc] at he; cases he; exact absurd rfl hne
      | some f => simp only [eval, hc] at he; exact next he hne hp (hm.same rfl rfl)
    | delete c n k =>
      cases hc : env[c]? with
      | none => simp only [eval, hc] at he; cases he; exact absurd rfl hne
      | some f => simp only [eval, hc] at he; exact next he hne hp (hm.same rfl rfl)
    | get c i k =>
      cases hc : env[c]? with
      | none => simp only [eval, hc] at he; cases he; exact absurd rfl hne
      | some f => simp only [eval, hc] at he; exact ih _ _ _ _ _ (hp _) hm he hne
    | contains c i k =>
      cases hc : env[c]? with
      | none => simp only [eval, hc] at he; cases he; exact absurd rfl hne
      | some f => simp only [eval, hc] at he; exact ih _ _ _ _ _ (hp _) hm he hne
    | tx c body k =>
      cases hc : env[c]? with
      | none => simp only [eval, hc] at he; cases he; exact absurd rfl hne
      | some f =>
        simp only [eval, hc] at he
        cases hr : eval E fuel (s.frames.length :: env) body (openChild s f) with
        | none => simp [hr] at he
        | some q =>
          obtain ⟨o1, s1⟩ := q
          rw [hr] at he
          have h1 : o1 ≠ .stuck → Intact H P E s1 := fun hne => next hr hne hp.1 (hm.same rfl rfl)
          rcases o1 with (e | v) | _ | _
          · exact next (s1 := closeChild s1 s.frames.length) he hne (hp.2 _) ((h1 (fun e => by cases e)).same rfl rfl)
          · exact next (s1 := commitChild s1 s.frames.length) he hne (hp.2 _)
              ((h1 (fun e => by cases e)).same (commitChild_cells _ _).1 (commitChild_cells _ _).2)
          · cases he; exact (h1 (fun e => by cases e)).same rfl rfl
          · cases he; exact absurd rfl hne
    | runTriggers c sch k =>
      rw [eval_fire] at he
      cases hc : env[c]? with
      | none => simp only [hc] at he; cases he; exact absurd rfl hne
      | some f =>
        simp only [hc] at he
        cases hr : tryForEach (eval E fuel [f]) (E.fire sch) s with
        | none => simp [hr] at he
        | some q =>
          obtain ⟨o1, s1⟩ := q
          rw [hr] at he
          have h1 : o1 ≠ .stuck → Intact H P E s1 :=
            triggers_intact hE (fun p s t o => ih [f] p s t o) (hf sch) s s1 o1 hm hr
          rcases o1 with r | _ | _
          · exact ih _ _ _ _ _ (hp r) (h1 (fun e => by cases e)) he hne
          · cases he; exact h1 (fun e => by cases e)
          · cases he; exact absurd rfl hne
    | withTarget n k =>
      cases hc : env[0]? with
      | none => simp only [eval, hc] at he; cases he; exact absurd rfl hne
      | some f => simp only [eval, hc] at he; exact next he hne hp (hm.same rfl rfl)
    | forget k =>
      cases hc : env[0]? with
      | none => simp only [eval, hc] at he; cases he; exact absurd rfl hne
      | some f => simp only [eval, hc] at he; exact next he hne hp (hm.same rfl rfl)
    | targetRead c k =>
      cases hc : env[c]? with
      | none => simp only [eval, hc] at he; cases he; exact absurd rfl hne
      | some f => simp only [eval, hc] at he; exact ih _ _ _ _ _ (hp _) hm he hne
    | targetWrite c fn k =>
      cases hc : env[c]? with
      | none => simp only [eval, hc] at he; cases he; exact absurd rfl hne
      | some f =>
        simp only [eval, hc] at he
        cases hx : readTarget s f with
        | none => simp only [hx] at he; exact ih _ _ _ _ _ (hp _) hm he hne
        | some n =>
          simp only [hx] at he
          rcases hy : fn n with ⟨n', b⟩
          cases b <;> simp only [hy] at he
          · exact next he hne (hp _) (hm.same rfl rfl)
          · cases he; exact hm.same rfl rfl
    | resRead t k =>
      simp only [eval] at he
      split at he
      · cases he; exact absurd rfl hne
      · exact ih _ _ _ _ _ (hp.2 _) hm he hne
    | resWrite t fn k =>
      obtain ⟨ht, hk⟩ := hp
      simp only [eval] at he
      split at he
      · cases he; exact absurd rfl hne
      · rw [withMut_peek] at he
        cases hx : (E.resources.res t).peek s.heap with
        | none => simp only [hx] at he; exact ih _ _ _ _ _ (hk _) hm he hne
        | some v =>
          obtain ⟨p, hq⟩ := peek_lock hx
          simp only [hx, hq] at he
          cases hy : (fn v).2
          · simp only [hy, Bool.false_eq_true, if_false] at he
            exact ih _ _ _ _ _ (hk _) (hm.set hE hP ht hq _ _) he hne
          · simp only [hy, if_true] at he
            cases he
            exact hm.set hE hP ht hq _ _
    | resScope t excl body k =>
      obtain ⟨ht, hbody, hk⟩ := hp
      simp only [eval] at he
      split at he
      · exact ih _ _ _ _ _ (hk _) hm he hne
      · rename_i p hq
        split at he
        · cases he; exact absurd rfl hne
        · split at he
          · exact ih _ _ _ _ _ (hk _) hm he hne
          · rename_i v _
            cases hr : eval E fuel env (body v) (lockRes s p excl) with
            | none => simp [hr] at he
            | some q =>
              obtain ⟨o1, s1⟩ := q
              rw [hr] at he
              have h1 : o1 ≠ .stuck → Intact H P E s1 := ih _ _ _ _ _ (hbody v) (hm.lock ht hq excl) hr
              rcases o1 with r | _ | _
              · exact ih _ _ _ _ _ (hk _) (h1 (fun e => by cases e)).unlock he hne
              · cases he; exact (h1 (fun e => by cases e)).unwind hE hP ht hq excl
              · cases he; exact absurd rfl hne
    | resAssign t x k =>
      obtain ⟨ht, hk⟩ := hp
      simp only [eval] at he
      split at he
      · cases he; exact absurd rfl hne
      · rename_i p hq
        split at he
        · exact ih _ _ _ _ _ hk (hm.set hE hP ht hq x false) he hne
        · cases he; exact absurd rfl hne
    | catchUnwind body k =>
      simp only [eval] at he
      cases hr : eval E fuel env body s with
      | none => simp [hr] at he
      | some q =>
        obtain ⟨o1, s1⟩ := q
        rw [hr] at he
        have h1 : o1 ≠ .stuck → Intact H P E s1 := ih _ _ _ _ _ hp.1 hm hr
        rcases o1 with r | _ | _
        · exact ih _ _ _ _ _ (hp.2 _) (h1 (fun e => by cases e)) he hne
        · exact ih _ _ _ _ _ (hp.2 _) (h1 (fun e => by cases e)) he hne
        · cases he; exact absurd rfl hne

end

end Plotline
