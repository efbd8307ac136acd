import Verif.Spec.History
import Verif.Lemmas.ResLocality

/-! Lemmas about the history of resources. -/

namespace Plotline

set_option linter.unusedSectionVars false

variable {σ : Sig}

/-- Every cell a resource stands for is in the heap. -/
def InHeap (E : Env σ) (heap : Heap σ.Val) : Prop := ∀ t p, (E.resources.res t).lock = some p → p < heap.length

theorem peek_cell_self {t : σ.Ty} (r : Res t) (heap : Heap σ.Val) {p : Nat} (hp : r.lock = some p) (hl : p < heap.length)
    (x : σ.Val t) (b : Bool) : r.peek (heap.set p ⟨⟨t, x⟩, b⟩) = if b then none else some x := by
  unfold Res.peek
  rw [hp]
  simp only [List.getElem?_set_self hl]
  cases b
  · simp [Dyn.downcast]
  · rfl

theorem peek_cell_other {t : σ.Ty} (r : Res t) (heap : Heap σ.Val) {p : Nat} (hp : r.lock ≠ some p) (c : Lock (Dyn σ.Val)) :
    r.peek (heap.set p c) = r.peek heap := by
  apply peek_congr
  intro q hq
  exact List.getElem?_set_ne (fun (e : p = q) => hp (by rw [e]; exact hq))

/-- What one step does to what can be read. -/
theorem step_act {E : Env σ} (hE : E.OwnCells) {c c' : Conf σ} (hin : InHeap E c.st.heap) (h : c.step E = some c')
    (hns : c'.control ≠ .back .stuck) (t : σ.Ty) :
    (E.resources.res t).peek c'.st.heap = afterActs E t c.act.toList ((E.resources.res t).peek c.st.heap) ∧
      c'.st.heap.length = c.st.heap.length := by
  obtain ⟨control, K, s⟩ := c
  have same : ∀ {c1 c2 : Conf σ}, some c1 = some c2 → c1.st.heap = s.heap → Conf.act ⟨control, K, s⟩ = none →
      (E.resources.res t).peek c2.st.heap =
        afterActs E t (Conf.act ⟨control, K, s⟩).toList ((E.resources.res t).peek s.heap) ∧
      c2.st.heap.length = s.heap.length := by
    rintro c1 c2 e hh hn
    cases e
    rw [hn, hh]
    exact ⟨rfl, rfl⟩
  cases control with
  | run env p =>
    cases p with
    | done r => exact same h rfl rfl
    | panic => exact same h rfl rfl
    | reenter => exact same h rfl rfl
    | save c n k => simp only [Conf.step] at h; split at h <;> exact same h rfl rfl
    | delete c i k => simp only [Conf.step] at h; split at h <;> exact same h rfl rfl
    | get c i k => simp only [Conf.step] at h; split at h <;> exact same h rfl rfl
    | contains c i k => simp only [Conf.step] at h; split at h <;> exact same h rfl rfl
    | tx c body k => simp only [Conf.step] at h; split at h <;> exact same h rfl rfl
    | runTriggers c sch k =>
      simp only [Conf.step] at h
      split at h
      · exact same h rfl rfl
      · split at h <;> exact same h rfl rfl
    | withTarget n k => simp only [Conf.step] at h; split at h <;> exact same h rfl rfl
    | targetRead c k => simp only [Conf.step] at h; split at h <;> exact same h rfl rfl
    | targetWrite c fn k =>
      simp only [Conf.step] at h
      split at h
      · exact same h rfl rfl
      · split at h
        · exact same h rfl rfl
        · split at h <;> exact same h rfl rfl
    | resRead t k => simp only [Conf.step] at h; split at h <;> exact same h rfl rfl
    | resScope u excl body k =>
      simp only [Conf.step] at h
      split at h
      · exact same h rfl rfl
      · split at h
        · exact same h rfl rfl
        · split at h <;> exact same h rfl rfl
    | catchUnwind body k => exact same h rfl rfl
    | forget k => simp only [Conf.step] at h; split at h <;> exact same h rfl rfl
    | resAssign u x k =>
      simp only [Conf.step] at h
      split at h
      · cases h; exact absurd rfl hns
      · rename_i p hp
        split at h
        · cases h
          refine ⟨?_, by simp [assignRes]⟩
          simp only [Conf.act, Option.toList, afterActs, List.foldl, ResAct.on, assignRes]
          split
          · rename_i e; subst e
            exact peek_cell_self _ _ hp (hin _ _ hp) _ _
          · rename_i hne
            exact peek_cell_other _ _ (fun hq => hne (hE _ _ _ hp hq)) _
        · cases h; exact absurd rfl hns
    | resWrite u fn k =>
      simp only [Conf.step] at h
      split at h
      · cases h; exact absurd rfl hns
      · rw [withMut_peek] at h
        simp only [Conf.act, Option.toList, afterActs, List.foldl, ResAct.on]
        cases hl : (E.resources.res u).lock with
        | none =>
          have hpk : (E.resources.res u).peek s.heap = none := by simp [Res.peek, hl]
          rw [hpk] at h
          simp only at h
          cases h
          refine ⟨?_, rfl⟩
          split
          · rename_i e; subst e; simp only; rw [hpk]; rfl
          · rfl
        | some p =>
          cases hpk : (E.resources.res u).peek s.heap with
          | none =>
            rw [hpk] at h
            simp only at h
            cases h
            refine ⟨?_, rfl⟩
            split
            · rename_i e; subst e; simp only; rw [hpk]; rfl
            · rfl
          | some v =>
            rw [hpk, hl] at h
            simp only at h
            cases hf : (fn v).2
            all_goals
              simp only [hf, Bool.false_eq_true, if_false, if_true] at h
              cases h
              refine ⟨?_, by simp⟩
              split
              · rename_i e; subst e
                simp only
                rw [peek_cell_self _ _ hl (hin _ _ hl), hpk]
                simp [hf]
              · rename_i hne
                exact peek_cell_other _ _ (fun hq => hne (hE _ _ _ hl hq)) _
  | back out =>
    cases K with
    | nil => rcases out with _ | _ | _ <;> simp [Conf.step] at h
    | cons k K =>
      cases k with
      | tx n env k =>
        rcases out with (e | v) | _ | _
        · exact same h (by simp [closeChild]) rfl
        · exact same h (commitChild_heap' ..) rfl
        · exact same h (by simp [closeChild]) rfl
        · simp [Conf.step] at h
      | triggers f rest env k =>
        rcases out with (e | v) | _ | _
        · cases rest <;> exact same h rfl rfl
        · cases rest <;> exact same h rfl rfl
        · cases rest <;> exact same h rfl rfl
        · simp [Conf.step] at h
      | resScope p excl env k =>
        rcases out with (e | v) | _ | _
        · exact same h rfl rfl
        · exact same h rfl rfl
        · cases excl with
          | false => exact same h rfl rfl
          | true =>
            simp only [Conf.step] at h
            cases h
            refine ⟨?_, by simp [unwindRes]⟩
            simp only [Conf.act, Option.toList, afterActs, List.foldl, ResAct.on, unwindRes, if_true]
            split
            · rename_i hp
              unfold Res.peek
              rw [hp]
              simp only [List.getElem?_modify_eq]
              cases s.heap[p]? <;> rfl
            · rename_i hne
              apply peek_congr
              intro q hq
              exact List.getElem?_modify_ne _ _ (fun (e : p = q) => hne (by rw [e]; exact hq))
        · simp [Conf.step] at h
      | catchUnwind env k =>
        rcases out with (e | v) | _ | _
        · exact same h rfl rfl
        · exact same h rfl rfl
        · exact same h rfl rfl
        · simp [Conf.step] at h

theorem acts_peek {E : Env σ} (hE : E.OwnCells) {c c' : Conf σ} {as : List (ResAct σ)} (h : Conf.Acts E c as c')
    (hin : InHeap E c.st.heap) (t : σ.Ty) :
    (E.resources.res t).peek c'.st.heap = afterActs E t as ((E.resources.res t).peek c.st.heap) := by
  induction h with
  | refl c => rfl
  | @head c c1 c2 as h1 hns _ ih =>
    obtain ⟨e1, e2⟩ := step_act hE hin h1 hns t
    rw [ih (fun u p hp => by rw [e2]; exact hin u p hp), e1]
    simp only [afterActs, List.foldl_append]

theorem Conf.Acts.steps {E : Env σ} {c c' : Conf σ} {as : List (ResAct σ)} (h : Conf.Acts E c as c') : Conf.Steps E c c' := by
  induction h with
  | refl c => exact .refl c
  | head h1 _ _ ih => exact .head h1 ih

theorem Conf.Steps.acts {E : Env σ} {c c' : Conf σ} (h : Conf.Steps E c c') (hns : c'.control ≠ .back .stuck) :
    ∃ as, Conf.Acts E c as c' := by
  induction h with
  | refl c => exact ⟨[], .refl c⟩
  | @head c c1 c2 h1 h2 ih =>
    obtain ⟨as, ha⟩ := ih hns
    refine ⟨_, .head h1 (fun e => ?_) ha⟩
    obtain ⟨control, K, s⟩ := c1
    replace e : control = .back .stuck := e
    subst e
    cases h2 with
    | refl => exact hns rfl
    | head h3 _ => simp [Conf.step] at h3

theorem made_inHeap [LawfulSig σ] {S : Schema σ} (h : Made S) : InHeap S.env S.heap := by
  intro t p hp
  exact (made_cells h).2.1 t p hp

theorem on_other {E : Env σ} {t : σ.Ty} {a : ResAct σ} (h : ¬ a.About E t) (v : Option (σ.Val t)) : a.on E t v = v := by
  cases a with
  | wrote u f => exact dif_neg h
  | assigned u x => exact dif_neg h
  | unwound p => exact if_neg h

theorem afterActs_others {E : Env σ} {t : σ.Ty} {as : List (ResAct σ)} (h : ∀ a ∈ as, ¬ a.About E t) (v : Option (σ.Val t)) :
    afterActs E t as v = v := by
  induction as generalizing v with
  | nil => rfl
  | cons a as ih =>
    simp only [afterActs, List.foldl_cons]
    rw [on_other (h a (List.mem_cons_self ..))]
    exact ih (fun b hb => h b (List.mem_cons_of_mem _ hb)) v

/-! ## Panics -/

/-- The locks held are those of the open closures, a resource under `with_mut` is not under anything else, and it can be read. -/
structure ScopesHeld (E : Env σ) (c : Conf σ) : Prop where
  locks : c.st.locks = openScopes c.stack
  alone : c.st.locks.Pairwise fun a b => a.1 = b.1 → a.2 = false ∧ b.2 = false
  sound : ∀ t p, (E.resources.res t).lock = some p → (p, true) ∈ c.st.locks → ∃ v, (E.resources.res t).peek c.st.heap = some v

theorem step_held {E : Env σ} (hE : E.OwnCells) {c c' : Conf σ} (hin : InHeap E c.st.heap) (hc : ScopesHeld E c)
    (h : c.step E = some c') (hns : c'.control ≠ .back .stuck) : ScopesHeld E c' := by
  have hl := step_locks E h hc.locks
  have hact := step_act hE hin h hns
  obtain ⟨control, K, s⟩ := c
  obtain ⟨h1, h2, h3⟩ := hc
  replace h1 : s.locks = openScopes K := h1
  replace h2 : s.locks.Pairwise fun a b => a.1 = b.1 → a.2 = false ∧ b.2 = false := h2
  replace h3 : ∀ t p, (E.resources.res t).lock = some p → (p, true) ∈ s.locks → ∃ v, (E.resources.res t).peek s.heap = some v :=
    h3
  have same : Conf.act ⟨control, K, s⟩ = none → c'.st.locks = s.locks ∨ c'.st.locks = s.locks.tail → ScopesHeld E c' := by
    intro hn he
    rw [hn] at hact
    have hsub : ∀ x ∈ c'.st.locks, x ∈ s.locks := by
      rcases he with he | he <;> rw [he]
      · exact fun _ h => h
      · exact fun _ h => List.mem_of_mem_tail h
    refine ⟨hl, ?_, fun t p hp hm => ?_⟩
    · rcases he with he | he <;> rw [he]
      · exact h2
      · exact h2.tail
    · rw [(hact t).1]
      exact h3 t p hp (hsub _ hm)
  cases control with
  | run env p =>
    cases p with
    | done r => cases h; exact same rfl (.inl rfl)
    | panic => cases h; exact same rfl (.inl rfl)
    | reenter => cases h; exact same rfl (.inl rfl)
    | save c n k => simp only [Conf.step] at h; split at h <;> (cases h; exact same rfl (.inl rfl))
    | delete c i k => simp only [Conf.step] at h; split at h <;> (cases h; exact same rfl (.inl rfl))
    | get c i k => simp only [Conf.step] at h; split at h <;> (cases h; exact same rfl (.inl rfl))
    | contains c i k => simp only [Conf.step] at h; split at h <;> (cases h; exact same rfl (.inl rfl))
    | tx c body k => simp only [Conf.step] at h; split at h <;> (cases h; exact same rfl (.inl rfl))
    | runTriggers c sch k =>
      simp only [Conf.step] at h
      split at h
      · cases h; exact same rfl (.inl rfl)
      · split at h <;> (cases h; exact same rfl (.inl rfl))
    | withTarget n k => simp only [Conf.step] at h; split at h <;> (cases h; exact same rfl (.inl rfl))
    | targetRead c k => simp only [Conf.step] at h; split at h <;> (cases h; exact same rfl (.inl rfl))
    | targetWrite c fn k =>
      simp only [Conf.step] at h
      split at h
      · cases h; exact same rfl (.inl rfl)
      · split at h
        · cases h; exact same rfl (.inl rfl)
        · split at h <;> (cases h; exact same rfl (.inl rfl))
    | resRead t k => simp only [Conf.step] at h; split at h <;> (cases h; exact same rfl (.inl rfl))
    | catchUnwind body k => cases h; exact same rfl (.inl rfl)
    | forget k => simp only [Conf.step] at h; split at h <;> (cases h; exact same rfl (.inl rfl))
    | resScope u excl body k =>
      simp only [Conf.step] at h
      split at h
      · cases h; exact same rfl (.inl rfl)
      · rename_i p hp
        split at h
        · cases h; exact same rfl (.inl rfl)
        · rename_i hb
          split at h
          · cases h; exact same rfl (.inl rfl)
          · rename_i v hv
            cases h
            have hb' := fun hx => hb ((blocks_iff s p excl).2 hx)
            refine ⟨hl, List.pairwise_cons.2 ⟨fun x hx => ?_, h2⟩, fun t q hq hm => ?_⟩
            · rintro (rfl : p = x.1)
              obtain ⟨q, e⟩ := x
              cases e with
              | true => exact absurd (.inl hx) hb'
              | false =>
                cases excl with
                | true => exact absurd (.inr ⟨rfl, hx⟩) hb'
                | false => exact ⟨rfl, rfl⟩
            · rw [(hact t).1]
              simp only [lockRes, List.mem_cons] at hm
              rcases hm with hm | hm
              · cases hm
                cases hE _ _ _ hp hq
                exact ⟨v, hv⟩
              · exact h3 t q hq hm
    | resAssign u x k =>
      simp only [Conf.step] at h
      split at h
      · cases h; exact absurd rfl hns
      · rename_i p hp
        split at h
        · cases h
          refine ⟨hl, h2, fun t q hq hm => ?_⟩
          rw [(hact t).1]
          simp only [Conf.act, Option.toList, afterActs, List.foldl, ResAct.on]
          split
          · exact ⟨_, rfl⟩
          · exact h3 t q hq hm
        · cases h; exact absurd rfl hns
    | resWrite u fn k =>
      have hfree : ∀ p, (E.resources.res u).lock = some p → (p, true) ∉ s.locks := by
        intro p hp hm
        simp only [Conf.step] at h
        have hb : s.resBlocks E u true = true := by
          unfold St.resBlocks; rw [hp]; exact (blocks_iff ..).2 (.inl hm)
        rw [if_pos hb] at h
        cases h
        exact absurd rfl hns
      have hlk : c'.st.locks = s.locks := by
        simp only [Conf.step] at h
        split at h
        · cases h; rfl
        · split at h <;> (cases h; rfl)
      refine ⟨hl, by rw [hlk]; exact h2, fun t q hq hm => ?_⟩
      rw [hlk] at hm
      rw [(hact t).1]
      simp only [Conf.act, Option.toList, afterActs, List.foldl, ResAct.on]
      split
      · rename_i e; subst e; exact absurd hm (hfree q hq)
      · exact h3 t q hq hm
  | back out =>
    cases K with
    | nil => rcases out with _ | _ | _ <;> simp [Conf.step] at h
    | cons k K =>
      cases k with
      | tx n env k =>
        rcases out with (e | v) | _ | _
        · cases h; exact same rfl (.inl (by simp [closeChild]))
        · cases h; exact same rfl (.inl (by obtain ⟨fs, e⟩ := commitChild_eq_frames s n; rw [e]))
        · cases h; exact same rfl (.inl (by simp [closeChild]))
        · simp [Conf.step] at h
      | triggers f rest env k =>
        rcases out with (e | v) | _ | _
        · cases rest <;> (cases h; exact same rfl (.inl rfl))
        · cases rest <;> (cases h; exact same rfl (.inl rfl))
        · cases rest <;> (cases h; exact same rfl (.inl rfl))
        · simp [Conf.step] at h
      | resScope p excl env k =>
        rcases out with (e | v) | _ | _
        · cases h; exact same rfl (.inr rfl)
        · cases h; exact same rfl (.inr rfl)
        · cases excl with
          | false => cases h; exact same rfl (.inr rfl)
          | true =>
            simp only [Conf.step] at h
            cases h
            simp only [openScopes] at h1
            refine ⟨hl, h2.tail, fun t q hq hm => ?_⟩
            replace hm : (q, true) ∈ s.locks.tail := hm
            rw [(hact t).1]
            simp only [Conf.act, Option.toList, afterActs, List.foldl, ResAct.on]
            split
            · rename_i hp
              have : p = q := Option.some.inj (hp.symm.trans hq)
              subst this
              rw [h1] at hm h2
              exact absurd ((List.pairwise_cons.1 h2).1 _ hm rfl).1 (by simp)
            · exact h3 t q hq (List.mem_of_mem_tail hm)
        · simp [Conf.step] at h
      | catchUnwind env k =>
        rcases out with (e | v) | _ | _
        · cases h; exact same rfl (.inl rfl)
        · cases h; exact same rfl (.inl rfl)
        · cases h; exact same rfl (.inl rfl)
        · simp [Conf.step] at h

/-- What cannot be read now cannot be read later. -/
theorem acts_lost {E : Env σ} (hE : E.OwnCells) {c c' : Conf σ} {as : List (ResAct σ)} (h : Conf.Acts E c as c')
    (hin : InHeap E c.st.heap) (hc : ScopesHeld E c) (t : σ.Ty) (hn : (E.resources.res t).peek c.st.heap = none) :
    (E.resources.res t).peek c'.st.heap = none := by
  induction h with
  | refl c => exact hn
  | @head c c1 c2 as h1 hns _ ih =>
    obtain ⟨e1, e2⟩ := step_act hE hin h1 hns t
    refine ih (fun u p hp => by rw [e2]; exact hin u p hp) (step_held hE hin hc h1 hns) ?_
    rw [e1, hn]
    obtain ⟨control, K, s⟩ := c
    cases ha : Conf.act ⟨control, K, s⟩ with
    | none => rfl
    | some a =>
      simp only [Option.toList, afterActs, List.foldl]
      cases a with
      | wrote u f =>
        simp only [ResAct.on]
        split
        · rename_i e; subst e; rfl
        · rfl
      | unwound p => simp only [ResAct.on, ite_self]
      | assigned u x =>
        simp only [ResAct.on]
        split
        · rename_i e
          subst e
          unfold Conf.act at ha
          split at ha <;> try (cases ha; done)
          rename_i env u' x' k K' s' heq
          cases heq
          cases ha
          simp only [Conf.step] at h1
          split at h1
          · cases h1; exact absurd rfl hns
          · rename_i p hp
            split at h1
            · rename_i hm
              obtain ⟨v, hv⟩ := hc.sound u p hp (by simpa using hm)
              exact absurd (hn.symm.trans hv) (by simp)
            · cases h1; exact absurd rfl hns
        · rfl

theorem begin_held (S : Schema σ) (pre : List (Operation σ.K σ.T)) (body : Prog σ) :
    ScopesHeld S.env ⟨.run [0] body, [], S.begin pre⟩ :=
  ⟨rfl, .nil, fun _ _ _ h => by cases h⟩

theorem acts_held {E : Env σ} (hE : E.OwnCells) {c c' : Conf σ} {as : List (ResAct σ)} (h : Conf.Acts E c as c')
    (hin : InHeap E c.st.heap) (hc : ScopesHeld E c) : InHeap E c'.st.heap ∧ ScopesHeld E c' := by
  induction h with
  | refl c => exact ⟨hin, hc⟩
  | @head c c1 c2 as h1 hns _ ih =>
    refine ih (fun u p hp => ?_) (step_held hE hin hc h1 hns)
    rw [(step_act hE hin h1 hns u).2]
    exact hin u p hp

end Plotline
