import Verif.Spec.Log
import Verif.Lemmas.Liveness
import Verif.Lemmas.Scopes

/-! The machine and what it logs. -/

namespace Plotline

set_option linter.unusedSectionVars false

variable {σ : Sig}

/-! ## Each step logs at most one line -/

theorem deleteBody_inj {i j : σ.K} (h : (deleteBody i : Prog σ) = deleteBody j) : i = j := by
  unfold deleteBody at h
  injection h

theorem Conf.Logs.unique {E : Env σ} {c : Conf σ} {l l' : LogLine σ} (h : c.Logs E l) (h' : c.Logs E l') : l = l' := by
  cases h with
  | inUse => cases h'; rfl
  | targetRead => cases h'; rfl
  | targetWrite => cases h'; rfl
  | resRead => cases h'; rfl
  | resWrite => cases h'; rfl
  | resScope => cases h'; rfl
  | @missing env i f K s _ _ =>
    generalize hc : (⟨.run env (deleteBody i), K, s⟩ : Conf σ) = c at h'
    cases h' with
    | missing =>
      injection hc with h1
      injection h1 with _ h1
      rw [deleteBody_inj h1]
    | _ => simp [deleteBody] at hc

theorem Conf.Logs.not_poisoned {E : Env σ} {c : Conf σ} (h : c.Logs E .graphPoisoned) : False := by cases h

theorem Conf.Talk.steps {E : Env σ} {c d : Conf σ} {ls : List (LogLine σ)} (h : Conf.Talk E c ls d) : Conf.Steps E c d := by
  induction h with
  | refl c => exact .refl c
  | quiet h1 _ _ ih => exact .head h1 ih
  | line h1 _ _ ih => exact .head h1 ih

theorem Conf.Steps.talk {E : Env σ} {c d : Conf σ} (h : Conf.Steps E c d) : ∃ ls, Conf.Talk E c ls d := by
  induction h with
  | refl c => exact ⟨[], .refl c⟩
  | @head c _ _ h1 _ ih =>
    obtain ⟨ls, hls⟩ := ih
    by_cases hl : ∃ l, c.Logs E l
    · obtain ⟨l, hl⟩ := hl; exact ⟨l :: ls, .line h1 hl hls⟩
    · exact ⟨ls, .quiet h1 (fun l h => hl ⟨l, h⟩) hls⟩

/-- Where the closure has returned or unwound to the end, nothing more is logged: two accounts of a run agree. -/
theorem Conf.Talk.unique {E : Env σ} {c d d' : Conf σ} {ls ls' : List (LogLine σ)} (h : Conf.Talk E c ls d)
    (h' : Conf.Talk E c ls' d') (hd : d.step E = none) (hd' : d'.step E = none) : ls = ls' ∧ d = d' := by
  induction h generalizing ls' with
  | refl c =>
    cases h' with
    | refl => exact ⟨rfl, rfl⟩
    | quiet h1 => rw [h1] at hd; cases hd
    | line h1 => rw [h1] at hd; cases hd
  | quiet h1 hq _ ih =>
    cases h' with
    | refl => rw [h1] at hd'; cases hd'
    | quiet h2 _ h3 => rw [h1] at h2; cases h2; exact ih h3 hd
    | line _ hl => exact absurd hl (hq _)
  | line h1 hl _ ih =>
    cases h' with
    | refl => rw [h1] at hd'; cases hd'
    | quiet _ hq => exact absurd hl (hq _)
    | line h2 hl' h3 =>
      rw [h1] at h2; cases h2
      obtain ⟨h4, h5⟩ := ih h3 hd
      exact ⟨by rw [hl.unique hl', h4], h5⟩

theorem step_end (E : Env σ) (out : Out (Except Error σ.V)) (s : St σ) : (⟨.back out, [], s⟩ : Conf σ).step E = none := by
  rcases out with (e | v) | _ | _ <;> rfl

/-! ## Classes of programs along a run -/

/-- `φ` holds throughout what remains to be done. -/
def Kont.Every (φ : Prog σ → Prop) : Kont σ → Prop
  | .tx _ _ k => ∀ x, (k x).Every φ
  | .triggers _ rest _ k => (∀ t ∈ rest, t.Every φ) ∧ ∀ x, (k x).Every φ
  | .resScope _ _ _ k => ∀ x, (k x).Every φ
  | .catchUnwind _ k => ∀ x, (k x).Every φ

/-- The same of all that is running and remains to be done. -/
structure Conf.Every (φ : Prog σ → Prop) (c : Conf σ) : Prop where
  run : ∀ env p, c.control = .run env p → p.Every φ
  stack : ∀ κ ∈ c.stack, κ.Every φ

theorem step_every {E : Env σ} {φ : Prog σ → Prop} (hE : E.Every φ) {c c' : Conf σ} (h : c.step E = some c') (hc : c.Every φ) :
    c'.Every φ := by
  obtain ⟨control, K, s⟩ := c
  obtain ⟨hp, hK⟩ := hc
  have back : ∀ out s', Conf.Every φ (⟨.back out, K, s'⟩ : Conf σ) := fun out s' => ⟨fun _ _ h => (by cases h), hK⟩
  have run : ∀ env p s', p.Every φ → Conf.Every φ (⟨.run env p, K, s'⟩ : Conf σ) :=
    fun env p s' h => ⟨fun _ _ e => (by cases e; exact h), hK⟩
  have push : ∀ env p κ s', p.Every φ → κ.Every φ → Conf.Every φ (⟨.run env p, κ :: K, s'⟩ : Conf σ) :=
    fun env p κ s' h h' => ⟨fun _ _ e => (by cases e; exact h), fun x hx => by
      rcases List.mem_cons.1 hx with rfl | hx
      · exact h'
      · exact hK x hx⟩
  cases control with
  | run env p =>
    replace hp := hp env p rfl
    cases p <;> simp only [Conf.step] at h <;> simp only [Prog.Every] at hp
    case done => cases h; exact back _ _
    case panic => cases h; exact back _ _
    case reenter => cases h; exact back _ _
    case save =>
      split at h <;> cases h
      · exact back _ _
      · exact run _ _ _ hp.2
    case delete =>
      split at h <;> cases h
      · exact back _ _
      · exact run _ _ _ hp.2
    case get =>
      split at h <;> cases h
      · exact back _ _
      · exact run _ _ _ (hp.2 _)
    case contains =>
      split at h <;> cases h
      · exact back _ _
      · exact run _ _ _ (hp.2 _)
    case tx =>
      split at h <;> cases h
      · exact back _ _
      · exact push _ _ _ _ hp.2.1 hp.2.2
    case runTriggers c sch k =>
      split at h
      · cases h; exact back _ _
      · split at h
        · cases h; exact run _ _ _ (hp.2 _)
        · cases h; exact run _ _ _ (hp.2 _)
        · rename_i t ts hts
          cases h
          have := hE sch _ hts
          exact push _ _ _ _ (this t (List.mem_cons_self ..)) ⟨fun u hu => this u (List.mem_cons_of_mem _ hu), hp.2⟩
    case withTarget =>
      split at h <;> cases h
      · exact back _ _
      · exact run _ _ _ hp.2
    case targetRead =>
      split at h <;> cases h
      · exact back _ _
      · exact run _ _ _ (hp.2 _)
    case targetWrite =>
      split at h
      · cases h; exact back _ _
      · split at h
        · cases h; exact run _ _ _ (hp.2 _)
        · split at h <;> cases h
          · exact run _ _ _ (hp.2 _)
          · exact back _ _
    case resRead =>
      split at h <;> cases h
      · exact back _ _
      · exact run _ _ _ (hp.2 _)
    case resWrite =>
      split at h
      · cases h; exact back _ _
      · split at h <;> cases h
        · exact run _ _ _ (hp.2 _)
        · exact run _ _ _ (hp.2 _)
        · exact back _ _
    case resScope =>
      split at h
      · cases h; exact run _ _ _ (hp.2.2 _)
      · split at h
        · cases h; exact back _ _
        · split at h <;> cases h
          · exact run _ _ _ (hp.2.2 _)
          · exact push _ _ _ _ (hp.2.1 _) hp.2.2
    case resAssign =>
      split at h
      · cases h; exact back _ _
      · split at h <;> cases h
        · exact run _ _ _ hp.2
        · exact back _ _
    case catchUnwind => cases h; exact push _ _ _ _ hp.2.1 hp.2.2
    case forget =>
      split at h <;> cases h
      · exact back _ _
      · exact run _ _ _ hp.2
  | back out =>
    cases K with
    | nil => rcases out with (e | v) | _ | _ <;> cases h
    | cons κ K =>
      have hκ := hK κ (List.mem_cons_self ..)
      have hK' : ∀ κ ∈ K, κ.Every φ := fun x hx => hK x (List.mem_cons_of_mem _ hx)
      clear back run push
      have back : ∀ out s', Conf.Every φ (⟨.back out, K, s'⟩ : Conf σ) := fun out s' => ⟨fun _ _ h => (by cases h), hK'⟩
      have run : ∀ env p s', p.Every φ → Conf.Every φ (⟨.run env p, K, s'⟩ : Conf σ) :=
        fun env p s' h => ⟨fun _ _ e => (by cases e; exact h), hK'⟩
      cases κ with
      | tx n env k =>
        rcases out with (e | v) | _ | _ <;> cases h
        · exact run _ _ _ (hκ _)
        · exact run _ _ _ (hκ _)
        · exact back _ _
      | triggers f rest env k =>
        rcases out with (e | v) | _ | _
        · cases rest <;> cases h <;> exact run _ _ _ (hκ.2 _)
        · cases rest with
          | nil => cases h; exact run _ _ _ (hκ.2 _)
          | cons t ts =>
            cases h
            refine ⟨fun _ _ e => (by cases e; exact hκ.1 t (List.mem_cons_self ..)), fun x hx => ?_⟩
            rcases List.mem_cons.1 hx with rfl | hx
            · exact ⟨fun u hu => hκ.1 u (List.mem_cons_of_mem _ hu), hκ.2⟩
            · exact hK' x hx
        · cases rest <;> cases h <;> exact back _ _
        · cases rest <;> cases h
      | resScope p excl env k =>
        rcases out with r | _ | _ <;> cases h
        · exact run _ _ _ (hκ _)
        · exact back _ _
      | catchUnwind env k =>
        rcases out with r | _ | _ <;> cases h
        · exact run _ _ _ (hκ _)
        · exact run _ _ _ (hκ _)

/-! ## Frames: a property of frames that all updates keep -/

/-- `φ` holds of every open context. -/
def St.Frames (φ : Frame σ.K σ.T → Prop) (s : St σ) : Prop := ∀ fr ∈ s.frames, φ fr

theorem mem_modify {α : Type} {l : List α} {n : Nat} {f : α → α} {x : α} (h : x ∈ l.modify n f) : x ∈ l ∨ ∃ y ∈ l, x = f y := by
  obtain ⟨i, hi⟩ := List.mem_iff_getElem?.1 h
  rw [List.getElem?_modify] at hi
  cases hy : l[i]? with
  | none => rw [hy] at hi; cases hi
  | some y =>
    rw [hy] at hi
    have hm := List.mem_iff_getElem?.2 ⟨i, hy⟩
    have hi : (if n = i then f y else y) = x := Option.some.inj hi
    split at hi
    · exact .inr ⟨y, hm, hi.symm⟩
    · exact .inl (hi ▸ hm)

theorem frames_modify {φ : Frame σ.K σ.T → Prop} {l : List (Frame σ.K σ.T)} {n : Nat} {f : Frame σ.K σ.T → Frame σ.K σ.T}
    (h : ∀ fr ∈ l, φ fr) (hf : ∀ fr, φ fr → φ (f fr)) : ∀ fr ∈ l.modify n f, φ fr := fun fr hfr => by
  rcases mem_modify hfr with h1 | ⟨y, h1, rfl⟩
  · exact h fr h1
  · exact hf y (h y h1)

theorem commitChild_all {φ : Frame σ.K σ.T → Prop} {s : St σ} {n : Nat} (h : s.Frames φ)
    (hf : ∀ fr ops, φ fr → φ { fr with ops := fr.ops ++ ops }) : (commitChild s n).Frames φ := by
  have ht : ∀ fr ∈ s.frames.take n, φ fr := fun fr hfr => h fr (List.mem_of_mem_take hfr)
  unfold commitChild closeChild
  split
  · exact ht
  · split
    · exact ht
    · split
      · exact ht
      · exact frames_modify ht fun fr hfr => hf fr _ hfr

/-- What each step may do to the open contexts. -/
theorem step_frames {E : Env σ} {φ : Frame σ.K σ.T → Prop} {c c' : Conf σ} (h : c.step E = some c') (hc : c.st.Frames φ)
    (hops : ∀ fr ops, φ fr → φ { fr with ops := fr.ops ++ ops }) (hopen : ∀ f, φ ⟨some f, [], none, false⟩)
    (htarget : ∀ fr n, φ fr → φ { fr with target := some ⟨n, false⟩ })
    (hpanic : ∀ env d fn k n, c.control = .run env (.targetWrite d fn k) → (fn n).2 = true → ∀ fr, φ fr →
      φ { fr with target := some ⟨(fn n).1, true⟩ })
    (hleak : ∀ env k, c.control = .run env (.forget k) → ∀ fr, φ fr → φ { fr with leaked := true }) : c'.st.Frames φ := by
  obtain ⟨control, K, s⟩ := c
  replace hc : s.Frames φ := hc
  have htake : ∀ n, (closeChild s n).Frames φ := fun n fr hfr => hc fr (List.mem_of_mem_take hfr)
  cases control with
  | run env p =>
    cases p <;> simp only [Conf.step] at h
    case done => cases h; exact hc
    case panic => cases h; exact hc
    case reenter => cases h; exact hc
    case save =>
      split at h <;> cases h
      · exact hc
      · exact frames_modify hc fun fr hfr => hops fr _ hfr
    case delete =>
      split at h <;> cases h
      · exact hc
      · exact frames_modify hc fun fr hfr => hops fr _ hfr
    case tx =>
      split at h <;> cases h
      · exact hc
      · intro fr hfr
        rcases List.mem_append.1 hfr with hfr | hfr
        · exact hc fr hfr
        · cases List.mem_singleton.1 hfr; exact hopen _
    case runTriggers =>
      split at h
      · cases h; exact hc
      · split at h <;> cases h <;> exact hc
    case withTarget =>
      split at h <;> cases h
      · exact hc
      · exact frames_modify hc fun fr hfr => htarget fr _ hfr
    case targetWrite d fn k =>
      split at h
      · cases h; exact hc
      · split at h
        · cases h; exact hc
        · rename_i n _
          split at h
          · cases h; exact frames_modify hc fun fr hfr => htarget fr _ hfr
          · rename_i n' hfn
            cases h
            have := hpanic env d fn k n rfl (by rw [hfn])
            rw [hfn] at this
            exact frames_modify hc this
    case resWrite =>
      split at h
      · cases h; exact hc
      · split at h <;> cases h <;> exact hc
    case resScope =>
      split at h
      · cases h; exact hc
      · split at h
        · cases h; exact hc
        · split at h <;> cases h <;> exact hc
    case resAssign =>
      split at h
      · cases h; exact hc
      · split at h <;> cases h <;> exact hc
    case catchUnwind => cases h; exact hc
    case forget k =>
      split at h <;> cases h
      · exact hc
      · exact frames_modify hc fun fr hfr => hleak env k rfl fr hfr
    all_goals (split at h <;> cases h <;> exact hc)
  | back out =>
    cases K with
    | nil => rcases out with (e | v) | _ | _ <;> cases h
    | cons κ K =>
      cases κ with
      | tx n env k =>
        rcases out with (e | v) | _ | _ <;> cases h
        · exact htake n
        · exact commitChild_all hc hops
        · exact htake n
      | triggers f rest env k => rcases out with (e | v) | _ | _ <;> cases rest <;> cases h <;> exact hc
      | resScope p excl env k => rcases out with r | _ | _ <;> cases h <;> exact hc
      | catchUnwind env k => rcases out with r | _ | _ <;> cases h <;> exact hc

/-! ## The cells -/

/-- What each step may do to the resource cells. -/
theorem step_cells {E : Env σ} {c c' : Conf σ} (h : c.step E = some c') :
    c'.st.heap = c.st.heap ∨
    (∃ (t : σ.Ty) (p : Nat) (x : σ.Val t), (E.resources.res t).lock = some p ∧ c'.st.heap = c.st.heap.set p ⟨⟨t, x⟩, false⟩) ∨
    (∃ env t fn k p v, c.control = .run env (.resWrite t fn k) ∧ (fn v).2 = true ∧ (E.resources.res t).lock = some p ∧
      c'.st.heap = c.st.heap.set p ⟨⟨t, (fn v).1⟩, true⟩) ∨
    (c.control = .back .panic ∧ ∃ p, c'.st.heap = c.st.heap.modify p fun cell => { cell with poisoned := true }) := by
  obtain ⟨control, K, s⟩ := c
  cases control with
  | run env p =>
    cases p <;> simp only [Conf.step] at h
    case done => cases h; exact .inl rfl
    case panic => cases h; exact .inl rfl
    case reenter => cases h; exact .inl rfl
    case catchUnwind => cases h; exact .inl rfl
    case runTriggers =>
      split at h
      · cases h; exact .inl rfl
      · split at h <;> cases h <;> exact .inl rfl
    case targetWrite =>
      split at h
      · cases h; exact .inl rfl
      · split at h
        · cases h; exact .inl rfl
        · split at h <;> cases h <;> exact .inl rfl
    case resWrite t fn k =>
      split at h
      · cases h; exact .inl rfl
      · simp only [Res.withMut] at h
        split at h
        · cases h; exact .inl rfl
        · rename_i x heap' hw
          cases h
          cases hl : (E.resources.res t).lock with
          | none => rw [hl] at hw; cases hw
          | some p =>
            rw [hl] at hw
            dsimp only at hw
            split at hw
            · cases hw
            · split at hw
              · cases hw
              · split at hw
                · cases hw
                · split at hw <;> cases hw
                  exact .inr (.inl ⟨t, p, _, hl, rfl⟩)
        · rename_i heap' hw
          cases h
          cases hl : (E.resources.res t).lock with
          | none => rw [hl] at hw; cases hw
          | some p =>
            rw [hl] at hw
            dsimp only at hw
            split at hw
            · cases hw
            · split at hw
              · cases hw
              · split at hw
                · cases hw
                · rename_i v _
                  split at hw
                  · cases hw
                  · rename_i v' hv
                    cases hw
                    injection hv with hv1 hv2
                    subst hv1
                    have hv2 : (fn v).2 = true := by
                      cases hb : (fn v).2 with
                      | false => rw [hb] at hv2; cases hv2
                      | true => rfl
                    exact .inr (.inr (.inl ⟨env, t, fn, k, p, v, rfl, hv2, hl, rfl⟩))
    case resScope =>
      split at h
      · cases h; exact .inl rfl
      · split at h
        · cases h; exact .inl rfl
        · split at h <;> cases h <;> exact .inl rfl
    case resAssign t x k =>
      split at h
      · cases h; exact .inl rfl
      · rename_i p hl
        split at h <;> cases h
        · exact .inr (.inl ⟨t, p, x, hl, rfl⟩)
        · exact .inl rfl
    all_goals (split at h <;> cases h <;> exact .inl rfl)
  | back out =>
    cases K with
    | nil => rcases out with (e | v) | _ | _ <;> cases h
    | cons κ K =>
      cases κ with
      | tx n env k =>
        rcases out with (e | v) | _ | _ <;> cases h
        · exact .inl rfl
        · obtain ⟨fs, e⟩ := commitChild_eq_frames s n
          left
          show (commitChild s n).heap = s.heap
          rw [e]
        · exact .inl rfl
      | triggers f rest env k => rcases out with (e | v) | _ | _ <;> cases rest <;> cases h <;> exact .inl rfl
      | resScope p excl env k =>
        rcases out with r | _ | _ <;> cases h
        · exact .inl rfl
        · cases excl with
          | false => exact .inl rfl
          | true => exact .inr (.inr (.inr ⟨rfl, p, rfl⟩))
      | catchUnwind env k => rcases out with r | _ | _ <;> cases h <;> exact .inl rfl

theorem step_typed {E : Env σ} (hE : E.OwnCells) {c c' : Conf σ} (h : c.step E = some c') (ht : E.Typed c.st.heap) :
    E.Typed c'.st.heap := by
  have set : ∀ (t : σ.Ty) (p : Nat) (x : σ.Val t) (b : Bool), (E.resources.res t).lock = some p →
      E.Typed (c.st.heap.set p ⟨⟨t, x⟩, b⟩) := by
    intro t p x b hl u q hu cell hc
    by_cases e : q = p
    · subst e
      rw [hE u t q hu hl]
      rw [List.getElem?_set_self'] at hc
      cases hx : c.st.heap[q]? with
      | none => rw [hx] at hc; cases hc
      | some y => rw [hx] at hc; cases hc; rfl
    · rw [List.getElem?_set_ne (Ne.symm e)] at hc; exact ht u q hu cell hc
  rcases step_cells h with e | ⟨t, p, x, hl, e⟩ | ⟨_, t, _, _, p, v, _, _, hl, e⟩ | ⟨_, p, e⟩
  · rw [e]; exact ht
  · rw [e]; exact set t p x _ hl
  · rw [e]; exact set t p _ _ hl
  · rw [e]
    intro u q hu cell hc
    rw [List.getElem?_modify] at hc
    cases hx : c.st.heap[q]? with
    | none => rw [hx] at hc; cases hc
    | some x =>
      rw [hx] at hc
      have hc : (if p = q then { x with poisoned := true } else x) = cell := Option.some.inj hc
      rw [← hc]
      split <;> exact ht u q hu x hx

theorem step_heap_length {E : Env σ} {c c' : Conf σ} (h : c.step E = some c') : c'.st.heap.length = c.st.heap.length := by
  rcases step_cells h with e | ⟨_, _, _, _, e⟩ | ⟨_, _, _, _, _, _, _, _, _, e⟩ | ⟨_, _, e⟩ <;> rw [e] <;> simp

/-! ## Nobody panics -/

/-- Nothing is poisoned and nobody is unwinding. -/
structure Conf.Calmly (c : Conf σ) : Prop where
  every : c.Every Prog.Sober
  back : c.control ≠ .back .panic
  cells : ∀ cell ∈ c.st.heap, cell.poisoned = false
  targets : c.st.Frames fun fr => ∀ l, fr.target = some l → l.poisoned = false

theorem step_calmly {E : Env σ} (hE : E.Every Prog.Sober) {c c' : Conf σ} (h : c.step E = some c') (hc : c.Calmly) :
    c'.Calmly := by
  have hrun : ∀ env p, c.control = .run env p → p.Sober := fun env p e => by
    have := hc.every.run env p e
    cases p <;> simp only [Prog.Every] at this <;> first | exact this.1 | exact this
  refine ⟨step_every hE h hc.every, ?_, ?_, ?_⟩
  · intro e
    obtain ⟨control, K, s⟩ := c
    cases control with
    | run env p =>
      have hp := hrun env p rfl
      cases p <;> simp only [Conf.step] at h
      case panic => exact hp
      case runTriggers =>
        split at h
        · cases h; cases e
        · split at h <;> cases h <;> cases e
      case targetWrite c fn k =>
        split at h
        · cases h; cases e
        · split at h
          · cases h; cases e
          · rename_i n _
            split at h <;> rename_i hf
            · cases h; cases e
            · have := hp n
              rw [hf] at this; cases this
      case resWrite t fn k =>
        have hsome : ∀ v, (if (fn v).2 = true then none else some ()) = some () := fun v => by rw [hp v]; rfl
        split at h
        · cases h; cases e
        · split at h
          · cases h; cases e
          · cases h; cases e
          · rename_i hw
            simp only [Res.withMut, hsome] at hw
            split at hw
            · cases hw
            · split at hw
              · cases hw
              · split at hw
                · cases hw
                · split at hw <;> cases hw
      case resScope =>
        split at h
        · cases h; cases e
        · split at h
          · cases h; cases e
          · split at h <;> cases h <;> cases e
      case resAssign =>
        split at h
        · cases h; cases e
        · split at h <;> cases h <;> cases e
      case done => cases h; cases e
      case reenter => cases h; cases e
      case catchUnwind => cases h; cases e
      all_goals (split at h <;> cases h <;> cases e)
    | back out =>
      have hb : out ≠ .panic := fun e => hc.back (by rw [e])
      cases K with
      | nil => rcases out with (e | v) | _ | _ <;> cases h
      | cons κ K =>
        cases κ with
        | tx n env k => rcases out with (_ | v) | _ | _ <;> cases h <;> first | exact hb rfl | cases e
        | triggers f rest env k =>
          rcases out with (_ | v) | _ | _ <;> cases rest <;> cases h <;> first | exact hb rfl | cases e
        | resScope p excl env k => rcases out with r | _ | _ <;> cases h <;> first | exact hb rfl | cases e
        | catchUnwind env k => rcases out with r | _ | _ <;> cases h <;> first | exact hb rfl | cases e
  · rcases step_cells h with e | ⟨t, p, x, _, e⟩ | ⟨env, t, fn, k, p, v, hcon, hv, _, e⟩ | ⟨hcon, _⟩
    · rw [e]; exact hc.cells
    · rw [e]
      intro cell hcell
      rcases List.mem_or_eq_of_mem_set hcell with h1 | rfl
      · exact hc.cells cell h1
      · rfl
    · have := hrun env _ hcon v
      rw [hv] at this; cases this
    · exact absurd hcon hc.back
  · refine step_frames h hc.targets (fun _ _ h => h) (fun _ l h => (by cases h)) (fun _ _ _ l h => (by cases h; rfl)) ?_
      (fun _ _ _ _ h => h)
    intro env d fn k n hcon hfn
    have := hrun env _ hcon n
    rw [hfn] at this; cases this

theorem Conf.Calmly.logs {E : Env σ} {c : Conf σ} (hc : c.Calmly) {l : LogLine σ} (h : c.Logs E l) :
    l = .contextsInUse ∨ ∃ i, l = .missing i := by
  have ht : ∀ {s : St σ} {f : Nat}, s.Frames (fun fr => ∀ l, fr.target = some l → l.poisoned = false) →
      ¬ s.targetPoisoned f := by
    rintro s f hs ⟨fr, l, h1, h2, h3⟩
    rw [hs fr (List.mem_of_getElem? h1) l h2] at h3; cases h3
  have hr : ∀ {s : St σ} {t : σ.Ty} {b : Bool}, (∀ cell ∈ s.heap, cell.poisoned = false) → ¬ s.resPoisoned E t b := by
    rintro s t b hs ⟨p, cell, _, _, h1, h2⟩
    rw [hs cell (List.mem_of_getElem? h1)] at h2; cases h2
  cases h with
  | inUse => exact .inl rfl
  | targetRead _ h => exact absurd h (ht hc.targets)
  | targetWrite _ h => exact absurd h (ht hc.targets)
  | resRead h => exact absurd h (hr hc.cells)
  | resWrite h => exact absurd h (hr hc.cells)
  | resScope h => exact absurd h (hr hc.cells)
  | missing => exact .inr ⟨_, rfl⟩

theorem Conf.Talk.calmly {E : Env σ} (hE : E.Every Prog.Sober) {c d : Conf σ} {ls : List (LogLine σ)} (h : Conf.Talk E c ls d)
    (hc : c.Calmly) : d.Calmly ∧ ∀ l ∈ ls, l = .contextsInUse ∨ ∃ i, l = .missing i := by
  induction h with
  | refl => exact ⟨hc, fun _ h => (by cases h)⟩
  | quiet h1 _ _ ih => exact ih (step_calmly hE h1 hc)
  | line h1 hl _ ih =>
    obtain ⟨h2, h3⟩ := ih (step_calmly hE h1 hc)
    refine ⟨h2, fun l h => ?_⟩
    rcases List.mem_cons.1 h with rfl | h
    · exact hc.logs hl
    · exact h3 l h

/-! ## Nobody leaks -/

theorem Conf.Talk.retains {E : Env σ} (hE : E.Every Prog.Retains) {c d : Conf σ} {ls : List (LogLine σ)} (h : Conf.Talk E c ls d)
    (hc : c.Every Prog.Retains) (hf : c.st.Frames fun fr => fr.leaked = false) :
    (d.st.Frames fun fr => fr.leaked = false) ∧ .contextsInUse ∉ ls := by
  have step : ∀ {c c' : Conf σ}, c.step E = some c' → c.Every Prog.Retains → (c.st.Frames fun fr => fr.leaked = false) →
      c'.st.Frames fun fr => fr.leaked = false := by
    intro c c' h hc hf
    refine step_frames h hf (fun _ _ h => h) (fun _ => rfl) (fun _ _ h => h) (fun _ _ _ _ _ _ _ _ h => h) ?_
    intro env k hcon
    have := hc.run env _ hcon
    exact this.1.elim
  induction h with
  | refl => exact ⟨hf, fun h => by cases h⟩
  | quiet h1 _ _ ih => exact ih (step_every hE h1 hc) (step h1 hc hf)
  | line h1 hl _ ih =>
    obtain ⟨h2, h3⟩ := ih (step_every hE h1 hc) (step h1 hc hf)
    refine ⟨h2, fun h => ?_⟩
    rcases List.mem_cons.1 h with rfl | h
    · cases hl with
      | inUse h3 h4 => rw [hf _ (List.mem_of_getElem? h3)] at h4; cases h4
    · exact h3 h

/-! ## The same without the leaks -/

def Frame.kept (fr : Frame σ.K σ.T) : Frame σ.K σ.T := { fr with leaked := false }

def St.kept (s : St σ) : St σ := { s with frames := s.frames.map Frame.kept }

def Control.kept : Control σ → Control σ
  | .run env p => .run env p.unforgotten
  | .back out => .back out

def Kont.kept : Kont σ → Kont σ
  | .tx n env k => .tx n env fun x => (k x).unforgotten
  | .triggers f rest env k => .triggers f (rest.map Prog.unforgotten) env fun x => (k x).unforgotten
  | .resScope p excl env k => .resScope p excl env fun x => (k x).unforgotten
  | .catchUnwind env k => .catchUnwind env fun x => (k x).unforgotten

def Conf.kept (c : Conf σ) : Conf σ := ⟨c.control.kept, c.stack.map Kont.kept, c.st.kept⟩

theorem findL_map {K V W : Type} [Ord K] (f : V → W) (k : K) : ∀ l : List (K × V),
    BTreeMap.findL k (l.map fun e => (e.1, f e.2)) = (BTreeMap.findL k l).map f
  | [] => rfl
  | (k', v) :: l => by
    simp only [List.map_cons, BTreeMap.findL]
    split
    · rfl
    · rfl
    · exact findL_map f k l

theorem select_unforgotten (S : Schema σ) (s : Sched) :
    S.unforgotten.env.triggers.select s = (S.env.triggers.select s).map (List.map Prog.unforgotten) :=
  findL_map _ _ _

theorem map_modify_kept {α : Type} (g f : α → α) (hfg : ∀ x, g (f x) = f (g x)) : ∀ (l : List α) (n : Nat),
    (l.modify n f).map g = (l.map g).modify n f
  | [], n => by cases n <;> rfl
  | x :: l, 0 => by simp [List.modify, hfg]
  | x :: l, n + 1 => by simpa [List.modify] using map_modify_kept g f hfg l n

theorem get_kept (s : St σ) (n : Nat) : s.kept.frames[n]? = (s.frames[n]?).map Frame.kept := by simp [St.kept]

theorem ctxGet_kept (g : Graph σ.K σ.T) (frames : List (Frame σ.K σ.T)) (f : Nat) (i : σ.K) :
    ctxGet g (frames.map Frame.kept) f i = ctxGet g frames f i := by
  induction f using Nat.strongRecOn with
  | ind f ih =>
    rw [ctxGet, ctxGet, List.getElem?_map]
    cases frames[f]? with
    | none => rfl
    | some fr =>
      dsimp only [Option.map_some, Frame.kept]
      split <;> try rfl
      split
      · rfl
      · split
        · rename_i h; exact ih _ h
        · rfl

theorem ctxContains_kept (g : Graph σ.K σ.T) (frames : List (Frame σ.K σ.T)) (f : Nat) (i : σ.K) :
    ctxContains g (frames.map Frame.kept) f i = ctxContains g frames f i := by
  induction f using Nat.strongRecOn with
  | ind f ih =>
    rw [ctxContains, ctxContains, List.getElem?_map]
    cases frames[f]? with
    | none => rfl
    | some fr =>
      dsimp only [Option.map_some, Frame.kept]
      split <;> try rfl
      split
      · rfl
      · split
        · rename_i h; exact ih _ h
        · rfl

theorem readTarget_kept (s : St σ) (f : Nat) : readTarget s.kept f = readTarget s f := by
  unfold readTarget
  rw [get_kept]
  cases s.frames[f]? with
  | none => rfl
  | some fr => rfl

theorem pushOp_kept (s : St σ) (f : Nat) (op : Operation σ.K σ.T) : (pushOp s f op).kept = pushOp s.kept f op := by
  simp only [pushOp, St.kept]
  rw [map_modify_kept]
  intro; rfl

theorem setTarget_kept (s : St σ) (f : Nat) (n : σ.T) : (setTarget s f n).kept = setTarget s.kept f n := by
  simp only [setTarget, St.kept]
  rw [map_modify_kept]
  intro; rfl

theorem writeTarget_kept (s : St σ) (f : Nat) (n : σ.T) (b : Bool) : (writeTarget s f n b).kept = writeTarget s.kept f n b := by
  simp only [writeTarget, St.kept]
  rw [map_modify_kept]
  intro; rfl

theorem openChild_kept (s : St σ) (f : Nat) : (openChild s f).kept = openChild s.kept f := by
  simp [openChild, St.kept, Frame.kept]

theorem closeChild_kept (s : St σ) (n : Nat) : (closeChild s n).kept = closeChild s.kept n := by
  simp [closeChild, St.kept]

theorem leakFrame_kept (s : St σ) (f : Nat) : (leakFrame s f).kept = s.kept := by
  simp only [leakFrame, St.kept]
  congr 1
  apply List.ext_getElem?
  intro i
  simp only [List.getElem?_map, List.getElem?_modify]
  cases s.frames[i]? with
  | none => rfl
  | some fr =>
    simp only [Option.map_some]
    split <;> rfl

theorem commitChild_kept (s : St σ) (n : Nat) (h : ∀ fr, s.frames[n]? = some fr → fr.leaked = false) :
    (commitChild s n).kept = commitChild s.kept n := by
  unfold commitChild
  rw [get_kept]
  cases hn : s.frames[n]? with
  | none => exact closeChild_kept s n
  | some fr =>
    have hl := h fr hn
    dsimp only [Option.map_some, Frame.kept]
    rw [hl]
    simp only [Bool.false_eq_true, if_false]
    cases fr.parent with
    | none => exact closeChild_kept s n
    | some p =>
      simp only [St.kept]
      rw [map_modify_kept, List.map_take]
      intro; rfl

theorem step_kept {S : Schema σ} {c d : Conf σ} (h : c.step S.env = some d) (hl : ¬ c.Logs S.env .contextsInUse) :
    c.kept.step S.unforgotten.env = some d.kept ∨ c.kept = d.kept ∨ d.control = .back .stuck := by
  obtain ⟨control, K, s⟩ := c
  cases control with
  | run env p =>
    cases p with
    | done r => cases h; exact .inl rfl
    | panic => cases h; exact .inl rfl
    | reenter => cases h; exact .inl rfl
    | save c n k =>
      simp only [Conf.step] at h
      cases hc : env[c]? with
      | none => rw [hc] at h; cases h; exact .inr (.inr rfl)
      | some f =>
        rw [hc] at h; cases h
        left; simp only [Conf.kept, Control.kept, Prog.unforgotten, Conf.step, hc, pushOp_kept]
    | delete c n k =>
      simp only [Conf.step] at h
      cases hc : env[c]? with
      | none => rw [hc] at h; cases h; exact .inr (.inr rfl)
      | some f =>
        rw [hc] at h; cases h
        left; simp only [Conf.kept, Control.kept, Prog.unforgotten, Conf.step, hc, pushOp_kept]
    | get c i k =>
      simp only [Conf.step] at h
      cases hc : env[c]? with
      | none => rw [hc] at h; cases h; exact .inr (.inr rfl)
      | some f =>
        rw [hc] at h; cases h
        left; simp only [Conf.kept, Control.kept, Prog.unforgotten, Conf.step, hc, St.kept, ctxGet_kept]
    | contains c i k =>
      simp only [Conf.step] at h
      cases hc : env[c]? with
      | none => rw [hc] at h; cases h; exact .inr (.inr rfl)
      | some f =>
        rw [hc] at h; cases h
        left; simp only [Conf.kept, Control.kept, Prog.unforgotten, Conf.step, hc, St.kept, ctxContains_kept]
    | tx c body k =>
      simp only [Conf.step] at h
      cases hc : env[c]? with
      | none => rw [hc] at h; cases h; exact .inr (.inr rfl)
      | some f =>
        rw [hc] at h; cases h
        left
        simp only [Conf.kept, Control.kept, Prog.unforgotten, Conf.step, hc, openChild_kept, List.map_cons, Kont.kept]
        simp only [St.kept, List.length_map]
    | runTriggers c sch k =>
      simp only [Conf.step] at h
      cases hc : env[c]? with
      | none => rw [hc] at h; cases h; exact .inr (.inr rfl)
      | some f =>
        rw [hc] at h
        dsimp only at h
        left
        simp only [Conf.kept, Control.kept, Prog.unforgotten, Conf.step, hc, select_unforgotten]
        cases hs : S.env.triggers.select sch with
        | none => rw [hs] at h; cases h; rfl
        | some ts => cases ts <;> rw [hs] at h <;> cases h <;> rfl
    | withTarget n k =>
      simp only [Conf.step] at h
      cases hc : env[0]? with
      | none => rw [hc] at h; cases h; exact .inr (.inr rfl)
      | some f =>
        rw [hc] at h; cases h
        left; simp only [Conf.kept, Control.kept, Prog.unforgotten, Conf.step, hc, setTarget_kept]
    | targetRead c k =>
      simp only [Conf.step] at h
      cases hc : env[c]? with
      | none => rw [hc] at h; cases h; exact .inr (.inr rfl)
      | some f =>
        rw [hc] at h; cases h
        left; simp only [Conf.kept, Control.kept, Prog.unforgotten, Conf.step, hc, readTarget_kept]
    | targetWrite c fn k =>
      simp only [Conf.step] at h
      cases hc : env[c]? with
      | none => rw [hc] at h; cases h; exact .inr (.inr rfl)
      | some f =>
        rw [hc] at h
        dsimp only at h
        left
        simp only [Conf.kept, Control.kept, Prog.unforgotten, Conf.step, hc, readTarget_kept]
        cases hr : readTarget s f with
        | none => rw [hr] at h; cases h; rfl
        | some n =>
          rw [hr] at h
          dsimp only at h ⊢
          rcases hf : fn n with ⟨n', b⟩
          cases b <;> rw [hf] at h <;> cases h <;> simp only [Control.kept, writeTarget_kept]
    | resRead t k =>
      simp only [Conf.step] at h
      split at h
      · cases h; exact .inr (.inr rfl)
      · rename_i hb
        cases h
        left
        exact if_neg hb
    | resWrite t fn k =>
      simp only [Conf.step] at h
      split at h
      · cases h; exact .inr (.inr rfl)
      · rename_i hb
        left
        refine (if_neg hb).trans ?_
        show (match (S.env.resources.res t).withMut s.heap (fun v => ((fn v).1, if (fn v).2 then none else some ())) with
          | (.unavailable, _) => _ | (.ran _, heap') => _ | (.panicked, heap') => _) = _
        split at h <;> rename_i hw <;> cases h <;> rw [hw] <;> rfl
    | resScope t excl body k =>
      simp only [Conf.step] at h
      split at h
      · rename_i hlk
        cases h
        left
        show (match (S.env.resources.res t).lock with | none => _ | some p => _) = _
        rw [hlk]; rfl
      · rename_i p hlk
        split at h
        · cases h; exact .inr (.inr rfl)
        · rename_i hb
          left
          show (match (S.env.resources.res t).lock with | none => _ | some p => _) = _
          rw [hlk]
          refine (if_neg hb).trans ?_
          show (match (S.env.resources.res t).peek s.heap with | none => _ | some v => _) = _
          split at h <;> rename_i hw <;> cases h <;> rw [hw] <;> rfl
    | resAssign t x k =>
      simp only [Conf.step] at h
      split at h
      · cases h; exact .inr (.inr rfl)
      · rename_i p hlk
        split at h <;> rename_i hb <;> cases h
        · left
          show (match (S.env.resources.res t).lock with | none => _ | some p => _) = _
          rw [hlk]
          exact if_pos hb
        · exact .inr (.inr rfl)
    | catchUnwind body k => cases h; exact .inl rfl
    | forget k =>
      simp only [Conf.step] at h
      cases hc : env[0]? with
      | none => rw [hc] at h; cases h; exact .inr (.inr rfl)
      | some f =>
        rw [hc] at h; cases h
        right; left
        simp only [Conf.kept, Control.kept, Prog.unforgotten, leakFrame_kept]
  | back out =>
    cases K with
    | nil => rcases out with (e | v) | _ | _ <;> cases h
    | cons κ K =>
      cases κ with
      | tx n env k =>
        rcases out with (e | v) | _ | _ <;> cases h
        · left; simp only [Conf.kept, Control.kept, List.map_cons, Kont.kept, Conf.step, closeChild_kept]
        · left
          rw [Conf.kept, Conf.kept]
          dsimp only
          rw [commitChild_kept s n]
          · rfl
          · intro fr hfr
            cases hk : fr.leaked with
            | false => rfl
            | true => exact absurd (.inUse hfr hk) hl
        · left; simp only [Conf.kept, Control.kept, List.map_cons, Kont.kept, Conf.step, closeChild_kept]
      | triggers f rest env k => rcases out with (e | v) | _ | _ <;> cases rest <;> cases h <;> exact .inl rfl
      | resScope p excl env k => rcases out with r | _ | _ <;> cases h <;> exact .inl rfl
      | catchUnwind env k => rcases out with r | _ | _ <;> cases h <;> exact .inl rfl

theorem Conf.Talk.kept {S : Schema σ} {c d : Conf σ} {ls : List (LogLine σ)} (h : Conf.Talk S.env c ls d)
    (hd : d.control ≠ .back .stuck) (hl : .contextsInUse ∉ ls) : Conf.Steps S.unforgotten.env c.kept d.kept := by
  have stuck : ∀ {c : Conf σ} {ls : List (LogLine σ)}, Conf.Talk S.env c ls d → c.control ≠ .back .stuck := by
    intro c ls h e
    obtain ⟨control, K, s⟩ := c
    dsimp only at e
    subst e
    cases h with
    | refl => exact hd rfl
    | quiet h1 => cases h1
    | line h1 => cases h1
  have step : ∀ {c c' : Conf σ}, c.step S.env = some c' → ¬ c.Logs S.env .contextsInUse → c'.control ≠ .back .stuck →
      Conf.Steps S.unforgotten.env c'.kept d.kept → Conf.Steps S.unforgotten.env c.kept d.kept := by
    intro c c' h1 h2 h3 h4
    rcases step_kept h1 h2 with h | h | h
    · exact .head h h4
    · rw [h]; exact h4
    · exact absurd h h3
  induction h with
  | refl => exact .refl _
  | quiet h1 hq h2 ih => exact step h1 (hq _) (stuck h2) (ih hd hl stuck step)
  | line h1 hq h2 ih =>
    refine step h1 (fun h => hl ?_) (stuck h2) (ih hd (fun h => hl (List.mem_cons_of_mem _ h)) stuck step)
    rw [hq.unique h]; exact List.mem_cons_self ..

theorem commitRoot_kept (s : St σ) (h : ∀ fr, s.frames[0]? = some fr → fr.leaked = false) : commitRoot s.kept = commitRoot s := by
  unfold commitRoot
  rw [get_kept]
  cases h0 : s.frames[0]? with
  | none => rfl
  | some fr =>
    dsimp only [Option.map_some, Frame.kept]
    rw [h fr h0]
    rfl

end Plotline
