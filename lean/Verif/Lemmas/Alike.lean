import Verif.Spec.Alike
import Verif.Lemmas.History
import Verif.Lemmas.Locality
import Verif.Lemmas.Triggers

/-! The machine on other cells that read as the same. -/

namespace Plotline

set_option linter.unusedSectionVars false

variable {σ : Sig}

/-- The two cells are those of one resource. -/
def SameRes (E E' : Env σ) (p p' : Nat) : Prop :=
  ∃ t, (E.resources.res t).lock = some p ∧ (E'.resources.res t).lock = some p'

/-- Stacks that differ in which cells the resources are in. -/
inductive KontsSim (E E' : Env σ) : List (Kont σ) → List (Kont σ) → Prop
  | nil : KontsSim E E' [] []
  | tx {K K' : List (Kont σ)} (n : Nat) (env : List Nat) (k : Except Error σ.V → Prog σ) : KontsSim E E' K K' →
      KontsSim E E' (.tx n env k :: K) (.tx n env k :: K')
  | triggers {K K' : List (Kont σ)} (f : Nat) (rest : List (Prog σ)) (env : List Nat) (k : Except Error Unit → Prog σ) :
      KontsSim E E' K K' → KontsSim E E' (.triggers f rest env k :: K) (.triggers f rest env k :: K')
  | resScope {K K' : List (Kont σ)} {p p' : Nat} (excl : Bool) (env : List Nat) (k : Option (Except Error σ.V) → Prog σ) :
      SameRes E E' p p' → KontsSim E E' K K' → KontsSim E E' (.resScope p excl env k :: K) (.resScope p' excl env k :: K')
  | catchUnwind {K K' : List (Kont σ)} (env : List Nat) (k : Option (Except Error σ.V) → Prog σ) : KontsSim E E' K K' →
      KontsSim E E' (.catchUnwind env k :: K) (.catchUnwind env k :: K')

theorem SameRes.cell_iff {E E' : Env σ} (hE : E.OwnCells) (hE' : E'.OwnCells) {p p' : Nat} (h : SameRes E E' p p') (t : σ.Ty) :
    (E.resources.res t).lock = some p ↔ (E'.resources.res t).lock = some p' := by
  obtain ⟨u, h1, h2⟩ := h
  constructor
  · intro h; rw [hE t u p h h1]; exact h2
  · intro h; rw [hE' t u p' h h2]; exact h1

theorem KontsSim.open_iff {E E' : Env σ} (hE : E.OwnCells) (hE' : E'.OwnCells) {K K' : List (Kont σ)} (h : KontsSim E E' K K')
    {p p' : Nat} (hp : SameRes E E' p p') (excl : Bool) : (p, excl) ∈ openScopes K ↔ (p', excl) ∈ openScopes K' := by
  induction h with
  | nil => simp [openScopes]
  | tx _ _ _ _ ih => exact ih
  | triggers _ _ _ _ _ ih => exact ih
  | catchUnwind _ _ _ ih => exact ih
  | @resScope K K' q q' e _ _ hq _ ih =>
    simp only [openScopes, List.mem_cons, Prod.mk.injEq, ih]
    have : p = q ↔ p' = q' := by
      obtain ⟨t, h1, h2⟩ := hp
      have := hq.cell_iff hE hE' t
      rw [h1, h2] at this
      simpa using this
    rw [this]

theorem KontsSim.right {E E' : Env σ} {K K' : List (Kont σ)} (h : KontsSim E E' K K') {p' : Nat} {excl : Bool}
    (hm : (p', excl) ∈ openScopes K') : ∃ p, SameRes E E' p p' ∧ (p, excl) ∈ openScopes K := by
  induction h with
  | nil => simp [openScopes] at hm
  | tx _ _ _ _ ih => exact ih hm
  | triggers _ _ _ _ _ ih => exact ih hm
  | catchUnwind _ _ _ ih => exact ih hm
  | @resScope K K' q q' e _ _ hq _ ih =>
    simp only [openScopes, List.mem_cons, Prod.mk.injEq] at hm ⊢
    rcases hm with ⟨rfl, rfl⟩ | hm
    · exact ⟨q, hq, .inl ⟨rfl, rfl⟩⟩
    · obtain ⟨p, h1, h2⟩ := ih hm
      exact ⟨p, h1, .inr h2⟩

theorem KontsSim.left {E E' : Env σ} {K K' : List (Kont σ)} (h : KontsSim E E' K K') {p : Nat} {excl : Bool}
    (hm : (p, excl) ∈ openScopes K) : ∃ p', SameRes E E' p p' ∧ (p', excl) ∈ openScopes K' := by
  induction h with
  | nil => simp [openScopes] at hm
  | tx _ _ _ _ ih => exact ih hm
  | triggers _ _ _ _ _ ih => exact ih hm
  | catchUnwind _ _ _ ih => exact ih hm
  | @resScope K K' q q' e _ _ hq _ ih =>
    simp only [openScopes, List.mem_cons, Prod.mk.injEq] at hm ⊢
    rcases hm with ⟨rfl, rfl⟩ | hm
    · exact ⟨q', hq, .inl ⟨rfl, rfl⟩⟩
    · obtain ⟨p, h1, h2⟩ := ih hm
      exact ⟨p, h1, .inr h2⟩

/-- Two moments that differ in which cells the resources are in, with equal values for those of `Q`, and in the graph, with equal
nodes for the ids of `P`. -/
structure CellSim (P : σ.K → Prop) (Q : σ.Ty → Prop) (E E' : Env σ) (c c' : Conf σ) : Prop where
  control : c'.control = c.control
  stack : KontsSim E E' c.stack c'.stack
  frames : c'.st.frames = c.st.frames
  graph : ∀ i, P i → c'.st.graph.get i = c.st.graph.get i
  reads : ∀ t, Q t → (E'.resources.res t).peek c'.st.heap = (E.resources.res t).peek c.st.heap
  locks : c.st.locks = openScopes c.stack
  locks' : c'.st.locks = openScopes c'.stack
  inHeap : InHeap E c.st.heap
  inHeap' : InHeap E' c'.st.heap

theorem peek_lock {t : σ.Ty} {r : Res t} {heap : Heap σ.Val} {v : σ.Val t} (h : r.peek heap = some v) : ∃ p, r.lock = some p := by
  cases hl : r.lock with
  | none => simp [Res.peek, hl] at h
  | some p => exact ⟨p, rfl⟩

theorem KontsSim.blocks {E E' : Env σ} (hE' : E'.OwnCells) {K K' : List (Kont σ)} (h : KontsSim E E' K K') {s s' : St σ}
    (hl : s.locks = openScopes K) (hl' : s'.locks = openScopes K') {t : σ.Ty} {excl : Bool} (hb : s'.resBlocks E' t excl = true) :
    s.resBlocks E t excl = true := by
  unfold St.resBlocks at hb
  split at hb
  · cases hb
  · rename_i p' hp'
    have key : ∀ e, (p', e) ∈ openScopes K' → ∃ p, (E.resources.res t).lock = some p ∧ (p, e) ∈ openScopes K := by
      intro e hm
      obtain ⟨p, ⟨u, h1, h2⟩, h3⟩ := h.right hm
      cases hE' _ _ _ hp' h2
      exact ⟨p, h1, h3⟩
    rw [blocks_iff, hl'] at hb
    rcases hb with hb | ⟨hx, hb⟩
    · obtain ⟨p, h1, h2⟩ := key _ hb
      simp only [St.resBlocks, h1]
      rw [blocks_iff, hl]; exact .inl h2
    · obtain ⟨p, h1, h2⟩ := key _ hb
      simp only [St.resBlocks, h1]
      rw [blocks_iff, hl]; exact .inr ⟨hx, h2⟩

/-- The graph and the contexts are the same. -/
def SameTx (s s' : St σ) : Prop := s'.frames = s.frames ∧ s'.graph = s.graph

theorem commitChild_same {s s' : St σ} (h : SameTx s s') (n : Nat) : SameTx (commitChild s n) (commitChild s' n) := by
  obtain ⟨g, fr, hp, l⟩ := s
  obtain ⟨g', fr', hp', l'⟩ := s'
  obtain ⟨h1, h2⟩ := h
  replace h1 : fr' = fr := h1
  replace h2 : g' = g := h2
  subst h1 h2
  unfold commitChild closeChild
  simp only
  split
  · exact ⟨rfl, rfl⟩
  · split
    · exact ⟨rfl, rfl⟩
    · split <;> exact ⟨rfl, rfl⟩

theorem commitChild_sameFrames {s s' : St σ} (h : s'.frames = s.frames) (n : Nat) : (commitChild s' n).frames = (commitChild s n).frames ∧
    (commitChild s n).graph = s.graph ∧ (commitChild s' n).graph = s'.graph := by
  have hg : ∀ s : St σ, (commitChild s n).graph = s.graph := by
    intro s
    unfold commitChild
    split
    · rfl
    · split
      · rfl
      · split <;> rfl
  have h1 := commitChild_same (s := s) (s' := s'.on s.graph) ⟨h, rfl⟩ n
  refine ⟨?_, hg s, hg s'⟩
  rw [commitChild_on] at h1
  exact h1.1

/-- The type of the resource the next call asks for. -/
def Control.asksFor : Control σ → Option σ.Ty
  | .run _ (.resRead t _) => some t
  | .run _ (.resWrite t _ _) => some t
  | .run _ (.resScope t _ _ _) => some t
  | _ => none

/-- The scheduler whose triggers are to be run next. -/
def Control.triggersOf : Control σ → Option Sched
  | .run _ (.runTriggers _ s _) => some s
  | _ => none

/-- The contexts are the same after, and the graphs what they were. -/
def SameFrames (c c' d d' : St σ) : Prop := d'.frames = d.frames ∧ d.graph = c.graph ∧ d'.graph = c'.graph

theorem step_alike {P : σ.K → Prop} {Q : σ.Ty → Prop} {E E' : Env σ} (hE : E.OwnCells) (hE' : E'.OwnCells)
    {c c' d : Conf σ} (hfire : ∀ s, c.control.triggersOf = some s → E'.fire s = E.fire s) (h : CellSim P Q E E' c c')
    (hP : ∀ i, c.control.lookup = some i → P i) (hQ : ∀ t, c.control.asksFor = some t → Q t)
    (hs : c.step E = some d) (hns : d.control ≠ .back .stuck) :
    ∃ d', c'.step E' = some d' ∧ d'.control = d.control ∧ KontsSim E E' d.stack d'.stack ∧ SameFrames c.st c'.st d.st d'.st ∧
      ∀ t v, afterActs E' t c'.act.toList v = afterActs E t c.act.toList v := by
  have hblk : ∀ t excl, c.st.resBlocks E t excl = false → c'.st.resBlocks E' t excl = false := by
    intro t excl hf
    cases hb : c'.st.resBlocks E' t excl with
    | false => rfl
    | true => rw [h.stack.blocks hE' h.locks h.locks' hb] at hf; cases hf
  obtain ⟨ctl, K, ⟨g, fr, hp, l⟩⟩ := c
  obtain ⟨ctl', K', ⟨g', fr', hp', l'⟩⟩ := c'
  obtain ⟨h1, hK, h3, h4, hr, hl, hl', hi, hi'⟩ := h
  replace h1 : ctl' = ctl := h1
  replace h3 : fr' = fr := h3
  replace h4 : ∀ i, P i → g'.get i = g.get i := h4
  replace hK : KontsSim E E' K K' := hK
  replace hr : ∀ t, Q t → (E'.resources.res t).peek hp' = (E.resources.res t).peek hp := hr
  replace hl : l = openScopes K := hl
  replace hl' : l' = openScopes K' := hl'
  subst h1 h3
  cases ctl' with
  | run env p =>
    cases p with
    | done r => cases hs; exact ⟨_, rfl, rfl, hK, ⟨rfl, rfl, rfl⟩, fun _ _ => rfl⟩
    | panic => cases hs; exact ⟨_, rfl, rfl, hK, ⟨rfl, rfl, rfl⟩, fun _ _ => rfl⟩
    | reenter => cases hs; exact absurd rfl hns
    | save c n k =>
      cases hc : env[c]? <;> simp only [Conf.step, hc] at hs ⊢ <;> cases hs <;>
        exact ⟨_, rfl, rfl, hK, ⟨rfl, rfl, rfl⟩, fun _ _ => rfl⟩
    | delete c n k =>
      cases hc : env[c]? <;> simp only [Conf.step, hc] at hs ⊢ <;> cases hs <;>
        exact ⟨_, rfl, rfl, hK, ⟨rfl, rfl, rfl⟩, fun _ _ => rfl⟩
    | get c n k =>
      have hg := fun f => ctxGet_graph fr' f n (h4 n (hP n rfl))
      cases hc : env[c]? <;> simp only [Conf.step, hc] at hs ⊢ <;> cases hs
      · exact ⟨_, rfl, rfl, hK, ⟨rfl, rfl, rfl⟩, fun _ _ => rfl⟩
      · exact ⟨_, rfl, by rw [hg], hK, ⟨rfl, rfl, rfl⟩, fun _ _ => rfl⟩
    | contains c n k =>
      have hg := fun f => ctxGet_graph fr' f n (h4 n (hP n rfl))
      cases hc : env[c]? <;> simp only [Conf.step, hc] at hs ⊢ <;> cases hs
      · exact ⟨_, rfl, rfl, hK, ⟨rfl, rfl, rfl⟩, fun _ _ => rfl⟩
      · exact ⟨_, rfl, by rw [ctxContains_eq, ctxContains_eq, hg], hK, ⟨rfl, rfl, rfl⟩, fun _ _ => rfl⟩
    | tx c body k =>
      cases hc : env[c]? <;> simp only [Conf.step, hc] at hs ⊢ <;> cases hs
      · exact absurd rfl hns
      · exact ⟨_, rfl, rfl, .tx _ _ _ hK, ⟨rfl, rfl, rfl⟩, fun _ _ => rfl⟩
    | runTriggers c sch k =>
      cases hc : env[c]? with
      | none => simp only [Conf.step, hc] at hs; cases hs; exact absurd rfl hns
      | some f =>
        have hf := hfire sch rfl
        unfold Env.fire at hf
        simp only [Conf.step, hc] at hs ⊢
        rcases hx : E.triggers.select sch with _ | _ | ⟨t, ts⟩ <;> rcases hy : E'.triggers.select sch with _ | _ | ⟨u, us⟩ <;>
          simp only [hx, hy, Option.getD] at hf hs ⊢ <;> cases hf <;> cases hs <;>
          first
            | exact ⟨_, rfl, rfl, hK, ⟨rfl, rfl, rfl⟩, fun _ _ => rfl⟩
            | exact ⟨_, rfl, rfl, .triggers _ _ _ _ hK, ⟨rfl, rfl, rfl⟩, fun _ _ => rfl⟩
    | withTarget n k =>
      cases hc : env[0]? <;> simp only [Conf.step, hc] at hs ⊢ <;> cases hs <;>
        exact ⟨_, rfl, rfl, hK, ⟨rfl, rfl, rfl⟩, fun _ _ => rfl⟩
    | forget k =>
      cases hc : env[0]? <;> simp only [Conf.step, hc] at hs ⊢ <;> cases hs <;>
        exact ⟨_, rfl, rfl, hK, ⟨rfl, rfl, rfl⟩, fun _ _ => rfl⟩
    | targetRead c k =>
      cases hc : env[c]? <;> simp only [Conf.step, hc] at hs ⊢ <;> cases hs <;>
        exact ⟨_, rfl, rfl, hK, ⟨rfl, rfl, rfl⟩, fun _ _ => rfl⟩
    | targetWrite c fn k =>
      cases hc : env[c]? with
      | none => simp only [Conf.step, hc] at hs; cases hs; exact absurd rfl hns
      | some f =>
        have e : readTarget (σ := σ) ⟨g', fr', hp', l'⟩ f = readTarget ⟨g, fr', hp, l⟩ f := rfl
        simp only [Conf.step, hc, e] at hs ⊢
        cases hx : readTarget (σ := σ) ⟨g, fr', hp, l⟩ f with
        | none =>
          simp only [hx] at hs ⊢
          cases hs
          exact ⟨_, rfl, rfl, hK, ⟨rfl, rfl, rfl⟩, fun _ _ => rfl⟩
        | some n =>
          simp only [hx] at hs ⊢
          rcases hy : fn n with ⟨n', b⟩
          cases b <;> simp only [hy] at hs ⊢ <;> cases hs <;> exact ⟨_, rfl, rfl, hK, ⟨rfl, rfl, rfl⟩, fun _ _ => rfl⟩
    | resRead t k =>
      cases hb : St.resBlocks (σ := σ) E ⟨g, fr', hp, l⟩ t false with
      | true => simp only [Conf.step] at hs; rw [if_pos hb] at hs; cases hs; exact absurd rfl hns
      | false =>
        have hb' := hblk t false hb
        simp only [Conf.step] at hs ⊢
        rw [if_neg (by rw [hb]; simp)] at hs
        rw [if_neg (show ¬ St.resBlocks (σ := σ) E' ⟨g', fr', hp', l'⟩ t false = true by rw [hb']; simp), hr t (hQ t rfl)]
        cases hs
        exact ⟨_, rfl, rfl, hK, ⟨rfl, rfl, rfl⟩, fun _ _ => rfl⟩
    | resWrite t fn k =>
      cases hb : St.resBlocks (σ := σ) E ⟨g, fr', hp, l⟩ t true with
      | true => simp only [Conf.step] at hs; rw [if_pos hb] at hs; cases hs; exact absurd rfl hns
      | false =>
        have hb' := hblk t true hb
        simp only [Conf.step] at hs ⊢
        rw [if_neg (by rw [hb]; simp), withMut_peek] at hs
        rw [if_neg (show ¬ St.resBlocks (σ := σ) E' ⟨g', fr', hp', l'⟩ t true = true by rw [hb']; simp), withMut_peek, hr t (hQ t rfl)]
        cases hx : (E.resources.res t).peek hp with
        | none =>
          simp only [hx] at hs ⊢
          cases hs
          exact ⟨_, rfl, rfl, hK, ⟨rfl, rfl, rfl⟩, fun _ _ => rfl⟩
        | some v =>
          obtain ⟨p, hq⟩ := peek_lock hx
          obtain ⟨p', hq'⟩ := peek_lock ((hr t (hQ t rfl)).trans hx)
          simp only [hx, hq, hq'] at hs ⊢
          cases hf : (fn v).2 <;> simp only [hf, Bool.false_eq_true, if_false, if_true] at hs ⊢ <;> cases hs <;>
            exact ⟨_, rfl, rfl, hK, ⟨rfl, rfl, rfl⟩, fun _ _ => rfl⟩
    | resScope t excl body k =>
      have hb : St.resBlocks (σ := σ) E ⟨g, fr', hp, l⟩ t excl = false := by
        cases hb : St.resBlocks (σ := σ) E ⟨g, fr', hp, l⟩ t excl with
        | false => rfl
        | true =>
          cases hq : (E.resources.res t).lock with
          | none => simp only [St.resBlocks, hq] at hb; cases hb
          | some p =>
            simp only [St.resBlocks, hq] at hb
            simp only [Conf.step, hq] at hs
            rw [if_pos hb] at hs
            cases hs; exact absurd rfl hns
      have hb' := hblk t excl hb
      have none_case : ∀ (E : Env σ) (g : Graph σ.K σ.T) (hp : Heap σ.Val) (l : List (Nat × Bool)) (K : List (Kont σ)),
          St.resBlocks (σ := σ) E ⟨g, fr', hp, l⟩ t excl = false →
          (E.resources.res t).peek hp = none → Conf.step E ⟨.run env (.resScope t excl body k), K, ⟨g, fr', hp, l⟩⟩ =
            some ⟨.run env (k none), K, ⟨g, fr', hp, l⟩⟩ := by
        intro E g hp l K hb hx
        simp only [Conf.step]
        split
        · rfl
        · rename_i p hq
          simp only [St.resBlocks, hq] at hb
          rw [if_neg (by rw [hb]; simp), hx]
      have some_case : ∀ (E : Env σ) (g : Graph σ.K σ.T) (hp : Heap σ.Val) (l : List (Nat × Bool)) (K : List (Kont σ)) (v : σ.Val t) (p : Nat),
          St.resBlocks (σ := σ) E ⟨g, fr', hp, l⟩ t excl = false →
          (E.resources.res t).peek hp = some v → (E.resources.res t).lock = some p →
          Conf.step E ⟨.run env (.resScope t excl body k), K, ⟨g, fr', hp, l⟩⟩ =
            some ⟨.run env (body v), .resScope p excl env k :: K, lockRes ⟨g, fr', hp, l⟩ p excl⟩ := by
        intro E g hp l K v p hb hx hq
        simp only [St.resBlocks, hq] at hb
        simp only [Conf.step, hq]
        rw [if_neg (by rw [hb]; simp), hx]
      cases hx : (E.resources.res t).peek hp with
      | none =>
        rw [none_case E g hp l K hb hx] at hs
        rw [none_case E' g' hp' l' K' hb' ((hr t (hQ t rfl)).trans hx)]
        cases hs
        exact ⟨_, rfl, rfl, hK, ⟨rfl, rfl, rfl⟩, fun _ _ => rfl⟩
      | some v =>
        obtain ⟨p, hq⟩ := peek_lock hx
        obtain ⟨p', hq'⟩ := peek_lock ((hr t (hQ t rfl)).trans hx)
        rw [some_case E g hp l K v p hb hx hq] at hs
        rw [some_case E' g' hp' l' K' v p' hb' ((hr t (hQ t rfl)).trans hx) hq']
        cases hs
        exact ⟨_, rfl, rfl, .resScope _ _ _ ⟨t, hq, hq'⟩ hK, ⟨rfl, rfl, rfl⟩, fun _ _ => rfl⟩
    | resAssign t x k =>
      cases hq : (E.resources.res t).lock with
      | none => simp only [Conf.step, hq] at hs; cases hs; exact absurd rfl hns
      | some p =>
        simp only [Conf.step, hq] at hs
        split at hs
        · rename_i hm
          cases hs
          obtain ⟨p', ⟨u, h1, h2⟩, h3⟩ := hK.left (p := p) (excl := true) (by rw [← hl]; simpa using hm)
          cases hE _ _ _ hq h1
          have hm' : l'.contains (p', true) = true := by rw [hl']; simpa using h3
          simp only [Conf.step, h2]
          rw [if_pos hm']
          exact ⟨_, rfl, rfl, hK, ⟨rfl, rfl, rfl⟩, fun _ _ => rfl⟩
        · cases hs; exact absurd rfl hns
    | catchUnwind body k => cases hs; exact ⟨_, rfl, rfl, .catchUnwind _ _ hK, ⟨rfl, rfl, rfl⟩, fun _ _ => rfl⟩
  | back out =>
    cases hK with
    | nil => rcases out with _ | _ | _ <;> simp [Conf.step] at hs
    | tx n env k hK =>
      rcases out with (e | v) | _ | _
      · cases hs; exact ⟨_, rfl, rfl, hK, ⟨rfl, rfl, rfl⟩, fun _ _ => rfl⟩
      · cases hs; exact ⟨_, rfl, rfl, hK, commitChild_sameFrames (s := ⟨g, fr', hp, l⟩) (s' := ⟨g', fr', hp', l'⟩) rfl n, fun _ _ => rfl⟩
      · cases hs; exact ⟨_, rfl, rfl, hK, ⟨rfl, rfl, rfl⟩, fun _ _ => rfl⟩
      · simp [Conf.step] at hs
    | triggers f rest env k hK =>
      rcases out with (e | v) | _ | _
      · cases rest <;> (cases hs; exact ⟨_, rfl, rfl, hK, ⟨rfl, rfl, rfl⟩, fun _ _ => rfl⟩)
      · cases rest <;> cases hs
        · exact ⟨_, rfl, rfl, hK, ⟨rfl, rfl, rfl⟩, fun _ _ => rfl⟩
        · exact ⟨_, rfl, rfl, .triggers _ _ _ _ hK, ⟨rfl, rfl, rfl⟩, fun _ _ => rfl⟩
      · cases rest <;> (cases hs; exact ⟨_, rfl, rfl, hK, ⟨rfl, rfl, rfl⟩, fun _ _ => rfl⟩)
      · simp [Conf.step] at hs
    | @resScope K K' p p' excl env k hpp hK =>
      rcases out with (e | v) | _ | _
      · cases hs; exact ⟨_, rfl, rfl, hK, ⟨rfl, rfl, rfl⟩, fun _ _ => rfl⟩
      · cases hs; exact ⟨_, rfl, rfl, hK, ⟨rfl, rfl, rfl⟩, fun _ _ => rfl⟩
      · cases hs
        refine ⟨_, rfl, rfl, hK, ⟨rfl, rfl, rfl⟩, fun t v => ?_⟩
        cases excl with
        | false => rfl
        | true =>
          simp only [Conf.act, Option.toList, afterActs, List.foldl, ResAct.on]
          by_cases hx : (E.resources.res t).lock = some p
          · rw [if_pos hx, if_pos ((hpp.cell_iff hE hE' t).1 hx)]
          · rw [if_neg hx, if_neg (fun hy => hx ((hpp.cell_iff hE hE' t).2 hy))]
      · simp [Conf.step] at hs
    | catchUnwind env k hK =>
      rcases out with (e | v) | _ | _ <;>
        first
          | (cases hs; exact ⟨_, rfl, rfl, hK, ⟨rfl, rfl, rfl⟩, fun _ _ => rfl⟩)
          | simp [Conf.step] at hs

theorem CellSim.step {P : σ.K → Prop} {Q : σ.Ty → Prop} {E E' : Env σ} (hE : E.OwnCells) (hE' : E'.OwnCells)
    {c c' d : Conf σ} (hfire : ∀ s, c.control.triggersOf = some s → E'.fire s = E.fire s) (h : CellSim P Q E E' c c')
    (hP : ∀ i, c.control.lookup = some i → P i) (hQ : ∀ t, c.control.asksFor = some t → Q t)
    (hs : c.step E = some d) (hns : d.control ≠ .back .stuck) :
    ∃ d', c'.step E' = some d' ∧ CellSim P Q E E' d d' ∧ d.st.graph = c.st.graph ∧ d'.st.graph = c'.st.graph := by
  obtain ⟨d', h1, h2, h3, ⟨h4, h6, h7⟩, h5⟩ := step_alike hE hE' hfire h hP hQ hs hns
  have hns' : d'.control ≠ .back .stuck := by rw [h2]; exact hns
  have a := step_act hE h.inHeap hs hns
  have a' := step_act hE' h.inHeap' h1 hns'
  refine ⟨d', h1, ⟨h2, h3, h4, fun i hi => ?_, fun t ht => ?_, step_locks E hs h.locks, step_locks E' h1 h.locks', ?_, ?_⟩, h6, h7⟩
  · rw [h6, h7]; exact h.graph i hi
  · rw [(a t).1, (a' t).1, h5, h.reads t ht]
  · intro t p hp; rw [(a t).2]; exact h.inHeap t p hp
  · intro t p hp; rw [(a' t).2]; exact h.inHeap' t p hp

theorem CellSim.steps {P : σ.K → Prop} {Q : σ.Ty → Prop} {E E' : Env σ} (hE : E.OwnCells) (hE' : E'.OwnCells)
    {c d : Conf σ} (hs : Conf.Steps E c d) (hns : d.control ≠ .back .stuck)
    (hfire : ∀ x, Conf.Steps E c x → ∀ s, x.control.triggersOf = some s → E'.fire s = E.fire s)
    (hP : ∀ x, Conf.Steps E c x → ∀ i, x.control.lookup = some i → P i)
    (hQ : ∀ x, Conf.Steps E c x → ∀ t, x.control.asksFor = some t → Q t) {c' : Conf σ} (h : CellSim P Q E E' c c') :
    ∃ d', Conf.Steps E' c' d' ∧ CellSim P Q E E' d d' ∧ d.st.graph = c.st.graph ∧ d'.st.graph = c'.st.graph := by
  induction hs generalizing c' with
  | refl c => exact ⟨c', .refl _, h, rfl, rfl⟩
  | @head c c1 c2 h1 h2 ih =>
    have hn1 : c1.control ≠ .back .stuck := by
      intro e
      obtain ⟨control, K, s⟩ := c1
      replace e : control = .back .stuck := e
      subst e
      cases h2 with
      | refl => exact hns rfl
      | head h3 _ => simp [Conf.step] at h3
    obtain ⟨d1, g1, g2, g5, g6⟩ := h.step hE hE' (hfire _ (.refl _)) (hP _ (.refl _)) (hQ _ (.refl _)) h1 hn1
    obtain ⟨d2, g3, g4, g7, g8⟩ := ih hns (fun x hx => hfire x (.head h1 hx)) (fun x hx => hP x (.head h1 hx)) (fun x hx => hQ x (.head h1 hx)) g2
    exact ⟨d2, .head g1 g3, g4, g7.trans g5, g8.trans g6⟩

/-! ## Schemas in use -/

/-- What holds of every schema in use. -/
structure Sane (S : Schema σ) : Prop where
  valid : S.graph.Valid
  triggers : BTreeMap.Sorted S.env.triggers.triggers.entries
  resources : BTreeMap.Sorted S.env.resources.resources.entries
  own : S.env.OwnCells
  inHeap : InHeap S.env S.heap

theorem lock_withResource [LawfulSig σ] {S : Schema σ} (h : BTreeMap.Sorted S.env.resources.resources.entries) (t u : σ.Ty)
    (v : σ.Val t) : ((S.withResource t v).env.resources.res u).lock =
      if u = t then some S.heap.length else (S.env.resources.res u).lock := by
  have := BTreeMap.findL_insertL (k := t) (q := u) (v := S.heap.length) h
  refine this.trans ?_
  by_cases e : u = t
  · rw [if_pos e, if_pos (by rw [e]; exact Std.ReflCmp.compare_self)]
  · rw [if_neg e, if_neg (fun h => e (Std.LawfulEqCmp.eq_of_compare h))]; rfl

theorem peek_withResource [LawfulSig σ] {S : Schema σ} (hS : Sane S) (t u : σ.Ty) (v : σ.Val t) :
    ((S.withResource t v).env.resources.res u).peek (S.withResource t v).heap =
      if h : u = t then some (h ▸ v) else (S.env.resources.res u).peek S.heap := by
  unfold Res.peek
  rw [lock_withResource hS.resources]
  have hh : (S.withResource t v).heap = S.heap ++ [⟨⟨t, v⟩, false⟩] := rfl
  rw [hh]
  by_cases e : u = t
  · subst e
    simp [Dyn.downcast]
  · rw [if_neg e, dif_neg e]
    cases hl : (S.env.resources.res u).lock with
    | none => rfl
    | some p =>
      simp only
      rw [List.getElem?_append_left (hS.inHeap u p hl)]

theorem fire_withTrigger {S : Schema σ} (hS : Sane S) (s u : Sched) (p : Prog σ) :
    (S.withTrigger s p).env.fire u = if s = u then S.env.fire u ++ [p] else S.env.fire u :=
  select_withTrigger S.env.triggers hS.triggers s u p

theorem asksFor_reaches {S : Schema σ} {pre : List (Operation σ.K σ.T)} {body : Prog σ} {c : Conf σ} {t : σ.Ty}
    (h : Conf.Steps S.env ⟨.run [0] body, [], S.begin pre⟩ c) (ht : c.control.asksFor = some t) : UsesRes S pre body t := by
  obtain ⟨control, K, s⟩ := c
  dsimp only at ht
  unfold Control.asksFor at ht
  split at ht
  · cases ht; exact .inl ⟨_, _, _, _, h⟩
  · cases ht; exact .inr (.inl ⟨_, _, _, _, _, h⟩)
  · cases ht; exact .inr (.inr ⟨_, _, _, _, _, _, h⟩)
  · cases ht

theorem triggersOf_reaches {S : Schema σ} {pre : List (Operation σ.K σ.T)} {body : Prog σ} {c : Conf σ} {u : Sched}
    (h : Conf.Steps S.env ⟨.run [0] body, [], S.begin pre⟩ c) (hu : c.control.triggersOf = some u) : RunsTriggers S pre body u := by
  obtain ⟨control, K, s⟩ := c
  dsimp only at hu
  unfold Control.triggersOf at hu
  split at hu
  · cases hu; exact ⟨_, _, _, _, _, h⟩
  · cases hu

/-- A transaction on schemas that agree where it looks, wherever the resources are. -/
theorem transact_alike_on [LawfulSig σ] {S S' S1 : Schema σ} (hS : Sane S) (hS' : Sane S')
    {fuel : Nat} {pre : List (Operation σ.K σ.T)} {body : Prog σ}
    (hfire : ∀ s, RunsTriggers S pre body s → S'.env.fire s = S.env.fire s) {out : Out (Except Error σ.V)} (hlook : ∀ i, LooksUp S pre body i → S'.guard.get i = S.guard.get i)
    (hres : ∀ t, UsesRes S pre body t → (S'.env.resources.res t).peek S'.heap = (S.env.resources.res t).peek S.heap)
    (h : S.transact fuel pre body = some (out, S1)) (hne : out ≠ .stuck) :
    ∃ fuel' S1' ops, S'.transact fuel' pre body = some (out, S1') ∧ S1.graph = S.graph.commit ops ∧ S1'.graph = S'.graph.commit ops ∧
      S1.env = S.env ∧ S1'.env = S'.env ∧
      ∀ t, (S'.env.resources.res t).peek S'.heap = (S.env.resources.res t).peek S.heap →
        (S'.env.resources.res t).peek S1'.heap = (S.env.resources.res t).peek S1.heap := by
  obtain ⟨s, he, henv, hheap, hok, hfail⟩ := transact_some h
  have hst := eval_steps S.env fuel _ _ _ _ _ [] he hne
  have hsim : CellSim (LooksUp S pre body)
      (fun t => (S'.env.resources.res t).peek S'.heap = (S.env.resources.res t).peek S.heap) S.env S'.env
      ⟨.run [0] body, [], S.begin pre⟩ ⟨.run [0] body, [], S'.begin pre⟩ :=
    ⟨rfl, .nil, rfl, hlook, fun t ht => ht, rfl, rfl, hS.inHeap, hS'.inHeap⟩
  obtain ⟨⟨c', K', s'⟩, hst', hsim', hgs, hgs'⟩ := hsim.steps hS.own hS'.own hst (fun e => hne (by cases e; rfl))
    (fun x hx s hs => hfire s (triggersOf_reaches hx hs))
    (fun x hx i hi => lookup_reaches hx hi) (fun x hx t ht => hres t (asksFor_reaches hx ht))
  obtain ⟨h1, h2, h3, _, h5, _, _, _, _⟩ := hsim'
  replace h1 : c' = .back out := h1
  replace h3 : s'.frames = s.frames := h3
  replace hgs : s.graph = S.graph := by rw [← guard_graph S]; exact hgs
  replace hgs' : s'.graph = S'.graph := by rw [← guard_graph S']; exact hgs'
  cases h2
  subst h1
  obtain ⟨f3, hf3⟩ := Conf.Steps.eval hst'
  rcases out with (x | v) | _ | _
  · refine ⟨f3, { S' with graph := s'.graph, heap := s'.heap }, [], by unfold Schema.transact; rw [hf3], ?_, hgs', henv, rfl, ?_⟩
    · rw [hfail (by intro v hv; cases hv)]; rfl
    · intro t ht; rw [hheap]; exact h5 t ht
  · have hc : ∃ ops, ∀ s1 : St σ, s1.frames = s.frames → commitRoot s1 = s1.graph.commit ops := by
      unfold commitRoot
      cases hx : s.frames[0]? with
      | none => exact ⟨[], fun s1 e => by rw [e, hx]; rfl⟩
      | some fr =>
        cases hy : fr.leaked with
        | true => exact ⟨[], fun s1 e => by rw [e, hx]; simp only [hy, if_true]; rfl⟩
        | false => exact ⟨fr.ops, fun s1 e => by rw [e, hx]; simp only [hy, Bool.false_eq_true, if_false]⟩
    obtain ⟨ops, hops⟩ := hc
    refine ⟨f3, { S' with graph := commitRoot s', heap := s'.heap }, ops, by unfold Schema.transact; rw [hf3], ?_, ?_, henv, rfl, ?_⟩
    · rw [hok ⟨v, rfl⟩, hops s rfl, hgs]
    · show commitRoot s' = _
      rw [hops s' h3, hgs']
    · intro t ht; rw [hheap]; exact h5 t ht
  · refine ⟨f3, { S' with graph := s'.graph, heap := s'.heap, poisoned := true }, [], by unfold Schema.transact; rw [hf3], ?_, hgs', henv,
      rfl, ?_⟩
    · rw [hfail (by intro v hv; cases hv)]; rfl
    · intro t ht; rw [hheap]; exact h5 t ht
  · exact (hne rfl).elim

theorem transact_alike [LawfulSig σ] {S S' S1 : Schema σ} (hS : Sane S) (hS' : Sane S') (ha : Alike S S') {fuel : Nat}
    {pre : List (Operation σ.K σ.T)} {body : Prog σ} {out : Out (Except Error σ.V)}
    (h : S.transact fuel pre body = some (out, S1)) (hne : out ≠ .stuck) :
    ∃ fuel' S1', S'.transact fuel' pre body = some (out, S1') ∧ Alike S1 S1' := by
  obtain ⟨f, S1', ops, h1, h2, h3, h4, h5, h6⟩ := transact_alike_on hS hS' (fun s _ => ha.fires s) (fun i _ => ha.nodes i) (fun t _ => ha.reads t) h hne
  refine ⟨f, S1', h1, fun i => ?_, fun s => ?_, fun t => ?_⟩
  · rw [guard_graph, guard_graph, h2, h3, get_commit _ hS'.valid, get_commit _ hS.valid]
    refine applyAll_local _ _ _ _ ?_
    have := ha.nodes i
    rw [guard_graph, guard_graph] at this
    exact this
  · rw [h4, h5]; exact ha.fires s
  · rw [h4, h5]; exact h6 t (ha.reads t)

theorem sane_withResource [LawfulSig σ] {S : Schema σ} (h : Sane S) (t : σ.Ty) (v : σ.Val t) : Sane (S.withResource t v) := by
  have hlen : (S.withResource t v).heap.length = S.heap.length + 1 := by
    show (S.heap ++ [_]).length = _
    simp
  refine ⟨h.valid, h.triggers, BTreeMap.sorted_insertL h.resources, fun u w p hu hw => ?_, fun u p hu => ?_⟩
  · rw [lock_withResource h.resources] at hu hw
    split at hu
    · split at hw
      · rename_i e1 e2; rw [e1, e2]
      · cases hu; exact absurd (h.inHeap w _ hw) (Nat.lt_irrefl _)
    · split at hw
      · cases hw; exact absurd (h.inHeap u _ hu) (Nat.lt_irrefl _)
      · exact h.own u w p hu hw
  · rw [lock_withResource h.resources] at hu
    rw [hlen]
    split at hu
    · cases hu; exact Nat.lt_succ_self _
    · exact Nat.lt_succ_of_lt (h.inHeap u p hu)

theorem sane_gives [LawfulSig σ] {S S' : Schema σ} {u : Use σ} {a : Seen σ} (hS : Sane S) (h : Gives S u a S') : Sane S' := by
  cases h with
  | register t v => exact sane_withResource hS t v
  | trigger s p => exact ⟨hS.valid, withTrigger_sorted _ hS.triggers s p, hS.resources, hS.own, hS.inHeap⟩
  | tx ht hne =>
    obtain ⟨ops, _, hg, henv, _⟩ := transact_on ht hne
    obtain ⟨s, he, _, hheap, _⟩ := transact_some ht
    have hl : S'.heap.length = S.heap.length := by rw [hheap]; exact eval_heap_length S.env he
    refine ⟨by rw [hg]; exact valid_commit _ hS.valid _, by rw [henv]; exact hS.triggers, by rw [henv]; exact hS.resources,
      by rw [henv]; exact hS.own, ?_⟩
    intro t p hp
    rw [henv] at hp
    rw [hl]; exact hS.inHeap t p hp
  | update op => exact ⟨by rw [guard_graph]; exact valid_applyOp _ hS.valid op, hS.triggers, hS.resources, hS.own, hS.inHeap⟩
  | get i => exact hS
  | iter => exact hS
  | read t => exact hS
  | write t f =>
    refine ⟨hS.valid, hS.triggers, hS.resources, hS.own, fun u p hp => ?_⟩
    have hl : ((S.env.resources.res t).withMut S.heap fun v => ((f v).1, if (f v).2 then none else some ())).2.length =
        S.heap.length := by
      rw [withMut_peek]
      split <;> simp
    show p < List.length _
    rw [hl]; exact hS.inHeap u p hp

theorem sane_session [LawfulSig σ] {S S' : Schema σ} {l : List (Use σ × Seen σ)} (h : Session S l S') (hS : Sane S) : Sane S' := by
  induction h with
  | nil => exact hS
  | cons h1 _ ih => exact ih (sane_gives hS h1)

theorem used_sane [LawfulSig σ] {S : Schema σ} (h : S.Used) : Sane S := by
  obtain ⟨g, l, hg, hl⟩ := h
  refine sane_session hl ⟨hg.valid, List.Pairwise.nil, List.Pairwise.nil, fun t u p h => ?_, fun t p h => ?_⟩
  · cases h
  · cases h

/-- What `with_mut` does to what can be read. -/
theorem write_reads {S : Schema σ} (hS : Sane S) (t u : σ.Ty) (f : σ.Val t → σ.Val t × Bool) :
    (S.env.resources.res u).peek
        ((S.env.resources.res t).withMut S.heap fun v => ((f v).1, if (f v).2 then none else some ())).2 =
      (ResAct.wrote t f).on S.env u ((S.env.resources.res u).peek S.heap) := by
  rw [withMut_peek]
  by_cases e : t = u
  · subst e
    simp only [ResAct.on, dif_pos]
    cases hx : (S.env.resources.res t).peek S.heap with
    | none => simp only; rw [hx]; rfl
    | some v =>
      obtain ⟨p, hq⟩ := peek_lock hx
      simp only [hq]
      rw [peek_cell_self _ _ hq (hS.inHeap _ _ hq)]
      cases hf : (f v).2 <;> simp [hf]
  · simp only [ResAct.on, dif_neg e]
    cases hx : (S.env.resources.res t).peek S.heap with
    | none => rfl
    | some v =>
      obtain ⟨p, hq⟩ := peek_lock hx
      simp only [hq]
      exact peek_cell_other _ _ (fun hq' => e (hS.own _ _ _ hq hq')) _

theorem gives_alike [LawfulSig σ] {S S' S1 : Schema σ} {u : Use σ} {a : Seen σ} (hS : Sane S) (hS' : Sane S') (ha : Alike S S')
    (h : Gives S u a S1) : ∃ S1', Gives S' u a S1' ∧ Alike S1 S1' := by
  cases h with
  | register t v =>
    refine ⟨_, .register S' t v, fun i => ?_, ha.fires, fun w => ?_⟩
    · rw [guard_graph, guard_graph]; have := ha.nodes i; rw [guard_graph, guard_graph] at this; exact this
    · rw [peek_withResource hS, peek_withResource hS', ha.reads]
  | trigger s p =>
    refine ⟨_, .trigger S' s p, fun i => ?_, fun w => ?_, ha.reads⟩
    · rw [guard_graph, guard_graph]; have := ha.nodes i; rw [guard_graph, guard_graph] at this; exact this
    · rw [fire_withTrigger hS, fire_withTrigger hS', ha.fires]
  | tx ht hne =>
    obtain ⟨f', S1', h1, h2⟩ := transact_alike hS hS' ha ht hne
    exact ⟨S1', .tx h1 hne, h2⟩
  | update op =>
    refine ⟨_, .update S' op, fun i => ?_, ha.fires, ha.reads⟩
    have e : ∀ g : Graph σ.K σ.T, g.applyOp op = g.commit [op] := fun _ => rfl
    have hn := ha.nodes i
    simp only [guard_graph] at hn ⊢
    rw [e, e, get_commit _ hS'.valid, get_commit _ hS.valid]
    exact applyAll_local _ _ _ _ hn
  | get i => exact ⟨S', by rw [← ha.nodes i]; exact .get S' i, ha⟩
  | iter =>
    refine ⟨S', ?_, ha⟩
    have : S.guard.iter = S'.guard.iter :=
      iter_ext (by rw [guard_graph]; exact hS.valid) (by rw [guard_graph]; exact hS'.valid) fun q => (ha.nodes q).symm
    rw [this]; exact .iter S'
  | read t => exact ⟨S', by rw [← ha.reads t]; exact .read S' t, ha⟩
  | write t f =>
    refine ⟨{ S' with heap := ((S'.env.resources.res t).withMut S'.heap fun v => ((f v).1, if (f v).2 then none else some ())).2 },
      ?_, fun i => ?_, ha.fires, fun w => ?_⟩
    · have : ((S.env.resources.res t).withMut S.heap fun v => ((f v).1, if (f v).2 then none else some ())).1 =
          ((S'.env.resources.res t).withMut S'.heap fun v => ((f v).1, if (f v).2 then none else some ())).1 := by
        rw [withMut_peek, withMut_peek, ha.reads]
        cases hx : (S.env.resources.res t).peek S.heap with
        | none => rfl
        | some v =>
          obtain ⟨p, hq⟩ := peek_lock hx
          obtain ⟨p', hq'⟩ := peek_lock ((ha.reads t).trans hx)
          rw [hq, hq']
      rw [this]; exact .write S' t f
    · rw [guard_graph, guard_graph]; have := ha.nodes i; rw [guard_graph, guard_graph] at this; exact this
    · show (S'.env.resources.res w).peek _ = (S.env.resources.res w).peek _
      rw [write_reads hS, write_reads hS', ha.reads]; rfl

theorem session_alike [LawfulSig σ] {S S1 : Schema σ} {l : List (Use σ × Seen σ)} (h : Session S l S1) {S' : Schema σ}
    (hS : Sane S) (hS' : Sane S') (ha : Alike S S') : ∃ S1', Session S' l S1' ∧ Alike S1 S1' := by
  induction h generalizing S' with
  | nil S => exact ⟨S', .nil S', ha⟩
  | cons h1 _ ih =>
    obtain ⟨S2, h2, h3⟩ := gives_alike hS hS' ha h1
    obtain ⟨S3, h4, h5⟩ := ih (sane_gives hS h1) (sane_gives hS' h2) h3
    exact ⟨S3, .cons h2 h4, h5⟩

end Plotline
