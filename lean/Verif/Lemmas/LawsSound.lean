import Verif.Lemmas.Laws

/-! Rewriting by the laws is not noticed: states that cannot be told apart. -/

namespace Plotline

set_option linter.unusedSectionVars false

variable {σ : Sig}

theorem lastOp_says (l : List (Operation σ.K σ.T)) (i : σ.K) : lastOp l i = says l i := by
  induction l with
  | nil => rfl
  | cons o l ih =>
    rw [lastOp, ih, show o :: l = [o] ++ l from rfl, says_append]
    congr 1
    cases o <;> simp only [says, List.reverse_cons, List.reverse_nil, List.nil_append, List.find?_cons, List.find?_nil, Operation.leaves] <;>
      (split <;> rename_i h <;> simp_all)

theorem lastOp_append (a b : List (Operation σ.K σ.T)) (i : σ.K) : lastOp (a ++ b) i = (lastOp b i).or (lastOp a i) := by
  simp only [lastOp_says, says_append]

section
variable {K T : Type} [BEq K] [Identify T K]

/-- A context that cannot be told from another. -/
structure FrameSim (fr fr' : Frame K T) : Prop where
  parent : fr'.parent = fr.parent
  target : fr'.target = fr.target
  leaked : fr'.leaked = fr.leaked
  says : ∀ i, lastOp fr'.ops i = lastOp fr.ops i

inductive OptSim : Option (Frame K T) → Option (Frame K T) → Prop
  | none : OptSim none none
  | some {fr fr' : Frame K T} : FrameSim fr fr' → OptSim (some fr) (some fr')

theorem FrameSim.refl (fr : Frame K T) : FrameSim fr fr := ⟨rfl, rfl, rfl, fun _ => rfl⟩
theorem FrameSim.symm {fr fr' : Frame K T} (h : FrameSim fr fr') : FrameSim fr' fr :=
  ⟨h.1.symm, h.2.symm, h.3.symm, fun i => (h.4 i).symm⟩
theorem FrameSim.trans {a b c : Frame K T} (h : FrameSim a b) (h' : FrameSim b c) : FrameSim a c :=
  ⟨h'.1.trans h.1, h'.2.trans h.2, h'.3.trans h.3, fun i => (h'.4 i).trans (h.4 i)⟩

theorem OptSim.refl (a : Option (Frame K T)) : OptSim a a := by
  cases a with
  | none => exact .none
  | some a => exact .some (.refl a)
theorem OptSim.symm {a b : Option (Frame K T)} (h : OptSim a b) : OptSim b a := by
  cases h with
  | none => exact .none
  | some h => exact .some h.symm
theorem OptSim.trans {a b c : Option (Frame K T)} (h : OptSim a b) (h' : OptSim b c) : OptSim a c := by
  cases h with
  | none => exact h'
  | some h => cases h' with | some h' => exact .some (h.trans h')

end

/-- States that cannot be told apart. -/
structure StSim (s s' : St σ) : Prop where
  own : ∀ i n, s.graph.get i = some n → (id n == i) = true
  graph : ∀ i, s'.graph.get i = s.graph.get i
  frames : ∀ a : Nat, OptSim s.frames[a]? s'.frames[a]?
  heap : s'.heap = s.heap
  locks : s'.locks = s.locks

namespace StSim

theorem symm {s s' : St σ} (h : StSim s s') : StSim s' s :=
  ⟨fun i n hn => h.own i n (by rw [← h.graph]; exact hn), fun i => (h.2 i).symm, fun a => (h.3 a).symm, h.4.symm, h.5.symm⟩
theorem trans {a b c : St σ} (h : StSim a b) (h' : StSim b c) : StSim a c :=
  ⟨h.own, fun i => (h'.2 i).trans (h.2 i), fun i => (h.3 i).trans (h'.3 i), h'.4.trans h.4, h'.5.trans h.5⟩
theorem left {s s' : St σ} (h : StSim s s') : StSim s s := h.trans h.symm

theorem length {s s' : St σ} (h : StSim s s') : s'.frames.length = s.frames.length := by
  apply Nat.le_antisymm
  · rcases Nat.lt_or_ge s.frames.length s'.frames.length with hlt | hge
    · have := h.frames s.frames.length
      rw [List.getElem?_eq_none (Nat.le_refl _), List.getElem?_eq_getElem hlt] at this
      cases this
    · exact hge
  · rcases Nat.lt_or_ge s'.frames.length s.frames.length with hlt | hge
    · have := h.frames s'.frames.length
      rw [List.getElem?_eq_none (Nat.le_refl _), List.getElem?_eq_getElem hlt] at this
      cases this
    · exact hge

theorem modify {s s' : St σ} (h : StSim s s') (f : Nat) {u u' : Frame σ.K σ.T → Frame σ.K σ.T}
    (hu : ∀ fr fr', FrameSim fr fr' → FrameSim (u fr) (u' fr')) :
    StSim { s with frames := s.frames.modify f u } { s' with frames := s'.frames.modify f u' } := by
  refine ⟨h.own, h.graph, fun a => ?_, h.heap, h.locks⟩
  simp only [List.getElem?_modify]
  have := h.frames a
  generalize s.frames[a]? = x at this ⊢
  generalize s'.frames[a]? = y at this ⊢
  cases this with
  | none => exact .none
  | some hfr =>
    simp only [Option.map_eq_map, Option.map_some]
    split
    · exact .some (hu _ _ hfr)
    · exact .some hfr

theorem pushOps {s s' : St σ} (h : StSim s s') (f : Nat) {l l' : List (Operation σ.K σ.T)} (hl : ∀ i, lastOp l' i = lastOp l i) :
    StSim { s with frames := s.frames.modify f fun fr => { fr with ops := fr.ops ++ l } }
      { s' with frames := s'.frames.modify f fun fr => { fr with ops := fr.ops ++ l' } } :=
  h.modify f fun _ _ hf => ⟨hf.1, hf.2, hf.3, fun i => by rw [lastOp_append, lastOp_append, hl, hf.4]⟩

theorem pushOp {s s' : St σ} (h : StSim s s') (f : Nat) (o : Operation σ.K σ.T) : StSim (pushOp s f o) (pushOp s' f o) :=
  h.pushOps f fun _ => rfl

theorem setTarget {s s' : St σ} (h : StSim s s') (f : Nat) (n : σ.T) : StSim (setTarget s f n) (setTarget s' f n) :=
  h.modify f fun _ _ hf => ⟨hf.1, rfl, hf.3, hf.4⟩

theorem writeTarget {s s' : St σ} (h : StSim s s') (f : Nat) (n : σ.T) (b : Bool) : StSim (writeTarget s f n b) (writeTarget s' f n b) :=
  h.modify f fun _ _ hf => ⟨hf.1, rfl, hf.3, hf.4⟩

theorem leakFrame {s s' : St σ} (h : StSim s s') (f : Nat) : StSim (leakFrame s f) (leakFrame s' f) :=
  h.modify f fun _ _ hf => ⟨hf.1, hf.2, rfl, hf.4⟩

theorem openChild {s s' : St σ} (h : StSim s s') (f : Nat) : StSim (openChild s f) (openChild s' f) := by
  refine ⟨h.own, h.graph, fun a => ?_, h.heap, h.locks⟩
  simp only [Plotline.openChild, List.getElem?_append, h.length]
  split
  · exact h.frames a
  · exact .refl _

theorem closeChild {s s' : St σ} (h : StSim s s') (n : Nat) : StSim (closeChild s n) (closeChild s' n) := by
  refine ⟨h.own, h.graph, fun a => ?_, h.heap, h.locks⟩
  simp only [Plotline.closeChild, List.getElem?_take]
  split
  · exact h.frames a
  · exact .none

theorem commitChild {s s' : St σ} (h : StSim s s') (n : Nat) : StSim (commitChild s n) (commitChild s' n) := by
  have hn := h.frames n
  unfold Plotline.commitChild
  generalize s.frames[n]? = x at hn ⊢
  generalize s'.frames[n]? = y at hn ⊢
  cases hn with
  | none => exact h.closeChild n
  | @some fr fr' hfr =>
    simp only [hfr.leaked, hfr.parent]
    split
    · exact h.closeChild n
    · split
      · exact h.closeChild n
      · exact (h.closeChild n).pushOps _ hfr.says

theorem withHeap {s s' : St σ} (h : StSim s s') (hp : Heap σ.Val) : StSim { s with heap := hp } { s' with heap := hp } :=
  ⟨h.own, h.graph, h.frames, rfl, h.locks⟩

theorem lockRes {s s' : St σ} (h : StSim s s') (p : Nat) (excl : Bool) : StSim (lockRes s p excl) (lockRes s' p excl) :=
  ⟨h.own, h.graph, h.frames, h.heap, by simp only [Plotline.lockRes, h.locks]⟩

theorem unlockRes {s s' : St σ} (h : StSim s s') : StSim (unlockRes s) (unlockRes s') :=
  ⟨h.own, h.graph, h.frames, h.heap, by simp only [Plotline.unlockRes, h.locks]⟩

theorem unwindRes {s s' : St σ} (h : StSim s s') (p : Nat) (excl : Bool) : StSim (unwindRes s p excl) (unwindRes s' p excl) :=
  ⟨h.own, h.graph, h.frames, by simp only [Plotline.unwindRes, h.heap], by simp only [Plotline.unwindRes, h.locks]⟩

theorem assignRes {s s' : St σ} (h : StSim s s') (p : Nat) (t : σ.Ty) (x : σ.Val t) : StSim (assignRes s p t x) (assignRes s' p t x) :=
  ⟨h.own, h.graph, h.frames, by simp only [Plotline.assignRes, h.heap], h.locks⟩

theorem readTarget {s s' : St σ} (h : StSim s s') (f : Nat) : readTarget s' f = readTarget s f := by
  have hf := h.frames f
  unfold Plotline.readTarget
  generalize s.frames[f]? = x at hf ⊢
  generalize s'.frames[f]? = y at hf ⊢
  cases hf with
  | none => rfl
  | some hfr => simp only [hfr.target]

theorem blocks {s s' : St σ} (h : StSim s s') (p : Nat) (excl : Bool) : s'.blocks p excl = s.blocks p excl := by
  simp only [St.blocks, h.locks]

theorem resBlocks {s s' : St σ} (h : StSim s s') (E : Env σ) (t : σ.Ty) (excl : Bool) : s'.resBlocks E t excl = s.resBlocks E t excl := by
  unfold St.resBlocks
  split
  · rfl
  · exact h.blocks _ _

end StSim

theorem ctxGet_says {g : Graph σ.K σ.T} {fs : List (Frame σ.K σ.T)} {f : Nat} {fr : Frame σ.K σ.T} (hf : fs[f]? = some fr) (i : σ.K) :
    ctxGet g fs f i = (lastOp fr.ops i).getD
      (match fr.parent with | none => g.get i | some p => if p < f then ctxGet g fs p i else g.get i) := by
  rw [ctxGet_some hf, lastOp_says, says]
  split <;> rename_i h <;> simp only [h] <;> rfl

/-- A lookup depends on what the logs around say of the id, and on the graph. -/
theorem ctxGet_sim_at {g g' : Graph σ.K σ.T} {fs fs' : List (Frame σ.K σ.T)} (i : σ.K) (hg : g'.get i = g.get i) (f : Nat)
    (h : ∀ a : Nat, a ≤ f → (fs'[a]?).map (fun fr => (fr.parent, lastOp fr.ops i)) = (fs[a]?).map (fun fr => (fr.parent, lastOp fr.ops i))) :
    ctxGet g' fs' f i = ctxGet g fs f i := by
  induction f using Nat.strongRecOn with
  | _ f ih =>
    have h0 := h f (Nat.le_refl f)
    cases hf : fs[f]? with
    | none =>
      rw [hf] at h0
      cases hf' : fs'[f]? with
      | none => rw [ctxGet, ctxGet]; simpa [hf, hf'] using hg
      | some fr' => rw [hf'] at h0; simp at h0
    | some fr =>
      rw [hf] at h0
      cases hf' : fs'[f]? with
      | none => rw [hf'] at h0; simp at h0
      | some fr' =>
        rw [hf'] at h0
        simp only [Option.map_some, Option.some.injEq, Prod.mk.injEq] at h0
        rw [ctxGet_says hf, ctxGet_says hf', h0.1, h0.2]
        cases fr.parent with
        | none => simp only [hg]
        | some p =>
          simp only
          split
          · rename_i hlt
            rw [ih p hlt fun a ha => h a (by omega)]
          · rw [hg]

theorem StSim.ctxGet {s s' : St σ} (h : StSim s s') (f : Nat) (i : σ.K) :
    ctxGet s'.graph s'.frames f i = ctxGet s.graph s.frames f i := by
  refine ctxGet_sim_at i (h.graph i) f fun a _ => ?_
  have := h.frames a
  generalize s.frames[a]? = x at this ⊢
  generalize s'.frames[a]? = y at this ⊢
  cases this with
  | none => rfl
  | some hf => simp only [Option.map_some, hf.parent, hf.says]

theorem StSim.ctxContains {s s' : St σ} (h : StSim s s') (f : Nat) (i : σ.K) :
    ctxContains s'.graph s'.frames f i = ctxContains s.graph s.frames f i := by
  rw [ctxContains_eq, ctxContains_eq, h.ctxGet]

/-! ## Outcomes that cannot be told apart -/

inductive Rel {α : Type} (n : Nat) : Option (Out α × St σ) → Option (Out α × St σ) → Prop
  | none : Rel n none none
  | stuck (s s' : St σ) : Rel n (some (.stuck, s)) (some (.stuck, s'))
  | ends (o : Out α) {s s' : St σ} : StSim s s' → s.frames.length = n → Rel n (some (o, s)) (some (o, s'))

theorem Rel.symm {α : Type} {n : Nat} {x y : Option (Out α × St σ)} (h : Rel n x y) : Rel n y x := by
  cases h with
  | none => exact .none
  | stuck s s' => exact .stuck s' s
  | ends o h hn => exact .ends o h.symm (h.length.trans hn)

theorem Rel.trans {α : Type} {n : Nat} {x y z : Option (Out α × St σ)} (h : Rel n x y) (h' : Rel n y z) : Rel n x z := by
  cases h with
  | none => exact h'
  | stuck s s' =>
    cases h' with
    | stuck _ s'' => exact .stuck s s''
    | ends o _ _ => exact .stuck _ _
  | ends o h hn =>
    cases h' with
    | stuck _ s'' => exact .stuck _ s''
    | ends _ h' _ => exact .ends o (h.trans h') hn

/-- Firing triggers gives the same in states that cannot be told apart. -/
def FireRel (fire fire' : Firing σ) : Prop :=
  ∀ f sch s s', f < s.frames.length → StSim s s' → Rel s.frames.length (fire f sch s) (fire' f sch s')

theorem FireRel.symm {fire fire' : Firing σ} (h : FireRel fire fire') : FireRel fire' fire := fun f sch s s' hf hs => by
  have := (h f sch s' s (hs.length ▸ hf) hs.symm).symm
  rwa [hs.length] at this

theorem FireRel.left {fire fire' : Firing σ} (h : FireRel fire fire') : FireRel fire fire := fun f sch s s' hf hs =>
  (h f sch s s' hf hs).trans (by
    have := h.symm f sch s' s' (hs.length ▸ hf) hs.symm.left
    rwa [hs.length] at this)

/-- Schedulers without triggers. -/
def Silent (quiet : Sched → Prop) (fire : Firing σ) : Prop := ∀ f sch s, quiet sch → fire f sch s = some (.ret (.ok ()), s)

/-- `d` contexts are in scope, all of them there, the innermost opened last. -/
structure ScopedEnv (d : Nat) (env : List Nat) (n : Nat) : Prop where
  long : d ≤ env.length
  sorted : env.Pairwise (· > ·)
  inside : ∀ e ∈ env, e < n

theorem ScopedEnv.open {d : Nat} {env : List Nat} {n : Nat} (h : ScopedEnv d env n) : ScopedEnv (d + 1) (n :: env) (n + 1) :=
  ⟨by simpa using h.long, List.pairwise_cons.mpr ⟨fun e he => h.inside e he, h.sorted⟩,
    fun e he => by
      rcases List.mem_cons.mp he with rfl | he
      · exact Nat.lt_succ_self _
      · exact Nat.lt_succ_of_lt (h.inside e he)⟩

theorem ScopedEnv.at {d : Nat} {env : List Nat} {n c : Nat} (h : ScopedEnv d env n) (hc : c < d) : ∃ f, env[c]? = some f ∧ f < n := by
  have hlt : c < env.length := Nat.lt_of_lt_of_le hc h.long
  exact ⟨env[c], List.getElem?_eq_getElem hlt, h.inside _ (List.getElem_mem hlt)⟩

theorem ScopedEnv.lt {d : Nat} {env : List Nat} {n c f : Nat} (h : ScopedEnv d env n) (hc : env[c]? = some f) : f < n :=
  h.inside _ (List.mem_of_getElem? hc)

theorem ScopedEnv.inner {d : Nat} {env : List Nat} {n c c' f f' : Nat} (h : ScopedEnv d env n) (hc : env[c]? = some f) (hc' : env[c']? = some f')
    (hlt : c < c') : f' < f := by
  obtain ⟨h1, rfl⟩ := List.getElem?_eq_some_iff.mp hc
  obtain ⟨h2, rfl⟩ := List.getElem?_eq_some_iff.mp hc'
  exact List.pairwise_iff_getElem.mp h.sorted _ _ h1 h2 hlt

/-- Programs that cannot be told apart. -/
def Equiv (quiet : Sched → Prop) (d : Nat) (p q : Prog σ) : Prop :=
  ∀ (R : ResourceSet σ.Ty) (fire fire' : Firing σ), FireRel fire fire' → Silent quiet fire → Silent quiet fire' →
    ∀ (env : List Nat) (s s' : St σ), ScopedEnv d env s.frames.length → StSim s s' →
      Rel s.frames.length (evalBy R fire p env s) (evalBy R fire' q env s')

/-! ## Inside of other programs -/

namespace Equiv
variable {quiet : Sched → Prop} {d : Nat}

theorem symm {p q : Prog σ} (h : Equiv quiet d p q) : Equiv quiet d q p := fun R fire fire' hf hq hq' env s s' hsc hs => by
  have := (h R fire' fire hf.symm hq' hq env s' s (hs.length ▸ hsc) hs.symm).symm
  rwa [hs.length] at this

theorem trans {p q r : Prog σ} (h : Equiv quiet d p q) (h' : Equiv quiet d q r) : Equiv quiet d p r :=
  fun R fire fire' hf hq hq' env s s' hsc hs =>
    (h R fire fire hf.left hq hq env s s hsc hs.left).trans (h' R fire fire' hf hq hq' env s s' hsc hs)

theorem done (r : Except Error σ.V) : Equiv quiet d (.done r) (.done r) :=
  fun _ _ _ _ _ _ _ _ _ _ hs => .ends _ hs rfl

theorem panic : Equiv quiet d (.panic : Prog σ) .panic := fun _ _ _ _ _ _ _ _ _ _ hs => .ends _ hs rfl

theorem reenter : Equiv quiet d (.reenter : Prog σ) .reenter := fun _ _ _ _ _ _ _ _ _ _ _ => .stuck _ _

theorem length_pushOp (s : St σ) (f : Nat) (o : Operation σ.K σ.T) : (pushOp s f o).frames.length = s.frames.length := by
  simp [pushOp]

theorem op (c : Nat) (o : Operation σ.K σ.T) {k k' : Prog σ} (h : Equiv quiet d k k') : Equiv quiet d (.op c o k) (.op c o k') :=
  fun R fire fire' hf hq hq' env s s' hsc hs => by
    have key : Rel s.frames.length
        (match env[c]? with | none => some (.stuck, s) | some f => evalBy R fire k env (pushOp s f o))
        (match env[c]? with | none => some (.stuck, s') | some f => evalBy R fire' k' env (pushOp s' f o)) := by
      cases env[c]? with
      | none => exact .stuck _ _
      | some f =>
        have := h R fire fire' hf hq hq' env _ _ (by rw [length_pushOp]; exact hsc) (hs.pushOp f o)
        rwa [length_pushOp] at this
    cases o <;> exact key

theorem get (c : Nat) (i : σ.K) {k k' : Option σ.T → Prog σ} (h : ∀ a, Equiv quiet d (k a) (k' a)) :
    Equiv quiet d (.get c i k) (.get c i k') := fun R fire fire' hf hq hq' env s s' hsc hs => by
  simp only [evalBy]
  cases env[c]? with
  | none => exact .stuck _ _
  | some f => simp only [hs.ctxGet]; exact h _ R fire fire' hf hq hq' env _ _ hsc hs

theorem contains (c : Nat) (i : σ.K) {k k' : Bool → Prog σ} (h : ∀ a, Equiv quiet d (k a) (k' a)) :
    Equiv quiet d (.contains c i k) (.contains c i k') := fun R fire fire' hf hq hq' env s s' hsc hs => by
  simp only [evalBy]
  cases env[c]? with
  | none => exact .stuck _ _
  | some f => simp only [hs.ctxContains]; exact h _ R fire fire' hf hq hq' env _ _ hsc hs

theorem length_openChild (s : St σ) (f : Nat) : (openChild s f).frames.length = s.frames.length + 1 := by simp [openChild]

theorem length_closeChild {s : St σ} {n : Nat} (h : s.frames.length = n + 1) : (closeChild s n).frames.length = n := by
  simp [closeChild, h]

theorem length_commitChild {s : St σ} {n : Nat} (h : s.frames.length = n + 1) : (commitChild s n).frames.length = n := by
  unfold commitChild
  split
  · exact length_closeChild h
  · split
    · exact length_closeChild h
    · split
      · exact length_closeChild h
      · simp [h]

theorem tx (c : Nat) {b b' : Prog σ} {k k' : Except Error σ.V → Prog σ} (hb : Equiv quiet (d + 1) b b')
    (h : ∀ a, Equiv quiet d (k a) (k' a)) : Equiv quiet d (.tx c b k) (.tx c b' k') :=
  fun R fire fire' hf hq hq' env s s' hsc hs => by
    simp only [evalBy]
    cases env[c]? with
    | none => exact .stuck _ _
    | some f =>
      have hr := hb R fire fire' hf hq hq' (s.frames.length :: env) (openChild s f) (openChild s' f)
        (by rw [length_openChild]; exact hsc.open) (hs.openChild f)
      rw [length_openChild] at hr
      simp only [hs.length]
      generalize evalBy R fire b (s.frames.length :: env) (openChild s f) = x at hr ⊢
      generalize evalBy R fire' b' (s.frames.length :: env) (openChild s' f) = y at hr ⊢
      cases hr with
      | none => exact .none
      | stuck _ _ => exact .stuck _ _
      | ends o h1 hn =>
        have l1 := length_closeChild hn
        have l2 := length_commitChild hn
        rcases o with (e | v) | _ | _
        · have := h (.error e) R fire fire' hf hq hq' env _ _ (by rw [l1]; exact hsc) (h1.closeChild s.frames.length)
          rwa [l1] at this
        · have := h (.ok v) R fire fire' hf hq hq' env _ _ (by rw [l2]; exact hsc) (h1.commitChild s.frames.length)
          rwa [l2] at this
        · exact .ends _ (h1.closeChild _) l1
        · exact .stuck _ _

theorem runTriggers (c : Nat) (sch : Sched) {k k' : Except Error Unit → Prog σ} (h : ∀ a, Equiv quiet d (k a) (k' a)) :
    Equiv quiet d (.runTriggers c sch k) (.runTriggers c sch k') := fun R fire fire' hf hq hq' env s s' hsc hs => by
  simp only [evalBy]
  cases hc : env[c]? with
  | none => exact .stuck _ _
  | some f =>
    simp only
    have hr := hf f sch s s' (hsc.lt hc) hs
    generalize fire f sch s = x at hr ⊢
    generalize fire' f sch s' = y at hr ⊢
    cases hr with
    | none => exact .none
    | stuck _ _ => exact .stuck _ _
    | ends o h1 hn =>
      rcases o with r | _ | _
      · have := h r R fire fire' hf hq hq' env _ _ (by rw [hn]; exact hsc) h1
        rwa [hn] at this
      · exact .ends _ h1 hn
      · exact .stuck _ _

theorem length_setTarget (s : St σ) (f : Nat) (n : σ.T) : (setTarget s f n).frames.length = s.frames.length := by simp [setTarget]
theorem length_writeTarget (s : St σ) (f : Nat) (n : σ.T) (b : Bool) : (writeTarget s f n b).frames.length = s.frames.length := by
  simp [writeTarget]
theorem length_leakFrame (s : St σ) (f : Nat) : (leakFrame s f).frames.length = s.frames.length := by simp [leakFrame]

theorem withTarget (n : σ.T) {k k' : Prog σ} (h : Equiv quiet d k k') : Equiv quiet d (.withTarget n k) (.withTarget n k') :=
  fun R fire fire' hf hq hq' env s s' hsc hs => by
    simp only [evalBy]
    cases env[0]? with
    | none => exact .stuck _ _
    | some f =>
      have := h R fire fire' hf hq hq' env _ _ (by rw [length_setTarget]; exact hsc) (hs.setTarget f n)
      rwa [length_setTarget] at this

theorem targetRead (c : Nat) {k k' : Option σ.T → Prog σ} (h : ∀ a, Equiv quiet d (k a) (k' a)) :
    Equiv quiet d (.targetRead c k) (.targetRead c k') := fun R fire fire' hf hq hq' env s s' hsc hs => by
  simp only [evalBy]
  cases env[c]? with
  | none => exact .stuck _ _
  | some f => simp only [hs.readTarget]; exact h _ R fire fire' hf hq hq' env _ _ hsc hs

theorem targetWrite (c : Nat) (fn : σ.T → σ.T × Bool) {k k' : Bool → Prog σ} (h : ∀ a, Equiv quiet d (k a) (k' a)) :
    Equiv quiet d (.targetWrite c fn k) (.targetWrite c fn k') := fun R fire fire' hf hq hq' env s s' hsc hs => by
  simp only [evalBy]
  cases env[c]? with
  | none => exact .stuck _ _
  | some f =>
    simp only [hs.readTarget]
    split
    · exact h _ R fire fire' hf hq hq' env _ _ hsc hs
    · split
      · have := h true R fire fire' hf hq hq' env _ _ (by rw [length_writeTarget]; exact hsc) (hs.writeTarget f ‹_› false)
        rwa [length_writeTarget] at this
      · exact .ends _ (hs.writeTarget _ _ _) (length_writeTarget _ _ _ _)

theorem resRead (t : σ.Ty) {k k' : Option (σ.Val t) → Prog σ} (h : ∀ a, Equiv quiet d (k a) (k' a)) :
    Equiv quiet d (.resRead t k) (.resRead t k') := fun R fire fire' hf hq hq' env s s' hsc hs => by
  simp only [evalBy, hs.resBlocks, hs.heap]
  split
  · exact .stuck _ _
  · exact h _ R fire fire' hf hq hq' env _ _ hsc hs

theorem resWrite (t : σ.Ty) (fn : σ.Val t → σ.Val t × Bool) {k k' : Bool → Prog σ} (h : ∀ a, Equiv quiet d (k a) (k' a)) :
    Equiv quiet d (.resWrite t fn k) (.resWrite t fn k') := fun R fire fire' hf hq hq' env s s' hsc hs => by
  simp only [evalBy, hs.resBlocks, hs.heap]
  split
  · exact .stuck _ _
  · split
    · exact h _ R fire fire' hf hq hq' env _ _ hsc hs
    · rename_i hp _
      exact h true R fire fire' hf hq hq' env { s with heap := hp } { s' with heap := hp } hsc (hs.withHeap hp)
    · exact .ends _ (hs.withHeap _) rfl

theorem resScope (t : σ.Ty) (excl : Bool) {b b' : σ.Val t → Prog σ} {k k' : Option (Except Error σ.V) → Prog σ}
    (hb : ∀ a, Equiv quiet d (b a) (b' a)) (h : ∀ a, Equiv quiet d (k a) (k' a)) :
    Equiv quiet d (.resScope t excl b k) (.resScope t excl b' k') := fun R fire fire' hf hq hq' env s s' hsc hs => by
  simp only [evalBy, hs.blocks, hs.heap]
  cases (R.res t).lock with
  | none => exact h _ R fire fire' hf hq hq' env _ _ hsc hs
  | some p =>
    simp only
    split
    · exact .stuck _ _
    · cases (R.res t).peek s.heap with
      | none => exact h _ R fire fire' hf hq hq' env _ _ hsc hs
      | some v =>
        simp only
        have hr := hb v R fire fire' hf hq hq' env (lockRes s p excl) (lockRes s' p excl) hsc (hs.lockRes p excl)
        generalize evalBy R fire (b v) env (lockRes s p excl) = x at hr ⊢
        generalize evalBy R fire' (b' v) env (lockRes s' p excl) = y at hr ⊢
        cases hr with
        | none => exact .none
        | stuck _ _ => exact .stuck _ _
        | @ends o s1 s1' h1 hn =>
          have hn' : s1.frames.length = s.frames.length := hn
          rcases o with _ | _ | _
          · have := h (some ‹_›) R fire fire' hf hq hq' env (unlockRes s1) (unlockRes s1') (by show ScopedEnv d env s1.frames.length; rw [hn']; exact hsc) h1.unlockRes
            rw [show (unlockRes s1).frames.length = s.frames.length from hn] at this
            exact this
          · exact .ends _ (h1.unwindRes _ _) hn
          · exact .stuck _ _

theorem resAssign (t : σ.Ty) (x : σ.Val t) {k k' : Prog σ} (h : Equiv quiet d k k') : Equiv quiet d (.resAssign t x k) (.resAssign t x k') :=
  fun R fire fire' hf hq hq' env s s' hsc hs => by
    simp only [evalBy, hs.locks]
    cases (R.res t).lock with
    | none => exact .stuck _ _
    | some p =>
      simp only
      split
      · exact h R fire fire' hf hq hq' env (assignRes s p t x) (assignRes s' p t x) hsc (hs.assignRes _ _ _)
      · exact .stuck _ _

theorem catchUnwind {b b' : Prog σ} {k k' : Option (Except Error σ.V) → Prog σ} (hb : Equiv quiet d b b')
    (h : ∀ a, Equiv quiet d (k a) (k' a)) : Equiv quiet d (.catchUnwind b k) (.catchUnwind b' k') :=
  fun R fire fire' hf hq hq' env s s' hsc hs => by
    simp only [evalBy]
    have hr := hb R fire fire' hf hq hq' env s s' hsc hs
    generalize evalBy R fire b env s = x at hr ⊢
    generalize evalBy R fire' b' env s' = y at hr ⊢
    cases hr with
    | none => exact .none
    | stuck _ _ => exact .stuck _ _
    | ends o h1 hn =>
      rcases o with r | _ | _
      · have := h (some r) R fire fire' hf hq hq' env _ _ (by rw [hn]; exact hsc) h1
        rwa [hn] at this
      · have := h none R fire fire' hf hq hq' env _ _ (by rw [hn]; exact hsc) h1
        rwa [hn] at this
      · exact .stuck _ _

theorem forget {k k' : Prog σ} (h : Equiv quiet d k k') : Equiv quiet d (.forget k) (.forget k') :=
  fun R fire fire' hf hq hq' env s s' hsc hs => by
    simp only [evalBy]
    cases env[0]? with
    | none => exact .stuck _ _
    | some f =>
      have := h R fire fire' hf hq hq' env _ _ (by rw [length_leakFrame]; exact hsc) (hs.leakFrame f)
      rwa [length_leakFrame] at this

/-- Every program does the same in states that cannot be told apart. -/
theorem refl (p : Prog σ) : ∀ d, Equiv quiet d p p := by
  induction p with
  | done r => exact fun _ => .done r
  | panic => exact fun _ => .panic
  | reenter => exact fun _ => .reenter
  | save c n k ih => exact fun d => .op c (.save n) (ih d)
  | delete c i k ih => exact fun d => .op c (.delete i) (ih d)
  | get c i k ih => exact fun d => .get c i fun a => ih a d
  | contains c i k ih => exact fun d => .contains c i fun a => ih a d
  | tx c b k ihb ih => exact fun d => .tx c (ihb _) fun a => ih a d
  | runTriggers c s k ih => exact fun d => .runTriggers c s fun a => ih a d
  | withTarget n k ih => exact fun d => .withTarget n (ih d)
  | targetRead c k ih => exact fun d => .targetRead c fun a => ih a d
  | targetWrite c f k ih => exact fun d => .targetWrite c f fun a => ih a d
  | resRead t k ih => exact fun d => .resRead t fun a => ih a d
  | resWrite t f k ih => exact fun d => .resWrite t f fun a => ih a d
  | resScope t e b k ihb ih => exact fun d => .resScope t e (fun v => ihb v d) fun a => ih a d
  | resAssign t x k ih => exact fun d => .resAssign t x (ih d)
  | catchUnwind b k ihb ih => exact fun d => .catchUnwind (ihb d) fun a => ih a d
  | forget k ih => exact fun d => .forget (ih d)

end Equiv

end Plotline
