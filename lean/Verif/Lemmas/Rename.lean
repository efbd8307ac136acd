import Verif.Spec.Rename
import Verif.Lemmas.Alike

/-! The machine on other ids. -/

namespace Plotline

open Std

set_option linter.unusedSectionVars false

variable {σ : Sig} {L : Type} [Ord L] [BEq L] {φ : σ.K → L}

/-! ## Graphs -/

/-- Graphs in order, with the same answers. -/
structure GraphLike (φ : σ.K → L) (g : Graph σ.K σ.T) (g' : Graph (σ.renamed L φ).K (σ.renamed L φ).T) : Prop where
  valid : g.Valid
  valid' : g'.Valid
  get : ∀ i, g'.get (φ i) = g.get i

theorem faithful_op (hφ : Faithful φ) (op : Operation σ.K σ.T) (i : σ.K) :
    ((Operation.rename φ op : Operation (σ.renamed L φ).K (σ.renamed L φ).T).id == φ i) = (op.id == i) := by
  cases op with
  | save n => exact hφ _ _
  | delete j => exact hφ _ _

theorem find_rename (hφ : Faithful φ) (i : σ.K) (l : List (Operation σ.K σ.T)) :
    (l.map (Operation.rename φ)).find? (fun op : Operation (σ.renamed L φ).K (σ.renamed L φ).T => op.id == φ i) =
      (l.find? fun op => op.id == i).map (Operation.rename φ) := by
  induction l with
  | nil => rfl
  | cons op l ih =>
    simp only [List.map_cons, List.find?_cons]
    rw [faithful_op hφ]
    cases op.id == i with
    | true => rfl
    | false => exact ih

theorem graphLike_applyOp [LawfulSig σ] [TransOrd L] [LawfulBEqOrd L] (hφ : Faithful φ) {g : Graph σ.K σ.T}
    {g' : Graph (σ.renamed L φ).K (σ.renamed L φ).T} (h : GraphLike φ g g') (op : Operation σ.K σ.T) :
    GraphLike φ (g.applyOp op) (g'.applyOp (op.rename φ)) := by
  refine ⟨valid_applyOp g h.valid op, valid_applyOp g' h.valid' _, fun i => ?_⟩
  rw [get_applyOp g h.valid, get_applyOp g' h.valid']
  cases op with
  | save n =>
    change (if φ i == φ (id n) then some n else g'.get (φ i)) = if i == id n then some n else g.get i
    rw [hφ, h.get]
  | delete j =>
    change (if φ i == φ j then none else g'.get (φ i)) = if i == j then none else g.get i
    rw [hφ, h.get]

theorem graphLike_commit [LawfulSig σ] [TransOrd L] [LawfulBEqOrd L] (hφ : Faithful φ) (ops : List (Operation σ.K σ.T)) :
    ∀ {g : Graph σ.K σ.T} {g' : Graph (σ.renamed L φ).K (σ.renamed L φ).T}, GraphLike φ g g' →
      GraphLike φ (g.commit ops) (g'.commit (ops.map (Operation.rename φ))) := by
  induction ops with
  | nil => intro g g' h; exact h
  | cons op ops ih => intro g g' h; exact ih (graphLike_applyOp hφ h op)

instance [LawfulSig σ] [TransOrd L] [LawfulBEqOrd L] : LawfulSig (σ.renamed L φ) where
  transK := inferInstanceAs (TransOrd L)
  beqK := inferInstanceAs (LawfulBEqOrd L)
  transTy := inferInstanceAs (TransOrd σ.Ty)
  eqTy := inferInstanceAs (LawfulEqOrd σ.Ty)

theorem graphLike_mem [LawfulSig σ] [TransOrd L] [LawfulBEqOrd L] {g : Graph σ.K σ.T}
    {g' : Graph (σ.renamed L φ).K (σ.renamed L φ).T} (h : GraphLike φ g g') (n : σ.T) : n ∈ g'.iter ↔ n ∈ g.iter := by
  rw [Graph.mem_iter g h.valid]
  refine (Graph.mem_iter g' h.valid' n).trans ?_
  exact (h.get (id n)) ▸ Iff.rfl

theorem likeIter_nodup {K T : Type} [Ord K] [TransOrd K] [BEq K] [LawfulBEqOrd K] [Identify T K] {g : Graph K T} (hg : g.Valid) :
    g.iter.Nodup :=
  (Graph.iter_sorted g hg).imp fun {a b} h e => by
    subst e
    rw [ReflCmp.compare_self (cmp := compare)] at h
    cases h

theorem graphLike_perm [LawfulSig σ] [TransOrd L] [LawfulBEqOrd L] {g : Graph σ.K σ.T}
    {g' : Graph (σ.renamed L φ).K (σ.renamed L φ).T} (h : GraphLike φ g g') : g'.iter.Perm g.iter :=
  have h1 : g.iter.Nodup := likeIter_nodup h.valid
  (List.perm_ext_iff_of_nodup (likeIter_nodup (K := L) (g := g') h.valid') h1).2 (graphLike_mem h)

/-! ## Contexts -/

/-- The context with the ids of its log replaced. -/
def Frame.rename {K L T : Type} (φ : K → L) (fr : Frame K T) : Frame L T :=
  { parent := fr.parent, ops := fr.ops.map (Operation.rename φ), target := fr.target, leaked := fr.leaked }

/-- States with the same resources, and ids replaced. -/
structure StLike (φ : σ.K → L) (s : St σ) (s' : St (σ.renamed L φ)) : Prop where
  graph : GraphLike φ s.graph s'.graph
  frames : s'.frames = s.frames.map (Frame.rename φ)
  heap : s'.heap = s.heap
  locks : s'.locks = s.locks

/-- What running gives on either side. -/
inductive OutLike {α : Type} (φ : σ.K → L) : Option (Out α × St σ) → Option (Out α × St (σ.renamed L φ)) → Prop
  | none : OutLike φ none none
  | some (o : Out α) {s : St σ} {s' : St (σ.renamed L φ)} : StLike φ s s' → OutLike φ (some (o, s)) (some (o, s'))

/-- The same triggers with ids replaced, and the same resources. -/
structure EnvLike (φ : σ.K → L) (E : Env σ) (E' : Env (σ.renamed L φ)) : Prop where
  entries : E'.triggers.triggers.entries = E.triggers.triggers.entries.map fun e => (e.1, e.2.map (Prog.rename φ))
  resources : E'.resources = E.resources

theorem findL_mapped {K V W : Type} [Ord K] (f : V → W) (k : K) (l : List (K × V)) :
    BTreeMap.findL k (l.map fun e => (e.1, f e.2)) = (BTreeMap.findL k l).map f := by
  induction l with
  | nil => rfl
  | cons e l ih =>
    simp only [List.map_cons, BTreeMap.findL]
    cases compare k e.1 with
    | lt => rfl
    | eq => rfl
    | gt => exact ih

theorem insertL_mapped {K V W : Type} [Ord K] (f : V → W) (k : K) (v : V) (l : List (K × V)) :
    BTreeMap.insertL k (f v) (l.map fun e => (e.1, f e.2)) = (BTreeMap.insertL k v l).map fun e => (e.1, f e.2) := by
  induction l with
  | nil => rfl
  | cons e l ih =>
    simp only [List.map_cons, BTreeMap.insertL]
    cases compare k e.1 with
    | lt => rfl
    | eq => rfl
    | gt => simp only [List.map_cons, ih]

theorem EnvLike.triggers {E : Env σ} {E' : Env (σ.renamed L φ)} (h : EnvLike φ E E') (s : Sched) :
    E'.triggers.select s = (E.triggers.select s).map (List.map (Prog.rename φ)) := by
  unfold TriggerSet.select BTreeMap.get
  rw [h.entries]
  exact findL_mapped _ _ _

theorem EnvLike.withTrigger {E : Env σ} {E' : Env (σ.renamed L φ)} (h : EnvLike φ E E') (s : Sched) (p : Prog σ) :
    EnvLike φ { E with triggers := E.triggers.withTrigger s p } { E' with triggers := E'.triggers.withTrigger s (p.rename φ) } := by
  refine ⟨?_, h.resources⟩
  have h1 := h.triggers s
  unfold TriggerSet.select at h1
  dsimp only
  unfold TriggerSet.withTrigger
  rw [h1]
  cases E.triggers.triggers.get s.typeId with
  | none =>
    simp only [Option.map_none, BTreeMap.insert]
    rw [h.entries, ← insertL_mapped (List.map (Prog.rename φ))]
    rfl
  | some l =>
    simp only [Option.map_some, BTreeMap.insert]
    rw [h.entries, ← insertL_mapped (List.map (Prog.rename φ)), List.map_append]
    rfl

theorem ctxGet_rename (hφ : Faithful φ) {g : Graph σ.K σ.T} {g' : Graph (σ.renamed L φ).K (σ.renamed L φ).T}
    (h : GraphLike φ g g') (frames : List (Frame σ.K σ.T)) (i : σ.K) (f : Nat) :
    ctxGet g' (frames.map (Frame.rename φ)) f (φ i) = ctxGet g frames f i := by
  induction f using Nat.strongRecOn with
  | _ f ih =>
    rw [ctxGet.eq_def, ctxGet.eq_def g]
    simp only [List.getElem?_map]
    cases hf : frames[f]? with
    | none => exact h.get i
    | some fr =>
      simp only [Option.map_some]
      rw [show (fr.rename φ).ops.reverse = fr.ops.reverse.map (Operation.rename φ) from (List.map_reverse ..).symm, find_rename hφ]
      cases fr.ops.reverse.find? (fun op => op.id == i) with
      | some op => cases op <;> rfl
      | none =>
        change (match fr.parent with
          | none => g'.get (φ i)
          | some p => if p < f then ctxGet g' (frames.map (Frame.rename φ)) p (φ i) else g'.get (φ i)) = _
        cases fr.parent with
        | none => exact h.get i
        | some p =>
          dsimp only
          split
          · exact ih p ‹_›
          · exact h.get i

theorem ctxContains_rename (hφ : Faithful φ) {g : Graph σ.K σ.T} {g' : Graph (σ.renamed L φ).K (σ.renamed L φ).T}
    (h : GraphLike φ g g') (frames : List (Frame σ.K σ.T)) (i : σ.K) (f : Nat) :
    ctxContains g' (frames.map (Frame.rename φ)) f (φ i) = ctxContains g frames f i := by
  rw [ctxContains_eq, ctxContains_eq, ctxGet_rename hφ h]

theorem modify_rename (frames : List (Frame σ.K σ.T)) (f : Nat) (u : Frame σ.K σ.T → Frame σ.K σ.T) (v : Frame L σ.T → Frame L σ.T)
    (huv : ∀ fr, v (fr.rename φ) = (u fr).rename φ) :
    (frames.map (Frame.rename φ)).modify f v = (frames.modify f u).map (Frame.rename φ) := by
  apply List.ext_getElem?
  intro j
  simp only [List.getElem?_modify, List.getElem?_map]
  cases frames[j]? with
  | none => rfl
  | some fr =>
    simp only [Option.map_some, Option.map_eq_map]
    split <;> simp [huv]

theorem StLike.modify {s : St σ} {s' : St (σ.renamed L φ)} (h : StLike φ s s') (f : Nat) (u : Frame σ.K σ.T → Frame σ.K σ.T)
    (v : Frame L σ.T → Frame L σ.T) (huv : ∀ fr, v (fr.rename φ) = (u fr).rename φ) :
    StLike φ { s with frames := s.frames.modify f u } { s' with frames := s'.frames.modify f v } :=
  ⟨h.graph, by change s'.frames.modify f v = _; rw [h.frames]; exact modify_rename _ _ _ _ huv, h.heap, h.locks⟩

theorem StLike.pushOp {s : St σ} {s' : St (σ.renamed L φ)} (h : StLike φ s s') (f : Nat) (op : Operation σ.K σ.T) :
    StLike φ (pushOp s f op) (Plotline.pushOp s' f (op.rename φ)) :=
  h.modify f _ _ fun fr => by simp [Frame.rename]

theorem StLike.close {s : St σ} {s' : St (σ.renamed L φ)} (h : StLike φ s s') (n : Nat) :
    StLike φ (closeChild s n) (closeChild s' n) :=
  ⟨h.graph, by change s'.frames.take n = _; rw [h.frames]; exact (List.map_take ..).symm, h.heap, h.locks⟩

theorem StLike.commit {s : St σ} {s' : St (σ.renamed L φ)} (h : StLike φ s s') (n : Nat) :
    StLike φ (commitChild s n) (commitChild s' n) := by
  unfold commitChild
  rw [h.frames, List.getElem?_map]
  cases s.frames[n]? with
  | none => exact h.close n
  | some fr =>
    simp only [Option.map_some]
    change StLike φ _ (if fr.leaked = true then closeChild s' n else match fr.parent with
      | none => closeChild s' n
      | some p => _)
    split
    · exact h.close n
    · cases fr.parent with
      | none => exact h.close n
      | some p =>
        refine ⟨h.graph, ?_, h.heap, h.locks⟩
        dsimp only
        rw [← List.map_take]
        exact modify_rename _ _ _ _ fun pf => by simp [Frame.rename]

theorem StLike.open {s : St σ} {s' : St (σ.renamed L φ)} (h : StLike φ s s') (f : Nat) :
    StLike φ (openChild s f) (openChild s' f) :=
  ⟨h.graph, by simp [openChild, h.frames, Frame.rename], h.heap, h.locks⟩

theorem readTarget_rename {s : St σ} {s' : St (σ.renamed L φ)} (h : StLike φ s s') (f : Nat) : readTarget s' f = readTarget s f := by
  unfold readTarget
  rw [h.frames, List.getElem?_map]
  cases s.frames[f]? with
  | none => rfl
  | some fr =>
    obtain ⟨p, o, t, l⟩ := fr
    cases t <;> rfl

/-! ## Running -/

theorem tryForEach_rename {run : Prog σ → St σ → Option (Out (Except Error σ.V) × St σ)}
    {run' : Prog (σ.renamed L φ) → St (σ.renamed L φ) → Option (Out (Except Error σ.V) × St (σ.renamed L φ))}
    (hr : ∀ p s s', StLike φ s s' → OutLike φ (run p s) (run' (p.rename φ) s')) (ts : List (Prog σ)) :
    ∀ s s', StLike φ s s' → OutLike φ (tryForEach run ts s) (tryForEach run' (ts.map (Prog.rename φ)) s') := by
  induction ts with
  | nil => intro s s' h; exact .some _ h
  | cons t ts ih =>
    intro s s' h
    have h1 := hr t s s' h
    simp only [List.map_cons, tryForEach]
    revert h1
    generalize run t s = x
    generalize run' (t.rename φ) s' = y
    intro h1
    cases h1 with
    | none => exact .none
    | some o h2 =>
      match o with
      | .ret (.ok _) => exact ih _ _ h2
      | .ret (.error e) => exact .some _ h2
      | .panic => exact .some _ h2
      | .stuck => exact .some _ h2

theorem eval_rename (hφ : Faithful φ) {E : Env σ} {E' : Env (σ.renamed L φ)} (hE : EnvLike φ E E') (fuel : Nat) :
    ∀ (env : List Nat) (p : Prog σ) (s : St σ) (s' : St (σ.renamed L φ)), StLike φ s s' →
      OutLike φ (eval E fuel env p s) (eval E' fuel env (p.rename φ) s') := by
  obtain ⟨tr, rs⟩ := E'
  obtain rfl : rs = E.resources := hE.resources
  induction fuel with
  | zero => intro env p s s' h; exact .none
  | succ fuel ih =>
    intro env p s s' h
    cases p with
    | done r => exact .some _ h
    | panic => exact .some _ h
    | reenter => exact .some _ h
    | save c n k =>
      simp only [Prog.rename, eval]
      cases env[c]? with
      | none => exact .some _ h
      | some f => exact ih _ _ _ _ (h.pushOp f (.save n))
    | delete c i k =>
      simp only [Prog.rename, eval]
      cases env[c]? with
      | none => exact .some _ h
      | some f => exact ih _ _ _ _ (h.pushOp f (.delete i))
    | get c i k =>
      simp only [Prog.rename, eval]
      cases env[c]? with
      | none => exact .some _ h
      | some f => dsimp only; rw [h.frames, ctxGet_rename hφ h.graph]; exact ih _ _ _ _ h
    | contains c i k =>
      simp only [Prog.rename, eval]
      cases env[c]? with
      | none => exact .some _ h
      | some f => dsimp only; rw [h.frames, ctxContains_rename hφ h.graph]; exact ih _ _ _ _ h
    | tx c body k =>
      simp only [Prog.rename, eval]
      cases env[c]? with
      | none => exact .some _ h
      | some f =>
        dsimp only
        have hl : s'.frames.length = s.frames.length := by rw [h.frames, List.length_map]
        rw [hl]
        have h1 := ih (s.frames.length :: env) body _ _ (h.open f)
        revert h1
        generalize eval E fuel (s.frames.length :: env) body (openChild s f) = x
        generalize eval ⟨tr, E.resources⟩ fuel (s.frames.length :: env) (body.rename φ) (openChild s' f) = y
        intro h1
        cases h1 with
        | none => exact .none
        | some o h2 =>
          match o with
          | .ret (.ok v) => exact ih _ _ _ _ (h2.commit _)
          | .ret (.error e) => exact ih _ _ _ _ (h2.close _)
          | .panic => exact .some _ (h2.close _)
          | .stuck => exact .some _ (h2.close _)
    | runTriggers c sch k =>
      simp only [Prog.rename, eval]
      cases env[c]? with
      | none => exact .some _ h
      | some f =>
        dsimp only
        rw [hE.triggers sch]
        cases E.triggers.select sch with
        | none => exact ih _ _ _ _ h
        | some ts =>
          simp only [Option.map_some]
          have h1 := tryForEach_rename (fun p s s' => ih [f] p s s') ts s s' h
          revert h1
          generalize tryForEach (eval E fuel [f]) ts s = x
          generalize tryForEach (eval ⟨tr, E.resources⟩ fuel [f]) (ts.map (Prog.rename φ)) s' = y
          intro h1
          cases h1 with
          | none => exact .none
          | some o h2 =>
            match o with
            | .ret r => exact ih _ _ _ _ h2
            | .panic => exact .some _ h2
            | .stuck => exact .some _ h2
    | withTarget n k =>
      simp only [Prog.rename, eval]
      cases env[0]? with
      | none => exact .some _ h
      | some f => exact ih _ _ _ _ (h.modify f _ _ fun fr => rfl)
    | targetRead c k =>
      simp only [Prog.rename, eval]
      cases env[c]? with
      | none => exact .some _ h
      | some f => dsimp only; rw [readTarget_rename h]; exact ih _ _ _ _ h
    | targetWrite c fn k =>
      simp only [Prog.rename, eval]
      cases env[c]? with
      | none => exact .some _ h
      | some f =>
        dsimp only
        rw [readTarget_rename h]
        cases readTarget s f with
        | none => exact ih _ _ _ _ h
        | some n =>
          dsimp only
          match fn n with
          | (n', false) => exact ih _ _ _ _ (h.modify f _ _ fun fr => rfl)
          | (n', true) => exact .some _ (h.modify f _ _ fun fr => rfl)
    | resRead t k =>
      obtain ⟨g', fs', hp', lk'⟩ := s'
      obtain rfl : hp' = s.heap := h.heap
      obtain rfl : lk' = s.locks := h.locks
      simp only [Prog.rename, eval]
      rw [show St.resBlocks (⟨tr, E.resources⟩ : Env (σ.renamed L φ)) ⟨g', fs', s.heap, s.locks⟩ t false = s.resBlocks E t false from rfl]
      cases s.resBlocks E t false with
      | true => exact .some _ h
      | false =>
        simp only [Bool.false_eq_true, if_false]
        exact ih _ _ _ _ h
    | resWrite t fn k =>
      obtain ⟨g', fs', hp', lk'⟩ := s'
      obtain rfl : hp' = s.heap := h.heap
      obtain rfl : lk' = s.locks := h.locks
      simp only [Prog.rename, eval]
      rw [show St.resBlocks (⟨tr, E.resources⟩ : Env (σ.renamed L φ)) ⟨g', fs', s.heap, s.locks⟩ t true = s.resBlocks E t true from rfl]
      cases s.resBlocks E t true with
      | true => exact .some _ h
      | false =>
        simp only [Bool.false_eq_true, if_false]
        match (E.resources.res t).withMut s.heap (fun v => ((fn v).1, if (fn v).2 then none else some ())) with
        | (.unavailable, _) => exact ih _ _ _ _ h
        | (.ran _, heap') => exact ih _ _ _ _ ⟨h.graph, h.frames, rfl, h.locks⟩
        | (.panicked, heap') => exact .some _ ⟨h.graph, h.frames, rfl, h.locks⟩
    | resScope t excl body k =>
      obtain ⟨g', fs', hp', lk'⟩ := s'
      obtain rfl : hp' = s.heap := h.heap
      obtain rfl : lk' = s.locks := h.locks
      simp only [Prog.rename, eval]
      cases (E.resources.res t).lock with
      | none => exact ih _ _ _ _ h
      | some p =>
        dsimp only
        rw [show St.blocks (⟨g', fs', s.heap, s.locks⟩ : St (σ.renamed L φ)) p excl = s.blocks p excl from rfl]
        cases s.blocks p excl with
        | true => exact .some _ h
        | false =>
          simp only [Bool.false_eq_true, if_false]
          cases (E.resources.res t).peek s.heap with
          | none => exact ih _ _ _ _ h
          | some v =>
            dsimp only
            have h1 := ih env (body v) (lockRes s p excl) (lockRes ⟨g', fs', s.heap, s.locks⟩ p excl)
              ⟨h.graph, h.frames, rfl, rfl⟩
            revert h1
            generalize eval E fuel env (body v) (lockRes s p excl) = x
            generalize eval ⟨tr, E.resources⟩ fuel env ((body v).rename φ) (lockRes ⟨g', fs', s.heap, s.locks⟩ p excl) = y
            intro h1
            cases h1 with
            | none => exact .none
            | some o h2 =>
              match o with
              | .ret r => exact ih _ _ _ _ ⟨h2.graph, h2.frames, h2.heap, by change List.tail _ = List.tail _; rw [h2.locks]⟩
              | .panic =>
                exact .some _ ⟨h2.graph, h2.frames, by simp only [unwindRes]; rw [h2.heap], by change List.tail _ = List.tail _; rw [h2.locks]⟩
              | .stuck => exact .some _ ⟨h2.graph, h2.frames, h2.heap, by change List.tail _ = List.tail _; rw [h2.locks]⟩
    | resAssign t x k =>
      obtain ⟨g', fs', hp', lk'⟩ := s'
      obtain rfl : hp' = s.heap := h.heap
      obtain rfl : lk' = s.locks := h.locks
      simp only [Prog.rename, eval]
      cases (E.resources.res t).lock with
      | none => exact .some _ h
      | some p =>
        dsimp only
        split
        · exact ih _ _ _ _ ⟨h.graph, h.frames, rfl, rfl⟩
        · exact .some _ h
    | catchUnwind body k =>
      simp only [Prog.rename, eval]
      have h1 := ih env body s s' h
      revert h1
      generalize eval E fuel env body s = x
      generalize eval ⟨tr, E.resources⟩ fuel env (body.rename φ) s' = y
      intro h1
      cases h1 with
      | none => exact .none
      | some o h2 =>
        match o with
        | .ret r => exact ih _ _ _ _ h2
        | .panic => exact ih _ _ _ _ h2
        | .stuck => exact .some _ h2
    | forget k =>
      simp only [Prog.rename, eval]
      cases env[0]? with
      | none => exact .some _ h
      | some f => exact ih _ _ _ _ (h.modify f _ _ fun fr => rfl)

/-! ## Schemas -/

/-- Schemas with the same resources, and ids replaced. -/
structure SchemaLike (φ : σ.K → L) (S : Schema σ) (S' : Schema (σ.renamed L φ)) : Prop where
  graph : GraphLike φ S.graph S'.graph
  heap : S'.heap = S.heap
  env : EnvLike φ S.env S'.env

theorem SchemaLike.guard {S : Schema σ} {S' : Schema (σ.renamed L φ)} (h : SchemaLike φ S S') : GraphLike φ S.guard S'.guard := by
  rw [guard_graph, guard_graph]; exact h.graph

theorem SchemaLike.renamed [LawfulSig σ] [TransOrd L] [LawfulBEqOrd L] {S : Schema σ} {S' : Schema (σ.renamed L φ)}
    (h : SchemaLike φ S S') : Renamed φ S S' := by
  refine ⟨h.guard.get, graphLike_perm h.guard, fun s => ?_, fun t => ?_⟩
  · unfold Env.fire
    rw [h.env.triggers s]
    cases S.env.triggers.select s <;> rfl
  · rw [h.env.resources, h.heap]

theorem schemaLike_fromGraph {g : Graph σ.K σ.T} {g' : Graph (σ.renamed L φ).K (σ.renamed L φ).T} (h : GraphLike φ g g') :
    SchemaLike φ (.fromGraph g) (.fromGraph g') := ⟨h, rfl, rfl, rfl⟩

/-- What a transaction gives on either side. -/
inductive EndLike (φ : σ.K → L) : Option (Out (Except Error σ.V) × Schema σ) →
    Option (Out (Except Error σ.V) × Schema (σ.renamed L φ)) → Prop
  | none : EndLike φ none none
  | some (o : Out (Except Error σ.V)) {S : Schema σ} {S' : Schema (σ.renamed L φ)} : SchemaLike φ S S' →
      EndLike φ (some (o, S)) (some (o, S'))

theorem begin_like {S : Schema σ} {S' : Schema (σ.renamed L φ)} (h : SchemaLike φ S S') (pre : List (Operation σ.K σ.T)) :
    StLike φ (S.begin pre) (S'.begin (pre.map (Operation.rename φ))) := ⟨h.guard, rfl, h.heap, rfl⟩

theorem commitRoot_like [LawfulSig σ] [TransOrd L] [LawfulBEqOrd L] (hφ : Faithful φ) {s : St σ} {s' : St (σ.renamed L φ)}
    (h : StLike φ s s') : GraphLike φ (commitRoot s) (commitRoot s') := by
  unfold commitRoot
  rw [h.frames, List.getElem?_map]
  cases s.frames[0]? with
  | none => exact h.graph
  | some fr =>
    simp only [Option.map_some]
    change GraphLike φ _ (if fr.leaked = true then s'.graph else s'.graph.commit (fr.ops.map (Operation.rename φ)))
    split
    · exact h.graph
    · exact graphLike_commit hφ _ h.graph

theorem transact_rename [LawfulSig σ] [TransOrd L] [LawfulBEqOrd L] (hφ : Faithful φ) {S : Schema σ} {S' : Schema (σ.renamed L φ)}
    (h : SchemaLike φ S S') (fuel : Nat) (pre : List (Operation σ.K σ.T)) (body : Prog σ) :
    EndLike φ (S.transact fuel pre body) (S'.transact fuel (pre.map (Operation.rename φ)) (body.rename φ)) := by
  unfold Schema.transact
  have h1 := eval_rename hφ h.env fuel [0] body _ _ (begin_like h pre)
  revert h1
  generalize eval S.env fuel [0] body (S.begin pre) = x
  generalize eval S'.env fuel [0] (body.rename φ) (S'.begin (pre.map (Operation.rename φ))) = y
  intro h1
  cases h1 with
  | none => exact .none
  | some o h2 =>
    match o with
    | .ret (.ok v) => exact .some _ ⟨commitRoot_like hφ h2, h2.heap, h.env⟩
    | .ret (.error e) => exact .some _ ⟨h2.graph, h2.heap, h.env⟩
    | .panic => exact .some _ ⟨h2.graph, h2.heap, h.env⟩
    | .stuck => exact .some _ ⟨h2.graph, h2.heap, h.env⟩

/-- One use on either side: it comes to an end on both or on none, with the same learnt from it. -/
theorem gives_rename [LawfulSig σ] [TransOrd L] [LawfulBEqOrd L] (hφ : Faithful φ) {S : Schema σ} {S' : Schema (σ.renamed L φ)}
    (h : SchemaLike φ S S') (u : Use σ) :
    (∀ a S1, Gives S u a S1 → ∃ a' S1', Gives S' (u.rename φ) a' S1' ∧ a.Like φ a' ∧ SchemaLike φ S1 S1') ∧
    (∀ a' S1', Gives S' (u.rename φ) a' S1' → ∃ a S1, Gives S u a S1 ∧ a.Like φ a' ∧ SchemaLike φ S1 S1') := by
  obtain ⟨g', po', hp', tr, rs⟩ := S'
  obtain rfl : hp' = S.heap := h.heap
  obtain rfl : rs = S.env.resources := h.env.resources
  cases u with
  | register t v =>
    have h1 : SchemaLike φ (S.withResource t v) (Schema.withResource ⟨g', po', S.heap, tr, S.env.resources⟩ t v) :=
      ⟨h.graph, rfl, h.env.entries, rfl⟩
    exact ⟨fun a S1 hg => by cases hg; exact ⟨_, _, Gives.register (σ := σ.renamed L φ) _ t v, .nothing, h1⟩,
      fun a S1 hg => by cases hg; exact ⟨_, _, .register _ t v, .nothing, h1⟩⟩
  | trigger s p =>
    have h1 : SchemaLike φ (S.withTrigger s p) (Schema.withTrigger ⟨g', po', S.heap, tr, S.env.resources⟩ s (p.rename φ)) :=
      ⟨h.graph, rfl, h.env.withTrigger s p⟩
    exact ⟨fun a S1 hg => by cases hg; exact ⟨_, _, .trigger _ s _, .nothing, h1⟩,
      fun a S1 hg => by cases hg; exact ⟨_, _, .trigger _ s _, .nothing, h1⟩⟩
  | tx pre body =>
    constructor
    · intro a S1 hg
      cases hg with
      | tx ht ho =>
        rename_i fuel o
        have h1 := transact_rename hφ h fuel pre body
        rw [ht] at h1
        generalize hy : Schema.transact (⟨g', po', S.heap, tr, S.env.resources⟩ : Schema (σ.renamed L φ)) fuel (pre.map (Operation.rename φ)) (body.rename φ) = y at h1
        cases h1 with
        | some _ h2 => exact ⟨_, _, .tx hy ho, .out _, h2⟩
    · intro a S1 hg
      cases hg with
      | tx ht ho =>
        rename_i fuel o
        have h1 := transact_rename hφ h fuel pre body
        rw [ht] at h1
        generalize hy : S.transact fuel pre body = y at h1
        cases h1 with
        | some _ h2 => exact ⟨_, _, .tx hy ho, .out _, h2⟩
  | update op =>
    have h1 : SchemaLike φ { S with graph := S.guard.applyOp op } { (⟨g', po', S.heap, tr, S.env.resources⟩ : Schema (σ.renamed L φ)) with
        graph := (Schema.guard (⟨g', po', S.heap, tr, S.env.resources⟩ : Schema (σ.renamed L φ))).applyOp (op.rename φ) } :=
      ⟨graphLike_applyOp hφ h.guard op, rfl, h.env⟩
    exact ⟨fun a S1 hg => by cases hg; exact ⟨_, _, .update _ _, .nothing, h1⟩,
      fun a S1 hg => by cases hg; exact ⟨_, _, .update _ _, .nothing, h1⟩⟩
  | get i =>
    have h1 := h.guard.get i
    exact ⟨fun a S1 hg => by cases hg; exact ⟨_, _, .get _ _, h1 ▸ .node _, h⟩,
      fun a S1 hg => by cases hg; exact ⟨_, _, .get _ _, h1 ▸ .node _, h⟩⟩
  | iter =>
    have h1 := graphLike_perm h.guard
    exact ⟨fun a S1 hg => by cases hg; exact ⟨_, _, .iter _, .nodes h1, h⟩,
      fun a S1 hg => by cases hg; exact ⟨_, _, .iter _, .nodes h1, h⟩⟩
  | read t =>
    exact ⟨fun a S1 hg => by cases hg; exact ⟨_, _, .read _ _, .value _ _, h⟩,
      fun a S1 hg => by cases hg; exact ⟨_, _, .read _ _, .value _ _, h⟩⟩
  | write t f =>
    exact ⟨fun a S1 hg => by cases hg; exact ⟨_, _, .write _ _ _, .wrote _, h.graph, rfl, h.env⟩,
      fun a S1 hg => by cases hg; exact ⟨_, _, .write _ _ _, .wrote _, h.graph, rfl, h.env⟩⟩

theorem session_rename [LawfulSig σ] [TransOrd L] [LawfulBEqOrd L] (hφ : Faithful φ) {S S1 : Schema σ} {l : List (Use σ × Seen σ)}
    (hs : Session S l S1) : ∀ {S' : Schema (σ.renamed L φ)}, SchemaLike φ S S' →
      ∃ l' S1', Session S' l' S1' ∧ Echo φ l l' ∧ SchemaLike φ S1 S1' := by
  induction hs with
  | nil S => intro S' h; exact ⟨[], S', .nil _, .nil, h⟩
  | cons hg _ ih =>
    intro S' h
    obtain ⟨a', S2', h1, h2, h3⟩ := (gives_rename hφ h _).1 _ _ hg
    obtain ⟨l', S1', h4, h5, h6⟩ := ih h3
    exact ⟨_, _, .cons h1 h4, .cons h2 h5, h6⟩

theorem session_rename_back [LawfulSig σ] [TransOrd L] [LawfulBEqOrd L] (hφ : Faithful φ) {us : List (Use σ)} :
    ∀ {S : Schema σ} {S' S1' : Schema (σ.renamed L φ)} {l' : List (Use (σ.renamed L φ) × Seen (σ.renamed L φ))}, SchemaLike φ S S' →
      Session S' l' S1' → l'.map Prod.fst = us.map (Use.rename φ) →
      ∃ l S1, Session S l S1 ∧ l.map Prod.fst = us ∧ Echo φ l l' ∧ SchemaLike φ S1 S1' := by
  induction us with
  | nil =>
    intro S S' S1' l' h hs hl
    cases hs with
    | nil => exact ⟨[], S, .nil _, rfl, .nil, h⟩
    | cons => simp at hl
  | cons u us ih =>
    intro S S' S1' l' h hs hl
    cases hs with
    | nil => simp at hl
    | cons hg hs =>
      simp only [List.map_cons, List.cons.injEq] at hl
      obtain ⟨hu, hl⟩ := hl
      rw [hu] at hg
      obtain ⟨a, S2, h1, h2, h3⟩ := (gives_rename hφ h u).2 _ _ hg
      obtain ⟨l, S1, h4, h5, h6, h7⟩ := ih h3 hs hl
      rw [hu]
      exact ⟨_, _, .cons h1 h4, by simp [h5], .cons h2 h6, h7⟩

/-! ## One node saved and one looked up -/

theorem graphOf_reachable (τ : Sig) (l : List τ.T) : (τ.graphOf l).Reachable := .fromIter l

theorem get_first (τ : Sig) [LawfulSig τ] (n : τ.T) (q : τ.K) :
    ((τ.graphOf []).applyOp (.save n)).get q = if q == id n then some n else none := by
  have h := congrFun (get_applyOp (Graph.empty : Graph τ.K τ.T) Graph.valid_empty (.save n)) q
  exact h

theorem session_first (τ : Sig) [LawfulSig τ] {n : τ.T} {i : τ.K} {a b : Seen τ} {S1 : Schema τ}
    (h : Session (.fromGraph (τ.graphOf [])) [(.update (.save n), a), (.get i, b)] S1) :
    b = .node (if i == id n then some n else none) := by
  cases h with
  | cons g1 h => cases h with
    | cons g2 h =>
      cases g1 with
      | update =>
        cases g2 with
        | get => exact congrArg Seen.node (get_first τ n i)

end Plotline
