import Verif.Spec.Opaque
import Verif.Lemmas.Rename

/-! The machine on nodes of another kind. -/

namespace Plotline

set_option linter.unusedSectionVars false

/-! ## Lists that agree place by place -/

namespace Pairs
variable {α β : Type} {R : α → β → Prop} {l : List α} {l' : List β}

theorem len (h : Pairs R l l') : l'.length = l.length := by
  induction h with
  | nil => rfl
  | cons _ _ ih => simp [ih]

theorem append {m : List α} {m' : List β} (h : Pairs R l l') (h' : Pairs R m m') : Pairs R (l ++ m) (l' ++ m') := by
  induction h with
  | nil => exact h'
  | cons hr _ ih => exact .cons hr ih

theorem reverse (h : Pairs R l l') : Pairs R l.reverse l'.reverse := by
  induction h with
  | nil => exact .nil
  | cons hr _ ih => simp only [List.reverse_cons]; exact ih.append (.cons hr .nil)

theorem get (h : Pairs R l l') (j : Nat) : Both R l[j]? l'[j]? := by
  induction h generalizing j with
  | nil => exact .none
  | cons hr _ ih =>
    cases j with
    | zero => exact .some hr
    | succ j => exact ih j

theorem take (h : Pairs R l l') (j : Nat) : Pairs R (l.take j) (l'.take j) := by
  induction h generalizing j with
  | nil => simp; exact .nil
  | cons hr _ ih =>
    cases j with
    | zero => exact .nil
    | succ j => exact .cons hr (ih j)

theorem modify (h : Pairs R l l') (j : Nat) {u : α → α} {v : β → β} (huv : ∀ a b, R a b → R (u a) (v b)) :
    Pairs R (l.modify j u) (l'.modify j v) := by
  induction h generalizing j with
  | nil => simp; exact .nil
  | cons hr h ih =>
    cases j with
    | zero => exact .cons (huv _ _ hr) h
    | succ j => exact .cons hr (ih j)

theorem map {γ δ : Type} {Q : γ → δ → Prop} {f : α → γ} {g : β → δ} (h : Pairs R l l') (hf : ∀ a b, R a b → Q (f a) (g b)) :
    Pairs Q (l.map f) (l'.map g) := by
  induction h with
  | nil => exact .nil
  | cons hr _ ih => exact .cons (hf _ _ hr) ih

theorem find {p : α → Bool} {q : β → Bool} (h : Pairs R l l') (hpq : ∀ a b, R a b → p a = q b) : Both R (l.find? p) (l'.find? q) := by
  induction h with
  | nil => exact .none
  | cons hr _ ih =>
    simp only [List.find?_cons]
    rw [hpq _ _ hr]
    split
    · exact .some hr
    · exact ih

end Pairs

/-! ## Maps -/

section
variable {K V W : Type} [Ord K] {Q : V → W → Prop}

/-- Entries with the same keys, in the same places. -/
def EntryLike (Q : V → W → Prop) (e : K × V) (e' : K × W) : Prop := e.1 = e'.1 ∧ Q e.2 e'.2

theorem findL_pairs (k : K) {l : List (K × V)} {l' : List (K × W)} (h : Pairs (EntryLike Q) l l') :
    Both Q (BTreeMap.findL k l) (BTreeMap.findL k l') := by
  induction h with
  | nil => exact .none
  | @cons e e' l l' hr h ih =>
    obtain ⟨i, v⟩ := e
    obtain ⟨i', w⟩ := e'
    obtain ⟨rfl, hq⟩ : i = i' ∧ Q v w := hr
    simp only [BTreeMap.findL]
    cases compare k i with
    | lt => exact .none
    | eq => exact .some hq
    | gt => exact ih

theorem insertL_pairs (k : K) {v : V} {w : W} (hq : Q v w) {l : List (K × V)} {l' : List (K × W)} (h : Pairs (EntryLike Q) l l') :
    Pairs (EntryLike Q) (BTreeMap.insertL k v l) (BTreeMap.insertL k w l') := by
  induction h with
  | nil => exact .cons ⟨rfl, hq⟩ .nil
  | @cons e e' l l' hr h ih =>
    obtain ⟨i, v'⟩ := e
    obtain ⟨i', w'⟩ := e'
    obtain ⟨rfl, hq'⟩ : i = i' ∧ Q v' w' := hr
    simp only [BTreeMap.insertL]
    cases compare k i with
    | lt => exact .cons ⟨rfl, hq⟩ (.cons ⟨rfl, hq'⟩ h)
    | eq => exact .cons ⟨rfl, hq⟩ h
    | gt => exact .cons ⟨rfl, hq'⟩ ih

theorem removeL_pairs (k : K) {l : List (K × V)} {l' : List (K × W)} (h : Pairs (EntryLike Q) l l') :
    Pairs (EntryLike Q) (BTreeMap.removeL k l) (BTreeMap.removeL k l') := by
  induction h with
  | nil => exact .nil
  | @cons e e' l l' hr h ih =>
    obtain ⟨i, v'⟩ := e
    obtain ⟨i', w'⟩ := e'
    obtain ⟨rfl, hq'⟩ : i = i' ∧ Q v' w' := hr
    simp only [BTreeMap.removeL]
    cases compare k i with
    | lt => exact .cons ⟨rfl, hq'⟩ h
    | eq => exact h
    | gt => exact .cons ⟨rfl, hq'⟩ ih

end

variable {σ : Sig} {U : Type} [Identify U σ.K] {o : OrderOn σ.Ty} {W : σ.Ty → Type} {R : σ.T → U → Prop}
  {Q : ∀ t, σ.Val t → W t → Prop}

theorem Pairs.set {α β : Type} {R : α → β → Prop} {l : List α} {l' : List β} (h : Pairs R l l') (j : Nat) {a : α} {b : β}
    (hab : R a b) : Pairs R (l.set j a) (l'.set j b) := by
  induction h generalizing j with
  | nil => exact .nil
  | cons hr h ih =>
    cases j with
    | zero => exact .cons hab h
    | succ j => exact .cons hr (ih j)

theorem Pairs.length {α β : Type} {R : α → β → Prop} {l : List α} {l' : List β} (h : Pairs R l l') : l'.length = l.length := by
  induction h with
  | nil => rfl
  | cons _ _ ih => rw [List.length_cons, List.length_cons, ih]

/-! ## Graphs -/

/-- Graphs with the same ids, whose nodes stand for each other. -/
def GraphPairs (R : σ.T → U → Prop) (g : Graph σ.K σ.T) (g' : Graph σ.K U) : Prop :=
  Pairs (EntryLike R) g.nodes.entries g'.nodes.entries

theorem GraphPairs.get {g : Graph σ.K σ.T} {g' : Graph σ.K U} (h : GraphPairs R g g') (i : σ.K) : Both R (g.get i) (g'.get i) :=
  findL_pairs i h

theorem GraphPairs.contains {g : Graph σ.K σ.T} {g' : Graph σ.K U} (h : GraphPairs R g g') (i : σ.K) : g'.contains i = g.contains i := by
  have h1 := h.get i
  change (g'.get i).isSome = (g.get i).isSome
  generalize g.get i = x at h1
  generalize g'.get i = y at h1
  cases h1 with
  | none => rfl
  | some _ => rfl

theorem GraphPairs.iter {g : Graph σ.K σ.T} {g' : Graph σ.K U} (h : GraphPairs R g g') : Pairs R g.iter g'.iter :=
  h.map fun _ _ he => he.2

theorem GraphPairs.applyOp (hR : SameIds R) {g : Graph σ.K σ.T} {g' : Graph σ.K U} (h : GraphPairs R g g') {op : Operation σ.K σ.T}
    {op' : Operation σ.K U} (ho : op.Matches R op') : GraphPairs R (g.applyOp op) (g'.applyOp op') := by
  cases ho with
  | save hr =>
    rename_i n m
    have h1 := insertL_pairs (id n) hr h
    change Pairs _ (BTreeMap.insertL (id n) n g.nodes.entries) (BTreeMap.insertL (id m) m g'.nodes.entries)
    rw [hR _ _ hr]
    exact h1
  | delete i => exact removeL_pairs i h

theorem GraphPairs.commit (hR : SameIds R) {ops : List (Operation σ.K σ.T)} {ops' : List (Operation σ.K U)}
    (ho : Pairs (Operation.Matches R) ops ops') : ∀ {g : Graph σ.K σ.T} {g' : Graph σ.K U}, GraphPairs R g g' →
      GraphPairs R (g.commit ops) (g'.commit ops') := by
  induction ho with
  | nil => intro g g' h; exact h
  | cons h1 _ ih => intro g g' h; exact ih (h.applyOp hR h1)

theorem graphPairs_graphOf (hR : SameIds R) {l : List σ.T} {l' : List U} (h : Pairs R l l') :
    GraphPairs R (σ.graphOf l) ((σ.recast U o W).graphOf l') := by
  have key : ∀ {l : List σ.T} {l' : List U}, Pairs R l l' → ∀ {m : BTreeMap σ.K σ.T} {m' : BTreeMap σ.K U},
      Pairs (EntryLike R) m.entries m'.entries → Pairs (EntryLike R) (l.foldl (fun m n => (m.insert (id n) n).1) m).entries
        (l'.foldl (fun m n => (m.insert (id n : σ.K) n).1) m').entries := by
    intro l l' h
    induction h with
    | nil => intro m m' h; exact h
    | cons hr _ ih =>
      intro m m' h
      refine ih ?_
      dsimp only
      rw [hR _ _ hr]
      exact insertL_pairs _ hr h
  exact key h .nil

/-! ## Resources -/

/-- Cells of the same type with values that stand for each other. -/
inductive CellLike (Q : ∀ t, σ.Val t → W t → Prop) : Lock (Dyn σ.Val) → Lock (Dyn W) → Prop
  | mk (t : σ.Ty) {v : σ.Val t} {w : W t} (b : Bool) : Q t v w → CellLike Q ⟨⟨t, v⟩, b⟩ ⟨⟨t, w⟩, b⟩

/-- Heaps that match. -/
def HeapPairs (Q : ∀ t, σ.Val t → W t → Prop) (h : Heap σ.Val) (h' : Heap W) : Prop := Pairs (CellLike Q) h h'

theorem CellLike.downcast {x : Lock (Dyn σ.Val)} {y : Lock (Dyn W)} (h : CellLike Q x y) (t : σ.Ty) :
    y.poisoned = x.poisoned ∧ Both (Q t) (x.val.downcast t) (y.val.downcast t) := by
  cases h with
  | mk u b hq =>
    refine ⟨rfl, ?_⟩
    unfold Dyn.downcast
    dsimp only
    split
    · rename_i hu
      subst hu
      exact .some hq
    · exact .none

theorem HeapPairs.peek {h : Heap σ.Val} {h' : Heap W} (hh : HeapPairs Q h h') {t : σ.Ty} (r : Res t) :
    Both (Q t) (r.peek h) (r.peek h') := by
  unfold Res.peek
  cases r.lock with
  | none => exact .none
  | some p =>
    dsimp only
    have h1 := hh.get p
    generalize h[p]? = x at h1
    generalize h'[p]? = y at h1
    cases h1 with
    | none => exact .none
    | some hc =>
      obtain ⟨h2, h3⟩ := hc.downcast t
      dsimp only
      rw [h2]
      split
      · exact .none
      · exact h3

theorem HeapPairs.withMut {h : Heap σ.Val} {h' : Heap W} (hh : HeapPairs Q h h') {t : σ.Ty} (r : Res t)
    {f : σ.Val t → σ.Val t × Bool} {f' : W t → W t × Bool} (hf : ∀ v w, Q t v w → Q t (f v).1 (f' w).1 ∧ (f v).2 = (f' w).2) :
    (r.withMut h' fun v => ((f' v).1, if (f' v).2 then none else some ())).1 =
        (r.withMut h fun v => ((f v).1, if (f v).2 then none else some ())).1 ∧
      HeapPairs Q (r.withMut h fun v => ((f v).1, if (f v).2 then none else some ())).2
        (r.withMut h' fun v => ((f' v).1, if (f' v).2 then none else some ())).2 := by
  unfold Res.withMut
  cases r.lock with
  | none => exact ⟨rfl, hh⟩
  | some p =>
    dsimp only
    have h1 := hh.get p
    generalize h[p]? = x at h1
    generalize h'[p]? = y at h1
    cases h1 with
    | none => exact ⟨rfl, hh⟩
    | @some a b hc =>
      obtain ⟨h2, h3⟩ := hc.downcast t
      dsimp only
      rw [h2]
      cases a.poisoned with
      | true => exact ⟨rfl, hh⟩
      | false =>
        simp only [Bool.false_eq_true, if_false]
        generalize a.val.downcast t = x at h3
        generalize b.val.downcast t = y at h3
        cases h3 with
        | none => exact ⟨rfl, hh⟩
        | @some v w hv =>
          obtain ⟨h4, h5⟩ := hf v w hv
          dsimp only
          rw [← h5]
          cases (f v).2 with
          | true => exact ⟨rfl, hh.set p (.mk t true h4)⟩
          | false => exact ⟨rfl, hh.set p (.mk t false h4)⟩

/-- What unwinding does to a cell. -/
theorem HeapPairs.unwind {h : Heap σ.Val} {h' : Heap W} (hh : HeapPairs Q h h') (p : Nat) (excl : Bool) :
    HeapPairs Q (if excl then h.modify p fun cell => { cell with poisoned := true } else h)
      (if excl then h'.modify p fun cell => { cell with poisoned := true } else h') := by
  cases excl with
  | false => exact hh
  | true =>
    refine Pairs.modify hh p fun x y hc => ?_
    cases hc with
    | mk t b hq => exact .mk t true hq

/-! ## Contexts -/

/-- A target that stands for another one. -/
def LockLike (R : σ.T → U → Prop) (x : Lock σ.T) (y : Lock U) : Prop := R x.val y.val ∧ y.poisoned = x.poisoned

/-- Contexts that match. -/
structure FrameLike (R : σ.T → U → Prop) (fr : Frame σ.K σ.T) (fr' : Frame σ.K U) : Prop where
  parent : fr'.parent = fr.parent
  ops : Pairs (Operation.Matches R) fr.ops fr'.ops
  target : Both (LockLike R) fr.target fr'.target
  leaked : fr'.leaked = fr.leaked

/-- States with the same resources whose contexts match. -/
structure StMatch (R : σ.T → U → Prop) (Q : ∀ t, σ.Val t → W t → Prop) (s : St σ) (s' : St (σ.recast U o W)) : Prop where
  graph : GraphPairs R s.graph s'.graph
  frames : Pairs (FrameLike R) s.frames s'.frames
  heap : HeapPairs Q s.heap s'.heap
  locks : s'.locks = s.locks

/-- What running gives on either side. -/
inductive OutMatch {α : Type} (R : σ.T → U → Prop) (Q : ∀ t, σ.Val t → W t → Prop) : Option (Out α × St σ) → Option (Out α × St (σ.recast U o W)) → Prop
  | none : OutMatch R Q none none
  | some (r : Out α) {s : St σ} {s' : St (σ.recast U o W)} : StMatch R Q s s' → OutMatch R Q (some (r, s)) (some (r, s'))

/-- Triggers that match, and the same resources. -/
structure EnvMatch (R : σ.T → U → Prop) (Q : ∀ t, σ.Val t → W t → Prop) (E : Env σ) (E' : Env (σ.recast U o W)) : Prop where
  entries : Pairs (EntryLike (Pairs (Prog.Matches R Q))) E.triggers.triggers.entries E'.triggers.triggers.entries
  resources : ∀ t, E'.resources.res t = E.resources.res t

theorem EnvMatch.triggers {E : Env σ} {E' : Env (σ.recast U o W)} (h : EnvMatch R Q E E') (s : Sched) :
    Both (Pairs (Prog.Matches R Q)) (E.triggers.select s) (E'.triggers.select s) := findL_pairs _ h.entries

theorem EnvMatch.withTrigger {E : Env σ} {E' : Env (σ.recast U o W)} (h : EnvMatch R Q E E') (s : Sched) {p : Prog σ}
    {p' : Prog (σ.recast U o W)} (hp : p.Matches R Q p') :
    EnvMatch R Q { E with triggers := E.triggers.withTrigger s p } { E' with triggers := E'.triggers.withTrigger s p' } := by
  refine ⟨?_, h.resources⟩
  have h1 := h.triggers s
  unfold TriggerSet.select at h1
  dsimp only
  unfold TriggerSet.withTrigger
  generalize E.triggers.triggers.get s.typeId = x at h1
  generalize E'.triggers.triggers.get s.typeId = y at h1
  cases h1 with
  | none => exact insertL_pairs _ (.cons hp .nil) h.entries
  | some h2 => exact insertL_pairs _ (h2.append (.cons hp .nil)) h.entries

theorem op_id_eq (hR : SameIds R) {op : Operation σ.K σ.T} {op' : Operation σ.K U} (h : op.Matches R op') : op'.id = op.id := by
  cases h with
  | save hr => exact hR _ _ hr
  | delete i => rfl

theorem ctxGet_pairs (hR : SameIds R) {g : Graph σ.K σ.T} {g' : Graph σ.K U} (h : GraphPairs R g g') {frames : List (Frame σ.K σ.T)}
    {frames' : List (Frame σ.K U)} (hf : Pairs (FrameLike R) frames frames') (i : σ.K) (f : Nat) :
    Both R (ctxGet g frames f i) (ctxGet (σ := σ.recast U o W) g' frames' f i) := by
  induction f using Nat.strongRecOn with
  | _ f ih =>
    rw [ctxGet.eq_def, ctxGet.eq_def (σ := σ.recast U o W)]
    have h1 := hf.get f
    generalize frames[f]? = x at h1
    generalize frames'[f]? = y at h1
    cases h1 with
    | none => exact h.get i
    | some hr =>
      rename_i fr fr'
      dsimp only
      have h2 := hr.ops.reverse.find (p := fun op => op.id == i) (q := fun op => op.id == i) fun a b hab => by rw [op_id_eq hR hab]
      generalize fr.ops.reverse.find? (fun op => op.id == i) = x at h2 ⊢
      generalize fr'.ops.reverse.find? _ = y at h2 ⊢
      cases h2 with
      | some ho =>
        cases ho with
        | save hn => exact .some hn
        | delete j => exact .none
      | none =>
        dsimp only
        rw [hr.parent]
        cases fr.parent with
        | none => exact h.get i
        | some p =>
          dsimp only
          split
          · exact ih p ‹_›
          · exact h.get i

theorem ctxContains_pairs (hR : SameIds R) {g : Graph σ.K σ.T} {g' : Graph σ.K U} (h : GraphPairs R g g')
    {frames : List (Frame σ.K σ.T)} {frames' : List (Frame σ.K U)} (hf : Pairs (FrameLike R) frames frames') (i : σ.K) (f : Nat) :
    ctxContains (σ := σ.recast U o W) g' frames' f i = ctxContains g frames f i := by
  rw [ctxContains_eq (σ := σ.recast U o W), ctxContains_eq (σ := σ)]
  have h1 := ctxGet_pairs (o := o) (W := W) hR h hf i f
  generalize ctxGet g frames f i = x at h1
  generalize ctxGet (σ := σ.recast U o W) g' frames' f i = y at h1
  cases h1 with
  | none => rfl
  | some _ => rfl

theorem StMatch.modify {s : St σ} {s' : St (σ.recast U o W)} (h : StMatch R Q s s') (f : Nat) {u : Frame σ.K σ.T → Frame σ.K σ.T}
    {v : Frame σ.K U → Frame σ.K U} (huv : ∀ a b, FrameLike R a b → FrameLike R (u a) (v b)) :
    StMatch R Q { s with frames := s.frames.modify f u } { s' with frames := s'.frames.modify f v } :=
  ⟨h.graph, h.frames.modify f huv, h.heap, h.locks⟩

theorem StMatch.pushOp {s : St σ} {s' : St (σ.recast U o W)} (h : StMatch R Q s s') (f : Nat) {op : Operation σ.K σ.T}
    {op' : Operation σ.K U} (ho : op.Matches R op') :
    StMatch R Q (pushOp s f op) (Plotline.pushOp (σ := σ.recast U o W) s' f op') :=
  h.modify f fun _ _ hf => ⟨hf.parent, hf.ops.append (.cons ho .nil), hf.target, hf.leaked⟩

theorem StMatch.setTarget {s : St σ} {s' : St (σ.recast U o W)} (h : StMatch R Q s s') (f : Nat) {n : σ.T} {m : U} (hn : R n m) (b : Bool) :
    StMatch R Q (writeTarget s f n b) (Plotline.writeTarget (σ := σ.recast U o W) s' f m b) :=
  h.modify f fun _ _ hf => ⟨hf.parent, hf.ops, .some ⟨hn, rfl⟩, hf.leaked⟩

theorem StMatch.close {s : St σ} {s' : St (σ.recast U o W)} (h : StMatch R Q s s') (n : Nat) : StMatch R Q (closeChild s n) (closeChild s' n) :=
  ⟨h.graph, h.frames.take n, h.heap, h.locks⟩

theorem StMatch.commit {s : St σ} {s' : St (σ.recast U o W)} (h : StMatch R Q s s') (n : Nat) :
    StMatch R Q (commitChild s n) (commitChild s' n) := by
  unfold commitChild
  have h1 := h.frames.get n
  generalize s.frames[n]? = x at h1
  generalize s'.frames[n]? = y at h1
  cases h1 with
  | none => exact h.close n
  | some hr =>
    rename_i fr fr'
    dsimp only
    rw [hr.leaked, hr.parent]
    split
    · exact h.close n
    · cases fr.parent with
      | none => exact h.close n
      | some p =>
        exact ⟨h.graph, (h.frames.take n).modify p fun _ _ hf => ⟨hf.parent, hf.ops.append hr.ops, hf.target, hf.leaked⟩, h.heap, h.locks⟩

theorem StMatch.open {s : St σ} {s' : St (σ.recast U o W)} (h : StMatch R Q s s') (f : Nat) : StMatch R Q (openChild s f) (openChild s' f) :=
  ⟨h.graph, h.frames.append (.cons ⟨rfl, .nil, .none, rfl⟩ .nil), h.heap, h.locks⟩

theorem readTarget_pairs {s : St σ} {s' : St (σ.recast U o W)} (h : StMatch R Q s s') (f : Nat) :
    Both R (readTarget s f) (readTarget (σ := σ.recast U o W) s' f) := by
  unfold readTarget
  have h1 := h.frames.get f
  generalize s.frames[f]? = x at h1
  generalize s'.frames[f]? = y at h1
  cases h1 with
  | none => exact .none
  | some hr =>
    rename_i fr fr'
    dsimp only
    have h2 := hr.target
    generalize fr.target = x at h2 ⊢
    generalize fr'.target = y at h2 ⊢
    cases h2 with
    | none => exact .none
    | some hl =>
      dsimp only
      rw [hl.2]
      split
      · exact .none
      · exact .some hl.1

/-! ## Running -/

theorem tryForEach_pairs {run : Prog σ → St σ → Option (Out (Except Error σ.V) × St σ)}
    {run' : Prog (σ.recast U o W) → St (σ.recast U o W) → Option (Out (Except Error σ.V) × St (σ.recast U o W))}
    (hr : ∀ p p' s s', p.Matches R Q p' → StMatch R Q s s' → OutMatch R Q (run p s) (run' p' s')) {ts : List (Prog σ)}
    {ts' : List (Prog (σ.recast U o W))} (ht : Pairs (Prog.Matches R Q) ts ts') :
    ∀ s s', StMatch R Q s s' → OutMatch R Q (tryForEach run ts s) (tryForEach run' ts' s') := by
  induction ht with
  | nil => intro s s' h; exact .some _ h
  | cons hp hts ih =>
    rename_i p p' ts ts'
    intro s s' h
    have h1 := hr p p' s s' hp h
    simp only [tryForEach]
    revert h1
    generalize run p s = x
    generalize run' p' s' = y
    intro h1
    cases h1 with
    | none => exact .none
    | some r h2 =>
      match r with
      | .ret (.ok _) => exact ih _ _ h2
      | .ret (.error e) => exact .some _ h2
      | .panic => exact .some _ h2
      | .stuck => exact .some _ h2

theorem eval_pairs (hR : SameIds R) {E : Env σ} {E' : Env (σ.recast U o W)} (hE : EnvMatch R Q E E') (fuel : Nat) :
    ∀ (env : List Nat) (p : Prog σ) (p' : Prog (σ.recast U o W)) (s : St σ) (s' : St (σ.recast U o W)), p.Matches R Q p' →
      StMatch R Q s s' → OutMatch R Q (eval E fuel env p s) (eval E' fuel env p' s') := by
  obtain ⟨tr, rs⟩ := E'
  have hrs : ∀ t, ResourceSet.res (Ty := (σ.recast U o W).Ty) rs t = E.resources.res t := hE.resources
  have hblk : ∀ (g' : Graph σ.K U) (fs' : List (Frame σ.K U)) (hp' : Heap W) (s : St σ) (t : σ.Ty) (excl : Bool),
      St.resBlocks (σ := σ.recast U o W) ⟨tr, rs⟩ ⟨g', fs', hp', s.locks⟩ t excl = s.resBlocks E t excl := by
    intro g' fs' hp' s t excl
    unfold St.resBlocks
    rw [hrs]
    rfl
  induction fuel with
  | zero => intro env p p' s s' hp h; exact .none
  | succ fuel ih =>
    intro env p p' s s' hp h
    cases hp with
    | done r => exact .some _ h
    | panic => exact .some _ h
    | reenter => exact .some _ h
    | save c hn hk =>
      simp only [eval]
      cases env[c]? with
      | none => exact .some _ h
      | some f => exact ih _ _ _ _ _ hk (h.pushOp f (.save hn))
    | delete c i hk =>
      simp only [eval]
      cases env[c]? with
      | none => exact .some _ h
      | some f => exact ih _ _ _ _ _ hk (h.pushOp f (.delete i))
    | get c i hk =>
      simp only [eval]
      cases env[c]? with
      | none => exact .some _ h
      | some f => exact ih _ _ _ _ _ (hk _ _ (ctxGet_pairs hR h.graph h.frames i f)) h
    | contains c i hk =>
      simp only [eval]
      cases env[c]? with
      | none => exact .some _ h
      | some f => dsimp only; rw [ctxContains_pairs hR h.graph h.frames]; exact ih _ _ _ _ _ (hk _) h
    | tx c hb hk =>
      rename_i body body' k k'
      simp only [eval]
      cases env[c]? with
      | none => exact .some _ h
      | some f =>
        dsimp only
        rw [h.frames.len]
        have h1 := ih (s.frames.length :: env) body body' _ _ hb (h.open f)
        revert h1
        generalize eval E fuel (s.frames.length :: env) body (openChild s f) = x
        generalize eval ⟨tr, rs⟩ fuel (s.frames.length :: env) body' (openChild s' f) = y
        intro h1
        cases h1 with
        | none => exact .none
        | some r h2 =>
          match r with
          | .ret (.ok v) => exact ih _ _ _ _ _ (hk _) (h2.commit _)
          | .ret (.error e) => exact ih _ _ _ _ _ (hk _) (h2.close _)
          | .panic => exact .some _ (h2.close _)
          | .stuck => exact .some _ (h2.close _)
    | runTriggers c sch hk =>
      simp only [eval]
      cases env[c]? with
      | none => exact .some _ h
      | some f =>
        dsimp only
        have ht := hE.triggers sch
        generalize E.triggers.select sch = x at ht ⊢
        dsimp only at ht
        generalize tr.select sch = y at ht ⊢
        cases ht with
        | none => exact ih _ _ _ _ _ (hk _) h
        | some ht =>
          rename_i ts ts'
          dsimp only
          have h1 := tryForEach_pairs (fun p p' s s' => ih [f] p p' s s') ht s s' h
          revert h1
          generalize tryForEach (eval E fuel [f]) ts s = x
          generalize tryForEach (eval ⟨tr, rs⟩ fuel [f]) ts' s' = y
          intro h1
          cases h1 with
          | none => exact .none
          | some r h2 =>
            match r with
            | .ret r => exact ih _ _ _ _ _ (hk _) h2
            | .panic => exact .some _ h2
            | .stuck => exact .some _ h2
    | withTarget hn hk =>
      simp only [eval]
      cases env[0]? with
      | none => exact .some _ h
      | some f => exact ih _ _ _ _ _ hk (h.setTarget f hn false)
    | targetRead c hk =>
      simp only [eval]
      cases env[c]? with
      | none => exact .some _ h
      | some f => exact ih _ _ _ _ _ (hk _ _ (readTarget_pairs h f)) h
    | targetWrite c hf hk =>
      rename_i fn fn' k k'
      simp only [eval]
      cases env[c]? with
      | none => exact .some _ h
      | some f =>
        dsimp only
        have h1 := readTarget_pairs h f
        generalize readTarget s f = x at h1 ⊢
        generalize readTarget s' f = y at h1 ⊢
        cases h1 with
        | none => exact ih _ _ _ _ _ (hk _) h
        | some hn =>
          rename_i n m
          dsimp only
          have h2 := hf n m hn
          generalize fn n = x at h2 ⊢
          generalize fn' m = y at h2 ⊢
          obtain ⟨n', b⟩ := x
          obtain ⟨m', b'⟩ := y
          obtain ⟨hn', hb⟩ := h2
          dsimp only at hn' hb
          subst hb
          cases b with
          | false => exact ih _ _ _ _ _ (hk _) (h.setTarget f hn' false)
          | true => exact .some _ (h.setTarget f hn' true)
    | resRead t hk =>
      obtain ⟨g', fs', hp', lk'⟩ := s'
      have hheap : HeapPairs Q s.heap hp' := h.heap
      obtain rfl : lk' = s.locks := h.locks
      simp only [eval]
      rw [hblk, hrs]
      cases s.resBlocks E t false with
      | true => exact .some _ h
      | false =>
        simp only [Bool.false_eq_true, if_false]
        exact ih _ _ _ _ _ (hk _ _ (hheap.peek _)) h
    | resWrite t hf hk =>
      rename_i fn fn' k k'
      obtain ⟨g', fs', hp', lk'⟩ := s'
      have hheap : HeapPairs Q s.heap hp' := h.heap
      obtain rfl : lk' = s.locks := h.locks
      simp only [eval]
      rw [hblk, hrs]
      cases s.resBlocks E t true with
      | true => exact .some _ h
      | false =>
        simp only [Bool.false_eq_true, if_false]
        obtain ⟨h1, h2⟩ := hheap.withMut (E.resources.res t) hf
        generalize (E.resources.res t).withMut s.heap (fun v => ((fn v).1, if (fn v).2 then none else some ())) = x at h1 h2
        generalize Res.withMut (Ty := (σ.recast U o W).Ty) (E.resources.res t) hp'
          (fun v => ((fn' v).1, if (fn' v).2 then none else some ())) = y at h1 h2
        obtain ⟨x, hx⟩ := x
        obtain ⟨y, hy⟩ := y
        obtain rfl : y = x := h1
        match y with
        | .unavailable => exact ih _ _ _ _ _ (hk _) h
        | .ran _ => exact ih _ _ _ _ _ (hk _) ⟨h.graph, h.frames, h2, h.locks⟩
        | .panicked => exact .some _ ⟨h.graph, h.frames, h2, h.locks⟩
    | resScope t excl hb hk =>
      rename_i body body' k k'
      obtain ⟨g', fs', hp', lk'⟩ := s'
      have hheap : HeapPairs Q s.heap hp' := h.heap
      obtain rfl : lk' = s.locks := h.locks
      simp only [eval]
      rw [hrs]
      cases (E.resources.res t).lock with
      | none => exact ih _ _ _ _ _ (hk _) h
      | some p =>
        dsimp only
        rw [show St.blocks (⟨g', fs', hp', s.locks⟩ : St (σ.recast U o W)) p excl = s.blocks p excl from rfl]
        cases s.blocks p excl with
        | true => exact .some _ h
        | false =>
          simp only [Bool.false_eq_true, if_false]
          have hpk := hheap.peek (E.resources.res t)
          generalize (E.resources.res t).peek s.heap = x at hpk ⊢
          generalize Res.peek (Ty := (σ.recast U o W).Ty) (E.resources.res t) hp' = y at hpk ⊢
          cases hpk with
          | none => exact ih _ _ _ _ _ (hk _) h
          | @some v w hv =>
            dsimp only
            have h1 := ih env (body v) (body' w) (lockRes s p excl) (lockRes ⟨g', fs', hp', s.locks⟩ p excl) (hb v w hv)
              ⟨h.graph, h.frames, hheap, rfl⟩
            revert h1
            generalize eval E fuel env (body v) (lockRes s p excl) = x
            generalize eval ⟨tr, rs⟩ fuel env (body' w) (lockRes ⟨g', fs', hp', s.locks⟩ p excl) = y
            intro h1
            cases h1 with
            | none => exact .none
            | some r h2 =>
              match r with
              | .ret r => exact ih _ _ _ _ _ (hk _) ⟨h2.graph, h2.frames, h2.heap, by change List.tail _ = List.tail _; rw [h2.locks]⟩
              | .panic =>
                exact .some _ ⟨h2.graph, h2.frames, h2.heap.unwind p excl, by change List.tail _ = List.tail _; rw [h2.locks]⟩
              | .stuck => exact .some _ ⟨h2.graph, h2.frames, h2.heap, by change List.tail _ = List.tail _; rw [h2.locks]⟩
    | resAssign t hx hk =>
      obtain ⟨g', fs', hp', lk'⟩ := s'
      have hheap : HeapPairs Q s.heap hp' := h.heap
      obtain rfl : lk' = s.locks := h.locks
      simp only [eval]
      rw [hrs]
      cases (E.resources.res t).lock with
      | none => exact .some _ h
      | some p =>
        dsimp only
        split
        · exact ih _ _ _ _ _ hk ⟨h.graph, h.frames, hheap.set p (.mk t false hx), rfl⟩
        · exact .some _ h
    | catchUnwind hb hk =>
      rename_i body body' k k'
      simp only [eval]
      have h1 := ih env body body' s s' hb h
      revert h1
      generalize eval E fuel env body s = x
      generalize eval ⟨tr, rs⟩ fuel env body' s' = y
      intro h1
      cases h1 with
      | none => exact .none
      | some r h2 =>
        match r with
        | .ret r => exact ih _ _ _ _ _ (hk _) h2
        | .panic => exact ih _ _ _ _ _ (hk _) h2
        | .stuck => exact .some _ h2
    | forget hk =>
      simp only [eval]
      cases env[0]? with
      | none => exact .some _ h
      | some f => exact ih _ _ _ _ _ hk (h.modify f fun _ _ hf => ⟨hf.parent, hf.ops, hf.target, rfl⟩)

/-! ## Schemas -/

/-- The map of resources after registrations, in the given order of types. -/
def resourcesAfter {Ty : Type} (o : OrderOn Ty) (l : List (Ty × Nat)) : BTreeMap Ty Nat :=
  l.foldl (fun m e => (@BTreeMap.insert _ _ o.ord m e.1 e.2).1) BTreeMap.empty

/-- After the same registrations every resource is found under the one order as under the other. -/
def OrderFree {Ty : Type} (a b : OrderOn Ty) : Prop :=
  ∀ l t, @BTreeMap.get _ _ b.ord (resourcesAfter b l) t = @BTreeMap.get _ _ a.ord (resourcesAfter a l) t

theorem orderFree_self {Ty : Type} (a : OrderOn Ty) : OrderFree a a := fun _ _ => rfl

/-- Schemas with the same resources that match. -/
structure SchemaPairs (R : σ.T → U → Prop) (Q : ∀ t, σ.Val t → W t → Prop) (S : Schema σ) (S' : Schema (σ.recast U o W)) : Prop where
  graph : GraphPairs R S.graph S'.graph
  heap : HeapPairs Q S.heap S'.heap
  env : EnvMatch R Q S.env S'.env
  regs : ∃ l, S.env.resources.resources = resourcesAfter ⟨σ.ordTy⟩ l ∧ S'.env.resources.resources = resourcesAfter o l

theorem SchemaPairs.guard {S : Schema σ} {S' : Schema (σ.recast U o W)} (h : SchemaPairs R Q S S') : GraphPairs R S.guard S'.guard := by
  rw [guard_graph, guard_graph]; exact h.graph

theorem SchemaPairs.matches {S : Schema σ} {S' : Schema (σ.recast U o W)} (h : SchemaPairs R Q S S') : S.Matches R Q S' := by
  refine ⟨h.guard.get, h.guard.iter, fun s => ?_, fun t => ?_⟩
  · unfold Env.fire
    have h1 := h.env.triggers s
    generalize S.env.triggers.select s = x at h1 ⊢
    generalize S'.env.triggers.select s = y at h1 ⊢
    cases h1 with
    | none => exact .nil
    | some h2 => exact h2
  · rw [h.env.resources]
    exact h.heap.peek _

/-- What a transaction gives on either side. -/
inductive EndMatch (R : σ.T → U → Prop) (Q : ∀ t, σ.Val t → W t → Prop) : Option (Out (Except Error σ.V) × Schema σ) →
    Option (Out (Except Error σ.V) × Schema (σ.recast U o W)) → Prop
  | none : EndMatch R Q none none
  | some (r : Out (Except Error σ.V)) {S : Schema σ} {S' : Schema (σ.recast U o W)} : SchemaPairs R Q S S' →
      EndMatch R Q (some (r, S)) (some (r, S'))

theorem EndMatch.fst {x : Option (Out (Except Error σ.V) × Schema σ)} {y : Option (Out (Except Error σ.V) × Schema (σ.recast U o W))}
    (h : EndMatch R Q x y) : x.map Prod.fst = y.map Prod.fst := by
  cases h <;> rfl

theorem commitRoot_pairs (hR : SameIds R) {s : St σ} {s' : St (σ.recast U o W)} (h : StMatch R Q s s') :
    GraphPairs R (commitRoot s) (commitRoot s') := by
  unfold commitRoot
  have h1 := h.frames.get 0
  generalize s.frames[0]? = x at h1 ⊢
  generalize s'.frames[0]? = y at h1 ⊢
  cases h1 with
  | none => exact h.graph
  | some hr =>
    dsimp only
    rw [hr.leaked]
    split
    · exact h.graph
    · exact h.graph.commit hR hr.ops

theorem transact_pairs (hR : SameIds R) {S : Schema σ} {S' : Schema (σ.recast U o W)} (h : SchemaPairs R Q S S') (fuel : Nat)
    {pre : List (Operation σ.K σ.T)} {pre' : List (Operation σ.K U)} (hp : Pairs (Operation.Matches R) pre pre') {body : Prog σ}
    {body' : Prog (σ.recast U o W)} (hb : body.Matches R Q body') :
    EndMatch R Q (S.transact fuel pre body) (S'.transact fuel pre' body') := by
  unfold Schema.transact
  have h1 := eval_pairs hR h.env fuel [0] body body' (S.begin pre) (S'.begin pre') hb
    ⟨h.guard, .cons ⟨rfl, hp, .none, rfl⟩ .nil, h.heap, rfl⟩
  revert h1
  generalize eval S.env fuel [0] body (S.begin pre) = x
  generalize eval S'.env fuel [0] body' (S'.begin pre') = y
  intro h1
  cases h1 with
  | none => exact .none
  | some r h2 =>
    match r with
    | .ret (.ok v) => exact .some _ ⟨commitRoot_pairs hR h2, h2.heap, h.env, h.regs⟩
    | .ret (.error e) => exact .some _ ⟨h2.graph, h2.heap, h.env, h.regs⟩
    | .panic => exact .some _ ⟨h2.graph, h2.heap, h.env, h.regs⟩
    | .stuck => exact .some _ ⟨h2.graph, h2.heap, h.env, h.regs⟩

theorem SchemaPairs.register {S : Schema σ} {S' : Schema (σ.recast U o W)} (h : SchemaPairs R Q S S') (hO : OrderFree ⟨σ.ordTy⟩ o)
    (t : σ.Ty) {v : σ.Val t} {w : W t} (hv : Q t v w) : SchemaPairs R Q (S.withResource t v) (S'.withResource t w) := by
  obtain ⟨l, h1, h2⟩ := h.regs
  have h3 : (S.withResource t v).env.resources.resources = resourcesAfter ⟨σ.ordTy⟩ (l ++ [(t, S.heap.length)]) := by
    change (S.env.resources.resources.insert t S.heap.length).1 = _
    rw [h1, resourcesAfter, resourcesAfter, List.foldl_append]
    rfl
  have h4 : (S'.withResource t w).env.resources.resources = resourcesAfter o (l ++ [(t, S.heap.length)]) := by
    change (@BTreeMap.insert _ _ o.ord S'.env.resources.resources t S'.heap.length).1 = _
    rw [h2, h.heap.length, resourcesAfter, resourcesAfter, List.foldl_append]
    rfl
  refine ⟨h.graph, ?_, ⟨h.env.entries, fun u => ?_⟩, _, h3, h4⟩
  · exact h.heap.append (.cons (.mk t false hv) .nil)
  · change (⟨@BTreeMap.get _ _ o.ord (S'.withResource t w).env.resources.resources u⟩ : Res u) =
      ⟨(S.withResource t v).env.resources.resources.get u⟩
    rw [h3, h4]
    exact congrArg _ (hO _ u)

/-- One use on either side: it comes to an end on both or on none. -/
theorem gives_pairs (hR : SameIds R) (hO : OrderFree ⟨σ.ordTy⟩ o) {S : Schema σ} {S' : Schema (σ.recast U o W)} (h : SchemaPairs R Q S S') {u : Use σ}
    {u' : Use (σ.recast U o W)} (hu : u.Matches R Q u') :
    (∀ a S1, Gives S u a S1 → ∃ a' S1', Gives S' u' a' S1' ∧ a.Matches R Q a' ∧ SchemaPairs R Q S1 S1') ∧
    (∀ a' S1', Gives S' u' a' S1' → ∃ a S1, Gives S u a S1 ∧ a.Matches R Q a' ∧ SchemaPairs R Q S1 S1') := by
  obtain ⟨g', po', hp', tr, rs⟩ := S'
  have hheap : HeapPairs Q S.heap hp' := h.heap
  cases hu with
  | register t hv =>
    rename_i v w
    have h1 : SchemaPairs R Q (S.withResource t v) (Schema.withResource ⟨g', po', hp', tr, rs⟩ t w) :=
      h.register hO t hv
    exact ⟨fun a S1 hg => by cases hg; exact ⟨_, _, Gives.register (σ := σ.recast U o W) _ t w, .nothing, h1⟩,
      fun a S1 hg => by cases hg; exact ⟨_, _, .register _ t v, .nothing, h1⟩⟩
  | trigger s hp =>
    rename_i p p'
    have h1 : SchemaPairs R Q (S.withTrigger s p) (Schema.withTrigger ⟨g', po', hp', tr, rs⟩ s p') :=
      ⟨h.graph, hheap, h.env.withTrigger s hp, h.regs⟩
    exact ⟨fun a S1 hg => by cases hg; exact ⟨_, _, .trigger _ s _, .nothing, h1⟩,
      fun a S1 hg => by cases hg; exact ⟨_, _, .trigger _ s _, .nothing, h1⟩⟩
  | tx hp hb =>
    rename_i pre pre' body body'
    constructor
    · intro a S1 hg
      cases hg with
      | tx ht ho =>
        rename_i fuel r
        have h1 := transact_pairs hR h fuel hp hb
        rw [ht] at h1
        generalize hy : Schema.transact (⟨g', po', hp', tr, rs⟩ : Schema (σ.recast U o W)) fuel pre' body' = y at h1
        cases h1 with
        | some _ h2 => exact ⟨_, _, .tx hy ho, .out _, h2⟩
    · intro a S1 hg
      cases hg with
      | tx ht ho =>
        rename_i fuel r
        have h1 := transact_pairs hR h fuel hp hb
        rw [ht] at h1
        generalize hy : S.transact fuel pre body = y at h1
        cases h1 with
        | some _ h2 => exact ⟨_, _, .tx hy ho, .out _, h2⟩
  | update ho =>
    rename_i op op'
    have h1 : SchemaPairs R Q { S with graph := S.guard.applyOp op } { (⟨g', po', hp', tr, rs⟩ : Schema (σ.recast U o W)) with
        graph := (Schema.guard (⟨g', po', hp', tr, rs⟩ : Schema (σ.recast U o W))).applyOp op' } :=
      ⟨h.guard.applyOp hR ho, hheap, h.env, h.regs⟩
    exact ⟨fun a S1 hg => by cases hg; exact ⟨_, _, .update _ _, .nothing, h1⟩,
      fun a S1 hg => by cases hg; exact ⟨_, _, .update _ _, .nothing, h1⟩⟩
  | get i =>
    have h1 := h.guard.get i
    exact ⟨fun a S1 hg => by cases hg; exact ⟨_, _, .get _ _, .node h1, h⟩,
      fun a S1 hg => by cases hg; exact ⟨_, _, .get _ _, .node h1, h⟩⟩
  | iter =>
    have h1 := h.guard.iter
    exact ⟨fun a S1 hg => by cases hg; exact ⟨_, _, .iter _, .nodes h1, h⟩,
      fun a S1 hg => by cases hg; exact ⟨_, _, .iter _, .nodes h1, h⟩⟩
  | read t =>
    have h1 : (ResourceSet.res (Ty := (σ.recast U o W).Ty) rs t) = S.env.resources.res t := h.env.resources t
    constructor
    · intro a S1 hg
      cases hg
      refine ⟨_, _, .read _ _, ?_, h⟩
      change Seen.Matches R Q _ (.value t ((ResourceSet.res (Ty := (σ.recast U o W).Ty) rs t).peek hp'))
      rw [h1]
      exact .value _ (hheap.peek _)
    · intro a S1 hg
      cases hg
      refine ⟨_, _, .read _ _, ?_, h⟩
      change Seen.Matches R Q _ (.value t ((ResourceSet.res (Ty := (σ.recast U o W).Ty) rs t).peek hp'))
      rw [h1]
      exact .value _ (hheap.peek _)
  | write t hf =>
    rename_i f f'
    have h1 : (ResourceSet.res (Ty := (σ.recast U o W).Ty) rs t) = S.env.resources.res t := h.env.resources t
    have h2 := Gives.write (σ := σ.recast U o W) ⟨g', po', hp', tr, rs⟩ t f'
    dsimp only at h2
    rw [h1] at h2
    obtain ⟨h3, h4⟩ := hheap.withMut (S.env.resources.res t) hf
    exact ⟨fun a S1 hg => by cases hg; exact ⟨_, _, h2, by rw [h3]; exact .wrote _, h.graph, h4, h.env, h.regs⟩,
      fun a S1 hg => by
        cases hg
        exact ⟨_, _, .write _ _ _, by rw [h1, h3]; exact .wrote _, h.graph, by rw [h1]; exact h4, h.env, h.regs⟩⟩

theorem schemaPairs_start (hR : SameIds R) {l : List σ.T} {l' : List U} (h : Pairs R l l') :
    SchemaPairs R Q (.fromGraph (σ.graphOf l)) (.fromGraph ((σ.recast U o W).graphOf l')) :=
  ⟨graphPairs_graphOf hR h, .nil, ⟨.nil, fun _ => rfl⟩, [], rfl, rfl⟩

theorem session_pairs (hR : SameIds R) (hO : OrderFree ⟨σ.ordTy⟩ o) {S S1 : Schema σ} {l : List (Use σ × Seen σ)} (h : Session S l S1) :
    ∀ {S' : Schema (σ.recast U o W)} {us' : List (Use (σ.recast U o W))}, SchemaPairs R Q S S' → Pairs (Use.Matches R Q) (l.map Prod.fst) us' →
      ∃ l' S1', Session S' l' S1' ∧ l'.map Prod.fst = us' ∧ Pairs (Seen.Matches R Q) (l.map Prod.snd) (l'.map Prod.snd) ∧
        SchemaPairs R Q S1 S1' := by
  induction h with
  | nil S => intro S' us' hs hu; cases hu; exact ⟨[], S', .nil _, rfl, .nil, hs⟩
  | cons hg _ ih =>
    intro S' us' hs hu
    cases hu with
    | cons h1 h2 =>
      obtain ⟨a', S2', g1, g2, g3⟩ := (gives_pairs hR hO hs h1).1 _ _ hg
      obtain ⟨l', S1', k1, k2, k3, k4⟩ := ih g3 h2
      exact ⟨(_, a') :: l', S1', .cons g1 k1, by rw [List.map_cons, k2], .cons g2 k3, k4⟩

theorem session_pairs_back (hR : SameIds R) (hO : OrderFree ⟨σ.ordTy⟩ o) {us : List (Use σ)} : ∀ {S : Schema σ} {S' S1' : Schema (σ.recast U o W)}
    {l' : List (Use (σ.recast U o W) × Seen (σ.recast U o W))}, SchemaPairs R Q S S' → Session S' l' S1' →
      Pairs (Use.Matches R Q) us (l'.map Prod.fst) →
      ∃ l S1, Session S l S1 ∧ l.map Prod.fst = us ∧ Pairs (Seen.Matches R Q) (l.map Prod.snd) (l'.map Prod.snd) ∧
        SchemaPairs R Q S1 S1' := by
  induction us with
  | nil =>
    intro S S' S1' l' hs h hu
    cases h with
    | nil => exact ⟨[], S, .nil _, rfl, .nil, hs⟩
    | cons => cases hu
  | cons u us ih =>
    intro S S' S1' l' hs h hu
    cases h with
    | nil => cases hu
    | cons hg h =>
      cases hu with
      | cons h1 h2 =>
        obtain ⟨a, S2, g1, g2, g3⟩ := (gives_pairs hR hO hs h1).2 _ _ hg
        obtain ⟨l, S1, k1, k2, k3, k4⟩ := ih g3 h h2
        exact ⟨(u, a) :: l, S1, .cons g1 k1, by rw [List.map_cons, k2], .cons g2 k3, k4⟩

end Plotline
