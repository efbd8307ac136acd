import Verif.Spec.Plugin
import Verif.Lemmas.Interval
import Verif.Lemmas.Ops
import Verif.Lemmas.Resource

/-! # The interval plugin at work -/

namespace Plotline

open Std

set_option linter.unusedSectionVars false

instance : TransOrd PTy where
  eq_swap {a b} := OrientedCmp.eq_swap (cmp := compare) (a := a.typeId) (b := b.typeId)
  isLE_trans {a b c} := TransCmp.isLE_trans (cmp := compare) (a := a.typeId) (b := b.typeId) (c := c.typeId)

theorem PTy.typeId_inj {a b : PTy} (h : a.typeId = b.typeId) : a = b := by
  cases a <;> cases b <;> simp [PTy.typeId] at h ⊢ <;> omega

instance : LawfulEqOrd PTy where
  eq_of_compare h := PTy.typeId_inj (LawfulEqOrd.eq_of_compare (α := Nat) h)

section
variable {K T I B : Type} [Ord K] [BEq K] [Identify T K] [Ord B] [BEq I] [Interval I B]

instance {W : Nat → Type} [TransOrd K] [LawfulBEqOrd K] : LawfulSig (PSigOf K T I B W) where
  transK := inferInstanceAs (TransOrd K)
  beqK := inferInstanceAs (LawfulBEqOrd K)
  transTy := inferInstanceAs (TransOrd PTy)
  eqTy := inferInstanceAs (LawfulEqOrd PTy)

/-- The resource cells the plugin makes, with the index it uses holding `t`. -/
def pheap (merged : Bool) (extract : T → List I) (t : ITree (NodeInterval K I) B) : Heap (PValOf K T I B fun _ => Nat) :=
  [⟨⟨.extractor, extract⟩, false⟩,
   if merged then ⟨⟨.treeOfId, t⟩, false⟩ else ⟨⟨.treeOfNode, (.nil : ITree (NodeInterval T I) B)⟩, false⟩]

/-- The environment of a schema on which nothing but the plugin is installed. -/
def penv (merged : Bool) (fuel : Nat) (extract : T → List I) : Env (PSig K T I B) :=
  (install merged fuel extract (Schema.fromGraph Graph.empty)).env

theorem res_extractor (merged : Bool) (fuel : Nat) (extract : T → List I) (t : ITree (NodeInterval K I) B) :
    ((penv merged fuel extract).resources.res .extractor).peek (pheap merged extract t) = some extract := by
  cases merged <;> rfl

theorem res_tree (merged : Bool) (fuel : Nat) (extract : T → List I) (t : ITree (NodeInterval K I) B) :
    ((penv merged fuel extract).resources.res .treeOfId).peek (pheap merged extract t) =
      if merged then some t else none := by
  cases merged <;> rfl

theorem fire_beforeSave (merged : Bool) (fuel : Nat) (extract : T → List I) :
    (penv merged fuel extract : Env (PSig K T I B)).fire .beforeSave = [] := by cases merged <;> rfl
theorem fire_afterSave (merged : Bool) (fuel : Nat) (extract : T → List I) :
    (penv merged fuel extract : Env (PSig K T I B)).fire .afterSave = [onSave] := by cases merged <;> rfl
theorem fire_beforeDelete (merged : Bool) (fuel : Nat) (extract : T → List I) :
    (penv merged fuel extract : Env (PSig K T I B)).fire .beforeDelete = [] := by cases merged <;> rfl
theorem fire_afterDelete (merged : Bool) (fuel : Nat) (extract : T → List I) :
    (penv merged fuel extract : Env (PSig K T I B)).fire .afterDelete = [onDelete fuel] := by cases merged <;> rfl

theorem no_locks {E : Env σ} {s : St σ} (hl : s.locks = []) (t : σ.Ty) (excl : Bool) : s.resBlocks E t excl = false := by
  unfold St.resBlocks St.blocks
  split
  · rfl
  · rw [hl]; rfl

theorem runs_onSave (merged : Bool) (fuel : Nat) (extract : T → List I) (t : ITree (NodeInterval K I) B) (f : Nat) (n : T)
    (s : St (PSig K T I B)) (hn : readTarget s f = some n) (hh : s.heap = pheap merged extract t) (hl : s.locks = []) :
    Runs (penv merged fuel extract) [f] onSave s (.ret (.ok ()))
      { s with heap := pheap merged extract (if merged then insertEach (nodeIntervals extract n) t else t) } := by
  refine ⟨4, ?_⟩
  unfold onSave withIntervals
  rw [eval]
  simp only [List.getElem?_cons_zero, hn]
  rw [eval, hh, res_extractor, no_locks hl]
  obtain ⟨_, _, _, _⟩ := s
  cases hh
  cases hl
  cases merged <;> rfl

theorem runs_onDelete (merged : Bool) (fuel : Nat) (extract : T → List I) (t : ITree (NodeInterval K I) B) (f : Nat) (n : T)
    (s : St (PSig K T I B)) (hn : readTarget s f = some n) (hh : s.heap = pheap merged extract t) (hl : s.locks = []) :
    ∃ out s', Runs (penv merged fuel extract) [f] (onDelete fuel) s out s' ∧
      ((merged = false ∧ out = .ret (.ok ()) ∧ s' = s) ∨
       (merged = true ∧ (∃ t', deleteEach fuel (nodeIntervals extract n) t = some t' ∧ out = .ret (.ok ()) ∧
          s' = { s with heap := pheap true extract t' })) ∨
       (merged = true ∧ deleteEach fuel (nodeIntervals extract n) t = none ∧ out = .stuck)) := by
  cases merged
  · refine ⟨_, s, ⟨5, ?_⟩, .inl ⟨rfl, rfl, rfl⟩⟩
    unfold onDelete withIntervals
    rw [eval]
    simp only [List.getElem?_cons_zero, hn]
    rw [eval, hh, res_extractor, no_locks hl]
    simp only [Bool.false_eq_true, if_false]
    rw [eval, hh, res_tree, no_locks hl]
    rfl
  · cases hd : deleteEach fuel (nodeIntervals extract n) t with
    | none =>
      refine ⟨.stuck, s, ⟨5, ?_⟩, .inr (.inr ⟨rfl, rfl, rfl⟩)⟩
      unfold onDelete withIntervals
      rw [eval]
      simp only [List.getElem?_cons_zero, hn]
      rw [eval, hh, res_extractor, no_locks hl]
      simp only [Bool.false_eq_true, if_false]
      rw [eval, hh, res_tree, no_locks hl]
      simp only [Bool.false_eq_true, if_false, if_true, hd]
      rfl
    | some t' =>
      refine ⟨_, _, ⟨5, ?_⟩, .inr (.inl ⟨rfl, t', rfl, rfl, rfl⟩)⟩
      unfold onDelete withIntervals
      rw [eval]
      simp only [List.getElem?_cons_zero, hn]
      rw [eval, hh, res_extractor, no_locks hl]
      simp only [Bool.false_eq_true, if_false]
      rw [eval, hh, res_tree, no_locks hl]
      simp only [Bool.false_eq_true, if_false, if_true, hd]
      rw [eval, hh, no_locks hl]
      rfl

/-- A schema on which nothing but the plugin is installed, whose index holds `t`. -/
structure Inst (merged : Bool) (fuel : Nat) (extract : T → List I) (S : Schema (PSig K T I B))
    (t : ITree (NodeInterval K I) B) : Prop where
  env : S.env = penv merged fuel extract
  heap : S.heap = pheap merged extract t

theorem inst_install (merged : Bool) (fuel : Nat) (extract : T → List I) (g : Graph K T) :
    Inst merged fuel extract (install merged fuel extract (Schema.fromGraph g) : Schema (PSig K T I B)) .nil := by
  cases merged <;> exact ⟨rfl, rfl⟩

theorem inst_save {merged : Bool} {fuel : Nat} {extract : T → List I} {S : Schema (PSig K T I B)}
    {t : ITree (NodeInterval K I) B} (h : Inst merged fuel extract S t) (n : T) :
    ∃ fuel0, ∀ fuel', fuel0 ≤ fuel' → S.save fuel' n = some (.ret (.ok ()),
      { S with graph := (S.graph.insert n).1
               heap := pheap merged extract (if merged then insertEach (nodeIntervals extract n) t else t) }) := by
  have hr : Runs S.env [0] (saveBody n) (S.begin []) (.ret (.ok ()))
      { pushOp (setTarget (S.begin []) 0 n) 0 (.save n) with
        heap := pheap merged extract (if merged then insertEach (nodeIntervals extract n) t else t) } := by
    rw [runs_saveBody, h.env]
    refine ⟨.ret (.ok ()), setTarget (S.begin []) 0 n, by rw [fire_beforeSave]; exact .none _,
      .inl ⟨.ret (.ok ()), rfl, ?_, rfl⟩⟩
    rw [fire_afterSave]
    exact .next (runs_onSave merged fuel extract t 0 n _ rfl h.heap rfl) (.none _)
  obtain ⟨fuel0, h'⟩ := transact_of_runs S hr
  refine ⟨fuel0, fun fuel' hle => (h' fuel' hle).trans ?_⟩
  have : commitRoot (σ := PSig K T I B) { pushOp (setTarget (S.begin []) 0 n) 0 (.save n) with
        heap := pheap merged extract (if merged then insertEach (nodeIntervals extract n) t else t) } =
      (S.graph.insert n).1 := by
    show (S.guard.insert n).1 = _
    rw [guard_eq]
  rw [this]

theorem inst_delete {merged : Bool} {fuel : Nat} {extract : T → List I} {S : Schema (PSig K T I B)}
    {t : ITree (NodeInterval K I) B} (h : Inst merged fuel extract S t) (i : K) :
    ∃ fuel0, ∀ fuel', fuel0 ≤ fuel' →
      (S.graph.get i = none ∧ S.delete fuel' i = some (.ret (.error .noop), S)) ∨
      ∃ n, S.graph.get i = some n ∧
        ((∃ t', (if merged then deleteEach fuel (nodeIntervals extract n) t else some t) = some t' ∧
            S.delete fuel' i = some (.ret (.ok ()),
              { S with graph := (S.graph.remove i).1, heap := pheap merged extract t' })) ∨
         (merged = true ∧ deleteEach fuel (nodeIntervals extract n) t = none ∧ ∃ S', S.delete fuel' i = some (.stuck, S'))) := by
  have hget : ctxGet (S.begin []).graph (S.begin []).frames 0 i = S.graph.get i := by
    simp only [ctxGet, Schema.begin, guard_eq, List.getElem?_cons_zero, List.reverse_nil, List.find?_nil]
  cases hg : S.graph.get i with
  | none =>
    have hr : Runs S.env [0] (deleteBody i) (S.begin []) (.ret (.error .noop)) (S.begin []) := by
      rw [runs_deleteBody, hget, hg]
      exact .inl ⟨rfl, rfl, rfl⟩
    obtain ⟨fuel0, h'⟩ := transact_of_runs_err S hr
    refine ⟨fuel0, fun fuel' hle => .inl ⟨rfl, (h' fuel' hle).trans ?_⟩⟩
    rw [begin_graph]; rfl
  | some n =>
    obtain ⟨out, s', hrun, hcase⟩ := runs_onDelete merged fuel extract t 0 n
      (pushOp (setTarget (S.begin []) 0 n) 0 (.delete i)) rfl h.heap rfl
    have hr : ∀ r, Fires (penv merged fuel extract) 0 [onDelete fuel] (pushOp (setTarget (S.begin []) 0 n) 0 (.delete i)) r s' →
        Runs S.env [0] (deleteBody i) (S.begin []) (outOf r) s' := by
      intro r hf
      rw [runs_deleteBody, hget, hg, h.env]
      refine .inr ⟨n, .ret (.ok ()), setTarget (S.begin []) 0 n, rfl, by rw [fire_beforeDelete]; exact .none _,
        .inl ⟨r, rfl, ?_, rfl⟩⟩
      rw [fire_afterDelete]; exact hf
    have hok : ∀ heap, s' = { pushOp (setTarget (S.begin []) 0 n) 0 (.delete i) with heap := heap } → out = .ret (.ok ()) →
        ∃ fuel0, ∀ fuel', fuel0 ≤ fuel' → S.delete fuel' i = some (.ret (.ok ()),
          { S with graph := (S.graph.remove i).1, heap := heap }) := by
      intro heap hs ho
      subst ho
      obtain ⟨fuel0, h'⟩ := transact_of_runs S (hr (.ret (.ok ())) (.next hrun (.none _)))
      refine ⟨fuel0, fun fuel' hle => (h' fuel' hle).trans ?_⟩
      subst hs
      have : commitRoot (σ := PSig K T I B) { pushOp (setTarget (S.begin []) 0 n) 0 (.delete i) with heap := heap } =
          (S.graph.remove i).1 := by
        show (S.guard.remove i).1 = _
        rw [guard_eq]
      rw [this]
    rcases hcase with ⟨hm, ho, hs⟩ | ⟨hm, t', hd, ho, hs⟩ | ⟨hm, hd, ho⟩
    · obtain ⟨fuel0, h'⟩ := hok S.heap hs ho
      refine ⟨fuel0, fun fuel' hle => .inr ⟨n, rfl, .inl ⟨t, by simp [hm], ?_⟩⟩⟩
      rw [h' fuel' hle, h.heap]
    · obtain ⟨fuel0, h'⟩ := hok _ hs ho
      subst hm
      exact ⟨fuel0, fun fuel' hle => .inr ⟨n, rfl, .inl ⟨t', by simpa using hd, h' fuel' hle⟩⟩⟩
    · subst ho
      obtain ⟨fuel0, hf⟩ := hr .stuck (.stuck hrun)
      refine ⟨fuel0, fun fuel' hle => .inr ⟨n, rfl, .inr ⟨hm, hd, ?_⟩⟩⟩
      have hf := eval_mono_le S.env hle hf
      exact ⟨_, by unfold Schema.delete Schema.transact; rw [hf]; rfl⟩

end

section
variable {K T I B : Type} [Ord K] [BEq K] [Identify T K] [Ord B] [BEq I] [Interval I B] [TransOrd B]

/-! ## Trees -/

theorem delete_fuel (fuel fuel' : Nat) (i : I) (t : ITree I B) : t.delete fuel i = t.delete fuel' i := by
  induction t with
  | nil => rfl
  | node v m l r ihl ihr =>
    unfold ITree.delete
    rw [ihl, ihr]
    cases l <;> cases r <;> simp only [ITree.join_none]

/-- Whether the deletions of `on_delete` return does not depend on the fuel given to the model. -/
theorem deleteEach_fuel (fuel fuel' : Nat) (is : List (NodeInterval K I)) (t : ITree (NodeInterval K I) B) :
    deleteEach fuel is t = deleteEach fuel' is t := by
  induction is generalizing t with
  | nil => rfl
  | cons i is ih =>
    unfold deleteEach
    rw [delete_fuel fuel fuel' i t]
    exact congrArg _ (funext ih)

omit [TransOrd B] in
theorem insertEach_built {es : List (IEvent (NodeInterval K I))} {t : ITree (NodeInterval K I) B} (h : Built es t)
    (is : List (NodeInterval K I)) : Built (es ++ is.map .insert) (insertEach is t) := by
  induction is generalizing es t with
  | nil => simpa [insertEach] using h
  | cons i is ih =>
    have := ih (Built.insert i h)
    rw [List.append_assoc] at this
    exact this

omit [TransOrd B] in
theorem deleteEach_built {es : List (IEvent (NodeInterval K I))} {t t' : ITree (NodeInterval K I) B} (h : Built es t)
    (fuel : Nat) (is : List (NodeInterval K I)) (hd : deleteEach fuel is t = some t') : Built (es ++ is.map .delete) t' := by
  induction is generalizing es t with
  | nil => cases hd; simpa using h
  | cons i is ih =>
    unfold deleteEach at hd
    cases h1 : t.delete fuel i with
    | none => rw [h1] at hd; cases hd
    | some t1 =>
      rw [h1] at hd
      have := ih (Built.delete fuel i h h1) hd
      rw [List.append_assoc] at this
      exact this

theorem inorder_insertEach (is : List (NodeInterval K I)) (t : ITree (NodeInterval K I) B) :
    (insertEach is t).inorder.Perm (is ++ t.inorder) := by
  induction is generalizing t with
  | nil => exact .refl _
  | cons i is ih =>
    refine (ih (t.insert i)).trans ?_
    refine ((ITree.inorder_insert t i).append_left is).trans ?_
    exact List.perm_middle

end

section
variable {K T I B : Type} [Ord K] [BEq K] [Identify T K] [Ord B] [BEq I] [Interval I B] [TransOrd K] [LawfulBEqOrd K]

/-! ## Histories -/

theorem save_inv {merged : Bool} {fuel fuel' : Nat} {extract : T → List I} {S S1 : Schema (PSig K T I B)}
    {t : ITree (NodeInterval K I) B} (h : Inst merged fuel extract S t) {n : T} {out : Out (Except Error Unit)}
    (hs : S.save fuel' n = some (out, S1)) :
    out = .ret (.ok ()) ∧ S1.graph = (S.graph.insert n).1 ∧
      Inst merged fuel extract S1 (if merged then insertEach (nodeIntervals extract n) t else t) := by
  obtain ⟨fuel0, h0⟩ := inst_save h n
  have h1 := transact_mono_le S (Nat.le_max_left fuel' fuel0) hs
  have h2 : S.transact _ _ _ = _ := h0 _ (Nat.le_max_right fuel' fuel0)
  rw [h2] at h1
  cases h1
  exact ⟨rfl, rfl, ⟨h.env, rfl⟩⟩

theorem delete_inv {merged : Bool} {fuel fuel' : Nat} {extract : T → List I} {S S1 : Schema (PSig K T I B)}
    {t : ITree (NodeInterval K I) B} (h : Inst merged fuel extract S t) {i : K} {r : Except Error Unit}
    (hs : S.delete fuel' i = some (.ret r, S1)) :
    (S.graph.get i = none ∧ r = .error .noop ∧ S1 = S) ∨
    ∃ n t', S.graph.get i = some n ∧ r = .ok () ∧ S1.graph = (S.graph.remove i).1 ∧
      (if merged then deleteEach fuel (nodeIntervals extract n) t else some t) = some t' ∧
      Inst merged fuel extract S1 t' := by
  obtain ⟨fuel0, h0⟩ := inst_delete h i
  have h1 := transact_mono_le S (Nat.le_max_left fuel' fuel0) hs
  rcases h0 _ (Nat.le_max_right fuel' fuel0) with ⟨hg, h2⟩ | ⟨n, hg, ⟨t', ht, h2⟩ | ⟨_, _, _, h2⟩⟩
  · unfold Schema.delete at h2; rw [h1] at h2; cases h2; exact .inl ⟨hg, rfl, rfl⟩
  · unfold Schema.delete at h2; rw [h1] at h2; cases h2; exact .inr ⟨n, t', hg, rfl, rfl, ht, ⟨h.env, rfl⟩⟩
  · unfold Schema.delete at h2; rw [h1] at h2; cases h2

theorem findL_none_insertL {V : Type} {k : K} {v : V} {l : List (K × V)} (h : BTreeMap.findL k l = none)
    (hs : BTreeMap.Sorted l) : (BTreeMap.insertL k v l).Perm ((k, v) :: l) := by
  induction l with
  | nil => exact .refl _
  | cons e l ih =>
    obtain ⟨k', v'⟩ := e
    unfold BTreeMap.findL at h
    unfold BTreeMap.insertL
    cases hc : compare k k' with
    | lt => exact .refl _
    | eq => rw [hc] at h; cases h
    | gt =>
      rw [hc] at h
      exact ((ih h (List.pairwise_cons.1 hs).2).cons _).trans (.swap _ _ _)

theorem findL_some_removeL {V : Type} {k : K} {v : V} {l : List (K × V)} (h : BTreeMap.findL k l = some v) :
    ∃ k', l.Perm ((k', v) :: BTreeMap.removeL k l) := by
  induction l with
  | nil => cases h
  | cons e l ih =>
    obtain ⟨k', v'⟩ := e
    unfold BTreeMap.findL at h
    unfold BTreeMap.removeL
    cases hc : compare k k' with
    | lt => rw [hc] at h; cases h
    | eq => rw [hc] at h; cases h; exact ⟨k', .refl _⟩
    | gt =>
      rw [hc] at h
      obtain ⟨k'', hp⟩ := ih h
      exact ⟨k'', (hp.cons _).trans (.swap _ _ _)⟩

theorem iter_insert_fresh (g : Graph K T) (hg : g.Valid) (n : T) (h : g.get (id n) = none) :
    (g.insert n).1.iter.Perm (n :: g.iter) :=
  (findL_none_insertL (v := n) h hg.1).map Prod.snd

theorem iter_remove (g : Graph K T) (i : K) (n : T) (h : g.get i = some n) :
    g.iter.Perm (n :: (g.remove i).1.iter) := by
  obtain ⟨k', hp⟩ := findL_some_removeL h
  exact hp.map Prod.snd

end

end Plotline
