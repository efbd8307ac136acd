import Verif.Lemmas.TreeOpaque
import Verif.Lemmas.Opaque
import Verif.Spec.PluginOpaque
import Verif.Spec.Plugin

/-! Helper lemmas: the interval plugin over other nodes and intervals. -/

namespace Plotline

variable {K T U I J B C : Type} {W X : Nat → Type} [Ord K] [BEq K] [Identify T K] [Identify U K] [Ord B] [Ord C] [BEq I] [BEq J]
  [Interval I B] [Interval J C] {R : T → U → Prop} {Q : I → J → Prop} {O : ∀ n, W n → X n → Prop}

theorem SameShape.ofNodes (hQ : SameShape (B := B) (C := C) Q) :
    SameShape (B := B) (C := C) (NodeInterval.Like (Eq (α := K)) Q) := by
  constructor
  · intro i j h i' j' h'; exact hQ.lo_lo _ _ h.2 _ _ h'.2
  · intro i j h i' j' h'; exact hQ.lo_hi _ _ h.2 _ _ h'.2
  · intro i j h i' j' h'; exact hQ.hi_lo _ _ h.2 _ _ h'.2
  · intro i j h i' j' h'; exact hQ.hi_hi _ _ h.2 _ _ h'.2
  · rintro ⟨a, i⟩ ⟨b, j⟩ ⟨h1, h2⟩ ⟨a', i'⟩ ⟨b', j'⟩ ⟨h1', h2'⟩
    dsimp only at h1 h2 h1' h2'
    subst h1
    subst h1'
    change (_ == _ && _ == _) = (_ == _ && _ == _)
    rw [hQ.eq _ _ h2 _ _ h2']

theorem nodeIntervals_like (hR : ∀ n m, R n m → (id m : K) = id n) {e : T → List I} {e' : U → List J}
    (he : ∀ n m, R n m → Pairs Q (e n) (e' m)) {n : T} {m : U} (hn : R n m) :
    Pairs (NodeInterval.Like (Eq (α := K)) Q) (nodeIntervals e n) (nodeIntervals e' m) :=
  (he n m hn).map fun _ _ h => ⟨(hR n m hn).symm, h⟩

theorem insertEach_like (hQ : SameShape (B := B) (C := C) Q) {l : List (NodeInterval K I)} {l' : List (NodeInterval K J)}
    (hl : Pairs (NodeInterval.Like Eq Q) l l') : ∀ {t : ITree (NodeInterval K I) B} {t' : ITree (NodeInterval K J) C},
      TreeLike (NodeInterval.Like Eq Q) t t' → TreeLike (NodeInterval.Like Eq Q) (insertEach l t) (insertEach l' t') := by
  induction hl with
  | nil => intro t t' h; exact h
  | cons h1 _ ih => intro t t' h; exact ih (h.insert hQ.ofNodes h1)

theorem deleteEach_like (hQ : SameShape (B := B) (C := C) Q) (fuel : Nat) {l : List (NodeInterval K I)} {l' : List (NodeInterval K J)}
    (hl : Pairs (NodeInterval.Like Eq Q) l l') : ∀ {t : ITree (NodeInterval K I) B} {t' : ITree (NodeInterval K J) C},
      TreeLike (NodeInterval.Like Eq Q) t t' → Both (TreeLike (NodeInterval.Like Eq Q)) (deleteEach fuel l t) (deleteEach fuel l' t') := by
  induction hl with
  | nil => intro t t' h; exact .some h
  | @cons a b _ _ h1 _ ih =>
    intro t t' h
    have h2 := h.delete hQ.ofNodes fuel h1
    unfold deleteEach
    generalize t.delete fuel a = x at h2
    generalize t'.delete fuel b = y at h2
    cases h2 with
    | none => exact .none
    | some h3 => exact ih h3

/-- The schema with the other nodes, intervals and other resources, as made from the first one. -/
theorem psig_recast : PSigOf K U J C X = (PSigOf K T I B W).withKinds U (PValOf K U J C X) := rfl

theorem withIntervals_matches (hR : ∀ n m, R n m → (id m : K) = id n) {k : Option (List (NodeInterval K I)) → Prog (PSigOf K T I B W)}
    {k' : Option (List (NodeInterval K J)) → Prog (PSigOf K U J C X)}
    (hk : ∀ a b, Both (Pairs (NodeInterval.Like Eq Q)) a b →
      Prog.Matches (σ := PSigOf K T I B W) (U := U) (o := ⟨inferInstance⟩) R (PluginLike (B := B) (C := C) K R Q O) (k a) (k' b)) :
    Prog.Matches (σ := PSigOf K T I B W) (U := U) (o := ⟨inferInstance⟩) R (PluginLike (B := B) (C := C) K R Q O)
      (withIntervals k) (withIntervals k') := by
  refine .targetRead _ fun a b hab => ?_
  cases hab with
  | none => exact hk _ _ .none
  | some hn =>
    refine .resRead _ fun a b hab => ?_
    cases hab with
    | none => exact hk _ _ .none
    | some he => exact hk _ _ (.some (nodeIntervals_like hR he hn))

theorem onSave_matches (hR : ∀ n m, R n m → (id m : K) = id n) (hQ : SameShape (B := B) (C := C) Q) :
    Prog.Matches (σ := PSigOf K T I B W) (U := U) (o := ⟨inferInstance⟩) R (PluginLike (B := B) (C := C) K R Q O)
      onSave (onSave (K := K) (T := U) (I := J) (B := C) (W := X)) := by
  refine withIntervals_matches hR fun a b hab => ?_
  cases hab with
  | none => exact .done _
  | some hl => exact .resWrite _ (fun v w h => ⟨insertEach_like hQ hl h, rfl⟩) fun _ => .done _

theorem onDelete_matches (hR : ∀ n m, R n m → (id m : K) = id n) (hQ : SameShape (B := B) (C := C) Q) (fuel : Nat) :
    Prog.Matches (σ := PSigOf K T I B W) (U := U) (o := ⟨inferInstance⟩) R (PluginLike (B := B) (C := C) K R Q O)
      (onDelete fuel) (onDelete (K := K) (T := U) (I := J) (B := C) (W := X) fuel) := by
  refine withIntervals_matches hR fun a b hab => ?_
  cases hab with
  | none => exact .done _
  | @some l l' hl =>
    refine .resRead _ fun a b hab => ?_
    cases hab with
    | none => exact .done _
    | @some t t' ht =>
      have h1 := deleteEach_like hQ fuel hl ht
      dsimp only
      generalize deleteEach fuel l t = x at h1
      generalize deleteEach fuel l' t' = y at h1
      cases h1 with
      | none => exact .reenter
      | some h2 => exact .resWrite _ (fun _ _ _ => ⟨h2, rfl⟩) fun _ => .done _

theorem install_pairs (hR : ∀ n m, R n m → (id m : K) = id n) (hQ : SameShape (B := B) (C := C) Q) (merged : Bool) (fuel : Nat)
    {e : T → List I} {e' : U → List J} (he : ∀ n m, R n m → Pairs Q (e n) (e' m)) {S : Schema (PSigOf K T I B W)}
    {S' : Schema (PSigOf K U J C X)}
    (h : SchemaPairs (σ := PSigOf K T I B W) (U := U) (o := ⟨inferInstance⟩) R (PluginLike (B := B) (C := C) K R Q O) S S') :
    SchemaPairs (σ := PSigOf K T I B W) (U := U) (o := ⟨inferInstance⟩) R (PluginLike (B := B) (C := C) K R Q O)
      (install merged fuel e S) (install merged fuel e' S') := by
  have h1 := h.register (orderFree_self _) PTy.extractor (v := e) (w := e') he
  have h2 : ∀ {S : Schema (PSigOf K T I B W)} {S' : Schema (PSigOf K U J C X)},
      SchemaPairs (σ := PSigOf K T I B W) (U := U) (o := ⟨inferInstance⟩) R (PluginLike (B := B) (C := C) K R Q O) S S' →
      SchemaPairs (σ := PSigOf K T I B W) (U := U) (o := ⟨inferInstance⟩) R (PluginLike (B := B) (C := C) K R Q O)
        ((S.withTrigger .afterSave onSave).withTrigger .afterDelete (onDelete fuel))
        ((S'.withTrigger .afterSave onSave).withTrigger .afterDelete (onDelete fuel)) := by
    intro S S' h
    exact ⟨h.graph, h.heap, (h.env.withTrigger .afterSave (onSave_matches hR hQ)).withTrigger .afterDelete (onDelete_matches hR hQ fuel), h.regs⟩
  cases merged with
  | true => exact h2 (h1.register (orderFree_self _) PTy.treeOfId (v := .nil) (w := .nil) .nil)
  | false => exact h2 (h1.register (orderFree_self _) PTy.treeOfNode (v := .nil) (w := .nil) .nil)

theorem installed_pairs (O : ∀ n, W n → X n → Prop) (hR : ∀ n m, R n m → (id m : K) = id n) (hQ : SameShape (B := B) (C := C) Q)
    (merged : Bool) (fuel : Nat) {e : T → List I} {e' : U → List J} (he : ∀ n m, R n m → Pairs Q (e n) (e' m)) {ns : List T}
    {ms : List U} (hn : Pairs R ns ms) :
    SchemaPairs (σ := PSigOf K T I B W) (U := U) (o := ⟨inferInstance⟩) R (PluginLike (B := B) (C := C) K R Q O)
      (install merged fuel e (.fromGraph (.fromIter ns))) (install merged fuel e' (.fromGraph (.fromIter ms))) :=
  install_pairs (O := O) hR hQ merged fuel he (schemaPairs_start (σ := PSigOf K T I B W) (U := U) hR hn)

/-! ## Saving and deleting -/

section
variable {σ : Sig} {U : Type} [Identify U σ.K] {o : OrderOn σ.Ty} {V : σ.Ty → Type} {R : σ.T → U → Prop} {Q : ∀ t, σ.Val t → V t → Prop}

theorem saveAfter_matches : (saveAfter (σ := σ)).Matches R Q (saveAfter (σ := σ.recast U o V)) :=
  .runTriggers _ _ fun a => by cases a <;> exact .done _

theorem saveBody_matches {n : σ.T} {m : U} (h : R n m) : (saveBody n).Matches R Q (saveBody (σ := σ.recast U o V) m) := by
  refine .withTarget h (.runTriggers _ _ fun a => ?_)
  cases a with
  | error e => exact .done _
  | ok _ =>
    refine .targetRead _ fun a b hab => ?_
    cases hab with
    | none => exact saveAfter_matches
    | some h => exact .save _ h saveAfter_matches

theorem deleteBody_matches (i : σ.K) : (deleteBody i).Matches R Q (deleteBody (σ := σ.recast U o V) i) := by
  refine .get _ _ fun a b hab => ?_
  cases hab with
  | none => exact .done _
  | some h =>
    refine .withTarget h (.runTriggers _ _ fun a => ?_)
    cases a with
    | error e => exact .done _
    | ok _ => exact .delete _ _ (.runTriggers _ _ fun a => by cases a <;> exact .done _)

theorem did_pairs (hR : SameIds R) {S S1 : Schema σ} {ops : List (Operation σ.K σ.T)} (h : Did S ops S1) :
    ∀ {S' : Schema (σ.recast U o V)} {ops' : List (Operation σ.K U)}, SchemaPairs R Q S S' → Pairs (Operation.Matches R) ops ops' →
      ∃ S1', Did S' ops' S1' ∧ SchemaPairs R Q S1 S1' := by
  induction h with
  | nothing S => intro S' ops' hs ho; cases ho; exact ⟨S', .nothing _, hs⟩
  | save fuel n ht _ ih =>
    intro S' ops' hs ho
    cases ho with
    | cons h1 h2 =>
      cases h1 with
      | save hn =>
        rename_i m
        have h3 := transact_pairs hR hs fuel .nil (saveBody_matches (o := o) (Q := Q) hn)
        unfold Schema.save at ht
        rw [ht] at h3
        generalize hy : S'.transact fuel [] (saveBody (σ := σ.recast U o V) m) = y at h3
        cases h3 with
        | some _ h4 =>
          obtain ⟨S2, k1, k2⟩ := ih h4 h2
          exact ⟨S2, Did.save (σ := σ.recast U o V) fuel m hy k1, k2⟩
  | delete fuel i ht _ ih =>
    intro S' ops' hs ho
    cases ho with
    | cons h1 h2 =>
      cases h1 with
      | delete =>
        have h3 := transact_pairs hR hs fuel .nil (deleteBody_matches (U := U) (R := R) (o := o) (Q := Q) i)
        unfold Schema.delete at ht
        rw [ht] at h3
        generalize hy : S'.transact fuel [] (deleteBody (σ := σ.recast U o V) i) = y at h3
        cases h3 with
        | some _ h4 =>
          obtain ⟨S2, k1, k2⟩ := ih h4 h2
          exact ⟨S2, Did.delete (σ := σ.recast U o V) fuel i hy k1, k2⟩

theorem did_pairs_back (hR : SameIds R) {S' S1' : Schema (σ.recast U o V)} {ops' : List (Operation σ.K U)} (h : Did S' ops' S1') :
    ∀ {S : Schema σ} {ops : List (Operation σ.K σ.T)}, SchemaPairs R Q S S' → Pairs (Operation.Matches R) ops ops' →
      ∃ S1, Did S ops S1 ∧ SchemaPairs R Q S1 S1' := by
  induction h with
  | nothing S' => intro S ops hs ho; cases ho; exact ⟨S, .nothing _, hs⟩
  | @save S' _ _ _ _ fuel m ht _ ih =>
    intro S ops hs ho
    cases ho with
    | cons h1 h2 =>
      cases h1 with
      | @save n _ hn =>
        have h3 := transact_pairs hR hs fuel .nil (saveBody_matches (o := o) (Q := Q) hn)
        unfold Schema.save at ht
        rw [ht] at h3
        generalize hy : S.transact fuel [] (saveBody n) = y at h3
        cases h3 with
        | some _ h4 =>
          obtain ⟨S2, k1, k2⟩ := ih h4 h2
          exact ⟨S2, .save fuel n hy k1, k2⟩
  | @delete S' _ _ _ _ fuel i ht _ ih =>
    intro S ops hs ho
    cases ho with
    | cons h1 h2 =>
      cases h1 with
      | delete =>
        have h3 := transact_pairs hR hs fuel .nil (deleteBody_matches (U := U) (R := R) (o := o) (Q := Q) i)
        unfold Schema.delete at ht
        rw [ht] at h3
        generalize hy : S.transact fuel [] (deleteBody i) = y at h3
        cases h3 with
        | some _ h4 =>
          obtain ⟨S2, k1, k2⟩ := ih h4 h2
          exact ⟨S2, Did.delete (σ := σ) fuel i hy k1, k2⟩

end

end Plotline
