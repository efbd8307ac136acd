import Verif.Spec.TreeOpaque
import Verif.Lemmas.Opaque

/-! Trees over intervals that compare alike. -/

namespace Plotline

set_option linter.unusedSectionVars false

theorem Pairs.drop {α β : Type} {R : α → β → Prop} {l : List α} {l' : List β} (h : Pairs R l l') (j : Nat) :
    Pairs R (l.drop j) (l'.drop j) := by
  induction h generalizing j with
  | nil => simp; exact .nil
  | cons hr h ih =>
    cases j with
    | zero => exact .cons hr h
    | succ j => exact ih j

theorem Pairs.eraseIdx {α β : Type} {R : α → β → Prop} {l : List α} {l' : List β} (h : Pairs R l l') (j : Nat) :
    Pairs R (l.eraseIdx j) (l'.eraseIdx j) := by
  rw [List.eraseIdx_eq_take_drop_succ, List.eraseIdx_eq_take_drop_succ]
  exact (h.take j).append (h.drop (j + 1))

theorem Pairs.flip {α β : Type} {R : α → β → Prop} {l : List α} {l' : List β} (h : Pairs R l l') :
    Pairs (fun b a => R a b) l' l := by
  induction h with
  | nil => exact .nil
  | cons hr _ ih => exact .cons hr ih

theorem Pairs.snoc {α β : Type} {R : α → β → Prop} {l : List α} {l' : List β} {a : α} (h : Pairs R (l ++ [a]) l') :
    ∃ m b, l' = m ++ [b] ∧ Pairs R l m ∧ R a b := by
  induction l generalizing l' with
  | nil =>
    cases h with
    | cons hr h => cases h with
      | nil => exact ⟨[], _, rfl, .nil, hr⟩
  | cons x l ih =>
    cases h with
    | cons hr h =>
      obtain ⟨m, b, rfl, h1, h2⟩ := ih h
      exact ⟨_ :: m, b, rfl, .cons hr h1, h2⟩

theorem Both.map {α β γ δ : Type} {P : α → β → Prop} {Q : γ → δ → Prop} {x : Option α} {y : Option β} (h : Both P x y) {f : α → γ}
    {g : β → δ} (hf : ∀ a b, P a b → Q (f a) (g b)) : Both Q (x.map f) (y.map g) := by
  cases h with
  | none => exact .none
  | some h => exact .some (hf _ _ h)

variable {I J B C : Type} [Ord B] [Ord C] [Interval I B] [Interval J C] [BEq I] [BEq J] {R : I → J → Prop}

theorem intersects_like (hR : SameShape R) {i : I} {j : J} (h : R i j) {q : I} {p : J} (hq : R q p) : intersects i q = intersects j p := by
  unfold intersects icontains leB
  rw [hR.lo_lo _ _ h _ _ hq, hR.lo_hi _ _ h _ _ hq, hR.lo_hi _ _ hq _ _ h, hR.hi_hi _ _ hq _ _ h, hR.lo_lo _ _ hq _ _ h,
    hR.hi_hi _ _ h _ _ hq]

theorem TreeLike.insert (hR : SameShape R) {t : ITree I B} {t' : ITree J C} (h : TreeLike R t t') {i : I} {j : J} (hi : R i j) :
    TreeLike R (t.insert i) (t'.insert j) := by
  induction h with
  | nil => exact .node hi ⟨_, _, hi, rfl, rfl⟩ .nil .nil
  | node hv hm hl hr ihl ihr =>
    obtain ⟨x, y, hxy, rfl, rfl⟩ := hm
    have hm : HiLike R (if ltB (Interval.hi x : B) (Interval.hi i) then Interval.hi i else Interval.hi x)
        (if ltB (Interval.hi y : C) (Interval.hi j) then Interval.hi j else Interval.hi y) := by
      unfold ltB
      rw [hR.hi_hi _ _ hxy _ _ hi]
      split
      · exact ⟨_, _, hi, rfl, rfl⟩
      · exact ⟨_, _, hxy, rfl, rfl⟩
    simp only [ITree.insert]
    unfold ltB at hm ⊢
    rw [hR.lo_lo _ _ hi _ _ hv]
    split
    · exact .node hv hm ihl hr
    · exact .node hv hm hl ihr

theorem TreeLike.inorder {t : ITree I B} {t' : ITree J C} (h : TreeLike R t t') : Pairs R t.inorder t'.inorder := by
  induction h with
  | nil => exact .nil
  | node hv _ _ _ ihl ihr => exact ihl.append (.cons hv ihr)

theorem joinLoop_like (fuel : Nat) {t : ITree I B} {t' : ITree J C} (h : TreeLike R t t') {l : List I} {l' : List J} (hl : Pairs R l l') :
    Both (TreeLike R) (ITree.joinLoop fuel t l) (ITree.joinLoop fuel t' l') := by
  induction fuel generalizing t t' l l' with
  | zero => exact .none
  | succ fuel ih =>
    unfold ITree.joinLoop
    have he : l'.isEmpty = l.isEmpty := by cases hl <;> rfl
    rw [he, hl.len]
    split
    · exact .some h
    · have h1 := ih h (hl.take (l.length / 2))
      revert h1
      dsimp only
      generalize ITree.joinLoop fuel t (l.take (l.length / 2)) = x
      generalize ITree.joinLoop fuel t' (l'.take (l.length / 2)) = y
      intro h1
      cases h1 with
      | none => exact .none
      | some h2 => exact ih h2 (hl.drop _)

theorem join_like (fuel : Nat) {l r : ITree I B} {l' r' : ITree J C} (hl : TreeLike R l l') (hr : TreeLike R r r') :
    Both (TreeLike R) (ITree.join fuel l r) (ITree.join fuel l' r') := by
  unfold ITree.join
  have h := hl.inorder.append hr.inorder
  generalize l.inorder ++ r.inorder = is at h
  generalize l'.inorder ++ r'.inorder = js at h
  dsimp only
  rw [h.len]
  have h1 := h.get (is.length / 2)
  generalize is[is.length / 2]? = x at h1
  generalize js[is.length / 2]? = y at h1
  cases h1 with
  | none => exact .none
  | some hc => exact joinLoop_like fuel (.node hc ⟨_, _, hc, rfl, rfl⟩ .nil .nil) (h.eraseIdx _)

theorem TreeLike.delete (hR : SameShape R) (fuel : Nat) {t : ITree I B} {t' : ITree J C} (h : TreeLike R t t') {i : I} {j : J}
    (hi : R i j) : Both (TreeLike R) (t.delete fuel i) (t'.delete fuel j) := by
  induction h with
  | nil => exact .some .nil
  | node hv hm hl hr ihl ihr =>
    unfold ITree.delete ltB
    rw [hR.eq _ _ hv _ _ hi, hR.lo_lo _ _ hi _ _ hv, hR.lo_lo _ _ hv _ _ hi]
    split
    · cases hl with
      | nil => exact .some hr
      | node a b c d =>
        cases hr with
        | nil => exact .some (.node a b c d)
        | node a' b' c' d' => exact join_like fuel (.node a b c d) (.node a' b' c' d')
    · split
      · exact ihl.map fun _ _ h2 => .node hv hm h2 hr
      · split
        · exact ihr.map fun _ _ h2 => .node hv hm hl h2
        · exact .some (.node hv hm hl hr)

theorem TreeLike.max? {t : ITree I B} {t' : ITree J C} (h : TreeLike R t t') : Both (HiLike R) t.max? t'.max? := by
  cases h with
  | nil => exact .none
  | node _ hm _ _ => exact .some hm

theorem HiLike.lt (hR : SameShape R) {m : B} {n : C} (h : HiLike R m n) {q : I} {p : J} (hq : R q p) :
    ltB m (Interval.lo q) = ltB n (Interval.lo p) := by
  obtain ⟨x, y, hxy, rfl, rfl⟩ := h
  unfold ltB
  rw [hR.hi_lo _ _ hxy _ _ hq]

theorem TreeLike.intersects (hR : SameShape R) {t : ITree I B} {t' : ITree J C} (h : TreeLike R t t') {q : I} {p : J} (hq : R q p) :
    t.intersects q = t'.intersects p := by
  induction h with
  | nil => rfl
  | @node v w m n l r l' r' hv _ hl _ ihl ihr =>
    unfold ITree.intersects
    rw [intersects_like hR hv hq, ihl, ihr]
    have h1 := hl.max?
    generalize l.max? = x at h1
    generalize l'.max? = y at h1
    cases h1 with
    | none => rfl
    | some hm => dsimp only; rw [hm.lt hR hq]

theorem TreeLike.forEach (hR : SameShape R) {t : ITree I B} {t' : ITree J C} (h : TreeLike R t t') {q : I} {p : J} (hq : R q p) :
    Pairs R (t.forEach q) (t'.forEach p) := by
  induction h with
  | nil => exact .nil
  | @node v w m n l r l' r' hv _ hl _ ihl ihr =>
    unfold ITree.forEach
    rw [intersects_like hR hv hq]
    refine (ihr.append ?_).append ?_
    · split
      · exact .cons hv .nil
      · exact .nil
    · have h1 := hl.max?
      generalize l.max? = x at h1
      generalize l'.max? = y at h1
      cases h1 with
      | none => exact .nil
      | some hm =>
        dsimp only
        rw [hm.lt hR hq]
        split
        · exact .nil
        · exact ihl

theorem searchSession_like (hR : SameShape R) {l : List (SearchCall I × SearchSeen I)} {t : ITree I B} (h : SearchSession l t) :
    ∀ {cs : List (SearchCall J)}, Pairs (SearchCall.Like R) (l.map Prod.fst) cs →
      ∃ l' t', SearchSession l' t' ∧ l'.map Prod.fst = cs ∧ Pairs (SearchSeen.Like R) (l.map Prod.snd) (l'.map Prod.snd) ∧
        TreeLike R t (t' : ITree J C) := by
  induction h with
  | nil => intro cs hc; cases hc; exact ⟨[], .nil, .nil, rfl, .nil, .nil⟩
  | @snoc l t t1 c a hs hg ih =>
    intro cs hc
    rw [List.map_append] at hc
    obtain ⟨ds, d, rfl, h1, h2⟩ := hc.snoc
    obtain ⟨l', t', h3, h4, h5, h6⟩ := ih h1
    have : ∃ b t2, SearchGives t' d b t2 ∧ SearchSeen.Like R a b ∧ TreeLike R t1 (t2 : ITree J C) := by
      cases hg with
      | insert i =>
        cases h2 with
        | insert hij => exact ⟨_, _, .insert _ _, .nothing, h6.insert hR hij⟩
      | delete hd =>
        rename_i fuel i
        cases h2 with
        | delete hij =>
          rename_i j
          have h7 := h6.delete hR fuel hij
          rw [hd] at h7
          generalize hy : t'.delete fuel j = y at h7
          cases h7 with
          | some h8 => exact ⟨_, _, .delete hy, .nothing, h8⟩
      | intersects q =>
        cases h2 with
        | intersects hij => exact ⟨_, _, .intersects _ _, by rw [h6.intersects hR hij]; exact .bool _, h6⟩
      | forEach q =>
        cases h2 with
        | forEach hij => exact ⟨_, _, .forEach _ _, .intervals (h6.forEach hR hij), h6⟩
    obtain ⟨b, t2, h7, h8, h9⟩ := this
    refine ⟨l' ++ [(d, b)], t2, .snoc h3 h7, by rw [List.map_append, h4]; rfl, ?_, h9⟩
    rw [List.map_append, List.map_append]
    exact h5.append (.cons h8 .nil)

theorem SameShape.flip (hR : SameShape R) : SameShape (fun j i => R i j) :=
  ⟨fun _ _ h _ _ h' => (hR.lo_lo _ _ h _ _ h').symm, fun _ _ h _ _ h' => (hR.lo_hi _ _ h _ _ h').symm,
    fun _ _ h _ _ h' => (hR.hi_lo _ _ h _ _ h').symm, fun _ _ h _ _ h' => (hR.hi_hi _ _ h _ _ h').symm,
    fun _ _ h _ _ h' => (hR.eq _ _ h _ _ h').symm⟩

end Plotline
