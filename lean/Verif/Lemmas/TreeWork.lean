import Verif.Lemmas.TreePanics
import Verif.Spec.TreeWork

/-! Counting the calls of user code. -/

namespace Plotline

open Std Interval Risky

/-- Between `a` and `b` calls of user code. -/
def Costs {I α : Type} (x : Risky I α) (a b : Nat) (r : α) (cs : List I) : Prop := ∃ N, a ≤ N ∧ N ≤ b ∧ x.Steady N r cs

section
variable {I α β : Type}

theorem Costs.pure (r : α) {a b : Nat} (h : a = 0 := by omega) : Costs (Pure.pure r : Risky I α) a b r [] :=
  ⟨0, by omega, by omega, .pure r⟩

theorem Costs.last (r : α) {a b : Nat} (h : a ≤ 1 := by omega) (h' : 1 ≤ b := by omega) : Costs (Risky.user r : Risky I α) a b r [] :=
  ⟨1, h, h', .user r⟩

theorem Costs.bind {x : Risky I α} {f : α → Risky I β} {a b a' b' : Nat} {r : α} {r' : β} {cs ds : List I}
    (h1 : Costs x a' b' r cs) (h2 : Costs (f r) (a - a') (b - b') r' ds) (h : b' ≤ b := by omega) :
    Costs (x >>= f) a b r' (cs ++ ds) := by
  obtain ⟨N, h1, h2', h3⟩ := h1
  obtain ⟨M, h4, h5, h6⟩ := h2
  exact ⟨N + M, by omega, by omega, h3.bind h6⟩

theorem Costs.quiet {x : Risky I α} {f : α → Risky I β} {a b a' b' : Nat} {r : α} {r' : β} {ds : List I}
    (h1 : Costs x a' b' r []) (h2 : Costs (f r) (a - a') (b - b') r' ds) (h : b' ≤ b := by omega) :
    Costs (x >>= f) a b r' ds := h1.bind h2 h

theorem Costs.user (r : α) {f : α → Risky I β} {a b : Nat} {r' : β} {cs : List I} (h : Costs (f r) (a - 1) (b - 1) r' cs)
    (h' : 1 ≤ b := by omega) : Costs (Risky.user r >>= f) a b r' cs := (Costs.last r).bind h h'

theorem Costs.mono {x : Risky I α} {a b a' b' : Nat} {r : α} {cs : List I} (h : Costs x a b r cs) (h1 : a' ≤ a := by omega)
    (h2 : b ≤ b' := by omega) : Costs x a' b' r cs := by
  obtain ⟨N, h3, h4, h5⟩ := h
  exact ⟨N, by omega, by omega, h5⟩

end

section
set_option linter.unusedSectionVars false
variable {I B : Type} [Ord B] [Interval I B]

theorem icontainsR_costs (a : I) (b : B) : Costs (icontainsR a b) (if icontains a b then 4 else 2) 4 (icontains a b) [] := by
  unfold icontainsR icontains
  cases h : leB (lo a) b
  · refine .user _ (.user _ ?_)
    rw [h]; exact .pure _ (by simp)
  · refine .user _ (.user _ ?_)
    rw [h]
    exact .user _ (.last _ (by split <;> omega))

theorem intersectsR_costs (a b : I) : Costs (intersectsR a b) 5 20 (intersects a b) [] := by
  unfold intersectsR intersects
  have h1 := icontainsR_costs a (lo b)
  refine .user _ (.quiet h1 ?_)
  cases icontains a (lo b) with
  | true => exact .pure _ (by simp)
  | false =>
    have h2 := icontainsR_costs a (hi b)
    refine .user _ (.quiet h2 ?_)
    cases icontains a (hi b) with
    | true => exact .pure _ (by simp)
    | false =>
      have h3 := icontainsR_costs b (lo a)
      refine .user _ (.quiet h3 ?_)
      cases icontains b (lo a) with
      | true => exact .pure _ (by simp)
      | false => exact .user _ ((icontainsR_costs b (hi a)).mono (by simp))

namespace ITree

theorem insertR_costs (i : I) (t : ITree I B) :
    Costs (t.insertR i) (5 * (t.way i).length + 1) (6 * (t.way i).length + 1) (t.insert i) [] := by
  induction t with
  | nil => exact .user _ (.pure _ (by simp [way]))
  | node v m l r ihl ihr =>
    unfold insertR insert
    have rest (m : B) : Costs (do
        let a ← Risky.user (lo i)
        let b ← Risky.user (lo v)
        if ← Risky.user (ltB a b) then return ITree.node v m (← insertR i l) r
        else return ITree.node v m l (← insertR i r))
        (5 * ((ITree.node v m l r).way i).length + 1 - 2) (6 * ((ITree.node v m l r).way i).length + 1 - 3)
        (if ltB (lo i) (lo v) then ITree.node v m (insert i l) r else ITree.node v m l (insert i r)) [] := by
      unfold way
      rw [List.length_cons]
      refine .user _ (.user _ (.user _ ?_))
      have e : ltB (lo i) (lo v) = (compare (lo i) (lo v)).isLT := rfl
      rw [← e]
      cases h : ltB (lo i) (lo v)
      · simp only [Bool.false_eq_true, if_false]
        exact .quiet ihr (.pure _)
      · simp only [if_true]
        exact .quiet ihl (.pure _)
    have hlen : 1 ≤ ((ITree.node v m l r).way i).length := by simp [way]
    refine .user _ (.user _ ?_)
    cases h : ltB m (hi i)
    · exact .quiet (.pure _ (a := 0) (b := 0)) ((rest m).mono)
    · have e : ((ITree.node v (hi i) l r).way i) = (ITree.node v m l r).way i := rfl
      have h := rest (hi i)
      rw [e] at h
      exact .quiet (.last _ (a := 0) (b := 1)) h.mono

theorem way_levels (i : I) (t : ITree I B) : (t.way i).length ≤ t.levels := by
  induction t with
  | nil => exact Nat.le_refl _
  | node v m l r ihl ihr =>
    unfold way levels
    split <;> simp only [List.length_cons] <;> omega

theorem levels_count (t : ITree I B) : t.levels ≤ t.count ∧ t.count < 2 ^ t.levels := by
  induction t with
  | nil => exact ⟨Nat.le_refl _, by simp [count, levels]⟩
  | node v m l r ihl ihr =>
    unfold levels count
    refine ⟨by omega, ?_⟩
    have h1 : 2 ^ l.levels ≤ 2 ^ max l.levels r.levels := Nat.pow_le_pow_right (by omega) (Nat.le_max_left ..)
    have h2 : 2 ^ r.levels ≤ 2 ^ max l.levels r.levels := Nat.pow_le_pow_right (by omega) (Nat.le_max_right ..)
    rw [Nat.pow_add]
    omega

theorem joinR_costs (fuel : Nat) (l r : ITree I B) : Costs (joinR fuel l r) 0 1 (join fuel l r) [] := by
  unfold joinR join
  dsimp only
  cases (l.inorder ++ r.inorder)[(l.inorder ++ r.inorder).length / 2]? with
  | none => exact .pure _
  | some c => exact .user _ (.pure _)

theorem deleteR_costs [BEq I] (fuel : Nat) (i : I) (t : ITree I B) :
    Costs (t.deleteR fuel i) 0 (7 * t.levels) (t.delete fuel i) [] := by
  induction t with
  | nil => exact .pure _
  | node v m l r ihl ihr =>
    unfold deleteR delete levels
    have hl : Costs (l.deleteR fuel i) 0 (7 * max l.levels r.levels) (l.delete fuel i) [] := ihl.mono
    have hr : Costs (r.deleteR fuel i) 0 (7 * max l.levels r.levels) (r.delete fuel i) [] := ihr.mono
    refine .user _ ?_
    cases he : v == i with
    | false =>
      simp only [Bool.false_eq_true, if_false]
      refine .user _ (.user _ (.user _ ?_))
      cases h1 : ltB (lo i) (lo v) with
      | true => exact .quiet hl (.pure _)
      | false =>
        refine .user _ (.user _ (.user _ ?_))
        cases h2 : ltB (lo v) (lo i) with
        | true => exact .quiet hr (.pure _)
        | false => exact .pure _
    | true =>
      cases l with
      | nil => exact .pure _
      | node lv lm ll lr =>
        cases r with
        | nil => exact .pure _
        | node rv rm rl rr => exact (joinR_costs fuel _ _).mono

theorem intersectsR_costs (q : I) (t : ITree I B) : Costs (t.intersectsR q) 0 (22 * t.levels) (t.intersects q) [] := by
  induction t with
  | nil => exact .pure _
  | node v m l r ihl ihr =>
    unfold intersectsR intersects levels
    have hl : Costs (l.intersectsR q) 0 (22 * max l.levels r.levels) (l.intersects q) [] := ihl.mono
    have hr : Costs (r.intersectsR q) 0 (22 * max l.levels r.levels) (r.intersects q) [] := ihr.mono
    refine .quiet (Plotline.intersectsR_costs v q) ?_
    cases Plotline.intersects v q with
    | true => exact .pure _
    | false =>
      cases l.max? with
      | none => exact hr.mono
      | some max =>
        refine .user _ (.user _ ?_)
        dsimp only
        cases ltB max (lo q)
        · exact hl.mono
        · exact hr.mono

theorem forEachR_costs (q : I) (t : ITree I B) : Costs (t.forEachR q) 0 (23 * t.count) () (t.forEach q) := by
  induction t with
  | nil => exact .pure _
  | node v m l r ihl ihr =>
    unfold forEachR forEach count
    rw [List.append_assoc]
    have rest : Costs (match l.max? with
        | none => (return () : Risky I Unit)
        | some max => do
          let b ← Risky.user (lo q)
          if ← Risky.user (ltB max b) then return () else forEachR q l) 0 (23 * l.count + 2) ()
        (match l.max? with
        | none => []
        | some max => if ltB max (lo q) then [] else forEach q l) := by
      cases l.max? with
      | none => exact .pure _
      | some max =>
        refine .user _ (.user _ ?_)
        dsimp only
        cases ltB max (lo q)
        · exact ihl.mono
        · exact .pure _
    refine .bind ihr (.quiet (Plotline.intersectsR_costs v q) ?_)
    cases Plotline.intersects v q
    · exact .quiet (.pure _ (a := 0) (b := 0)) rest.mono
    · exact .bind ⟨1, Nat.le_refl _, Nat.le_refl _, .closure v⟩ rest.mono

/-- A query before the end of everything examines everything. -/
theorem forEachR_all (q : I) (t : ITree I B) (hm : MaxBounds t) [TransOrd B]
    (hq : ∀ x ∈ t.inorder, (compare (lo q) (hi x)).isLE = true) : Costs (t.forEachR q) (5 * t.count) (23 * t.count) () (t.forEach q) := by
  induction t with
  | nil => exact .pure _ rfl
  | node v m l r ihl ihr =>
    have ihl := ihl hm.2.1 fun x hx => hq x (by simp [inorder, hx])
    have ihr := ihr hm.2.2 fun x hx => hq x (by simp [inorder, hx])
    unfold forEachR forEach count
    rw [List.append_assoc]
    have rest : Costs (match l.max? with
        | none => (return () : Risky I Unit)
        | some max => do
          let b ← Risky.user (lo q)
          if ← Risky.user (ltB max b) then return () else forEachR q l) (5 * l.count) (23 * l.count + 2) ()
        (match l.max? with
        | none => []
        | some max => if ltB max (lo q) then [] else forEach q l) := by
      cases l with
      | nil => exact .pure _ rfl
      | node w max ll lr =>
        refine .user _ (.user _ ?_)
        have h : ltB max (lo q) = false := by
          rw [ltB_false]
          have h1 := hq w (by simp [inorder])
          have h2 := hm.2.1.1 w (by simp [inorder])
          exact LeB.trans h1 h2
        simp only [max?, h, Bool.false_eq_true, if_false]
        exact Costs.mono (a := 5 * (node w max ll lr).count) (b := 23 * (node w max ll lr).count) ihl
    refine .bind ihr (.quiet (Plotline.intersectsR_costs v q) ?_)
    cases Plotline.intersects v q
    · exact .quiet (.pure _ (a := 0) (b := 0)) rest.mono
    · exact .bind ⟨1, Nat.le_refl _, Nat.le_refl _, .closure v⟩ rest.mono

/-! ## Trees that lean to the right -/

/-- No interval has anything to its left. -/
def Leaning : ITree I B → Prop
  | .nil => True
  | .node _ _ l r => l = .nil ∧ Leaning r

theorem Leaning.insert {t : ITree I B} (h : Leaning t) {i : I} (hi : ∀ x ∈ t.inorder, ltB (lo i) (lo x) = false) :
    Leaning (t.insert i) ∧ (t.insert i).inorder = t.inorder ++ [i] := by
  induction t with
  | nil => exact ⟨⟨rfl, trivial⟩, rfl⟩
  | node v m l r _ ihr =>
    obtain ⟨rfl, h⟩ := h
    have ih := ihr h fun x hx => hi x (by simp [inorder, hx])
    have hv := hi v (by simp [inorder])
    unfold ITree.insert
    rw [hv]
    refine ⟨⟨rfl, ih.1⟩, ?_⟩
    show (ITree.nil : ITree I B).inorder ++ v :: (r.insert i).inorder = _
    rw [ih.2]; rfl

theorem Leaning.levels {t : ITree I B} (h : Leaning t) : t.levels = t.inorder.length := by
  induction t with
  | nil => rfl
  | node v m l r _ ihr =>
    obtain ⟨rfl, h⟩ := h
    show 1 + max 0 r.levels = ([] ++ v :: r.inorder).length
    rw [ihr h]
    simp; omega

theorem Leaning.way {t : ITree I B} (h : Leaning t) {i : I} (hi : ∀ x ∈ t.inorder, ltB (lo i) (lo x) = false) :
    t.way i = t.inorder := by
  induction t with
  | nil => rfl
  | node v m l r _ ihr =>
    obtain ⟨rfl, h⟩ := h
    have hv : (compare (lo i) (lo v)).isLT = false := hi v (by simp [inorder])
    unfold ITree.way
    rw [hv, ihr h fun x hx => hi x (by simp [inorder, hx])]
    rfl

theorem Leaning.delete [BEq I] (fuel : Nat) {t : ITree I B} (h : Leaning t) {i : I}
    (hi : ∀ x ∈ t.inorder, ltB (lo x) (lo i) = true ∧ ltB (lo i) (lo x) = false ∧ (x == i) = false) :
    Costs (t.deleteR fuel i) (7 * t.levels) (7 * t.levels) (t.delete fuel i) [] := by
  induction t with
  | nil => exact .pure _ rfl
  | node v m l r _ ihr =>
    obtain ⟨rfl, h⟩ := h
    have ih := ihr h fun x hx => hi x (by simp [inorder, hx])
    obtain ⟨h1, h2, h3⟩ := hi v (by simp [inorder])
    unfold deleteR ITree.delete
    rw [h1, h2, h3]
    have e : (node v m nil r).levels = 1 + r.levels := congrArg (1 + ·) (Nat.max_eq_right (Nat.zero_le _))
    rw [e]
    refine .user _ (.user _ (.user _ (.user _ ?_)))
    rw [h2]
    refine .user _ (.user _ (.user _ ?_))
    rw [h1]
    exact .quiet ih (.pure _)

theorem Leaning.intersects {t : ITree I B} (h : Leaning t) {q : I} (hq : ∀ x ∈ t.inorder, Plotline.intersects x q = false) :
    Costs (t.intersectsR q) (5 * t.levels) (22 * t.levels) (t.intersects q) [] := by
  induction t with
  | nil => exact .pure _ rfl
  | node v m l r _ ihr =>
    obtain ⟨rfl, h⟩ := h
    have ih := ihr h fun x hx => hq x (by simp [inorder, hx])
    have hv := hq v (by simp [inorder])
    unfold intersectsR ITree.intersects
    have e : (node v m nil r).levels = 1 + r.levels := congrArg (1 + ·) (Nat.max_eq_right (Nat.zero_le _))
    rw [e]
    refine .quiet (Plotline.intersectsR_costs v q) ?_
    rw [hv]
    exact ih.mono

end ITree

theorem Risky.Steady.unique {α : Type} {x : Risky I α} {N M : Nat} {a b : α} {cs ds : List I} (h1 : x.Steady N a cs)
    (h2 : x.Steady M b ds) : N = M := by
  rcases Nat.lt_trichotomy N M with h | h | h
  · have := (h2.2 N h).1
    rw [h1.1 N (Nat.le_refl _)] at this; cases this
  · exact h
  · have := (h1.2 M h).1
    rw [h2.1 M (Nat.le_refl _)] at this; cases this

end
end Plotline
