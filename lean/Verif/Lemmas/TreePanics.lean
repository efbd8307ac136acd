import Verif.Lemmas.Interval
import Verif.Spec.TreePanics

/-! The code with panics and the code without. -/

namespace Plotline

open Std Interval

namespace Risky
variable {I α β : Type}

/-- The code calls user code `N` times; if none of the calls panics it returns `a` after calling the closure with `cs`. -/
def Steady (x : Risky I α) (N : Nat) (a : α) (cs : List I) : Prop :=
  (∀ n, N ≤ n → x n = (cs, some (a, n - N))) ∧ (∀ n, n < N → (x n).2 = none ∧ (x n).1 <+: cs)

theorem Steady.pure (a : α) : Steady (Pure.pure a : Risky I α) 0 a [] :=
  ⟨fun n _ => by show _ = ([], some (a, n)); rfl, fun n h => by omega⟩

theorem Steady.user (a : α) : Steady (Risky.user a : Risky I α) 1 a [] := by
  refine ⟨fun n h => ?_, fun n h => ?_⟩
  · cases n with
    | zero => omega
    | succ n => rfl
  · cases n with
    | zero => exact ⟨rfl, List.nil_prefix⟩
    | succ n => omega

theorem Steady.closure (v : I) : Steady (Risky.closure v) 1 () [v] := by
  refine ⟨fun n h => ?_, fun n h => ?_⟩
  · cases n with
    | zero => omega
    | succ n => rfl
  · cases n with
    | zero => exact ⟨rfl, List.prefix_refl _⟩
    | succ n => omega

theorem Steady.bind {x : Risky I α} {f : α → Risky I β} {N M : Nat} {a : α} {b : β} {cs ds : List I} (h1 : Steady x N a cs)
    (h2 : Steady (f a) M b ds) : Steady (x >>= f) (N + M) b (cs ++ ds) := by
  refine ⟨fun n h => ?_, fun n h => ?_⟩
  · show Risky.bind x f n = _
    simp only [Risky.bind, h1.1 n (by omega), h2.1 (n - N) (by omega)]
    congr 3; omega
  · show (Risky.bind x f n).2 = none ∧ (Risky.bind x f n).1 <+: _
    by_cases hn : n < N
    · obtain ⟨k1, k2⟩ := h1.2 n hn
      have : x n = ((x n).1, none) := by rw [← k1]
      simp only [Risky.bind]
      rw [this]
      exact ⟨rfl, k2.trans (List.prefix_append ..)⟩
    · obtain ⟨k1, k2⟩ := h2.2 (n - N) (by omega)
      simp only [Risky.bind, h1.1 n (by omega)]
      exact ⟨k1, (List.prefix_append_right_inj cs).2 k2⟩

end Risky

/-- Some number of calls. -/
def Calm {I α : Type} (x : Risky I α) (a : α) (cs : List I) : Prop := ∃ N, x.Steady N a cs

section
variable {I α β : Type}

theorem Calm.pure (a : α) : Calm (Pure.pure a : Risky I α) a [] := ⟨_, .pure a⟩

theorem Calm.user (a : α) {f : α → Risky I β} {b : β} {cs : List I} (h : Calm (f a) b cs) : Calm (Risky.user a >>= f) b cs := by
  obtain ⟨M, h⟩ := h
  exact ⟨_, (Risky.Steady.user a).bind h⟩

theorem Calm.last (a : α) : Calm (Risky.user a : Risky I α) a [] := ⟨_, .user a⟩

theorem Calm.bind {x : Risky I α} {f : α → Risky I β} {a : α} {b : β} {cs ds : List I} (h1 : Calm x a cs) (h2 : Calm (f a) b ds) :
    Calm (x >>= f) b (cs ++ ds) := by
  obtain ⟨N, h1⟩ := h1
  obtain ⟨M, h2⟩ := h2
  exact ⟨_, h1.bind h2⟩

/-- A part that calls no closure. -/
theorem Calm.quiet {x : Risky I α} {f : α → Risky I β} {a : α} {b : β} {ds : List I} (h1 : Calm x a []) (h2 : Calm (f a) b ds) :
    Calm (x >>= f) b ds := h1.bind h2

end

section
set_option linter.unusedSectionVars false
variable {I B : Type} [Ord B] [Interval I B]

theorem icontainsR_calm (a : I) (b : B) : Calm (icontainsR a b) (icontains a b) [] := by
  unfold icontainsR icontains
  refine .user _ (.user _ ?_)
  cases leB (lo a) b
  · exact .pure _
  · exact .user _ (.last _)

theorem intersectsR_calm (a b : I) : Calm (intersectsR a b) (intersects a b) [] := by
  unfold intersectsR intersects
  refine .user _ (.quiet (icontainsR_calm a (lo b)) ?_)
  cases icontains a (lo b) with
  | true => exact .pure _
  | false =>
    refine .user _ (.quiet (icontainsR_calm a (hi b)) ?_)
    cases icontains a (hi b) with
    | true => exact .pure _
    | false =>
      refine .user _ (.quiet (icontainsR_calm b (lo a)) ?_)
      cases icontains b (lo a) with
      | true => exact .pure _
      | false => exact .user _ (icontainsR_calm b (hi a))

namespace ITree

theorem insertR_calm (i : I) (t : ITree I B) : Calm (t.insertR i) (t.insert i) [] := by
  induction t with
  | nil => exact .user _ (.pure _)
  | node v m l r ihl ihr =>
    unfold insertR insert
    have rest (m : B) : Calm (do
        let a ← Risky.user (lo i)
        let b ← Risky.user (lo v)
        if ← Risky.user (ltB a b) then return ITree.node v m (← insertR i l) r
        else return ITree.node v m l (← insertR i r))
        (if ltB (lo i) (lo v) then ITree.node v m (insert i l) r else ITree.node v m l (insert i r)) [] := by
      refine .user _ (.user _ (.user _ ?_))
      cases ltB (lo i) (lo v)
      · exact .quiet ihr (.pure _)
      · exact .quiet ihl (.pure _)
    refine .user _ (.user _ ?_)
    cases ltB m (hi i)
    · exact .quiet (.pure _) (rest m)
    · exact .quiet (.last _) (rest (hi i))

theorem joinR_steady (l r : ITree I B) : ∃ N, ∀ fuel, (joinR fuel l r).Steady N (join fuel l r) [] := by
  unfold joinR join
  dsimp only
  cases (l.inorder ++ r.inorder)[(l.inorder ++ r.inorder).length / 2]? with
  | none => exact ⟨0, fun fuel => .pure _⟩
  | some c => exact ⟨1, fun fuel => by
      refine Risky.Steady.bind (N := 1) (M := 0) (.user (hi c)) ?_
      exact .pure _⟩

open Risky in
theorem deleteR_steady [BEq I] (i : I) (t : ITree I B) : ∃ N, ∀ fuel, (t.deleteR fuel i).Steady N (t.delete fuel i) [] := by
  induction t with
  | nil => exact ⟨0, fun fuel => .pure _⟩
  | node v m l r ihl ihr =>
    obtain ⟨Nl, ihl⟩ := ihl
    obtain ⟨Nr, ihr⟩ := ihr
    unfold deleteR delete
    have first {N : Nat} {f : Nat → Bool → Risky I (Option (ITree I B))} {b : Nat → Option (ITree I B)}
        (h : ∀ fuel, (f fuel (v == i)).Steady N (b fuel) []) :
        ∃ N, ∀ fuel, (Risky.user (v == i) >>= f fuel).Steady N (b fuel) [] := ⟨_, fun fuel => (Steady.user _).bind (h fuel)⟩
    cases he : v == i with
    | false =>
      rw [he] at first
      simp only [Bool.false_eq_true, if_false]
      cases h1 : ltB (lo i) (lo v) with
      | true => exact first fun fuel => (Steady.user _).bind ((Steady.user _).bind ((Steady.user _).bind (by
          rw [h1]; exact (ihl fuel).bind (.pure _))))
      | false =>
        simp only [Bool.false_eq_true, if_false]
        cases h2 : ltB (lo v) (lo i) with
        | true => exact first fun fuel => (Steady.user _).bind ((Steady.user _).bind ((Steady.user _).bind (by
            rw [h1]
            exact (Steady.user _).bind ((Steady.user _).bind ((Steady.user _).bind (by
              rw [h2]; exact (ihr fuel).bind (.pure _)))))))
        | false => exact first fun fuel => (Steady.user _).bind ((Steady.user _).bind ((Steady.user _).bind (by
            rw [h1]
            exact (Steady.user _).bind ((Steady.user _).bind ((Steady.user _).bind (by
              rw [h2]; exact .pure _))))))
    | true =>
      rw [he] at first
      cases l with
      | nil => exact first fun fuel => .pure _
      | node lv lm ll lr =>
        cases r with
        | nil => exact first fun fuel => .pure _
        | node rv rm rl rr =>
          obtain ⟨N, h⟩ := joinR_steady (ITree.node lv lm ll lr) (.node rv rm rl rr)
          exact first fun fuel => h fuel

theorem intersectsR_calm (q : I) (t : ITree I B) : Calm (t.intersectsR q) (t.intersects q) [] := by
  induction t with
  | nil => exact .pure _
  | node v m l r ihl ihr =>
    unfold intersectsR intersects
    refine .quiet (Plotline.intersectsR_calm v q) ?_
    cases Plotline.intersects v q with
    | true => exact .pure _
    | false =>
      cases l.max? with
      | none => exact ihr
      | some max =>
        refine .user _ (.user _ ?_)
        dsimp only
        cases ltB max (lo q)
        · exact ihl
        · exact ihr

theorem forEachR_calm (q : I) (t : ITree I B) : Calm (t.forEachR q) () (t.forEach q) := by
  induction t with
  | nil => exact .pure _
  | node v m l r ihl ihr =>
    unfold forEachR forEach
    rw [List.append_assoc]
    have rest : Calm (match l.max? with
        | none => (return () : Risky I Unit)
        | some max => do
          let b ← Risky.user (lo q)
          if ← Risky.user (ltB max b) then return () else forEachR q l) ()
        (match l.max? with
        | none => []
        | some max => if ltB max (lo q) then [] else forEach q l) := by
      cases l.max? with
      | none => exact .pure _
      | some max =>
        refine .user _ (.user _ ?_)
        dsimp only
        cases ltB max (lo q)
        · exact ihl
        · exact .pure _
    refine .bind ihr (.quiet (Plotline.intersectsR_calm v q) ?_)
    cases Plotline.intersects v q
    · exact .quiet (.pure _) rest
    · exact .bind ⟨_, .closure v⟩ rest

end ITree

end

end Plotline
