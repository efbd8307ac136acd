import Verif.Lemmas.TreeOpaque
import Verif.Lemmas.Reorder
import Verif.Props.Interval

/-! # C123: of intervals nothing but the order of their bounds and their equality matters to the tree -/

namespace Plotline

variable {I J B C : Type} [Ord B] [Ord C] [Interval I B] [Interval J C] [BEq I] [BEq J] {R : I → J → Prop}

/-- C123: put other intervals, of whatever type and with bounds of whatever type, in the place of the intervals, so that their bounds
compare as those did, and they are equal to each other when those were. A client that makes the same calls with them gets the same
answers, and the closures of `for_each_intersection` are called with the intervals that stand for those of before, in the same order.
This asks nothing of the order: it need not be one. -/
theorem C123_session (hR : SameShape R) (l : List (SearchCall I × SearchSeen I)) (t : ITree I B) (h : SearchSession l t)
    (cs : List (SearchCall J)) (hc : Pairs (SearchCall.Like R) (l.map Prod.fst) cs) :
    ∃ l' t', SearchSession l' (t' : ITree J C) ∧ l'.map Prod.fst = cs ∧ Pairs (SearchSeen.Like R) (l.map Prod.snd) (l'.map Prod.snd) := by
  obtain ⟨l', t', h1, h2, h3, -⟩ := searchSession_like hR h hc
  exact ⟨l', t', h1, h2, h3⟩

/-- C123, deletions that never return: if the calls return with the one kind of intervals, they do with the other. -/
theorem C123_returns (hR : SameShape R) (cs : List (SearchCall I)) (ds : List (SearchCall J)) (hc : Pairs (SearchCall.Like R) cs ds) :
    (∃ l t, SearchSession l (t : ITree I B) ∧ l.map Prod.fst = cs) ↔ ∃ l t, SearchSession l (t : ITree J C) ∧ l.map Prod.fst = ds := by
  constructor
  · rintro ⟨l, t, h, rfl⟩
    obtain ⟨l', t', h1, h2, -⟩ := C123_session hR l t h ds hc
    exact ⟨l', t', h1, h2⟩
  · rintro ⟨l, t, h, rfl⟩
    have hc' : Pairs (SearchCall.Like fun j i => R i j) (l.map Prod.fst) cs := by
      have h1 := hc.flip.map (f := fun x => x) (g := fun x => x) (Q := SearchCall.Like fun j i => R i j) fun a b hab => by
        cases hab with
        | insert h => exact .insert h
        | delete h => exact .delete h
        | intersects h => exact .intersects h
        | forEach h => exact .forEach h
      rwa [List.map_id', List.map_id'] at h1
    obtain ⟨l', t', h1, h2, -⟩ := C123_session hR.flip l t h cs hc'
    exact ⟨l', t', h1, h2⟩

/-- What becomes of calls and answers when the intervals are replaced by `g`. -/
def SearchCall.map (g : I → J) : SearchCall I → SearchCall J
  | .insert i => .insert (g i)
  | .delete i => .delete (g i)
  | .intersects q => .intersects (g q)
  | .forEach q => .forEach (g q)

def SearchSeen.map (g : I → J) : SearchSeen I → SearchSeen J
  | .nothing => .nothing
  | .bool b => .bool b
  | .intervals l => .intervals (l.map g)

/-- C123 for a change of the scale of bounds, as from days to seconds: if `f` keeps the order of bounds, and `g` gives intervals with
the bounds so changed, then every course of calls is possible after the change, with the answers so changed. -/
theorem C123_scale (f : B → C) (hf : ∀ a b, compare (f a) (f b) = compare a b) (g : I → J)
    (hlo : ∀ i, Interval.lo (g i) = f (Interval.lo i)) (hhi : ∀ i, Interval.hi (g i) = f (Interval.hi i))
    (heq : ∀ i j, (g i == g j) = (i == j)) (l : List (SearchCall I × SearchSeen I)) (t : ITree I B) (h : SearchSession l t) :
    ∃ t', SearchSession (l.map fun x => (x.1.map g, x.2.map g)) (t' : ITree J C) := by
  have hR : SameShape (fun i j => j = g i) := by
    constructor <;> (rintro i _ rfl i' _ rfl; simp only [hlo, hhi, hf, heq])
  have hc : ∀ cs : List (SearchCall I), Pairs (SearchCall.Like fun i j => j = g i) cs (cs.map (SearchCall.map g)) := by
    intro cs
    induction cs with
    | nil => exact .nil
    | cons c cs ih =>
      refine .cons ?_ ih
      cases c with
      | insert i => exact .insert rfl
      | delete i => exact .delete rfl
      | intersects i => exact .intersects rfl
      | forEach i => exact .forEach rfl
  have hp : ∀ {a : List I} {b : List J}, Pairs (fun i j => j = g i) a b → b = a.map g := by
    intro a b hab
    induction hab with
    | nil => rfl
    | cons h _ ih => rw [h, ih]; rfl
  have hs : ∀ {as : List (SearchSeen I)} {bs : List (SearchSeen J)}, Pairs (SearchSeen.Like fun i j => j = g i) as bs → bs = as.map (SearchSeen.map g) := by
    intro as bs hab
    induction hab with
    | nil => rfl
    | cons h _ ih =>
      rw [List.map_cons, ← ih]
      cases h with
      | nothing => rfl
      | bool b => rfl
      | intervals h => rw [hp h]; rfl
  obtain ⟨l', t', h1, h2, h3⟩ := C123_session hR l t h _ (hc (l.map Prod.fst))
  have : l' = l.map fun x => (x.1.map g, x.2.map g) := by
    refine eq_of_parts ?_ ?_
    · rw [h2, List.map_map, List.map_map]; rfl
    · rw [hs h3, List.map_map, List.map_map]; rfl
  exact ⟨t', this ▸ h1⟩

theorem intersects_one (i q : I) : (ITree.insert i .nil : ITree I B).intersects q = intersects i q := by
  simp only [ITree.insert, ITree.new, ITree.intersects, ITree.max?]
  cases intersects i q <;> rfl

theorem searchSession_one {l : List (SearchCall I × SearchSeen I)} {t : ITree I B} {i q : I} (h : SearchSession l t)
    (hl : l.map Prod.fst = [.insert i, .intersects q]) : l.map Prod.snd = [.nothing, .bool (intersects i q)] := by
  cases h with
  | nil => cases hl
  | snoc h1 g1 =>
    cases h1 with
    | nil => simp at hl
    | snoc h2 g2 =>
      cases h2 with
      | nil =>
        simp only [List.nil_append, List.cons_append, List.map_cons, List.map_nil, List.cons.injEq, and_true] at hl ⊢
        obtain ⟨rfl, rfl⟩ := hl
        cases g2
        cases g1
        exact ⟨rfl, by rw [intersects_one]⟩
      | snoc _ _ =>
        have := congrArg List.length hl
        simp at this

/-- C123, that bounds compare alike cannot be left out: if the answers are the same whatever is done, then whether intervals intersect
is the same as for those that stand for them. -/
theorem C123_needed (R : I → J → Prop)
    (h : ∀ (l : List (SearchCall I × SearchSeen I)) (t : ITree I B) (cs : List (SearchCall J)), SearchSession l t →
      Pairs (SearchCall.Like R) (l.map Prod.fst) cs →
      ∃ l' t', SearchSession l' (t' : ITree J C) ∧ l'.map Prod.fst = cs ∧ Pairs (SearchSeen.Like R) (l.map Prod.snd) (l'.map Prod.snd))
    (i q : I) (j p : J) (hij : R i j) (hqp : R q p) : intersects i q = intersects j p := by
  have h0 : SearchSession [(.insert i, .nothing), (.intersects q, .bool (intersects i q))] (ITree.insert i .nil : ITree I B) := by
    have h1 := SearchSession.snoc (.snoc .nil (.insert _ i)) (.intersects (ITree.insert i .nil : ITree I B) q)
    rw [intersects_one] at h1
    exact h1
  obtain ⟨l', t', h1, h2, h3⟩ := h _ _ [.insert j, .intersects p] h0 (.cons (.insert hij) (.cons (.intersects hqp) .nil))
  rw [searchSession_one h1 h2] at h3
  cases h3 with
  | cons _ h3 => cases h3 with
    | cons h4 _ =>
      generalize intersects i q = x at h4
      generalize intersects j p = y at h4
      cases h4
      rfl

/-! ## A concrete case -/

/-- A span in hours, made of one in days. -/
structure Hours where
  start : Int
  length : Nat
deriving DecidableEq

instance : Interval Hours Int := ⟨Hours.start, fun h => h.start + h.length⟩

/-- Day 100 is hour 0. -/
def Span.hours (s : Span) : Hours := ⟨24 * (s.lo : Int) - 2400, 24 * (s.hi - s.lo)⟩

/-- Proper spans stand for their hours. -/
def InHours (s : Span) (h : Hours) : Prop := s.lo ≤ s.hi ∧ h = s.hours

theorem inHours_same : SameShape InHours := by
  have hlo : ∀ {s h}, InHours s h → (Interval.lo h : Int) = 24 * (s.lo : Int) - 2400 := by
    rintro s _ ⟨_, rfl⟩; rfl
  have hhi : ∀ {s h}, InHours s h → (Interval.hi h : Int) = 24 * (s.hi : Int) - 2400 := by
    rintro s _ ⟨h1, rfl⟩
    change (24 * (s.lo : Int) - 2400) + ((24 * (s.hi - s.lo) : Nat) : Int) = _
    omega
  have hc : ∀ a b : Nat, compare a b = compare (24 * (a : Int) - 2400) (24 * (b : Int) - 2400) := by
    intro a b
    simp only [compare, compareOfLessAndEq]
    repeat' split
    all_goals first | rfl | omega
  constructor
  · intro i j h i' j' h'; rw [hlo h, hlo h']; exact hc _ _
  · intro i j h i' j' h'; rw [hlo h, hhi h']; exact hc _ _
  · intro i j h i' j' h'; rw [hhi h, hlo h']; exact hc _ _
  · intro i j h i' j' h'; rw [hhi h, hhi h']; exact hc _ _
  · rintro ⟨a, b⟩ _ ⟨h, rfl⟩ ⟨c, d⟩ _ ⟨h', rfl⟩
    rw [Bool.eq_iff_iff]
    simp only [beq_iff_eq, Span.hours, Span.mk.injEq, Hours.mk.injEq]
    dsimp only at h h'
    omega

def someSpans : List (SearchCall Span) := [.insert ⟨101, 104⟩, .insert ⟨99, 100⟩, .delete ⟨99, 100⟩, .insert ⟨98, 102⟩, .forEach ⟨103, 110⟩, .intersects ⟨105, 106⟩]
def someHours : List (SearchCall Hours) :=
  [.insert ⟨24, 72⟩, .insert ⟨-24, 24⟩, .delete ⟨-24, 24⟩, .insert ⟨-48, 96⟩, .forEach ⟨72, 168⟩, .intersects ⟨120, 24⟩]

theorem some_alike : Pairs (SearchCall.Like InHours) someSpans someHours :=
  .cons (.insert ⟨by decide, rfl⟩) (.cons (.insert ⟨by decide, rfl⟩) (.cons (.delete ⟨by decide, rfl⟩) (.cons (.insert ⟨by decide, rfl⟩)
    (.cons (.forEach ⟨by decide, rfl⟩) (.cons (.intersects ⟨by decide, rfl⟩) .nil)))))

theorem some_session : ∃ t : ITree Span Nat, SearchSession [(.insert ⟨101, 104⟩, .nothing), (.insert ⟨99, 100⟩, .nothing), (.delete ⟨99, 100⟩, .nothing),
    (.insert ⟨98, 102⟩, .nothing), (.forEach ⟨103, 110⟩, .intervals [⟨101, 104⟩]), (.intersects ⟨105, 106⟩, .bool false)] t := by
  have h1 : SearchSession [(.insert ⟨101, 104⟩, .nothing), (.insert ⟨99, 100⟩, .nothing), (.delete ⟨99, 100⟩, .nothing)]
      (ITree.node ⟨101, 104⟩ 104 .nil .nil : ITree Span Nat) := by
    have h0 := SearchSession.snoc (SearchSession.snoc (.nil (I := Span) (B := Nat)) (.insert _ ⟨101, 104⟩)) (.insert _ ⟨99, 100⟩)
    exact SearchSession.snoc h0 (.delete (fuel := 5) (i := (⟨99, 100⟩ : Span)) (by decide +kernel))
  have h2 := SearchSession.snoc h1 (.insert _ ⟨98, 102⟩)
  have h3 := SearchSession.snoc h2 (.forEach _ ⟨103, 110⟩)
  have h4 := SearchSession.snoc h3 (.intersects _ ⟨105, 106⟩)
  rw [show ITree.forEach (⟨103, 110⟩ : Span) (ITree.insert ⟨98, 102⟩ (ITree.node ⟨101, 104⟩ 104 .nil .nil) : ITree Span Nat) = [⟨101, 104⟩] by decide +kernel,
    show ITree.intersects (⟨105, 106⟩ : Span) (ITree.insert ⟨98, 102⟩ (ITree.node ⟨101, 104⟩ 104 .nil .nil) : ITree Span Nat) = false by decide +kernel] at h4
  exact ⟨_, h4⟩

/-- In hours the answers are those of before, in hours. -/
example : ∃ l' t', SearchSession l' (t' : ITree Hours Int) ∧ l'.map Prod.fst = someHours ∧
    Pairs (SearchSeen.Like InHours) [.nothing, .nothing, .nothing, .nothing, .intervals [⟨101, 104⟩], .bool false] (l'.map Prod.snd) := by
  obtain ⟨t, h⟩ := some_session
  exact C123_session inHours_same _ t h someHours some_alike

end Plotline
