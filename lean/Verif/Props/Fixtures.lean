import Verif.Model.Fixtures

/-! # C112: the fixtures -/

namespace Plotline

section
variable {B : Type} [BEq B] (code : Code B)

/-- Both are there and equal, or neither is. -/
inductive BothOr : Option B → Option B → Prop where
  | none : BothOr none none
  | some {x y : B} : (x == y) = true → BothOr (some x) (some y)

/-- C112, `==` of interval mocks: it compares the bounds, and whether there are any. -/
theorem C112_eq (a b : IntervalMock) :
    a.eq code b = true ↔ BothOr (a.lo code) (b.lo code) ∧ BothOr (a.hi code) (b.hi code) := by
  have key : ∀ {x y : Option Nat}, BothOr (x.map code) (y.map code) ↔
      (x = none ∧ y = none) ∨ ∃ f g, x = some f ∧ y = some g ∧ (code f == code g) = true := by
    intro x y
    cases x with
    | none =>
      cases y with
      | none => exact ⟨fun _ => .inl ⟨rfl, rfl⟩, fun _ => .none⟩
      | some g => exact ⟨fun h => (by cases h), fun h => by rcases h with ⟨_, h⟩ | ⟨_, _, h, _⟩ <;> cases h⟩
    | some f =>
      cases y with
      | none => exact ⟨fun h => (by cases h), fun h => by rcases h with ⟨h, _⟩ | ⟨_, _, _, h, _⟩ <;> cases h⟩
      | some g =>
        constructor
        · intro h
          cases h with
          | some h => exact .inr ⟨f, g, rfl, rfl, h⟩
        · rintro (⟨h, _⟩ | ⟨_, _, h1, h2, h⟩)
          · cases h
          · cases h1; cases h2; exact .some h
  unfold IntervalMock.lo IntervalMock.hi
  rw [key, key]
  obtain ⟨al, ah⟩ := a
  obtain ⟨bl, bh⟩ := b
  cases al <;> cases bl <;> cases ah <;> cases bh <;> simp [IntervalMock.eq, IntervalMock.eq.his, bne]

/-- C112: so it is an equivalence if that of the bounds is. -/
theorem C112_equivalence [EquivBEq B] :
    (∀ a : IntervalMock, a.eq code a = true) ∧ (∀ a b : IntervalMock, a.eq code b = true → b.eq code a = true) ∧
    (∀ a b c : IntervalMock, a.eq code b = true → b.eq code c = true → a.eq code c = true) := by
  have h1 : ∀ x : Option B, BothOr x x := fun x => match x with
    | none => .none
    | some _ => .some BEq.rfl
  have h2 : ∀ {x y : Option B}, BothOr x y → BothOr y x := fun h => by cases h with
    | none => exact .none
    | some h => exact .some (BEq.symm h)
  have h3 : ∀ {x y z : Option B}, BothOr x y → BothOr y z → BothOr x z := fun h h' => by cases h with
    | none => exact h'
    | some h => cases h' with
      | some h' => exact .some (BEq.trans h h')
  simp only [C112_eq]
  exact ⟨fun a => ⟨h1 _, h1 _⟩, fun a b h => ⟨h2 h.1, h2 h.2⟩, fun a b c h h' => ⟨h3 h.1 h'.1, h3 h.2 h'.2⟩⟩

omit [BEq B] in
/-- C112: asking a mock for a bound panics exactly if there is no function for it, and gives what the function last set returns. -/
theorem C112_bounds (m : IntervalMock) (f : Nat) :
    (m.lo code = none ↔ m.loFn = none) ∧ (m.hi code = none ↔ m.hiFn = none) ∧
    (m.withLo f).lo code = some (code f) ∧ (m.withLo f).hi code = m.hi code ∧
    (m.withHi f).hi code = some (code f) ∧ (m.withHi f).lo code = m.lo code ∧
    ∀ g, (intervalMock f g).lo code = some (code f) ∧ (intervalMock f g).hi code = some (code g) := by
  simp [IntervalMock.lo, IntervalMock.hi, IntervalMock.withLo, IntervalMock.withHi, intervalMock]

omit [BEq B] in
theorem compareFn_eq {x y : Option Nat} : compareFn x y = .eq ↔ x = y := by
  cases x <;> cases y <;> simp [compareFn]

omit [BEq B] in
/-- C112: comparing two mocks finds them equal exactly if they have the same functions. -/
theorem C112_cmp_same (a b : IntervalMock) : a.cmp b = .eq ↔ a = b := by
  obtain ⟨al, ah⟩ := a
  obtain ⟨bl, bh⟩ := b
  simp only [IntervalMock.cmp, Ordering.then_eq_eq, compareFn_eq, IntervalMock.mk.injEq]

omit [BEq B] in
/-- C112: comparing mocks is a total order, by the lower bound's function first. A mock that has no function for a bound comes before one
that has, and whether one comes before another that has the same for the lower bound is decided by the upper. -/
theorem C112_order : (∀ a b : IntervalMock, a.cmp b = (b.cmp a).swap) ∧
    (∀ a b c : IntervalMock, a.cmp b ≠ .gt → b.cmp c ≠ .gt → a.cmp c ≠ .gt) ∧
    (∀ (f g : Nat) (x y : Option Nat), (⟨none, x⟩ : IntervalMock).cmp ⟨some f, y⟩ = .lt ∧
      (⟨x, none⟩ : IntervalMock).cmp ⟨x, some g⟩ = .lt ∧ (f < g → (⟨some f, x⟩ : IntervalMock).cmp ⟨some g, y⟩ = .lt) ∧
      (f < g → (⟨x, some f⟩ : IntervalMock).cmp ⟨x, some g⟩ = .lt)) := by
  have hs : ∀ x y, compareFn x y = (compareFn y x).swap := by
    intro x y
    cases x <;> cases y <;> simp [compareFn, Nat.compare_swap]
  have key : ∀ {x y z : Option Nat}, compareFn x y ≠ .gt → compareFn y z ≠ .gt →
      compareFn x z ≠ .gt ∧ (compareFn x z = .eq → compareFn x y = .eq ∧ compareFn y z = .eq) := by
    intro x y z h1 h2
    cases x <;> cases y <;> cases z <;> simp_all [compareFn, Nat.compare_eq_gt]
    omega
  refine ⟨fun a b => ?_, fun a b c h1 h2 => ?_, fun f g x y => ?_⟩
  · unfold IntervalMock.cmp
    rw [hs a.loFn, hs a.hiFn]
    cases compareFn b.loFn a.loFn <;> simp [Ordering.then]
  · unfold IntervalMock.cmp at *
    have k1 := @key a.loFn b.loFn c.loFn
    have k2 := @key a.hiFn b.hiFn c.hiFn
    revert h1 h2 k1 k2
    cases compareFn a.loFn b.loFn <;> cases compareFn b.loFn c.loFn <;> cases compareFn a.loFn c.loFn <;> simp [Ordering.then]
    exact fun h1 h2 h3 => (h3 h1 h2).1
  · have hx : compareFn x x = .eq := by cases x <;> simp [compareFn]
    simp only [IntervalMock.cmp, hx, Ordering.then]
    exact ⟨rfl, rfl, fun h => by simp [compareFn, Nat.compare_eq_lt.2 h], fun h => by simp [compareFn, Nat.compare_eq_lt.2 h]⟩

/-- C112 in one direction: what compares equal is equal.
Missing from C112: the other direction (`C112_refuted`); it holds between mocks whose functions return different bounds if they are
different, which is exactly when all do. -/
theorem C112_contract_partial [ReflBEq B] :
    (∀ a b : IntervalMock, a.cmp b = .eq → a.eq code b = true) ∧
    ((∀ a b : IntervalMock, a.cmp b = .eq ↔ a.eq code b = true) ↔ ∀ f g, (code f == code g) = true → f = g) := by
  have h1 : ∀ x : Option B, BothOr x x := fun x => match x with
    | none => .none
    | some _ => .some BEq.rfl
  refine ⟨fun a b h => ?_, fun h f g e => ?_, fun h a b => ⟨fun e => ?_, fun e => ?_⟩⟩
  · rw [(C112_cmp_same a b).1 h, C112_eq]; exact ⟨h1 _, h1 _⟩
  · have := (C112_cmp_same _ _).1 ((h ⟨some f, none⟩ ⟨some g, none⟩).2 ((C112_eq code _ _).2 ⟨.some e, .none⟩))
    cases this; rfl
  · rw [(C112_cmp_same a b).1 e, C112_eq]; exact ⟨h1 _, h1 _⟩
  · obtain ⟨e1, e2⟩ := (C112_eq code a b).1 e
    have key : ∀ {x y : Option Nat}, BothOr (x.map code) (y.map code) → x = y := by
      intro x y hxy
      cases x <;> cases y
      · rfl
      · cases hxy
      · cases hxy
      · cases hxy with
        | some e => rw [h _ _ e]
    rw [C112_cmp_same]
    obtain ⟨al, ah⟩ := a
    obtain ⟨bl, bh⟩ := b
    exact (IntervalMock.mk.injEq ..).mpr ⟨key e1, key e2⟩

end

/-- C112 is false of the code: two mocks with the same bounds are equal, yet one is less than the other, and which one depends on where
their functions are. -/
theorem C112_refuted : ∃ (code code' : Code Nat) (a b a' b' : IntervalMock),
    a.eq code b = true ∧ a.cmp b = .lt ∧ a'.eq code' b' = true ∧ a'.cmp b' = .gt ∧
    a.lo code = a'.lo code' ∧ b.lo code = b'.lo code' ∧ a.hi code = a'.hi code' ∧ b.hi code = b'.hi code' :=
  ⟨fun _ => 5, fun _ => 5, intervalMock 0 0, intervalMock 1 0, intervalMock 1 0, intervalMock 0 0, by decide⟩

/-- C112, fake nodes: their id is what their function returns and their edges lead to what theirs returns, in that order, if there are
such functions; otherwise asking panics. -/
theorem C112_node {K : Type} (ids : Code K) (edges : Code (List K)) (n : FakeNode) :
    (n.id ids = none ↔ n.idFn = none) ∧ (n.edges edges = none ↔ n.edgesFn = none) ∧
    ∀ f g, (fakeNode f g).id ids = some (ids f) ∧ (fakeNode f g).edges edges = some (edges g) := by
  simp [FakeNode.id, FakeNode.edges, fakeNode]

example : (intervalMock 0 1).eq (fun f => f % 2) (intervalMock 2 3) = true ∧ (intervalMock 0 1).eq (fun f => f % 2) (intervalMock 1 1) = false ∧
    (intervalMock 0 1).eq (fun f => f % 2) (({} : IntervalMock).withLo 0) = false := by decide

end Plotline
