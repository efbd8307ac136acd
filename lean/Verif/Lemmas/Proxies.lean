import Verif.Lemmas.Proxy
import Verif.Spec.Proxies

/-! Helper lemmas about proxies kept as values, and shared by threads. -/

namespace Plotline

variable {K T : Type}

/-- What the state has in common with the history. -/
structure ProxyInv (sources : Nat → Source K T) (h : ProxyHistory K T) (w : Proxies K T) : Prop where
  made : w.proxies.length = proxiesMade h
  now : w.sources = sourceNow sources h
  proxy : ∀ p s x, w.proxies[p]? = some (s, x) → proxySource h p = some s ∧ proxyId h p = some x.id ∧ ∀ v, x.value = some v ↔ Looked h p v
  looked : ∀ p v, Looked h p v → p < proxiesMade h

theorem Looked.made_of {sources : Nat → Source K T} {h : ProxyHistory K T} {w : Proxies K T} (hI : ProxyInv sources h w) {p : Nat}
    {v : Option T} (hl : Looked h p v) : p ≠ proxiesMade h := Nat.ne_of_lt (hI.looked p v hl)

theorem getElem?_append_one {α : Type} {l : List α} {x y : α} {n : Nat} (h : (l ++ [x])[n]? = some y) :
    (n < l.length ∧ l[n]? = some y) ∨ (n = l.length ∧ y = x) := by
  rcases Nat.lt_or_ge n l.length with hn | hn
  · rw [List.getElem?_append_left hn] at h; exact .inl ⟨hn, h⟩
  · rw [List.getElem?_append_right hn] at h
    have : n - l.length = 0 := by
      cases hk : n - l.length with
      | zero => rfl
      | succ k => rw [hk] at h; simp at h
    rw [this] at h
    simp at h
    exact .inr ⟨by omega, h.symm⟩

/-- A call that is not `deref` or `clone` answers no look. -/
theorem looked_other {h : ProxyHistory K T} {p : Nat} {v : Option T} {x : ProxyCall K T} {r : ProxyAnswer K T}
    (h1 : ∀ q, x ≠ .deref q) (h2 : ∀ q, x ≠ .clone q) : Looked ((x, r) :: h) p v ↔ Looked h p v := by
  constructor
  · intro hl
    cases hl with
    | deref => exact absurd rfl (h1 _)
    | clone _ => exact absurd rfl (h2 _)
    | later hl => exact hl
  · exact .later

theorem getElem?_set_cases {α : Type} {l : List α} {x y : α} {n m : Nat} (h : (l.set n x)[m]? = some y) :
    (m = n ∧ y = x ∧ n < l.length) ∨ (m ≠ n ∧ l[m]? = some y) := by
  by_cases hm : m = n
  · subst hm
    by_cases hn : m < l.length
    · rw [List.getElem?_set_self hn] at h; cases h; exact .inl ⟨rfl, rfl, hn⟩
    · rw [List.getElem?_eq_none (by simpa using Nat.le_of_not_lt hn)] at h; cases h
  · rw [List.getElem?_set_ne (Ne.symm hm)] at h; exact .inr ⟨hm, h⟩

theorem ProxyLegal.inv {sources : Nat → Source K T} {h : ProxyHistory K T} {w : Proxies K T} (hl : ProxyLegal sources h w) :
    ProxyInv sources h w := by
  induction hl with
  | start => exact ⟨rfl, rfl, fun p s x hx => by simp [Proxies.start] at hx, fun p v hv => by cases hv⟩
  | @call h w w' x r _ hs hI =>
    have lt_of : ∀ {p : Nat} {y : Nat × NodeProxy K T}, w.proxies[p]? = some y → p < proxiesMade h := by
      intro p y hp
      rw [← hI.made]
      exact (List.getElem?_eq_some_iff.1 hp).1
    cases x with
    | source s now =>
      simp only [Proxies.step, Option.some.injEq, Prod.mk.injEq] at hs
      obtain ⟨rfl, rfl⟩ := hs
      have e := @looked_other K T h
      refine ⟨hI.made, ?_, fun p s' x hp => ?_, fun p v hv => ?_⟩
      · funext s'
        simp only [sourceNow]
        rw [← hI.now]
      · obtain ⟨a, b, c⟩ := hI.proxy p s' x hp
        exact ⟨a, b, fun v => (c v).trans (looked_other (by simp) (by simp)).symm⟩
      · exact hI.looked p v ((looked_other (by simp) (by simp)).1 hv)
    | new s i =>
      simp only [Proxies.step, Option.some.injEq, Prod.mk.injEq] at hs
      obtain ⟨rfl, rfl⟩ := hs
      refine ⟨by simp [proxiesMade, hI.made], hI.now, fun p s' x hp => ?_, fun p v hv => ?_⟩
      · rcases getElem?_append_one hp with ⟨hlt, hp⟩ | ⟨rfl, hx⟩
        · have hne : p ≠ proxiesMade h := by rw [← hI.made]; omega
          obtain ⟨a, b, c⟩ := hI.proxy p s' x hp
          exact ⟨by simp [proxySource, hne, a], by simp [proxyId, hne, b],
            fun v => (c v).trans (looked_other (by simp) (by simp)).symm⟩
        · cases hx
          refine ⟨by simp [proxySource, hI.made], by simp [proxyId, hI.made, NodeProxy.new], fun v => ?_⟩
          rw [looked_other (by simp) (by simp)]
          refine ⟨fun hv => by simp [NodeProxy.new] at hv, fun hv => ?_⟩
          have := hI.looked _ _ hv
          rw [hI.made] at this
          omega
      · have := hI.looked p v ((looked_other (by simp) (by simp)).1 hv)
        simp only [proxiesMade]
        omega
    | clone q =>
      simp only [Proxies.step] at hs
      split at hs
      · cases hs
      · rename_i s y hq
        simp only [Option.some.injEq, Prod.mk.injEq] at hs
        obtain ⟨rfl, rfl⟩ := hs
        have hlook : ∀ p v, Looked ((.clone q, .none) :: h) p v ↔ (p = proxiesMade h ∧ Looked h q v) ∨ Looked h p v := by
          intro p v
          constructor
          · intro hv
            cases hv with
            | clone hv => exact .inl ⟨rfl, hv⟩
            | later hv => exact .inr hv
          · rintro (⟨rfl, hv⟩ | hv)
            · exact .clone hv
            · exact .later hv
        refine ⟨by simp [proxiesMade, hI.made], hI.now, fun p s' x hp => ?_, fun p v hv => ?_⟩
        · rcases getElem?_append_one hp with ⟨hlt, hp⟩ | ⟨rfl, hx⟩
          · have hne : p ≠ proxiesMade h := by rw [← hI.made]; omega
            obtain ⟨a, b, c⟩ := hI.proxy p s' x hp
            refine ⟨by simp [proxySource, hne, a], by simp [proxyId, hne, b], fun v => ?_⟩
            rw [hlook, c v]
            simp [hne]
          · cases hx
            obtain ⟨a, b, c⟩ := hI.proxy q _ _ hq
            refine ⟨by simp [proxySource, hI.made, a], by simp [proxyId, hI.made, NodeProxy.clone, b], fun v => ?_⟩
            rw [hlook]
            refine (c v).trans ⟨fun hv => .inl ⟨hI.made, hv⟩, ?_⟩
            rintro (⟨_, hv⟩ | hv)
            · exact hv
            · have := hI.looked _ _ hv
              rw [hI.made] at this
              omega
        · rcases (hlook p v).1 hv with ⟨rfl, _⟩ | hv
          · simp [proxiesMade]
          · have := hI.looked p v hv
            simp only [proxiesMade]
            omega
    | deref q =>
      simp only [Proxies.step] at hs
      split at hs
      · cases hs
      · rename_i s y hq
        simp only [Option.some.injEq, Prod.mk.injEq] at hs
        obtain ⟨rfl, rfl⟩ := hs
        have hlook : ∀ p v u, Looked ((.deref q, .node u) :: h) p v ↔ (p = q ∧ v = u) ∨ Looked h p v := by
          intro p v u
          constructor
          · intro hv
            cases hv with
            | deref => exact .inl ⟨rfl, rfl⟩
            | later hv => exact .inr hv
          · rintro (⟨rfl, rfl⟩ | hv)
            · exact .deref
            · exact .later hv
        obtain ⟨a, b, c⟩ := hI.proxy q s y hq
        refine ⟨by simp [proxiesMade, hI.made], hI.now, fun p s' x hp => ?_, fun p v hv => ?_⟩
        · rcases getElem?_set_cases hp with ⟨rfl, hx, _⟩ | ⟨hne, hp⟩
          · cases hx
            refine ⟨by simpa [proxySource] using a, ?_, fun v => ?_⟩
            · simp only [proxyId, b, NodeProxy.tryDeref]
              cases y.value <;> rfl
            · rw [hlook, ← c v]
              simp only [NodeProxy.tryDeref]
              cases hy : y.value with
              | none => simp [eq_comm]
              | some u => simp [hy, eq_comm]
          · obtain ⟨a, b, c⟩ := hI.proxy p s' x hp
            refine ⟨by simpa [proxySource] using a, by simpa [proxyId] using b, fun v => ?_⟩
            rw [hlook, c v]
            simp [hne]
        · rcases (hlook p v _).1 hv with ⟨rfl, _⟩ | hv
          · exact lt_of hq
          · exact hI.looked p v hv
    | isVirtual q =>
      simp only [Proxies.step] at hs
      split at hs
      · cases hs
      · simp only [Option.some.injEq, Prod.mk.injEq] at hs
        obtain ⟨rfl, rfl⟩ := hs
        refine ⟨hI.made, hI.now, fun p s' x hp => ?_, fun p v hv => hI.looked p v ((looked_other (by simp) (by simp)).1 hv)⟩
        obtain ⟨a, b, c⟩ := hI.proxy p s' x hp
        exact ⟨a, b, fun v => (c v).trans (looked_other (by simp) (by simp)).symm⟩
    | id q =>
      simp only [Proxies.step] at hs
      split at hs
      · cases hs
      · simp only [Option.some.injEq, Prod.mk.injEq] at hs
        obtain ⟨rfl, rfl⟩ := hs
        refine ⟨hI.made, hI.now, fun p s' x hp => ?_, fun p v hv => hI.looked p v ((looked_other (by simp) (by simp)).1 hv)⟩
        obtain ⟨a, b, c⟩ := hI.proxy p s' x hp
        exact ⟨a, b, fun v => (c v).trans (looked_other (by simp) (by simp)).symm⟩
    | setId q i =>
      simp only [Proxies.step] at hs
      split at hs
      · cases hs
      · rename_i s y hq
        simp only [Option.some.injEq, Prod.mk.injEq] at hs
        obtain ⟨rfl, rfl⟩ := hs
        refine ⟨by simp [proxiesMade, hI.made], hI.now, fun p s' x hp => ?_,
          fun p v hv => hI.looked p v ((looked_other (by simp) (by simp)).1 hv)⟩
        rcases getElem?_set_cases hp with ⟨rfl, hx, _⟩ | ⟨hne, hp⟩
        · cases hx
          obtain ⟨a, b, c⟩ := hI.proxy p _ _ hq
          exact ⟨a, by simp [proxyId], fun v => (c v).trans (looked_other (by simp) (by simp)).symm⟩
        · obtain ⟨a, b, c⟩ := hI.proxy p s' x hp
          exact ⟨a, by simp [proxyId, hne, b], fun v => (c v).trans (looked_other (by simp) (by simp)).symm⟩
    | setSource q s =>
      simp only [Proxies.step] at hs
      split at hs
      · cases hs
      · rename_i s0 y hq
        simp only [Option.some.injEq, Prod.mk.injEq] at hs
        obtain ⟨rfl, rfl⟩ := hs
        refine ⟨by simp [proxiesMade, hI.made], hI.now, fun p s' x hp => ?_,
          fun p v hv => hI.looked p v ((looked_other (by simp) (by simp)).1 hv)⟩
        rcases getElem?_set_cases hp with ⟨rfl, hx, _⟩ | ⟨hne, hp⟩
        · cases hx
          obtain ⟨a, b, c⟩ := hI.proxy p _ _ hq
          exact ⟨by simp [proxySource], b, fun v => (c v).trans (looked_other (by simp) (by simp)).symm⟩
        · obtain ⟨a, b, c⟩ := hI.proxy p s' x hp
          exact ⟨by simp [proxySource, hne, a], b, fun v => (c v).trans (looked_other (by simp) (by simp)).symm⟩

/-- The proxies there are. -/
theorem ProxyInv.get {sources : Nat → Source K T} {h : ProxyHistory K T} {w : Proxies K T} (hI : ProxyInv sources h w) {p : Nat}
    (hp : p < proxiesMade h) : ∃ s x, w.proxies[p]? = some (s, x) :=
  ⟨_, _, List.getElem?_eq_getElem (by rw [hI.made]; exact hp)⟩

/-! ## Threads -/

/-- The claim is held by the thread that asks the source or is about to store, and the value, once there, is the one answer. -/
structure InitInv (v0 : Option (Option T)) (s : InitState T) : Prop where
  /-- Who is in `source` or `store` has claimed the cell, and there is no value. -/
  busy : ∀ t, (s.pcs t = .source ∨ ∃ v, s.pcs t = .store v) → s.claimed = some t ∧ s.value = none
  holder : ∀ t, s.claimed = some t → s.pcs t = .source ∨ ∃ v, s.pcs t = .store v
  stored : ∀ t v, s.pcs t = .store v → s.answers = [v]
  asked : (∀ t v, s.pcs t ≠ .store v) → s.answers = if v0.isSome then [] else s.value.toList
  kept : ∀ v, v0 = some v → s.value = some v ∧ s.answers = []
  results : ∀ c ∈ s.calls, ∀ v, c.result = some v → s.value = some v

theorem InitInv.step {v0 : Option (Option T)} {s : InitState T} (hI : InitInv v0 s) (t : Nat) (a : Option (Option T)) :
    InitInv v0 (s.step t a) := by
  have pcs_ne : ∀ (t' : Nat) (p : InitPc T), t' ≠ t → (s.pc t p).pcs t' = s.pcs t' := by
    intro t' p hne; simp [InitState.pc, hne]
  have pcs_self : ∀ (p : InitPc T), (s.pc t p).pcs t = p := by
    intro p; simp [InitState.pc]
  -- a step of `t` outside of the claimed part that changes only where the thread is and adds a right answer
  have plain : ∀ (p : InitPc T) (l : List (InitCall T)), (s.pcs t ≠ .source ∧ ∀ v, s.pcs t ≠ .store v) → p ≠ .source → (∀ v, p ≠ .store v) →
      (∀ c ∈ l, ∀ v, c.result = some v → s.value = some v) → InitInv v0 { s.pc t p with calls := s.calls ++ l } := by
    intro p l h0 h1 h2 h3
    refine ⟨fun t' ht' => ?_, fun t' ht' => ?_, fun t' v ht' => ?_, fun hn => ?_, hI.kept, fun c hc v hv => ?_⟩
    · by_cases he : t' = t
      · subst he
        simp only [InitState.pc, if_true] at ht'
        rcases ht' with h | ⟨v, h⟩
        · exact absurd h h1
        · exact absurd h (h2 v)
      · simp only [InitState.pc, he, if_false] at ht'
        exact hI.busy t' ht'
    · by_cases he : t' = t
      · subst he
        rcases hI.holder t' ht' with h | ⟨v, h⟩
        · exact absurd h h0.1
        · exact absurd h (h0.2 v)
      · have := hI.holder t' ht'
        simpa only [InitState.pc, he, if_false] using this
    · by_cases he : t' = t
      · subst he
        simp only [InitState.pc, if_true] at ht'
        exact absurd ht' (h2 v)
      · simp only [InitState.pc, he, if_false] at ht'
        exact hI.stored t' v ht'
    · refine hI.asked fun t' v ht' => ?_
      by_cases he : t' = t
      · subst he; exact h0.2 v ht'
      · exact hn t' v (by simpa only [InitState.pc, he, if_false] using ht')
    · rcases List.mem_append.1 hc with hc | hc
      · exact hI.results c hc v hv
      · exact h3 c hc v hv
  have plain0 : ∀ (p : InitPc T), (s.pcs t ≠ .source ∧ ∀ v, s.pcs t ≠ .store v) → p ≠ .source → (∀ v, p ≠ .store v) →
      InitInv v0 (s.pc t p) := by
    intro p h0 h1 h2
    have := plain p [] h0 h1 h2 (by simp)
    rw [List.append_nil] at this
    exact this
  unfold InitState.step
  split
  · rename_i h; exact plain0 _ (by simp [h]) (by simp) (by simp)
  · rename_i h
    split
    · rename_i v hv
      exact plain _ _ (by simp [h]) (by simp) (by simp) (by simp [hv])
    · exact plain0 _ (by simp [h]) (by simp) (by simp)
  · rename_i h
    split
    · rename_i v hv
      exact plain _ _ (by simp [h]) (by simp) (by simp) (by simp [hv])
    · rename_i hv
      split
      · rename_i hc
        -- the cell is claimed
        have hfree : ∀ t', s.pcs t' ≠ .source ∧ ∀ v, s.pcs t' ≠ .store v := by
          intro t'
          refine ⟨fun h => ?_, fun v h => ?_⟩
          · have := (hI.busy t' (.inl h)).1; rw [hc] at this; cases this
          · have := (hI.busy t' (.inr ⟨v, h⟩)).1; rw [hc] at this; cases this
        refine ⟨fun t' ht' => ?_, fun t' ht' => ?_, fun t' v ht' => ?_, fun hn => ?_, hI.kept, hI.results⟩
        · by_cases he : t' = t
          · subst he; exact ⟨rfl, hv⟩
          · simp only [InitState.pc, he, if_false] at ht'
            rcases ht' with h | ⟨v, h⟩
            · exact absurd h (hfree t').1
            · exact absurd h ((hfree t').2 v)
        · cases ht'
          exact .inl (pcs_self _)
        · by_cases he : t' = t
          · subst he; simp [InitState.pc] at ht'
          · simp only [InitState.pc, he, if_false] at ht'
            exact absurd ht' ((hfree t').2 v)
        · exact hI.asked fun t' v => (hfree t').2 v
      · exact hI
  · rename_i h
    obtain ⟨hb1, hb2⟩ := hI.busy t (.inl h)
    have others : ∀ t', t' ≠ t → s.pcs t' ≠ .source ∧ ∀ v, s.pcs t' ≠ .store v := by
      intro t' hne
      refine ⟨fun h => ?_, fun v h => ?_⟩
      · have := (hI.busy t' (.inl h)).1; rw [hb1] at this; cases this; exact hne rfl
      · have := (hI.busy t' (.inr ⟨v, h⟩)).1; rw [hb1] at this; cases this; exact hne rfl
    have hno : ∀ t' v, s.pcs t' ≠ .store v := by
      intro t' v h'
      by_cases he : t' = t
      · subst he; rw [h] at h'; cases h'
      · exact (others t' he).2 v h'
    have hans := hI.asked hno
    have hv0 : v0 = none := by
      cases hv : v0 with
      | none => rfl
      | some v => have := (hI.kept v hv).1; rw [hb2] at this; cases this
    rw [hb2, hv0] at hans
    simp at hans
    split
    · refine ⟨fun t' ht' => ?_, fun t' ht' => (by cases ht'), fun t' v ht' => ?_, fun hn => ?_, hI.kept, fun c hc v hv => ?_⟩
      · by_cases he : t' = t
        · subst he; simp [InitState.ret, InitState.pc] at ht'
        · simp only [InitState.ret, InitState.pc, he, if_false] at ht'
          rcases ht' with h | ⟨v, h⟩
          · exact absurd h (others t' he).1
          · exact absurd h ((others t' he).2 v)
      · by_cases he : t' = t
        · subst he; simp [InitState.ret, InitState.pc] at ht'
        · simp only [InitState.ret, InitState.pc, he, if_false] at ht'
          exact absurd ht' ((others t' he).2 v)
      · show s.answers = if v0.isSome then [] else s.value.toList
        rw [hans, hv0, hb2]; rfl
      · simp only [InitState.ret, List.mem_append, List.mem_singleton] at hc
        rcases hc with hc | rfl
        · exact hI.results c hc v hv
        · cases hv
    · rename_i v
      refine ⟨fun t' ht' => ?_, fun t' ht' => ?_, fun t' v' ht' => ?_, fun hn => ?_, fun v hv => ?_, hI.results⟩
      · by_cases he : t' = t
        · subst he; exact ⟨hb1, hb2⟩
        · simp only [InitState.pc, he, if_false] at ht'
          rcases ht' with h | ⟨v, h⟩
          · exact absurd h (others t' he).1
          · exact absurd h ((others t' he).2 v)
      · have : t' = t := by
          have : s.claimed = some t' := ht'
          rw [hb1] at this; cases this; rfl
        subst this
        exact .inr ⟨v, pcs_self _⟩
      · by_cases he : t' = t
        · subst he
          simp only [InitState.pc, if_true] at ht'
          cases ht'
          show s.answers ++ [v] = [v]
          rw [hans]; rfl
        · simp only [InitState.pc, he, if_false] at ht'
          exact absurd ht' ((others t' he).2 v')
      · exact absurd (pcs_self (.store v)) (hn t v)
      · rw [hv0] at hv; cases hv
  · rename_i v h
    obtain ⟨hb1, hb2⟩ := hI.busy t (.inr ⟨v, h⟩)
    have others : ∀ t', t' ≠ t → s.pcs t' ≠ .source ∧ ∀ v, s.pcs t' ≠ .store v := by
      intro t' hne
      refine ⟨fun h => ?_, fun v h => ?_⟩
      · have := (hI.busy t' (.inl h)).1; rw [hb1] at this; cases this; exact hne rfl
      · have := (hI.busy t' (.inr ⟨v, h⟩)).1; rw [hb1] at this; cases this; exact hne rfl
    have hv0 : v0 = none := by
      cases hv : v0 with
      | none => rfl
      | some v => have := (hI.kept v hv).1; rw [hb2] at this; cases this
    have hans := hI.stored t v h
    refine ⟨fun t' ht' => ?_, fun t' ht' => (by cases ht'), fun t' v' ht' => ?_, fun hn => ?_, fun u hu => ?_, fun c hc u hu => ?_⟩
    · by_cases he : t' = t
      · subst he; simp [InitState.ret, InitState.pc] at ht'
      · simp only [InitState.ret, InitState.pc, he, if_false] at ht'
        rcases ht' with h | ⟨v, h⟩
        · exact absurd h (others t' he).1
        · exact absurd h ((others t' he).2 v)
    · by_cases he : t' = t
      · subst he; simp [InitState.ret, InitState.pc] at ht'
      · simp only [InitState.ret, InitState.pc, he, if_false] at ht'
        exact absurd ht' ((others t' he).2 v')
    · show s.answers = if v0.isSome then [] else [v]
      rw [hans, hv0]; simp
    · rw [hv0] at hu; cases hu
    · simp only [InitState.ret, List.mem_append, List.mem_singleton] at hc
      rcases hc with hc | rfl
      · have := hI.results c hc u hu
        rw [hb2] at this; cases this
      · exact hu

theorem InitInv.run {v0 : Option (Option T)} {s : InitState T} (hI : InitInv v0 s) (sched : List (Nat × Option (Option T))) :
    InitInv v0 (s.run sched) := by
  induction sched generalizing s with
  | nil => exact hI
  | cons e l ih => exact ih (hI.step e.1 e.2)

theorem initInv (v0 : Option (Option T)) (sched : List (Nat × Option (Option T))) : InitInv v0 (initAfter v0 sched) := by
  refine InitInv.run ⟨?_, ?_, ?_, ?_, ?_, ?_⟩ sched
  · rintro t (h | ⟨v, h⟩) <;> cases h
  · intro t h; cases h
  · intro t v h; cases h
  · intro _; cases v0 <;> rfl
  · intro v h; exact ⟨h, rfl⟩
  · intro c h; cases h

end Plotline
