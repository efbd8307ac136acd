import Verif.Lemmas.Nest

/-! # C116: resources that own handles -/

namespace Plotline

open Std

variable {Ty : Type} [Ord Ty] [DecidableEq Ty] [TransOrd Ty] [LawfulEqOrd Ty]
variable {D : Nat → Bool} {h : List (NestCall Ty × NestAnswer)} {s s' : Nest Ty}

theorem entry_schema (hi : NInv h s) (r : Nat) : s.Entry r ↔ SchemaHas h r := by
  unfold SchemaHas
  rw [← hi.gone]
  constructor
  · rintro ⟨set, hset, he⟩
    obtain ⟨t, ht⟩ := (entry_iff (hi.sorted set hset) r).1 he
    exact ⟨by rw [hset]; rfl, t, (hi.set set hset t).symm.trans ht⟩
  · rintro ⟨hg, t, ht⟩
    cases hset : s.set with
    | none => rw [hset] at hg; cases hg
    | some set => exact ⟨set, hset, (entry_iff (hi.sorted set hset) r).2 ⟨t, (hi.set set hset t).trans ht⟩⟩

/-- At any time exactly what nobody has, but for values that were destroyed themselves, was destroyed, and once. -/
theorem C116_destroyed (hl : Leaves D h s) : s.drops.Nodup ∧ ∀ r, r ∈ s.drops ↔ Lost h r := by
  have hi := leaves_inv hl
  have hp := hi.pend
  have h1 : ∀ n a p b, a.length = n → s.drops = a ++ p :: b → Lost h p := by
    intro n
    induction n using Nat.strongRecOn with
    | _ n ih =>
      intro a p b hn e
      have hm : p ∈ s.drops := by rw [e]; simp
      have hlt := hp.lt p hm
      have hno := (hp.mem p hlt (by simp)).1 hm
      refine .mk (hi.length ▸ hlt) ?_ ?_
      · rintro (h1 | ⟨k, hk, hpl⟩)
        · exact hno (.inl ((entry_schema hi p).2 h1))
        · obtain ⟨x, hx, hc⟩ := (on_iff hi).1 hk
          rcases hp.order a p b e k x hx hc with h1 | ⟨q, _, h1⟩
          · rw [h1] at hpl; rcases hpl with hpl | hpl <;> cases hpl
          · rw [h1] at hpl; rcases hpl with hpl | hpl <;> cases hpl
      · rintro q ⟨k, hk, hpl⟩
        obtain ⟨x, hx, hc⟩ := (on_iff hi).1 hk
        rcases hp.order a p b e k x hx hc with h1 | ⟨q', hq', h1⟩
        · rw [h1] at hpl; cases hpl
        · rw [h1] at hpl; cases hpl
          obtain ⟨a1, a2, rfl⟩ := List.append_of_mem hq'
          refine ih a1.length (by subst hn; simp) a1 q (a2 ++ p :: b) rfl ?_
          rw [e]; simp
  refine ⟨hp.nodup, fun r => ⟨fun hm => ?_, fun hr => ?_⟩⟩
  · obtain ⟨a, b, e⟩ := List.append_of_mem hm
    exact h1 a.length a r b rfl e
  · induction hr with
    | @mk r hlt hroot _ ih =>
      refine (hp.mem r (hi.length ▸ hlt) (by simp)).2 ?_
      rintro (he | ⟨k, x, hx, hn, hc⟩)
      · exact hroot (.inl ((entry_schema hi r).1 he))
      · have hpl := place_iff hi hx hn
        have hon : On h k r := (on_iff hi).2 ⟨x, hx, hc⟩
        cases e : placeOf h k with
        | outside => exact hroot (.inr ⟨k, hon, .inl e⟩)
        | forgotten => exact hroot (.inr ⟨k, hon, .inr e⟩)
        | dropped => exact hn (hpl.trans e)
        | inside q =>
          have := (hp.inner k x q hx (hpl.trans e)).2 (ih q ⟨k, hon, e⟩)
          cases this

omit [TransOrd Ty] [LawfulEqOrd Ty] in
theorem owns_lt (hi : NInv h s) {q r : Nat} (ho : Owns h q r) : q < (regsOf h).length := by
  obtain ⟨k, hk, hpl⟩ := ho
  obtain ⟨x, hx, _⟩ := (on_iff hi).1 hk
  rw [← hi.length]
  rcases hi.pend.hist k x hx with h1 | ⟨_, q', h1, h2⟩
  · exact (hi.pend.inner k x q hx (h1.trans hpl)).1
  · rw [hpl] at h2; cases h2; exact hi.pend.lt q h1

omit [Ord Ty] [TransOrd Ty] [LawfulEqOrd Ty] in
theorem OwnsFar.trans {p q r : Nat} (h1 : OwnsFar h p q) (h2 : OwnsFar h q r) : OwnsFar h p r := by
  induction h1 with
  | one h1 => exact .more h1 h2
  | more h1 _ ih => exact .more h1 (ih h2)

omit [Ord Ty] [TransOrd Ty] [LawfulEqOrd Ty] in
theorem OwnsFar.last {p r : Nat} (h1 : OwnsFar h p r) : ∃ q, (p = q ∨ OwnsFar h p q) ∧ Owns h q r := by
  induction h1 with
  | one h1 => exact ⟨_, .inl rfl, h1⟩
  | more h1 _ ih =>
    obtain ⟨q, h2, h3⟩ := ih
    refine ⟨q, .inr ?_, h3⟩
    rcases h2 with rfl | h2
    · exact .one h1
    · exact .more h1 h2

omit [Ord Ty] [TransOrd Ty] [LawfulEqOrd Ty] in
theorem OwnsFar.lost {q r : Nat} (h1 : OwnsFar h q r) (hr : Lost h r) : Lost h q := by
  induction h1 with
  | one h1 => obtain ⟨_, _, h2⟩ := hr; exact h2 _ h1
  | more h1 _ ih => obtain ⟨_, _, h2⟩ := ih hr; exact h2 _ h1

omit [Ord Ty] [TransOrd Ty] [LawfulEqOrd Ty] in
theorem Lost.noCycle {r : Nat} (hr : Lost h r) : ¬ OwnsFar h r r := by
  induction hr with
  | mk _ _ _ ih =>
    intro hc
    obtain ⟨q, h1, h2⟩ := hc.last
    refine ih q h2 ?_
    rcases h1 with rfl | h1
    · exact hc
    · exact .more h2 h1

theorem countP_less {α : Type} (f g : α → Bool) (l : List α) (hfg : ∀ x ∈ l, f x = true → g x = true)
    (x : α) (hx : x ∈ l) (hg : g x = true) (hf : f x = false) : l.countP f < l.countP g := by
  induction l with
  | nil => cases hx
  | cons y l ih =>
    rw [List.countP_cons, List.countP_cons]
    have hle : l.countP f ≤ l.countP g := List.countP_mono_left fun z hz => hfg z (List.mem_cons_of_mem _ hz)
    rcases List.mem_cons.1 hx with rfl | hx
    · rw [hg, hf]; simp; omega
    · have := ih (fun z hz => hfg z (List.mem_cons_of_mem _ hz)) hx
      have h1 := hfg y List.mem_cons_self
      cases hy : f y with
      | false => simp; split <;> omega
      | true => rw [h1 hy]; simp; omega

omit [TransOrd Ty] [LawfulEqOrd Ty] in
open Classical in
theorem lost_of (hi : NInv h s) : ∀ n r, (List.range (regsOf h).length).countP (fun q => decide (OwnsFar h q r)) = n →
    r < (regsOf h).length → (∀ q, q = r ∨ OwnsFar h q r → ¬ Rooted h q ∧ ¬ OwnsFar h q q) → Lost h r := by
  intro n
  induction n using Nat.strongRecOn with
  | _ n ih =>
    intro r hn hlt hall
    refine .mk hlt (hall r (.inl rfl)).1 fun q hq => ?_
    have hql := owns_lt hi hq
    refine ih _ ?_ q rfl hql fun p hp => hall p (.inr ?_)
    · rw [← hn]
      refine countP_less _ _ _ (fun p _ hp => ?_) q (List.mem_range.2 hql) ?_ ?_
      · simp only [decide_eq_true_eq] at hp ⊢
        exact hp.trans (.one hq)
      · simpa using OwnsFar.one hq
      · simpa using (hall q (.inr (.one hq))).2
    · rcases hp with rfl | hp
      · exact .one hq
      · exact hp.trans (.one hq)

/-- What is not destroyed is what can be got to from the schema, from a handle the program has or forgot, or from values that have each
other in a circle. -/
theorem C116_kept (hl : Leaves D h s) {r : Nat} (hr : r < (regsOf h).length) :
    r ∉ s.drops ↔ ∃ q, (Rooted h q ∨ OwnsFar h q q) ∧ (q = r ∨ OwnsFar h q r) := by
  rw [(C116_destroyed hl).2 r]
  constructor
  · intro hn
    apply Classical.byContradiction
    intro hno
    refine hn (lost_of (leaves_inv hl) _ r rfl hr fun q hq => ⟨fun h1 => hno ⟨q, .inl h1, hq⟩, fun h1 => hno ⟨q, .inr h1, hq⟩⟩)
  · rintro ⟨q, h1, h2⟩ hlost
    have hq : Lost h q := by
      rcases h2 with rfl | h2
      · exact hlost
      · exact h2.lost hlost
    rcases h1 with h1 | h1
    · obtain ⟨_, h3, _⟩ := hq; exact h3 h1
    · exact hq.noCycle h1

/-- A value is destroyed before those it has. -/
theorem C116_order (hl : Leaves D h s) {q r : Nat} (ho : Owns h q r) {a b : List Nat} (e : s.drops = a ++ r :: b) : q ∈ a := by
  have hi := leaves_inv hl
  obtain ⟨k, hk, hpl⟩ := ho
  obtain ⟨x, hx, hc⟩ := (on_iff hi).1 hk
  rcases hi.pend.order a r b e k x hx hc with h1 | ⟨q', hq, h1⟩
  · rw [h1] at hpl; cases hpl
  · rw [h1] at hpl; cases hpl; exact hq

omit [Ord Ty] [TransOrd Ty] [LawfulEqOrd Ty] in
theorem on_lt {k r : Nat} (hk : On h k r) : k < (takenOf h).length := by
  obtain ⟨t, ht⟩ := hk
  exact (List.getElem?_eq_some_iff.1 ht).1

/-- When the schema is gone, all handles were dropped or moved into values, and these have each other in no circle, everything
registered was destroyed, once. -/
theorem C116_nothing_leaks (hl : Leaves D h s) (hg : nestGone h = true)
    (hd : ∀ k, k < (takenOf h).length → placeOf h k ≠ .outside ∧ placeOf h k ≠ .forgotten) (hc : ∀ r, ¬ OwnsFar h r r) :
    s.drops.Perm (List.range (regsOf h).length) := by
  rw [List.perm_ext_iff_of_nodup (C116_destroyed hl).1 List.nodup_range]
  intro r
  rw [List.mem_range]
  constructor
  · intro hm
    rw [(C116_destroyed hl).2 r] at hm
    obtain ⟨h1, _, _⟩ := hm
    exact h1
  · intro hr
    apply Classical.byContradiction
    intro hn
    obtain ⟨q, h1 | h1, _⟩ := (C116_kept hl hr).1 hn
    · rcases h1 with ⟨h1, _⟩ | ⟨k, hk, h1⟩
      · rw [hg] at h1; cases h1
      · rcases h1 with h1 | h1
        · exact (hd k (on_lt hk)).1 h1
        · exact (hd k (on_lt hk)).2 h1
    · exact hc q h1

omit [TransOrd Ty] [LawfulEqOrd Ty] in
theorem has_place (hi : NInv h s) (k : Nat) : s.has k = true ↔ k < (takenOf h).length ∧ placeOf h k = .outside := by
  have hlen : (takenOf h).length = s.handles.length := by rw [← hi.handles]; simp
  rw [has_iff, hlen]
  constructor
  · rintro ⟨x, hx, hp⟩
    exact ⟨(List.getElem?_eq_some_iff.1 hx).1, (place_iff hi hx (by rw [hp]; simp)).symm.trans hp⟩
  · rintro ⟨hk, hp⟩
    refine ⟨_, List.getElem?_eq_getElem hk, ?_⟩
    rcases hi.pend.hist k _ (List.getElem?_eq_getElem hk) with h1 | ⟨_, q, _, h1⟩
    · exact h1.trans hp
    · rw [hp] at h1; cases h1

omit [TransOrd Ty] [LawfulEqOrd Ty] in
theorem gone_iff (hi : NInv h s) : (∃ set, s.set = some set) ↔ nestGone h = false := by
  rw [← hi.gone]
  cases s.set <;> simp

/-- The calls that are possible: those of the schema, while it is there, and those of handles the program has. A handle is moved out of
a value by one on that value. -/
theorem C116_possible (hl : Leaves D h s) (x : NestCall Ty) :
    (s.step D x).isSome = true ↔
      match x with
      | .register _ own => nestGone h = false ∧ own.Nodup ∧ ∀ k ∈ own, k < (takenOf h).length ∧ placeOf h k = .outside
      | .take _ | .dropSchema => nestGone h = false
      | .put i j _ => i ≠ j ∧ (i < (takenOf h).length ∧ placeOf h i = .outside) ∧ j < (takenOf h).length ∧ placeOf h j = .outside
      | .pull i j => (i < (takenOf h).length ∧ placeOf h i = .outside) ∧ j < (takenOf h).length ∧ ∃ r, On h i r ∧ placeOf h j = .inside r
      | .dropHandle k | .forgetHandle k => k < (takenOf h).length ∧ placeOf h k = .outside := by
  have hi := leaves_inv hl
  have hlen : (takenOf h).length = s.handles.length := by rw [← hi.handles]; simp
  cases x with
  | register t own =>
    dsimp only
    rw [← gone_iff hi]
    simp only [Nest.step]
    cases hset : s.set with
    | none => simp
    | some set =>
      dsimp only
      have e : (own.Nodup ∧ own.all s.has = true) ↔ own.Nodup ∧ ∀ k ∈ own, k < (takenOf h).length ∧ placeOf h k = .outside := by
        rw [List.all_eq_true]
        exact and_congr Iff.rfl (forall_congr' fun k => forall_congr' fun _ => has_place hi k)
      by_cases hc : own.Nodup ∧ own.all s.has = true
      · rw [if_pos hc]
        refine ⟨fun _ => ⟨⟨set, rfl⟩, e.1 hc⟩, fun _ => ?_⟩
        split
        · rfl
        · split <;> rfl
      · rw [if_neg hc]
        refine ⟨fun h1 => (by cases h1), fun h1 => absurd (e.2 h1.2) hc⟩
  | take t =>
    dsimp only
    rw [← gone_iff hi]
    simp only [Nest.step]
    cases hset : s.set with
    | none => simp
    | some set => simp
  | put i j b =>
    dsimp only
    rw [← has_place hi, ← has_place hi]
    simp only [Nest.step]
    by_cases hc : i ≠ j ∧ s.has i = true ∧ s.has j = true
    · rw [if_pos hc]
      refine ⟨fun _ => hc, fun _ => ?_⟩
      split
      · split <;> rfl
      · rfl
    · rw [if_neg hc]
      exact ⟨fun h1 => (by cases h1), fun h1 => absurd h1 hc⟩
  | pull i j =>
    dsimp only
    rw [← has_place hi]
    simp only [Nest.step]
    constructor
    · intro h1
      split at h1
      · cases h1
      · rename_i p hp
        split at h1
        · rename_i hc
          obtain ⟨x, hx, hpl⟩ := mem_within.1 hc.2
          refine ⟨hc.1, hlen ▸ (List.getElem?_eq_some_iff.1 hx).1, p, ?_, (place_iff hi hx (by rw [hpl]; simp)).symm.trans hpl⟩
          obtain ⟨y, hy, hyp⟩ := Option.bind_eq_some_iff.1 hp
          exact (on_iff hi).2 ⟨y, hy, hyp⟩
        · cases h1
    · rintro ⟨h1, h2, r, hr, hpl⟩
      obtain ⟨y, hy, hyc⟩ := (on_iff hi).1 hr
      have hb : (s.handles[i]?).bind PlacedHandle.cell = some r := by rw [hy]; exact hyc
      rw [hb]
      dsimp only
      have hj : j ∈ s.within r := by
        rw [hlen] at h2
        refine mem_within.2 ⟨_, List.getElem?_eq_getElem h2, ?_⟩
        rcases hi.pend.hist j _ (List.getElem?_eq_getElem h2) with h3 | ⟨_, q, h3, h4⟩
        · exact h3.trans hpl
        · rw [hpl] at h4; cases h4
          obtain ⟨z, hz, hzp⟩ := has_iff.1 h1
          rw [hy] at hz; cases hz
          exact absurd h3 (hi.not_drops hy (by rw [hzp]; simp) hyc)
      rw [if_pos ⟨h1, hj⟩]
      split <;> rfl
  | dropHandle k =>
    dsimp only
    rw [← has_place hi]
    simp only [Nest.step]
    by_cases hc : s.has k = true <;> simp [hc]
  | forgetHandle k =>
    dsimp only
    rw [← has_place hi]
    simp only [Nest.step]
    by_cases hc : s.has k = true <;> simp [hc]
  | dropSchema =>
    dsimp only
    rw [← gone_iff hi]
    simp only [Nest.step]
    cases hset : s.set with
    | none => simp
    | some set => simp

/-- When the schema is gone and the program has no handle, it can do nothing about what is left: that is what can be got to from a
forgotten handle, or from values that have each other in a circle. -/
theorem C116_leaked (hl : Leaves D h s) (hg : nestGone h = true) (hd : ∀ k, k < (takenOf h).length → placeOf h k ≠ .outside) :
    (∀ x, s.step D x = none) ∧ ∀ r, r < (regsOf h).length → (r ∉ s.drops ↔
      ∃ q, ((∃ k, On h k q ∧ placeOf h k = .forgotten) ∨ OwnsFar h q q) ∧ (q = r ∨ OwnsFar h q r)) := by
  constructor
  · intro x
    have hp := C116_possible hl x
    cases hx : s.step D x with
    | none => rfl
    | some y =>
      exfalso
      have h1 := hp.1 (by rw [hx]; rfl)
      cases x with
      | register t own => rw [hg] at h1; cases h1.1
      | take t => rw [hg] at h1; cases h1
      | put i j b => exact hd i h1.2.1.1 h1.2.1.2
      | pull i j => exact hd i h1.1.1 h1.1.2
      | dropHandle k => exact hd k h1.1 h1.2
      | forgetHandle k => exact hd k h1.1 h1.2
      | dropSchema => rw [hg] at h1; cases h1
  · intro r hr
    rw [C116_kept hl hr]
    refine exists_congr fun q => and_congr (or_congr ⟨?_, ?_⟩ Iff.rfl) Iff.rfl
    · rintro (⟨h1, _⟩ | ⟨k, hk, h1 | h1⟩)
      · rw [hg] at h1; cases h1
      · exact absurd h1 (hd k (on_lt hk))
      · exact ⟨k, hk, h1⟩
    · rintro ⟨k, hk, h1⟩
      exact .inr ⟨k, hk, .inr h1⟩

omit [Ord Ty] [TransOrd Ty] [LawfulEqOrd Ty] in
theorem lastReg_lt {t : Ty} {r : Nat} (hr : lastRegOf (regsOf h) t = some r) : r < (regsOf h).length := lastRegOf_lt hr

/-- If handles are only moved into values before these are registered, values have earlier ones only, so there are no circles. -/
theorem C116_no_circles (hl : Leaves D h s) (hn : ∀ i j b a, (.put i j b, a) ∉ h) : (∀ q r, Owns h q r → r < q) ∧ ∀ r, ¬ OwnsFar h r r := by
  have h1 : ∀ q r, Owns h q r → r < q := by
    induction hl with
    | start => rintro q r ⟨k, ⟨t, ht⟩, _⟩; cases ht
    | @call h s s' x a hl hs ha ih =>
      have ih := ih fun i j b a hm => hn i j b a (List.mem_cons_of_mem _ hm)
      have hi := leaves_inv hl
      rintro q r ⟨k, hk, hpl⟩
      cases x with
      | register t own =>
        have hk : On h k r := hk
        rw [placeOf] at hpl
        split at hpl
        · cases hpl
          obtain ⟨x, hx, hc⟩ := (on_iff hi).1 hk
          exact hi.length ▸ hi.pend.cells k x hx r hc
        · exact ih q r ⟨k, hk, hpl⟩
      | take t =>
        rw [placeOf] at hpl
        refine ih q r ⟨k, ?_, hpl⟩
        obtain ⟨u, hu⟩ := hk
        have hu : (takenOf h ++ [(t, lastRegOf (regsOf h) t)])[k]? = some (u, some r) := hu
        refine ⟨u, ?_⟩
        rw [List.getElem?_append] at hu
        split at hu
        · exact hu
        · rename_i hk
          have hlen : (takenOf h).length = s.handles.length := by rw [← hi.handles]; simp
          have := hi.fresh k (by omega)
          rw [hpl] at this; cases this
      | put i j b => exact absurd List.mem_cons_self (hn i j b a)
      | pull i j =>
        rw [placeOf] at hpl
        split at hpl
        · cases hpl
        · exact ih q r ⟨k, hk, hpl⟩
      | dropHandle j =>
        rw [placeOf] at hpl
        split at hpl
        · cases hpl
        · exact ih q r ⟨k, hk, hpl⟩
      | forgetHandle j =>
        rw [placeOf] at hpl
        split at hpl
        · cases hpl
        · exact ih q r ⟨k, hk, hpl⟩
      | dropSchema =>
        rw [placeOf] at hpl
        exact ih q r ⟨k, hk, hpl⟩
  refine ⟨h1, fun r hr => ?_⟩
  have h2 : ∀ q r, OwnsFar h q r → r < q := by
    intro q r hq
    induction hq with
    | one h => exact h1 _ _ h
    | more h _ ih => exact Nat.lt_trans ih (h1 _ _ h)
  exact Nat.lt_irrefl _ (h2 r r hr)

/-- The closure that moves a handle into a value, or out of it, is called exactly if none that was given the value panicked, and the
handle on it is on one. If not, the handle to be moved in is dropped, and values may be destroyed by that. -/
theorem C116_moves (hl : Leaves D h s) {x : NestCall Ty} {a : NestAnswer} (hs : s.step D x = some (a, s')) :
    match x with
    | .put i _ b => (∃ r, On h i r ∧ ¬ Disabled h r) ∧ s'.drops = s.drops ∧ a = (if b then .panic else .ran true) ∨
        (∀ r, On h i r → Disabled h r) ∧ a ≠ .ran true ∧ (a = .ran false ↔ panicsIn D s.drops.length s'.drops.length = 0) ∧
          (a = .panic ↔ panicsIn D s.drops.length s'.drops.length = 1)
    | .pull i _ => s'.drops = s.drops ∧ ∃ b, a = .ran b ∧ (b = true ↔ ∃ r, On h i r ∧ ¬ Disabled h r)
    | _ => True := by
  have hi := leaves_inv hl
  cases x with
  | put i j b =>
    simp only [Nest.step] at hs
    split at hs
    · cases ho : s.opens i with
      | some p =>
        rw [ho] at hs
        dsimp only at hs
        left
        refine ⟨⟨p, (opens_iff hi).1 ho⟩, ?_⟩
        cases b with
        | true => cases hs; exact ⟨rfl, rfl⟩
        | false => cases hs; exact ⟨rfl, rfl⟩
      | none =>
        rw [ho] at hs
        right
        refine ⟨(opens_none hi).1 ho, ?_⟩
        dsimp only at hs
        rw [Option.some.injEq, Prod.mk.injEq] at hs
        obtain ⟨rfl, rfl⟩ := hs
        unfold Nest.ending
        have e : ∀ s2 : Nest Ty, s.panics D s2 = panicsIn D s.drops.length s2.drops.length := fun _ => rfl
        rw [e]
        split <;> rename_i hk <;> simp_all
    · cases hs
  | pull i j =>
    simp only [Nest.step] at hs
    split at hs
    · cases hs
    · split at hs
      · cases ho : s.opens i with
        | some p =>
          rw [ho] at hs
          cases hs
          exact ⟨rfl, true, rfl, by simpa using ⟨p, (opens_iff hi).1 ho⟩⟩
        | none =>
          rw [ho] at hs
          cases hs
          refine ⟨rfl, false, rfl, ?_⟩
          simp only [Bool.false_eq_true, false_iff]
          rintro ⟨r, hr, hd⟩
          exact hd ((opens_none hi).1 ho r hr)
      · cases hs
  | _ => trivial

omit [DecidableEq Ty] [TransOrd Ty] [LawfulEqOrd Ty] in
/-- A call by which values may be destroyed ends normally, with a panic or by aborting the process if none, one or more of their
destructors panic. -/
theorem C116_panics {x : NestCall Ty} {a : NestAnswer} (hs : s.step D x = some (a, s'))
    (hx : (∃ t own, x = .register t own) ∨ (∃ k, x = .dropHandle k) ∨ x = .dropSchema) :
    (a = .none ↔ panicsIn D s.drops.length s'.drops.length = 0) ∧ (a = .panic ↔ panicsIn D s.drops.length s'.drops.length = 1) := by
  have he : ∀ s2 : Nest Ty, (s.ending D s2 .none = .none ↔ panicsIn D s.drops.length s2.drops.length = 0) ∧
      (s.ending D s2 .none = .panic ↔ panicsIn D s.drops.length s2.drops.length = 1) := by
    intro s2
    unfold Nest.ending
    show _ ∧ _
    have e : s.panics D s2 = panicsIn D s.drops.length s2.drops.length := rfl
    rw [e]
    split <;> rename_i hk <;> simp_all
  have hm : ∀ (own : List Nat) (n : Nat) (s0 : Nest Ty), (own.foldl (fun s k => s.move k (.inside n)) s0).drops = s0.drops := by
    intro own n
    induction own with
    | nil => intro _; rfl
    | cons k own ih => intro s0; exact ih _
  rcases hx with ⟨t, own, rfl⟩ | ⟨k, rfl⟩ | rfl
  · simp only [Nest.step] at hs
    split at hs
    · cases hs
    · split at hs
      · split at hs
        · cases hs
          rw [hm]
          simp [panicsIn]
        · split at hs
          · rename_i hz
            cases hs
            have hz : panicsIn D s.drops.length _ = 0 := hz
            exact ⟨by simpa using hz, by rw [hz]; simp⟩
          · cases hs
            exact he _
      · cases hs
  · simp only [Nest.step] at hs
    split at hs
    · cases hs; exact he _
    · cases hs
  · simp only [Nest.step] at hs
    split at hs
    · cases hs
    · cases hs; exact he _

/-! ## Cases -/

/-- How a list of calls goes on. -/
def nestRun (D : Nat → Bool) : List (NestCall Bool) → List (NestCall Bool × NestAnswer) → Nest Bool →
    Option (List (NestCall Bool × NestAnswer) × Nest Bool)
  | [], h, s => some (h, s)
  | c :: cs, h, s =>
    match s.step D c with
    | none => none
    | some (.abort, s') => some ((c, .abort) :: h, s')
    | some (a, s') => nestRun D cs ((c, a) :: h) s'

/-- How the calls ended, first one first, and what was destroyed. -/
def nestEnd (D : Nat → Bool) (cs : List (NestCall Bool)) : Option (List NestAnswer × List Nat) :=
  (nestRun D cs [] Nest.start).map fun r => ((r.1.map Prod.snd).reverse, r.2.drops)

/-- A resource with a handle on another: dropping the schema destroys the one, then the other. -/
example : nestEnd (fun _ => false) [.register false [], .take false, .register true [0], .register false [], .dropSchema] =
    some ([.none, .none, .none, .none, .none], [2, 1, 0]) := by decide +kernel

/-- Resources with handles on each other are leaked, as is one with a handle on itself; what such a one has a handle on is, too. -/
example : nestEnd (fun _ => false) [.register false [], .register true [], .take false, .take true, .take true, .put 0 1 false,
      .put 2 0 false, .dropHandle 2, .dropSchema] =
    some ([.none, .none, .none, .none, .none, .ran true, .ran true, .none, .none], []) ∧
    nestEnd (fun _ => false) [.register false [], .take false, .take false, .put 0 1 false, .dropHandle 0, .dropSchema] =
      some ([.none, .none, .none, .ran true, .none, .none], []) := by decide +kernel

/-- If the circle is opened before, all is destroyed. -/
example : nestEnd (fun _ => false) [.register false [], .take false, .take false, .put 0 1 false, .pull 0 1, .dropHandle 1, .dropHandle 0,
      .dropSchema] = some ([.none, .none, .none, .ran true, .ran true, .none, .none, .none], [0]) := by decide +kernel

/-- After a closure panicked nothing can be moved into the value, nor out of it; what was to be moved in is dropped. -/
example : nestEnd (fun _ => false) [.register false [], .register true [], .take false, .take true, .take true, .take true, .put 0 1 true,
      .pull 0 1, .dropSchema, .dropHandle 3, .put 0 2 false, .dropHandle 0] =
    some ([.none, .none, .none, .none, .none, .none, .panic, .ran false, .none, .none, .ran false, .none], [0, 1]) := by decide +kernel

/-- A panic in a destructor does not keep what the value has from being destroyed; a second one ends the process. -/
example : nestEnd (fun n => n == 0) [.register false [], .take false, .register true [0], .register false [], .take true, .dropSchema,
      .dropHandle 1] = some ([.none, .none, .none, .none, .none, .panic, .none], [2, 1, 0]) ∧
    (nestEnd (fun n => n == 1 || n == 2) [.register false [], .take false, .register true [0], .register false [], .take true, .dropSchema,
      .dropHandle 1]).map Prod.fst = some [.none, .none, .none, .none, .none, .none, .abort] := by decide +kernel

/-- A value that is replaced takes with it what it alone had. -/
example : nestEnd (fun _ => false) [.register false [], .take false, .register true [0], .register false [], .register true []] =
    some ([.none, .none, .none, .none, .none], [1, 0]) := by decide +kernel

/-- Such runs are what the theorems are about. -/
theorem nestRun_leaves (D : Nat → Bool) (cs : List (NestCall Bool)) : ∀ h s h' s', Leaves D h s →
    nestRun D cs h s = some (h', s') → (∀ c h0, h' ≠ (c, .abort) :: h0) → Leaves D h' s' := by
  induction cs with
  | nil => intro h s h' s' hk hr _; cases hr; exact hk
  | cons c cs ih =>
    intro h s h' s' hk hr ha
    simp only [nestRun] at hr
    split at hr
    · cases hr
    · cases hr; exact absurd rfl (ha _ _)
    · rename_i a s1 hne hs
      exact ih _ _ _ _ (hk.call hs (fun e => hne e)) hr ha

end Plotline
