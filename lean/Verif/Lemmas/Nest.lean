import Verif.Lemmas.Holdings
import Verif.Spec.Nest

/-! # Lemmas about resources that own handles -/

namespace Plotline

open Std

variable {Ty : Type} [Ord Ty] [DecidableEq Ty]

/-- The schema has the cell. -/
def Nest.Entry (s : Nest Ty) (p : Nat) : Prop := ∃ set, s.set = some set ∧ ∃ e ∈ set.resources.entries, e.2 = p

/-- Something has it. -/
def Nest.Owner (s : Nest Ty) (p : Nat) : Prop :=
  s.Entry p ∨ ∃ (k : Nat) (x : PlacedHandle Ty), s.handles[k]? = some x ∧ x.place ≠ .dropped ∧ x.cell = some p

omit [Ord Ty] [DecidableEq Ty] in
theorem owned_iff (s : Nest Ty) (p : Nat) : s.owned p = true ↔ s.Owner p := by
  unfold Nest.owned Nest.Owner Nest.Entry
  rw [Bool.or_eq_true]
  refine or_congr ?_ ?_
  · cases s.set with
    | none => simp
    | some set => simp
  · rw [List.any_eq_true]
    constructor
    · rintro ⟨x, hx, h⟩
      obtain ⟨k, hk⟩ := List.mem_iff_getElem?.1 hx
      simp only [Bool.and_eq_true, bne_iff_ne, ne_eq, beq_iff_eq] at h
      exact ⟨k, x, hk, h⟩
    · rintro ⟨k, x, hk, h⟩
      refine ⟨x, List.mem_of_getElem? hk, ?_⟩
      simpa only [Bool.and_eq_true, bne_iff_ne, ne_eq, beq_iff_eq] using h

omit [Ord Ty] [DecidableEq Ty] in
theorem mem_within {s : Nest Ty} {p k : Nat} : k ∈ s.within p ↔ ∃ x, s.handles[k]? = some x ∧ x.place = .inside p := by
  unfold Nest.within
  rw [List.mem_filter, List.mem_range]
  constructor
  · rintro ⟨_, h⟩
    cases hx : s.handles[k]? with
    | none => rw [hx] at h; cases h
    | some x => rw [hx] at h; exact ⟨x, rfl, by simpa using h⟩
  · rintro ⟨x, hx, h⟩
    exact ⟨(List.getElem?_eq_some_iff.1 hx).1, by rw [hx]; simpa using h⟩

omit [Ord Ty] [DecidableEq Ty] in
theorem has_iff {s : Nest Ty} {k : Nat} : s.has k = true ↔ ∃ x, s.handles[k]? = some x ∧ x.place = .outside := by
  unfold Nest.has
  cases hx : s.handles[k]? with
  | none => simp
  | some x => simp

omit [Ord Ty] [DecidableEq Ty] in
/-- Where the handles are after one was moved. -/
theorem move_get {s : Nest Ty} {k : Nat} {q : Place} {j : Nat} {y : PlacedHandle Ty} :
    (s.move k q).handles[j]? = some y ↔
      ∃ x, s.handles[j]? = some x ∧ y = if k = j then { x with place := q } else x := by
  unfold Nest.move
  dsimp only
  rw [List.getElem?_modify]
  cases s.handles[j]? with
  | none => simp
  | some x => simp [eq_comm]

/-- What holds while things are destroyed: `pl` is where the program moved handles, `but` what just lost an owner, `W` the handles in
destroyed values that are to be dropped. -/
structure Pend (pl : Nat → Place) (s : Nest Ty) (but : Option Nat) (W : List Nat) : Prop where
  cells : ∀ (k : Nat) (x : PlacedHandle Ty), s.handles[k]? = some x → ∀ p, x.cell = some p → p < s.poisoned.length
  entries : ∀ p, s.Entry p → p < s.poisoned.length
  nodup : s.drops.Nodup
  lt : ∀ p ∈ s.drops, p < s.poisoned.length
  mem : ∀ p, p < s.poisoned.length → but ≠ some p → (p ∈ s.drops ↔ ¬ s.Owner p)
  fresh : ∀ p, but = some p → p ∉ s.drops ∧ p < s.poisoned.length
  wnodup : W.Nodup
  work : ∀ k ∈ W, ∃ x q, s.handles[k]? = some x ∧ x.place = .inside q ∧ q ∈ s.drops
  inner : ∀ (k : Nat) (x : PlacedHandle Ty) q, s.handles[k]? = some x → x.place = .inside q →
    q < s.poisoned.length ∧ (q ∈ s.drops → k ∈ W)
  hist : ∀ (k : Nat) (x : PlacedHandle Ty), s.handles[k]? = some x →
    x.place = pl k ∨ x.place = .dropped ∧ ∃ q ∈ s.drops, pl k = .inside q
  order : ∀ a p b, s.drops = a ++ p :: b → ∀ (k : Nat) (x : PlacedHandle Ty), s.handles[k]? = some x → x.cell = some p →
    pl k = .dropped ∨ ∃ q ∈ a, pl k = .inside q

omit [Ord Ty] [DecidableEq Ty] in
theorem letGo_pend {pl : Nat → Place} {s : Nest Ty} {p : Nat} {W : List Nat} (h : Pend pl s (some p) W) :
    Pend pl (s.letGo p).2 none ((s.letGo p).1 ++ W) := by
  obtain ⟨hp, hlt⟩ := h.fresh p rfl
  unfold Nest.letGo
  by_cases ho : s.owned p = true
  · rw [if_pos ho]
    rw [owned_iff] at ho
    refine { h with mem := fun r hr _ => ?_, fresh := fun r hr => (by cases hr) }
    by_cases e : r = p
    · subst e; exact ⟨fun hm => absurd hm hp, fun hn => absurd ho hn⟩
    · exact h.mem r hr (by simpa using fun e' => e e'.symm)
  · rw [if_neg ho]
    rw [owned_iff] at ho
    have hon : ({ s with drops := s.drops ++ [p] } : Nest Ty).Owner = s.Owner := rfl
    refine ⟨h.cells, h.entries, ?_, ?_, ?_, fun r hr => (by cases hr), ?_, ?_, ?_, ?_, ?_⟩
    · show (s.drops ++ [p]).Nodup
      rw [List.nodup_append]
      refine ⟨h.nodup, by simp, fun a ha b hb e => ?_⟩
      simp only [List.mem_singleton] at hb
      subst hb; subst e; exact hp ha
    · intro r hr
      rcases List.mem_append.1 hr with hr | hr
      · exact h.lt r hr
      · simp only [List.mem_singleton] at hr; subst hr; exact hlt
    · intro r hr _
      show r ∈ s.drops ++ [p] ↔ ¬ s.Owner r
      by_cases e : r = p
      · subst e; simpa using ho
      · rw [List.mem_append, List.mem_singleton, h.mem r hr (by simpa using fun e' => e e'.symm)]
        simp [e]
    · show (s.within p ++ W).Nodup
      rw [List.nodup_append]
      refine ⟨List.nodup_range.filter _, h.wnodup, fun a ha b hb e => ?_⟩
      subst e
      obtain ⟨x, hx, h1⟩ := mem_within.1 ha
      obtain ⟨y, q, hy, h2, h3⟩ := h.work a hb
      rw [hx] at hy; cases hy
      rw [h1] at h2; cases h2
      exact hp h3
    · intro k hk
      rcases List.mem_append.1 hk with hk | hk
      · obtain ⟨x, hx, h1⟩ := mem_within.1 hk
        exact ⟨x, p, hx, h1, by simp⟩
      · obtain ⟨x, q, h1, h2, h3⟩ := h.work k hk
        exact ⟨x, q, h1, h2, List.mem_append_left _ h3⟩
    · intro k x q hx hq
      refine ⟨(h.inner k x q hx hq).1, fun hm => ?_⟩
      rcases List.mem_append.1 hm with hm | hm
      · exact List.mem_append_right _ ((h.inner k x q hx hq).2 hm)
      · simp only [List.mem_singleton] at hm; subst hm
        exact List.mem_append_left _ (mem_within.2 ⟨x, hx, hq⟩)
    · intro k x hx
      rcases h.hist k x hx with h1 | ⟨h1, q, h2, h3⟩
      · exact .inl h1
      · exact .inr ⟨h1, q, List.mem_append_left _ h2, h3⟩
    · intro a r b e k x hx hc
      have e : s.drops ++ [p] = a ++ r :: b := e
      rcases List.eq_nil_or_concat b with rfl | ⟨b', z, rfl⟩
      · obtain ⟨rfl, e2⟩ := List.append_inj' e rfl
        cases e2
        have hd : x.place = .dropped := by
          apply Classical.byContradiction
          intro hn
          exact ho (.inr ⟨k, x, hx, hn, hc⟩)
        rcases h.hist k x hx with h1 | ⟨_, q, h2, h3⟩
        · exact .inl (h1.symm.trans hd)
        · exact .inr ⟨q, h2, h3⟩
      · rw [List.concat_eq_append, ← List.cons_append, ← List.append_assoc] at e
        obtain ⟨e1, _⟩ := List.append_inj' e rfl
        exact h.order a r b' e1 k x hx hc

/-- How many handles are there. -/
def Nest.left (s : Nest Ty) : Nat := s.handles.countP fun x => x.place != .dropped

omit [Ord Ty] [DecidableEq Ty] in
theorem left_move {s : Nest Ty} {k : Nat} {x : PlacedHandle Ty} (hx : s.handles[k]? = some x) (hp : x.place ≠ .dropped) :
    (s.move k .dropped).left + 1 = s.left := by
  unfold Nest.left Nest.move
  obtain ⟨hk, rfl⟩ := List.getElem?_eq_some_iff.1 hx
  have e : s.handles = s.handles.take k ++ s.handles[k] :: s.handles.drop (k + 1) := by simp
  have e2 : s.handles.modify k (fun x => { x with place := .dropped }) =
      s.handles.take k ++ { s.handles[k] with place := .dropped } :: s.handles.drop (k + 1) := by
    rw [List.modify_eq_take_cons_drop hk]
  simp only [e2]
  conv => rhs; rw [e]
  simp only [List.countP_append, List.countP_cons]
  simp [hp]
  omega

/-- Everything but places and what was destroyed is as it was. -/
structure NestFrame (s s' : Nest Ty) : Prop where
  set : s'.set = s.set
  poisoned : s'.poisoned = s.poisoned
  handles : s'.handles.map (fun x => (x.type, x.cell)) = s.handles.map fun x => (x.type, x.cell)
  drops : s.drops <+: s'.drops

omit [Ord Ty] [DecidableEq Ty] in
theorem NestFrame.refl (s : Nest Ty) : NestFrame s s := ⟨rfl, rfl, rfl, List.prefix_refl _⟩

omit [Ord Ty] [DecidableEq Ty] in
theorem NestFrame.trans {s s' s'' : Nest Ty} (h : NestFrame s s') (h' : NestFrame s' s'') : NestFrame s s'' :=
  ⟨h'.set.trans h.set, h'.poisoned.trans h.poisoned, h'.handles.trans h.handles, h.drops.trans h'.drops⟩

omit [Ord Ty] [DecidableEq Ty] in
theorem frame_move (s : Nest Ty) (k : Nat) (q : Place) : NestFrame s (s.move k q) := by
  refine ⟨rfl, rfl, ?_, List.prefix_refl _⟩
  apply List.ext_getElem?
  intro j
  rw [List.getElem?_map, List.getElem?_map]
  show Option.map _ (s.handles.modify k _)[j]? = _
  rw [List.getElem?_modify]
  cases s.handles[j]? with
  | none => rfl
  | some x =>
    show some _ = some _
    by_cases e : k = j
    · simp [e]
    · simp [e]

omit [Ord Ty] [DecidableEq Ty] in
theorem frame_letGo (s : Nest Ty) (p : Nat) : NestFrame s (s.letGo p).2 := by
  unfold Nest.letGo
  split
  · exact .refl s
  · exact ⟨rfl, rfl, rfl, List.prefix_append _ _⟩

omit [Ord Ty] [DecidableEq Ty] in
theorem letGo_handles (s : Nest Ty) (p : Nat) : (s.letGo p).2.handles = s.handles := by
  unfold Nest.letGo; split <;> rfl

omit [Ord Ty] [DecidableEq Ty] in
theorem frame_dropAll : ∀ (n : Nat) (W : List Nat) (s : Nest Ty), NestFrame s (s.dropAll n W)
  | 0, _, s => .refl s
  | _ + 1, [], s => .refl s
  | n + 1, k :: W, s => by
    simp only [Nest.dropAll]
    split
    · exact (frame_move s k _).trans (frame_dropAll n W _)
    · exact (frame_move s k _).trans ((frame_letGo _ _).trans (frame_dropAll n _ _))

omit [Ord Ty] [DecidableEq Ty] in
/-- A handle that is still there is dropped: a cell may have lost its last owner. `pl'` is where the program moved handles, if it was
the program that dropped this one. -/
theorem move_dropped {pl pl' : Nat → Place} {s : Nest Ty} {k : Nat} {x : PlacedHandle Ty} {W W' : List Nat} (h : Pend pl s none W)
    (hx : s.handles[k]? = some x) (hp : x.place ≠ .dropped) (hw : W' = W.filter fun j => j ≠ k)
    (hpl : ∀ j, j ≠ k → pl' j = pl j) (hk : pl' k = .dropped ∨ pl' k = pl k ∧ ∃ q ∈ s.drops, pl k = .inside q) :
    Pend pl' (s.move k .dropped) x.cell W' := by
  have hown : ∀ p, x.cell ≠ some p → ((s.move k .dropped).Owner p ↔ s.Owner p) := by
    intro p hc
    refine or_congr Iff.rfl ⟨?_, ?_⟩
    · rintro ⟨j, y, hj, h1, h2⟩
      obtain ⟨z, hz, rfl⟩ := move_get.1 hj
      by_cases e : k = j
      · rw [if_pos e] at h1; exact absurd rfl h1
      · rw [if_neg e] at h1 h2; exact ⟨j, z, hz, h1, h2⟩
    · rintro ⟨j, y, hj, h1, h2⟩
      refine ⟨j, y, move_get.2 ⟨y, hj, ?_⟩, h1, h2⟩
      rw [if_neg]
      rintro rfl
      rw [hx] at hj; cases hj
      exact hc h2
  refine ⟨?_, h.entries, h.nodup, h.lt, ?_, ?_, ?_, ?_, ?_, ?_, ?_⟩
  · intro j y hj p hc
    obtain ⟨z, hz, rfl⟩ := move_get.1 hj
    refine h.cells j z hz p ?_
    split at hc <;> exact hc
  · intro p hl hb
    rw [hown p hb]
    exact h.mem p hl (by simp)
  · intro p hc
    have hl := h.cells k x hx p hc
    exact ⟨fun hm => (h.mem p hl (by simp)).1 hm (.inr ⟨k, x, hx, hp, hc⟩), hl⟩
  · subst hw; exact h.wnodup.filter _
  · subst hw
    intro j hj
    obtain ⟨hj1, hj2⟩ := List.mem_filter.1 hj
    simp only [ne_eq, decide_eq_true_eq] at hj2
    obtain ⟨y, q, h1, h2, h3⟩ := h.work j hj1
    exact ⟨y, q, move_get.2 ⟨y, h1, by rw [if_neg fun e => hj2 e.symm]⟩, h2, h3⟩
  · subst hw
    intro j y q hj hq
    obtain ⟨z, hz, rfl⟩ := move_get.1 hj
    split at hq
    · cases hq
    · rename_i hne
      refine ⟨(h.inner j z q hz hq).1, fun hm => List.mem_filter.2 ⟨(h.inner j z q hz hq).2 hm, ?_⟩⟩
      simpa using fun e : j = k => hne e.symm
  · intro j y hj
    obtain ⟨z, hz, rfl⟩ := move_get.1 hj
    split
    · rename_i e; subst e
      rcases hk with h1 | ⟨h1, q, h2, h3⟩
      · exact .inl h1.symm
      · exact .inr ⟨rfl, q, h2, h1.trans h3⟩
    · rename_i hne
      rw [hpl j fun e => hne e.symm]
      exact h.hist j z hz
  · intro a p b e j y hj hc
    obtain ⟨z, hz, rfl⟩ := move_get.1 hj
    have hc' : z.cell = some p := by split at hc <;> exact hc
    by_cases hne : j = k
    · subst hne
      rcases hk with h1 | ⟨h1, _⟩
      · exact .inl h1
      · rw [h1]; exact h.order a p b e j z hz hc'
    · rw [hpl j hne]
      exact h.order a p b e j z hz hc'

omit [Ord Ty] [DecidableEq Ty] in
/-- A handle goes somewhere else. -/
theorem move_kept {pl pl' : Nat → Place} {s : Nest Ty} {k : Nat} {x : PlacedHandle Ty} {but : Option Nat} {to : Place} (h : Pend pl s but [])
    (hx : s.handles[k]? = some x) (hp : x.place ≠ .dropped) (hto : to ≠ .dropped)
    (hin : ∀ q, to = .inside q → q < s.poisoned.length ∧ q ∉ s.drops) (hpl : ∀ j, pl' j = if j = k then to else pl j) :
    Pend pl' (s.move k to) but [] := by
  have hown : ∀ p, (s.move k to).Owner p ↔ s.Owner p := by
    intro p
    refine or_congr Iff.rfl ⟨?_, ?_⟩
    · rintro ⟨j, y, hj, h1, h2⟩
      obtain ⟨z, hz, rfl⟩ := move_get.1 hj
      by_cases e : k = j
      · rw [if_pos e] at h2
        subst e
        rw [hx] at hz; cases hz
        exact ⟨k, x, hx, hp, h2⟩
      · rw [if_neg e] at h1 h2; exact ⟨j, z, hz, h1, h2⟩
    · rintro ⟨j, y, hj, h1, h2⟩
      refine ⟨j, _, move_get.2 ⟨y, hj, rfl⟩, ?_, ?_⟩
      · split
        · exact hto
        · exact h1
      · split <;> exact h2
  refine ⟨?_, h.entries, h.nodup, h.lt, ?_, h.fresh, h.wnodup, ?_, ?_, ?_, ?_⟩
  · intro j y hj p hc
    obtain ⟨z, hz, rfl⟩ := move_get.1 hj
    refine h.cells j z hz p ?_
    split at hc <;> exact hc
  · intro p hl hb
    rw [hown p]
    exact h.mem p hl hb
  · intro j hj; cases hj
  · intro j y q hj hq
    obtain ⟨z, hz, rfl⟩ := move_get.1 hj
    split at hq
    · exact ⟨(hin q hq).1, fun hm => absurd hm (hin q hq).2⟩
    · exact h.inner j z q hz hq
  · intro j y hj
    obtain ⟨z, hz, rfl⟩ := move_get.1 hj
    rw [hpl j]
    split
    · rename_i e; subst e; rw [if_pos rfl]; exact .inl rfl
    · rename_i hne; rw [if_neg fun e => hne e.symm]; exact h.hist j z hz
  · intro a p b e j y hj hc
    obtain ⟨z, hz, rfl⟩ := move_get.1 hj
    have hc' : z.cell = some p := by split at hc <;> exact hc
    rw [hpl j]
    by_cases hne : j = k
    · subst hne
      rw [hx] at hz; cases hz
      exfalso
      have hm : p ∈ s.drops := by show p ∈ (s.move j to).drops; rw [e]; simp
      have hl := h.cells j x hx p hc'
      by_cases hb : but = some p
      · exact (h.fresh p hb).1 hm
      · exact (h.mem p hl hb).1 hm (.inr ⟨j, x, hx, hp, hc'⟩)
    · rw [if_neg hne]
      exact h.order a p b e j z hz hc'

omit [Ord Ty] [DecidableEq Ty] in
theorem dropAll_pend {pl : Nat → Place} : ∀ (n : Nat) (W : List Nat) (s : Nest Ty), Pend pl s none W → s.left ≤ n →
    Pend pl (s.dropAll n W) none []
  | 0, W, s, h, hn => by
    cases W with
    | nil => exact h
    | cons k W =>
      exfalso
      obtain ⟨x, q, hx, hq, _⟩ := h.work k List.mem_cons_self
      have := left_move hx (by rw [hq]; simp)
      omega
  | n + 1, [], s, h, hn => h
  | n + 1, k :: W, s, h, hn => by
    obtain ⟨x, q, hx, hq, hm⟩ := h.work k List.mem_cons_self
    have hne : x.place ≠ .dropped := by rw [hq]; simp
    have hl := left_move hx hne
    have hkW : k ∉ W := (List.nodup_cons.1 h.wnodup).1
    have hpl : pl k = .inside q := by
      rcases h.hist k x hx with h1 | ⟨h1, _⟩
      · exact h1.symm.trans hq
      · exact absurd h1 hne
    have h1 : Pend pl (s.move k .dropped) x.cell W := by
      refine move_dropped h hx hne ?_ (fun _ _ => rfl) (.inr ⟨rfl, q, hm, hpl⟩)
      rw [List.filter_cons_of_neg (by simp), List.filter_eq_self.2]
      intro j hj
      simpa using fun e : j = k => hkW (e ▸ hj)
    simp only [Nest.dropAll, hx, Option.bind_some]
    cases hc : x.cell with
    | none =>
      rw [hc] at h1
      exact dropAll_pend n W _ h1 (by omega)
    | some p =>
      rw [hc] at h1
      refine dropAll_pend n _ _ (letGo_pend h1) ?_
      unfold Nest.left
      rw [letGo_handles]
      unfold Nest.left at hl hn
      omega

omit [Ord Ty] [DecidableEq Ty] in
theorem left_le (s : Nest Ty) : s.left ≤ s.handles.length := List.countP_le_length

omit [Ord Ty] [DecidableEq Ty] in
theorem release_pend {pl : Nat → Place} {s : Nest Ty} {p : Nat} (h : Pend pl s (some p) []) :
    Pend pl (s.release p) none [] := by
  have := letGo_pend h
  rw [List.append_nil] at this
  refine dropAll_pend _ _ _ this ?_
  have e := left_le (s.letGo p).2
  rwa [letGo_handles] at e

omit [Ord Ty] [DecidableEq Ty] in
theorem frame_release (s : Nest Ty) (p : Nat) : NestFrame s (s.release p) := (frame_letGo s p).trans (frame_dropAll _ _ _)

omit [Ord Ty] [DecidableEq Ty] in
theorem dropOne_pend {pl pl' : Nat → Place} {s : Nest Ty} {k : Nat} (h : Pend pl s none []) (hk : s.has k = true)
    (hpl : ∀ j, pl' j = if j = k then .dropped else pl j) : Pend pl' (s.dropOne k) none [] := by
  obtain ⟨x, hx, hp⟩ := has_iff.1 hk
  have hne : x.place ≠ .dropped := by rw [hp]; simp
  have h1 : Pend pl' (s.move k .dropped) x.cell [] :=
    move_dropped h hx hne rfl (fun j hj => by rw [hpl, if_neg hj]) (.inl (by rw [hpl, if_pos rfl]))
  have hl := left_move hx hne
  have hle := left_le s
  unfold Nest.dropOne
  obtain ⟨n, hn⟩ : ∃ n, s.handles.length = n + 1 := ⟨s.handles.length - 1, by omega⟩
  rw [hn]
  simp only [Nest.dropAll, hx, Option.bind_some]
  cases hc : x.cell with
  | none =>
    rw [hc] at h1
    exact dropAll_pend n _ _ h1 (by omega)
  | some p =>
    rw [hc] at h1
    refine dropAll_pend n _ _ (letGo_pend h1) ?_
    unfold Nest.left
    rw [letGo_handles]
    unfold Nest.left at hl hle
    omega

omit [Ord Ty] [DecidableEq Ty] in
theorem frame_dropOne (s : Nest Ty) (k : Nat) : NestFrame s (s.dropOne k) := frame_dropAll _ _ _

omit [Ord Ty] [DecidableEq Ty] in
theorem dropSet_pend {pl : Nat → Place} : ∀ (es : List (Ty × Nat)) (s : Nest Ty), Pend pl s none [] → s.set = some ⟨⟨es⟩⟩ →
    Pend pl (s.dropSet es) none [] ∧ (s.dropSet es).set = none ∧ (s.dropSet es).poisoned = s.poisoned ∧
      (s.dropSet es).handles.map (fun x => (x.type, x.cell)) = s.handles.map (fun x => (x.type, x.cell)) ∧
      s.drops <+: (s.dropSet es).drops
  | [], s, h, hset => by
    have hown : ∀ p, ({ s with set := none } : Nest Ty).Owner p ↔ s.Owner p := by
      intro p
      refine or_congr ⟨?_, ?_⟩ Iff.rfl
      · rintro ⟨_, h1, _⟩; cases h1
      · rintro ⟨set, h1, e, he, _⟩
        rw [hset] at h1; cases h1; cases he
    exact ⟨{ h with entries := fun p ⟨_, h1, _⟩ => (by cases h1), mem := fun p hl hb => (h.mem p hl hb).trans (not_congr (hown p)).symm },
      rfl, rfl, rfl, List.prefix_refl _⟩
  | e :: es, s, h, hset => by
    have he : s.Entry e.2 := ⟨_, hset, e, List.mem_cons_self, rfl⟩
    have hl := h.entries _ he
    have hsub : ∀ p, ({ s with set := some ⟨⟨es⟩⟩ } : Nest Ty).Entry p → s.Entry p := by
      rintro p ⟨set, h1, e', he', h2⟩
      cases h1
      exact ⟨_, hset, e', List.mem_cons_of_mem _ he', h2⟩
    have h1 : Pend pl ({ s with set := some ⟨⟨es⟩⟩ } : Nest Ty) (some e.2) [] := by
      refine { h with entries := fun p hp => h.entries p (hsub p hp), mem := fun p hl hb => ?_, fresh := fun p hp => ?_ }
      · refine (h.mem p hl (by simp)).trans (not_congr (or_congr ⟨?_, hsub p⟩ Iff.rfl))
        rintro ⟨set, h1, e', he', h2⟩
        rw [hset] at h1; cases h1
        rcases List.mem_cons.1 he' with rfl | he'
        · exact absurd (congrArg some h2) hb
        · exact ⟨_, rfl, e', he', h2⟩
      · cases hp
        exact ⟨fun hm => (h.mem _ hl (by simp)).1 hm (.inl he), hl⟩
    have hf := frame_release ({ s with set := some ⟨⟨es⟩⟩ } : Nest Ty) e.2
    obtain ⟨i1, i2, i3, i4, i5⟩ := dropSet_pend es _ (release_pend h1) hf.set
    exact ⟨i1, i2, i3.trans hf.poisoned, i4.trans hf.handles, hf.drops.trans i5⟩

/-! ## One call -/

/-- The schema, the handles and what was destroyed are as the history says. -/
structure NInv (h : List (NestCall Ty × NestAnswer)) (s : Nest Ty) : Prop where
  pend : Pend (placeOf h) s none []
  gone : s.set.isNone = nestGone h
  sorted : ∀ set, s.set = some set → BTreeMap.Sorted set.resources.entries
  set : ∀ set, s.set = some set → ∀ t, set.resources.get t = lastRegOf (regsOf h) t
  length : s.poisoned.length = (regsOf h).length
  poison : ∀ r, s.poisoned[r]? = some true ↔ Disabled h r
  handles : s.handles.map (fun x => (x.type, x.cell)) = takenOf h
  fresh : ∀ k, s.handles.length ≤ k → placeOf h k = .outside

theorem ninv_start : NInv ([] : List (NestCall Ty × NestAnswer)) Nest.start := by
  have he : ∀ p, ¬ (Nest.start : Nest Ty).Entry p := by
    rintro p ⟨set, h, e, he, _⟩
    cases h; cases he
  refine ⟨⟨?_, ?_, List.nodup_nil, ?_, ?_, ?_, List.nodup_nil, ?_, ?_, ?_, ?_⟩, rfl, ?_, ?_, rfl, ?_, rfl, ?_⟩
  · intro k x hx; simp [Nest.start] at hx
  · intro p hp; exact absurd hp (he p)
  · intro p hp; cases hp
  · intro p hp; simp [Nest.start] at hp
  · intro p hp; cases hp
  · intro k hk; cases hk
  · intro k x q hx; simp [Nest.start] at hx
  · intro k x hx; simp [Nest.start] at hx
  · intro a p b e; simp [Nest.start] at e
  · intro set h; cases h; exact List.Pairwise.nil
  · intro set h t; cases h; rfl
  · intro r; simp [Nest.start, Disabled]
  · intro k _; rfl

theorem on_iff {h : List (NestCall Ty × NestAnswer)} {s : Nest Ty} (hi : NInv h s) {k r : Nat} :
    On h k r ↔ ∃ x, s.handles[k]? = some x ∧ x.cell = some r := by
  unfold On
  rw [← hi.handles, List.getElem?_map]
  constructor
  · rintro ⟨t, ht⟩
    obtain ⟨x, hx, e⟩ := Option.map_eq_some_iff.1 ht
    exact ⟨x, hx, (Prod.mk.inj e).2⟩
  · rintro ⟨x, hx, e⟩
    exact ⟨x.type, by rw [hx, Option.map_some, e]⟩

/-- Where a handle is that the program moved there. -/
theorem place_iff {h : List (NestCall Ty × NestAnswer)} {s : Nest Ty} (hi : NInv h s) {k : Nat} {x : PlacedHandle Ty}
    (hx : s.handles[k]? = some x) (hn : x.place ≠ .dropped) : x.place = placeOf h k := by
  rcases hi.pend.hist k x hx with h1 | ⟨h1, _⟩
  · exact h1
  · exact absurd h1 hn

theorem opens_iff {h : List (NestCall Ty × NestAnswer)} {s : Nest Ty} (hi : NInv h s) {k r : Nat} :
    s.opens k = some r ↔ On h k r ∧ ¬ Disabled h r := by
  rw [on_iff hi, ← hi.poison]
  unfold Nest.opens
  cases hx : s.handles[k]? with
  | none => simp
  | some x =>
    simp only [Option.bind_some]
    cases hc : x.cell with
    | none => simp [hc]
    | some p =>
      have hp := hi.pend.cells k x hx p hc
      dsimp only
      have e : s.poisoned[p]? = some false ↔ ¬ s.poisoned[p]? = some true := by
        rw [List.getElem?_eq_getElem hp]
        cases s.poisoned[p] <;> simp
      split
      · rename_i h1
        constructor
        · intro h2; cases h2; exact ⟨⟨x, rfl, hc⟩, e.1 h1⟩
        · rintro ⟨⟨y, hy, hyc⟩, _⟩; cases hy; rw [hc] at hyc; exact hyc
      · rename_i h1
        constructor
        · intro h2; cases h2
        · rintro ⟨⟨y, hy, hyc⟩, h2⟩; cases hy; rw [hc] at hyc; cases hyc; exact absurd (e.2 h2) h1

theorem opens_none {h : List (NestCall Ty × NestAnswer)} {s : Nest Ty} (hi : NInv h s) {k : Nat} :
    s.opens k = none ↔ ∀ r, On h k r → Disabled h r := by
  constructor
  · intro e r hr
    apply Classical.byContradiction
    intro hd
    rw [(opens_iff hi).2 ⟨hr, hd⟩] at e
    cases e
  · intro hall
    cases e : s.opens k with
    | none => rfl
    | some r => obtain ⟨h1, h2⟩ := (opens_iff hi).1 e; exact absurd (hall r h1) h2

/-- Only places and what was destroyed changed. -/
theorem NInv.framed {h h' : List (NestCall Ty × NestAnswer)} {s s' : Nest Ty} (hi : NInv h s) (hf : NestFrame s s')
    (hp : Pend (placeOf h') s' none []) (h1 : nestGone h' = nestGone h) (h2 : regsOf h' = regsOf h) (h3 : ∀ r, Disabled h' r ↔ Disabled h r)
    (h4 : takenOf h' = takenOf h) (h5 : ∀ k, s.handles.length ≤ k → placeOf h' k = placeOf h k) : NInv h' s' where
  pend := hp
  gone := by rw [hf.set, h1, hi.gone]
  sorted set hs := hi.sorted set (hf.set ▸ hs)
  set set hs t := by rw [h2]; exact hi.set set (hf.set ▸ hs) t
  length := by rw [hf.poisoned, h2, hi.length]
  poison r := by rw [hf.poisoned, h3, hi.poison]
  handles := by rw [hf.handles, h4, hi.handles]
  fresh k hk := by
    have : s'.handles.length = s.handles.length := by simpa using congrArg List.length hf.handles
    rw [this] at hk
    rw [h5 k hk, hi.fresh k hk]

theorem NInv.not_drops {h : List (NestCall Ty × NestAnswer)} {s : Nest Ty} (hi : NInv h s) {k p : Nat} {x : PlacedHandle Ty}
    (hx : s.handles[k]? = some x) (hn : x.place ≠ .dropped) (hc : x.cell = some p) : p ∉ s.drops := fun hm =>
  (hi.pend.mem p (hi.pend.cells k x hx p hc) (by simp)).1 hm (.inr ⟨k, x, hx, hn, hc⟩)

theorem has_lt {s : Nest Ty} {k : Nat} (hk : s.has k = true) : k < s.handles.length := by
  obtain ⟨x, hx, _⟩ := has_iff.1 hk
  exact (List.getElem?_eq_some_iff.1 hx).1

theorem ninv_take [TransOrd Ty] [LawfulEqOrd Ty] {h : List (NestCall Ty × NestAnswer)} {s s' : Nest Ty} (hi : NInv h s) {D : Nat → Bool} {t : Ty} {a : NestAnswer}
    (hs : s.step D (.take t) = some (a, s')) : NInv ((.take t, a) :: h) s' := by
  simp only [Nest.step] at hs
  cases hset : s.set with
  | none => rw [hset] at hs; cases hs
  | some set =>
    rw [hset] at hs
    rw [Option.some.injEq, Prod.mk.injEq] at hs
    obtain ⟨rfl, hs⟩ := hs
    rw [← hset] at hs
    subst hs
    have hget : ∀ {k : Nat} {x : PlacedHandle Ty}, (s.handles ++ [⟨t, set.resources.get t, .outside⟩])[k]? = some x →
        s.handles[k]? = some x ∨ k = s.handles.length ∧ x = ⟨t, set.resources.get t, .outside⟩ := by
      intro k x hx
      rw [List.getElem?_append] at hx
      split at hx
      · exact .inl hx
      · rename_i hk
        right
        have : k - s.handles.length = 0 := by
          have := (List.getElem?_eq_some_iff.1 hx).1
          simp at this; omega
        rw [this] at hx
        cases hx
        exact ⟨by omega, rfl⟩
    have hold : ∀ {k : Nat} {x : PlacedHandle Ty}, s.handles[k]? = some x →
        (s.handles ++ [⟨t, set.resources.get t, .outside⟩])[k]? = some x := fun hx => by
      rw [List.getElem?_append_left (List.getElem?_eq_some_iff.1 hx).1]; exact hx
    have hent : ∀ p, set.resources.get t = some p → s.Entry p := by
      intro p hp
      obtain ⟨k, hk, _⟩ := BTreeMap.mem_of_findL hp
      exact ⟨set, hset, _, hk, rfl⟩
    have hown : ∀ p, ({ s with handles := s.handles ++ [⟨t, set.resources.get t, .outside⟩] } : Nest Ty).Owner p ↔ s.Owner p := by
      intro p
      constructor
      · rintro (h1 | ⟨k, x, hx, h1, h2⟩)
        · exact .inl h1
        · rcases hget hx with hx | ⟨_, rfl⟩
          · exact .inr ⟨k, x, hx, h1, h2⟩
          · exact .inl (hent p h2)
      · rintro (h1 | ⟨k, x, hx, h1, h2⟩)
        · exact .inl h1
        · exact .inr ⟨k, x, hold hx, h1, h2⟩
    have h0 := hi.pend
    refine ⟨⟨?_, h0.entries, h0.nodup, h0.lt, ?_, h0.fresh, h0.wnodup, ?_, ?_, ?_, ?_⟩, hi.gone, hi.sorted, hi.set, hi.length, hi.poison,
      ?_, ?_⟩
    · intro k x hx p hc
      rcases hget hx with hx | ⟨_, rfl⟩
      · exact h0.cells k x hx p hc
      · exact h0.entries p (hent p hc)
    · intro p hl hb
      rw [hown p]; exact h0.mem p hl hb
    · intro k hk; cases hk
    · intro k x q hx hq
      rcases hget hx with hx | ⟨_, rfl⟩
      · exact h0.inner k x q hx hq
      · cases hq
    · intro k x hx
      rcases hget hx with hx | ⟨rfl, rfl⟩
      · exact h0.hist k x hx
      · exact .inl (hi.fresh _ (Nat.le_refl _)).symm
    · intro b p c e k x hx hc
      rcases hget hx with hx | ⟨rfl, rfl⟩
      · exact h0.order b p c e k x hx hc
      · exfalso
        have hm : p ∈ s.drops := by
          have e : s.drops = b ++ p :: c := e
          rw [e]; simp
        exact (h0.mem p (h0.lt p hm) (by simp)).1 hm (.inl (hent p hc))
    · show (s.handles ++ [_]).map _ = takenOf h ++ [_]
      rw [List.map_append, hi.handles, ← hi.set set hset]
      rfl
    · intro k hk
      refine hi.fresh k ?_
      simp only [List.length_append, List.length_singleton] at hk
      omega

theorem placeOf_put_in {h : List (NestCall Ty × NestAnswer)} {i j : Nat} {b : Bool} {a : NestAnswer} {t : Ty} {r : Nat}
    (ht : (takenOf h)[i]? = some (t, some r)) (hd : ¬ Disabled h r) (k : Nat) :
    placeOf ((.put i j b, a) :: h) k = if k = j then .inside r else placeOf h k := by
  simp only [placeOf, ht, if_neg hd]

theorem placeOf_put_out {h : List (NestCall Ty × NestAnswer)} {i j : Nat} {b : Bool} {a : NestAnswer}
    (hall : ∀ r, On h i r → Disabled h r) (k : Nat) :
    placeOf ((.put i j b, a) :: h) k = if k = j then .dropped else placeOf h k := by
  cases ht : (takenOf h)[i]? with
  | none => simp only [placeOf, ht]
  | some u =>
    obtain ⟨u, c⟩ := u
    cases c with
    | none => simp only [placeOf, ht]
    | some r => simp only [placeOf, ht, if_pos (hall r ⟨u, ht⟩)]

theorem ninv_put {h : List (NestCall Ty × NestAnswer)} {s s' : Nest Ty} (hi : NInv h s) {D : Nat → Bool} {i j : Nat} {b : Bool}
    {a : NestAnswer} (hs : s.step D (.put i j b) = some (a, s')) : NInv ((.put i j b, a) :: h) s' := by
  simp only [Nest.step] at hs
  split at hs
  · rename_i hc
    obtain ⟨hne, h1, h2⟩ := hc
    obtain ⟨x, hx, hxp⟩ := has_iff.1 h2
    obtain ⟨y, hy, hyp⟩ := has_iff.1 h1
    have hjlt := has_lt h2
    cases ho : s.opens i with
    | some p =>
      obtain ⟨hon, hnd⟩ := (opens_iff hi).1 ho
      obtain ⟨t, ht⟩ := hon
      have hpl : ∀ k, placeOf ((.put i j b, a) :: h) k = if k = j then .inside p else placeOf h k := placeOf_put_in ht hnd
      obtain ⟨y', hy', hyc⟩ := (on_iff hi).1 ⟨t, ht⟩
      rw [hy] at hy'; cases hy'
      have hpd : p ∉ s.drops := hi.not_drops hy (by rw [hyp]; simp) hyc
      have hplt := hi.pend.cells i y hy p hyc
      have hp : Pend (placeOf ((.put i j b, a) :: h)) (s.move j (.inside p)) none [] :=
        move_kept hi.pend hx (by rw [hxp]; simp) (by simp) (fun q hq => by cases hq; exact ⟨hplt, hpd⟩) hpl
      rw [ho] at hs
      dsimp only at hs
      cases b with
      | false =>
        simp only [Bool.false_eq_true, if_false, Option.some.injEq, Prod.mk.injEq] at hs
        obtain ⟨rfl, rfl⟩ := hs
        refine hi.framed (frame_move s j _) hp rfl rfl (fun r => ?_) rfl (fun k hk => ?_)
        · simp [Disabled]
        · rw [hpl, if_neg (by omega)]
      | true =>
        simp only [if_true, Option.some.injEq, Prod.mk.injEq] at hs
        obtain ⟨rfl, rfl⟩ := hs
        have hlen : ((s.move j (.inside p)).poisoned.set p true).length = (s.move j (.inside p)).poisoned.length := List.length_set
        have hf := frame_move s j (.inside p)
        refine ⟨⟨?_, ?_, hp.nodup, ?_, ?_, ?_, hp.wnodup, hp.work, ?_, hp.hist, hp.order⟩, hi.gone, hi.sorted, hi.set, ?_, ?_, ?_, ?_⟩
        · simp only [hlen]; exact hp.cells
        · simp only [hlen]; exact hp.entries
        · simp only [hlen]; exact hp.lt
        · simp only [hlen]; exact hp.mem
        · simp only [hlen]; exact hp.fresh
        · simp only [hlen]; exact hp.inner
        · exact hlen.trans hi.length
        · intro r
          show (s.poisoned.set p true)[r]? = some true ↔ Disabled h r ∨ true = true ∧ On h i r
          rw [List.getElem?_set, ← hi.poison]
          by_cases e : p = r
          · subst e
            rw [if_pos rfl, if_pos hplt]
            simp only [true_iff]
            exact .inr ⟨trivial, t, ht⟩
          · rw [if_neg e]
            constructor
            · exact .inl
            · rintro (h' | ⟨_, u, hu⟩)
              · exact h'
              · rw [ht] at hu; cases hu; exact absurd rfl e
        · exact hf.handles.trans hi.handles
        · intro k hk
          have : (s.move j (.inside p)).handles.length = s.handles.length := by simpa using congrArg List.length hf.handles
          have hk : (s.move j (.inside p)).handles.length ≤ k := hk
          rw [hpl, if_neg (by omega)]
          exact hi.fresh k (by omega)
    | none =>
      have hall := (opens_none hi).1 ho
      have hpl : ∀ k, placeOf ((.put i j b, a) :: h) k = if k = j then .dropped else placeOf h k := placeOf_put_out hall
      rw [ho] at hs
      dsimp only at hs
      rw [Option.some.injEq, Prod.mk.injEq] at hs
      obtain ⟨_, rfl⟩ := hs
      refine hi.framed (frame_dropOne s j) (dropOne_pend hi.pend h2 hpl) rfl rfl (fun r => ?_) rfl (fun k hk => ?_)
      · constructor
        · rintro (h' | ⟨_, h'⟩)
          · exact h'
          · exact hall r h'
        · exact .inl
      · rw [hpl, if_neg (by omega)]
  · cases hs

theorem ninv_pull {h : List (NestCall Ty × NestAnswer)} {s s' : Nest Ty} (hi : NInv h s) {D : Nat → Bool} {i j : Nat}
    {a : NestAnswer} (hs : s.step D (.pull i j) = some (a, s')) : NInv ((.pull i j, a) :: h) s' := by
  simp only [Nest.step] at hs
  split at hs
  · cases hs
  · split at hs
    · rename_i p hp hc
      obtain ⟨h1, h2⟩ := hc
      obtain ⟨x, hx, hxp⟩ := mem_within.1 h2
      have hjlt := (List.getElem?_eq_some_iff.1 hx).1
      cases ho : s.opens i with
      | some q =>
        obtain ⟨hon, hnd⟩ := (opens_iff hi).1 ho
        have hpl : ∀ k, placeOf ((.pull i j, a) :: h) k = if k = j then .outside else placeOf h k := fun k => by
          rw [placeOf]
          have : (k = j ∧ ∃ r, On h i r ∧ ¬ Disabled h r) ↔ k = j := and_iff_left ⟨q, hon, hnd⟩
          simp only [this]
        rw [ho] at hs
        dsimp only at hs
        rw [Option.some.injEq, Prod.mk.injEq] at hs
        obtain ⟨rfl, rfl⟩ := hs
        refine hi.framed (frame_move s j _) (move_kept hi.pend hx (by rw [hxp]; simp) (by simp) (fun q hq => (by cases hq)) hpl) rfl rfl
          (fun r => Iff.rfl) rfl (fun k hk => ?_)
        rw [hpl, if_neg (by omega)]
      | none =>
        have hall := (opens_none hi).1 ho
        have hpl : placeOf ((.pull i j, a) :: h) = placeOf h := by
          funext k
          rw [placeOf, if_neg]
          rintro ⟨_, r, hr, hd⟩
          exact hd (hall r hr)
        rw [ho] at hs
        dsimp only at hs
        rw [Option.some.injEq, Prod.mk.injEq] at hs
        obtain ⟨rfl, rfl⟩ := hs
        exact hi.framed (.refl s) (hpl ▸ hi.pend) rfl rfl (fun r => Iff.rfl) rfl (fun k hk => by rw [hpl])
    · cases hs

theorem ninv_dropHandle {h : List (NestCall Ty × NestAnswer)} {s s' : Nest Ty} (hi : NInv h s) {D : Nat → Bool} {j : Nat}
    {a : NestAnswer} (hs : s.step D (.dropHandle j) = some (a, s')) : NInv ((.dropHandle j, a) :: h) s' := by
  simp only [Nest.step] at hs
  split at hs
  · rename_i h1
    rw [Option.some.injEq, Prod.mk.injEq] at hs
    obtain ⟨_, rfl⟩ := hs
    have hjlt := has_lt h1
    refine hi.framed (frame_dropOne s j) (dropOne_pend hi.pend h1 fun k => by rw [placeOf]) rfl rfl (fun r => Iff.rfl) rfl
      (fun k hk => ?_)
    rw [placeOf, if_neg (by omega)]
  · cases hs

theorem ninv_forget {h : List (NestCall Ty × NestAnswer)} {s s' : Nest Ty} (hi : NInv h s) {D : Nat → Bool} {j : Nat}
    {a : NestAnswer} (hs : s.step D (.forgetHandle j) = some (a, s')) : NInv ((.forgetHandle j, a) :: h) s' := by
  simp only [Nest.step] at hs
  split at hs
  · rename_i h1
    rw [Option.some.injEq, Prod.mk.injEq] at hs
    obtain ⟨_, rfl⟩ := hs
    have hjlt := has_lt h1
    obtain ⟨x, hx, hxp⟩ := has_iff.1 h1
    refine hi.framed (frame_move s j _) (move_kept hi.pend hx (by rw [hxp]; simp) (by simp) (fun q hq => (by cases hq)) fun k => by
      rw [placeOf]) rfl rfl (fun r => Iff.rfl) rfl (fun k hk => ?_)
    rw [placeOf, if_neg (by omega)]
  · cases hs

theorem ninv_dropSchema {h : List (NestCall Ty × NestAnswer)} {s s' : Nest Ty} (hi : NInv h s) {D : Nat → Bool}
    {a : NestAnswer} (hs : s.step D .dropSchema = some (a, s')) : NInv ((.dropSchema, a) :: h) s' := by
  simp only [Nest.step] at hs
  cases hset : s.set with
  | none => rw [hset] at hs; cases hs
  | some set =>
    rw [hset] at hs
    dsimp only at hs
    rw [Option.some.injEq, Prod.mk.injEq] at hs
    obtain ⟨_, rfl⟩ := hs
    obtain ⟨i1, i2, i3, i4, i5⟩ := dropSet_pend set.resources.entries s hi.pend hset
    have hpl : placeOf ((.dropSchema, a) :: h) = placeOf h := by funext k; rw [placeOf]
    refine ⟨hpl ▸ i1, by rw [i2]; rfl, fun set hs => ?_, fun set hs => ?_, i3 ▸ hi.length, ?_, i4.trans hi.handles, fun k hk => ?_⟩
    · rw [i2] at hs; cases hs
    · rw [i2] at hs; cases hs
    · rw [i3]; exact hi.poison
    · have : (s.dropSet set.resources.entries).handles.length = s.handles.length := by simpa using congrArg List.length i4
      rw [hpl]; exact hi.fresh k (by omega)

/-! ## Registering -/

omit [Ord Ty] [DecidableEq Ty] in
theorem has_move {s : Nest Ty} {k j : Nat} {q : Place} (hne : j ≠ k) (h : s.has j = true) : (s.move k q).has j = true := by
  obtain ⟨x, hx, hp⟩ := has_iff.1 h
  exact has_iff.2 ⟨x, move_get.2 ⟨x, hx, by rw [if_neg fun e => hne e.symm]⟩, hp⟩

omit [Ord Ty] [DecidableEq Ty] in
theorem foldl_move {n : Nat} {but : Option Nat} : ∀ (own : List Nat) (s : Nest Ty) (pl : Nat → Place), Pend pl s but [] → own.Nodup →
    (∀ k ∈ own, s.has k = true) → n < s.poisoned.length → n ∉ s.drops →
    Pend (fun k => if k ∈ own then .inside n else pl k) (own.foldl (fun s k => s.move k (.inside n)) s) but [] ∧
      NestFrame s (own.foldl (fun s k => s.move k (.inside n)) s) ∧ (own.foldl (fun s k => s.move k (.inside n)) s).drops = s.drops
  | [], s, pl, h, _, _, _, _ => ⟨by simpa using h, .refl s, rfl⟩
  | k :: own, s, pl, h, hn, hh, hl, hd => by
    obtain ⟨hk, hn'⟩ := List.nodup_cons.1 hn
    obtain ⟨x, hx, hp⟩ := has_iff.1 (hh k List.mem_cons_self)
    have h1 : Pend (fun j => if j = k then .inside n else pl j) (s.move k (.inside n)) but [] :=
      move_kept h hx (by rw [hp]; simp) (by simp) (fun q hq => by cases hq; exact ⟨hl, hd⟩) fun _ => rfl
    obtain ⟨i1, i2, i3⟩ := foldl_move own (s.move k (.inside n)) _ h1 hn'
      (fun j hj => has_move (fun e => hk (e ▸ hj)) (hh j (List.mem_cons_of_mem _ hj))) hl hd
    refine ⟨?_, (frame_move s k _).trans i2, i3⟩
    have e : (fun j => if j ∈ k :: own then Place.inside n else pl j) =
        fun j => if j ∈ own then .inside n else if j = k then .inside n else pl j := by
      funext j
      by_cases h1 : j = k
      · simp [h1]
      · simp [h1]
    rw [e]
    exact i1

section
variable [TransOrd Ty] [LawfulEqOrd Ty]

theorem ninv_register {h : List (NestCall Ty × NestAnswer)} {s s' : Nest Ty} (hi : NInv h s) {D : Nat → Bool} {t : Ty} {own : List Nat}
    {a : NestAnswer} (hs : s.step D (.register t own) = some (a, s')) (ha : a ≠ .abort) : NInv ((.register t own, a) :: h) s' := by
  simp only [Nest.step] at hs
  cases hset : s.set with
  | none => rw [hset] at hs; cases hs
  | some set =>
    rw [hset] at hs
    dsimp only at hs
    split at hs
    · rename_i hc
      obtain ⟨hnd, hall⟩ := hc
      rw [List.all_eq_true] at hall
      have h0 := hi.pend
      have hsr := hi.sorted set hset
      have hsr' : BTreeMap.Sorted (set.resources.insert t s.poisoned.length).1.entries := BTreeMap.sorted_insertL hsr
      generalize hs0 : ({ s with set := some ⟨(set.resources.insert t s.poisoned.length).1⟩, poisoned := s.poisoned ++ [false] } : Nest Ty) =
        s0 at hs
      have f1 : s0.set = some ⟨(set.resources.insert t s.poisoned.length).1⟩ := by rw [← hs0]
      have f2 : s0.poisoned = s.poisoned ++ [false] := by rw [← hs0]
      have f3 : s0.handles = s.handles := by rw [← hs0]
      have f4 : s0.drops = s.drops := by rw [← hs0]
      have flen : s0.poisoned.length = s.poisoned.length + 1 := by rw [f2]; simp
      have hent : ∀ p, s.Entry p ↔ ∃ u, set.resources.get u = some p := by
        intro p
        rw [← entry_iff hsr]
        constructor
        · rintro ⟨set', e, x⟩; rw [hset] at e; cases e; exact x
        · exact fun x => ⟨set, hset, x⟩
      have hent0 : ∀ p, s0.Entry p ↔ p = s.poisoned.length ∨ ∃ u, u ≠ t ∧ set.resources.get u = some p := by
        intro p
        have e : s0.Entry p ↔ ∃ u, (set.resources.insert t s.poisoned.length).1.get u = some p := by
          rw [← entry_iff hsr']
          constructor
          · rintro ⟨set', e, x⟩; rw [f1] at e; cases e; exact x
          · exact fun x => ⟨_, f1, x⟩
        rw [e]
        constructor
        · rintro ⟨u, hu⟩
          rw [get_insert hsr] at hu
          split at hu
          · cases hu; exact .inl rfl
          · rename_i hne; exact .inr ⟨u, fun e => hne (by rw [e, compare_eq_iff_eq]), hu⟩
        · rintro (rfl | ⟨u, hne, hu⟩)
          · exact ⟨t, by rw [get_insert hsr, if_pos (by rw [compare_eq_iff_eq])]⟩
          · exact ⟨u, by rw [get_insert hsr, if_neg (by rw [compare_eq_iff_eq]; exact hne)]; exact hu⟩
      have hhand : ∀ p, (∃ (k : Nat) (x : PlacedHandle Ty), s0.handles[k]? = some x ∧ x.place ≠ .dropped ∧ x.cell = some p) ↔
          ∃ (k : Nat) (x : PlacedHandle Ty), s.handles[k]? = some x ∧ x.place ≠ .dropped ∧ x.cell = some p := by rw [f3]; simp
      have hp0 : Pend (placeOf h) s0 (set.resources.get t) [] := by
        refine ⟨?_, ?_, f4 ▸ h0.nodup, ?_, ?_, ?_, h0.wnodup, ?_, ?_, ?_, ?_⟩
        · rw [f3, flen]; exact fun k x hx p hp => Nat.lt_succ_of_lt (h0.cells k x hx p hp)
        · intro p hp
          rcases (hent0 p).1 hp with rfl | ⟨u, _, hu⟩
          · omega
          · have := h0.entries p ((hent p).2 ⟨u, hu⟩); omega
        · rw [f4, flen]; exact fun p hp => Nat.lt_succ_of_lt (h0.lt p hp)
        · intro p hl hb
          rw [f4]
          rw [flen] at hl
          by_cases e : p = s.poisoned.length
          · subst e
            exact ⟨fun hm => absurd (h0.lt _ hm) (Nat.lt_irrefl _), fun hn => (hn (.inl ((hent0 _).2 (.inl rfl)))).elim⟩
          · refine (h0.mem p (by omega) (by simp)).trans (not_congr (or_congr ?_ (hhand p).symm))
            rw [hent, hent0]
            constructor
            · rintro ⟨u, hu⟩; exact .inr ⟨u, fun e => hb (e ▸ hu), hu⟩
            · rintro (h' | ⟨u, _, hu⟩)
              · exact absurd h' e
              · exact ⟨u, hu⟩
        · intro p hp
          have he := (hent p).2 ⟨t, hp⟩
          have hl := h0.entries p he
          rw [f4, flen]
          exact ⟨fun hm => (h0.mem p hl (by simp)).1 hm (.inl he), by omega⟩
        · intro k hk; cases hk
        · rw [f3, f4, flen]; exact fun k x q hx hq => ⟨Nat.lt_succ_of_lt (h0.inner k x q hx hq).1, (h0.inner k x q hx hq).2⟩
        · rw [f3, f4]; exact h0.hist
        · rw [f3, f4]; exact h0.order
      have hn0 : s.poisoned.length ∉ s0.drops := by rw [f4]; exact fun hm => Nat.lt_irrefl _ (h0.lt _ hm)
      obtain ⟨hp1, hf1, hd1⟩ := foldl_move own s0 (placeOf h) hp0 hnd
        (fun k hk => by have := hall k hk; unfold Nest.has at this ⊢; rwa [f3]) (n := s.poisoned.length) (by omega) hn0
      have hplr : ∀ a, placeOf ((.register t own, a) :: h) = fun k => if k ∈ own then .inside s.poisoned.length else placeOf h k := by
        intro a; funext k; rw [placeOf, hi.length]
      generalize own.foldl (fun s k => s.move k (.inside s0.poisoned.length)) s0 = dummy at *
      generalize hs1 : own.foldl (fun s' k => s'.move k (.inside s.poisoned.length)) s0 = s1 at hs hp1 hf1 hd1
      -- what is left to say for whatever state is reached
      have fin : ∀ (a : NestAnswer) (s2 : Nest Ty), Pend (fun k => if k ∈ own then .inside s.poisoned.length else placeOf h k) s2 none [] →
          s2.set.isNone = nestGone ((.register t own, a) :: h) → (s2.set = none ∨ s2.set = s1.set) → s2.poisoned = s1.poisoned →
          s2.handles.map (fun x => (x.type, x.cell)) = s1.handles.map (fun x => (x.type, x.cell)) → NInv ((.register t own, a) :: h) s2 := by
        intro a s2 g1 g2 g3 g4 g5
        have g6 : s2.poisoned = s.poisoned ++ [false] := by rw [g4, hf1.poisoned, f2]
        have g7 : s2.handles.map (fun x => (x.type, x.cell)) = s.handles.map (fun x => (x.type, x.cell)) := by
          rw [g5, hf1.handles, f3]
        have hset2 : ∀ set', s2.set = some set' → set' = ⟨(set.resources.insert t s.poisoned.length).1⟩ := by
          intro set' e
          rcases g3 with g3 | g3
          · rw [g3] at e; cases e
          · rw [g3, hf1.set, f1] at e; cases e; rfl
        refine ⟨by rw [hplr]; exact g1, g2, ?_, ?_, ?_, ?_, ?_, ?_⟩
        · intro set' e; rw [hset2 set' e]; exact hsr'
        · intro set' e u
          rw [hset2 set' e]
          show (set.resources.insert t s.poisoned.length).1.get u = lastRegOf (t :: regsOf h) u
          rw [get_insert hsr, lastRegOf, hi.set set hset, hi.length]
          by_cases e : u = t
          · rw [if_pos (by rw [compare_eq_iff_eq]; exact e), if_pos e.symm]
          · rw [if_neg (by rw [compare_eq_iff_eq]; exact e), if_neg fun e' => e e'.symm]
        · rw [g6]
          show _ = (t :: regsOf h).length
          simp [hi.length]
        · intro r
          rw [g6]
          show _ ↔ Disabled h r
          rw [← hi.poison, List.getElem?_append]
          split
          · exact Iff.rfl
          · rename_i hr
            rw [List.getElem?_eq_none (by omega : s.poisoned.length ≤ r)]
            constructor
            · intro e
              cases hz : r - s.poisoned.length with
              | zero => rw [hz] at e; cases e
              | succ m => rw [hz] at e; cases e
            · intro e; cases e
        · exact g7.trans hi.handles
        · intro k hk
          have hl : s2.handles.length = s.handles.length := by simpa using congrArg List.length g7
          rw [hplr]
          show (if k ∈ own then _ else _) = _
          rw [if_neg]
          · exact hi.fresh k (by omega)
          · intro hm
            have := has_lt (hall k hm)
            omega
      have hgn : nestGone h = false := by rw [← hi.gone, hset]; rfl
      have hs1set : s1.set = some ⟨(set.resources.insert t s.poisoned.length).1⟩ := by rw [hf1.set, f1]
      cases hget : set.resources.get t with
      | none =>
        rw [hget] at hs hp1
        rw [Option.some.injEq, Prod.mk.injEq] at hs
        obtain ⟨rfl, rfl⟩ := hs
        exact fin .none s1 hp1 (by rw [hs1set]; exact hgn.symm) (.inr rfl) rfl rfl
      | some p =>
        rw [hget] at hs hp1
        dsimp only at hs
        have hp2 := release_pend hp1
        have hf2 := frame_release s1 p
        split at hs
        · rw [Option.some.injEq, Prod.mk.injEq] at hs
          obtain ⟨rfl, rfl⟩ := hs
          exact fin .none _ hp2 (by rw [hf2.set, hs1set]; exact hgn.symm) (.inr hf2.set) hf2.poisoned hf2.handles
        · rename_i hpan
          rw [Option.some.injEq, Prod.mk.injEq] at hs
          obtain ⟨e1, rfl⟩ := hs
          have hset2 := hf2.set.trans hs1set
          rw [hset2] at e1 ⊢
          obtain ⟨i1, i2, i3, i4, i5⟩ := dropSet_pend (set.resources.insert t s.poisoned.length).1.entries (s1.release p) hp2 hset2
          have hne : a = .panic := by
            have h1 : s.panics D (s1.release p) ≤
                s.panics D ((s1.release p).dropSet (set.resources.insert t s.poisoned.length).1.entries) := by
              have d0 : s.drops.length ≤ (s1.release p).drops.length := by
                have := hf2.drops.length_le
                rw [hd1, f4] at this
                exact this
              show panicsIn D _ _ ≤ panicsIn D _ _
              rw [panicsIn_add D d0 i5.length_le]
              omega
            subst e1
            revert ha
            show Nest.ending D s ((s1.release p).dropSet (set.resources.insert t s.poisoned.length).1.entries) .none ≠ .abort →
              Nest.ending D s ((s1.release p).dropSet (set.resources.insert t s.poisoned.length).1.entries) .none = .panic
            unfold Nest.ending
            split
            · omega
            · exact fun _ => rfl
            · exact fun h => (h rfl).elim
          subst hne
          show NInv _ ((s1.release p).dropSet (set.resources.insert t s.poisoned.length).1.entries)
          exact fin .panic _ i1 (by rw [i2]; rfl) (.inl i2) (i3.trans hf2.poisoned) (i4.trans hf2.handles)
    · cases hs

theorem leaves_inv {D : Nat → Bool} {h : List (NestCall Ty × NestAnswer)} {s : Nest Ty} (hl : Leaves D h s) : NInv h s := by
  induction hl with
  | start => exact ninv_start
  | @call h s s' x a _ hs ha ih =>
    cases x with
    | register t own => exact ninv_register ih hs ha
    | take t => exact ninv_take ih hs
    | put i j b => exact ninv_put ih hs
    | pull i j => exact ninv_pull ih hs
    | dropHandle k => exact ninv_dropHandle ih hs
    | forgetHandle k => exact ninv_forget ih hs
    | dropSchema => exact ninv_dropSchema ih hs

end

end Plotline
