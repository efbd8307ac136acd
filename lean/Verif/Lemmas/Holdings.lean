import Verif.Lemmas.BTree
import Verif.Lemmas.Drops
import Verif.Spec.Holdings

/-! # Lemmas about when resources are destroyed -/

namespace Plotline

open Std

variable {Ty : Type} [Ord Ty] [DecidableEq Ty] {Val : Ty → Type}

/-! ## What loses its last owner -/

/-- What was destroyed is what has no owner, leaving out what is about to be let go. -/
structure Sound (s : Holdings Val) (but : Option Nat) : Prop where
  nodup : (s.drops.map Prod.fst).Nodup
  mem : ∀ r, but ≠ some r → (r ∈ s.drops.map Prod.fst ↔ r < s.heap.length ∧ s.strongCount r = 0)
  fresh : ∀ r, but = some r → r ∉ s.drops.map Prod.fst ∧ r < s.heap.length
  vals : ∀ r d, (r, d) ∈ s.drops → ∃ c, s.heap[r]? = some c ∧ c.val = d

omit [Ord Ty] [DecidableEq Ty] in
theorem strongCount_congr {s s' : Holdings Val} (h1 : s'.set = s.set) (h2 : s'.handles = s.handles) (p : Nat) :
    s'.strongCount p = s.strongCount p := by
  unfold Holdings.strongCount; rw [h1, h2]

omit [Ord Ty] [DecidableEq Ty] in
theorem letGo_frame (D : Nat → Bool) (u : Bool) (p : Nat) (s : Holdings Val) :
    (s.letGo D u p).2.set = s.set ∧ (s.letGo D u p).2.heap = s.heap ∧ (s.letGo D u p).2.handles = s.handles ∧
      s.drops <+: (s.letGo D u p).2.drops := by
  unfold Holdings.letGo
  split
  · split
    · exact ⟨rfl, rfl, rfl, List.prefix_refl _⟩
    · dsimp only; split <;> exact ⟨rfl, rfl, rfl, List.prefix_append _ _⟩
  · exact ⟨rfl, rfl, rfl, List.prefix_refl _⟩

omit [Ord Ty] [DecidableEq Ty] in
theorem letGo_sound (D : Nat → Bool) (u : Bool) {p : Nat} {s : Holdings Val} (hs : Sound s (some p)) :
    Sound (s.letGo D u p).2 none := by
  obtain ⟨hp, hlt⟩ := hs.fresh p rfl
  by_cases hc : s.strongCount p = 0
  · obtain ⟨c, hcell⟩ : ∃ c, s.heap[p]? = some c := ⟨_, List.getElem?_eq_getElem hlt⟩
    have e : (s.letGo D u p).2 = { s with drops := s.drops ++ [(p, c.val)] } := by
      unfold Holdings.letGo
      rw [if_pos hc, hcell]
      dsimp only
      split <;> rfl
    rw [e]
    refine ⟨?_, fun r _ => ?_, fun r h => (by cases h), fun r d hm => ?_⟩
    · simp only [List.map_append, List.map_cons, List.map_nil]
      rw [List.nodup_append]
      refine ⟨hs.nodup, by simp, fun a ha b hb => ?_⟩
      simp only [List.mem_singleton] at hb
      subst hb
      exact fun e => hp (e ▸ ha)
    · simp only [List.map_append, List.map_cons, List.map_nil, List.mem_append, List.mem_singleton]
      by_cases hr : r = p
      · subst hr; simp only [or_true, true_iff]; exact ⟨hlt, hc⟩
      · rw [hs.mem r (by simpa using fun e => hr e.symm)]
        constructor
        · rintro (h | h)
          · exact h
          · exact absurd h hr
        · exact Or.inl
    · simp only [List.mem_append, List.mem_singleton, Prod.mk.injEq] at hm
      rcases hm with h | ⟨rfl, rfl⟩
      · exact hs.vals r d h
      · exact ⟨c, hcell, rfl⟩
  · have e : (s.letGo D u p).2 = s := by unfold Holdings.letGo; rw [if_neg hc]
    rw [e]
    refine ⟨hs.nodup, fun r _ => ?_, fun r h => (by cases h), hs.vals⟩
    by_cases hr : r = p
    · subst hr; exact ⟨fun h => absurd h hp, fun h => absurd h.2 hc⟩
    · exact hs.mem r (by simpa using fun e => hr e.symm)

theorem panicsIn_self (D : Nat → Bool) (a : Nat) : panicsIn D a a = 0 := by simp [panicsIn]

theorem panicsIn_succ (D : Nat → Bool) (a : Nat) : panicsIn D a (a + 1) = if D a then 1 else 0 := by
  simp [panicsIn, List.range'_succ, List.countP_cons]

theorem panicsIn_add (D : Nat → Bool) {a b c : Nat} (h1 : a ≤ b) (h2 : b ≤ c) : panicsIn D a c = panicsIn D a b + panicsIn D b c := by
  unfold panicsIn
  have : c - a = (b - a) + (c - b) := by omega
  rw [this, ← List.range'_append, List.countP_append]
  congr 3
  omega

/-- How often a destructor panicked when things ended so. -/
def Demise.Fits : Bool → Demise → Nat → Prop
  | false, .calm, k => k = 0
  | false, .panicking, k => k = 1
  | false, .aborted, k => k = 2
  | true, .calm, k => k = 0
  | true, .panicking, _ => False
  | true, .aborted, k => k = 1

/-- Nobody panics in addition to those before. -/
theorem Demise.Fits.shift {d : Demise} {k : Nat} {u : Bool} (h : Demise.Fits u d k) : Demise.Fits u d (0 + k) := by
  rwa [Nat.zero_add]

omit [Ord Ty] [DecidableEq Ty] in
theorem letGo_once (D : Nat → Bool) (u : Bool) (p : Nat) (s : Holdings Val) :
    (s.letGo D u p).1 = .calm ∧ panicsIn D s.drops.length (s.letGo D u p).2.drops.length = 0 ∨
      (s.letGo D u p).1 = (if u then .aborted else .panicking) ∧
        panicsIn D s.drops.length (s.letGo D u p).2.drops.length = 1 := by
  unfold Holdings.letGo
  split
  · split
    · exact .inl ⟨rfl, panicsIn_self _ _⟩
    · dsimp only
      by_cases hd : D s.drops.length = true
      · rw [if_pos hd]
        refine .inr ⟨rfl, ?_⟩
        rw [List.length_append, List.length_singleton, panicsIn_succ, if_pos hd]
      · rw [if_neg hd]
        refine .inl ⟨rfl, ?_⟩
        rw [List.length_append, List.length_singleton, panicsIn_succ, if_neg hd]
  · exact .inl ⟨rfl, panicsIn_self _ _⟩

omit [Ord Ty] [DecidableEq Ty] in
theorem letGo_calm {D : Nat → Bool} {s : Holdings Val} (u : Bool) (p : Nat) (h : D s.drops.length = false) :
    (s.letGo D u p).1 = .calm := by
  unfold Holdings.letGo
  rw [h]
  split
  · split <;> rfl
  · rfl

omit [Ord Ty] [DecidableEq Ty] in
/-- Without one of the entries of the schema, only its cell has an owner less. -/
theorem strongCount_tail (s : Holdings Val) (e : Ty × Nat) (es : List (Ty × Nat)) (hset : s.set = some ⟨⟨e :: es⟩⟩) (r : Nat) :
    s.strongCount r = { s with set := some ⟨⟨es⟩⟩ }.strongCount r + if e.2 = r then 1 else 0 := by
  unfold Holdings.strongCount
  rw [hset]
  simp only [List.countP_cons]
  by_cases h : e.2 = r
  · simp [h]; omega
  · simp [h]

omit [Ord Ty] [DecidableEq Ty] in
theorem dropSet_sound (D : Nat → Bool) : ∀ (es : List (Ty × Nat)) (u : Bool) (s : Holdings Val), Sound s none →
    s.set = some ⟨⟨es⟩⟩ → (∀ e ∈ es, e.2 < s.heap.length) →
    (s.dropSet D u es).2.heap = s.heap ∧ (s.dropSet D u es).2.handles = s.handles ∧ s.drops <+: (s.dropSet D u es).2.drops ∧
      Demise.Fits u (s.dropSet D u es).1 (panicsIn D s.drops.length (s.dropSet D u es).2.drops.length) ∧
      ((s.dropSet D u es).1 ≠ .aborted → (s.dropSet D u es).2.set = none ∧ Sound (s.dropSet D u es).2 none)
  | [], u, s, hs, hset, _ => by
    refine ⟨rfl, rfl, List.prefix_refl _, ?_, fun _ => ⟨rfl, hs.nodup, fun r hr => ?_, hs.fresh, hs.vals⟩⟩
    · show Demise.Fits u .calm _
      rw [show (s.dropSet D u []).2.drops = s.drops from rfl, panicsIn_self]
      cases u <;> exact rfl
    · rw [show (s.dropSet D u []).2.drops = s.drops from rfl, hs.mem r hr]
      simp [Holdings.dropSet, Holdings.strongCount, hset]
  | e :: es, u, s, hs, hset, hlt => by
    have hs1 : Sound { s with set := some ⟨⟨es⟩⟩ } (some e.2) := by
      refine ⟨hs.nodup, fun r hr => ?_, fun r hr => ?_, hs.vals⟩
      · have hne : e.2 ≠ r := by simpa using hr
        have := strongCount_tail s e es hset r
        rw [if_neg hne, Nat.add_zero] at this
        rw [← this]
        exact hs.mem r (by simp)
      · have he : e.2 = r := by simpa using hr
        subst he
        refine ⟨fun hm => ?_, hlt _ List.mem_cons_self⟩
        have h0 := ((hs.mem e.2 (by simp)).1 hm).2
        have := strongCount_tail s e es hset e.2
        rw [if_pos rfl] at this
        omega
    have hf := letGo_frame D u e.2 { s with set := some ⟨⟨es⟩⟩ }
    have hsd := letGo_sound D u hs1
    have ho := letGo_once D u e.2 { s with set := some ⟨⟨es⟩⟩ }
    simp only [Holdings.dropSet]
    generalize ({ s with set := some ⟨⟨es⟩⟩ } : Holdings Val).letGo D u e.2 = r at hf hsd ho ⊢
    obtain ⟨d, s1⟩ := r
    dsimp only at hf hsd ho ⊢
    obtain ⟨f1, f2, f3, f4⟩ := hf
    have hlt' : ∀ e ∈ es, e.2 < s1.heap.length := fun x hx => by rw [f2]; exact hlt x (List.mem_cons_of_mem _ hx)
    rcases ho with ⟨rfl, hk⟩ | ⟨rfl, hk⟩
    · dsimp only
      obtain ⟨i1, i2, i3, i4, i5⟩ := dropSet_sound D es u s1 hsd f1 hlt'
      refine ⟨i1.trans f2, i2.trans f3, f4.trans i3, ?_, i5⟩
      rw [panicsIn_add D f4.length_le i3.length_le, hk]
      exact i4.shift
    · cases u with
      | true =>
        rw [if_pos rfl]
        exact ⟨f2, f3, f4, hk, fun h => absurd rfl h⟩
      | false =>
        rw [if_neg (by simp)]
        dsimp only
        obtain ⟨i1, i2, i3, i4, i5⟩ := dropSet_sound D es true s1 hsd f1 hlt'
        refine ⟨i1.trans f2, i2.trans f3, f4.trans i3, ?_, ?_⟩
        · rw [panicsIn_add D f4.length_le i3.length_le, hk]
          revert i4
          generalize panicsIn D s1.drops.length _ = k
          cases (s1.dropSet D true es).1 with
          | calm => rintro rfl; exact rfl
          | panicking => exact False.elim
          | aborted => rintro rfl; exact rfl
        · intro h
          apply i5
          intro h'
          rw [if_pos h'] at h
          exact h rfl

/-! ## One call -/

omit [Ord Ty] [DecidableEq Ty] in
theorem Demise.Fits.answer {d : Demise} {k : Nat} (h : Demise.Fits false d k) : (d.answer (Val := Val) .none).Fits k := by
  cases d <;> exact h

/-- The schema, the heap and the handles are as the history says. -/
structure HInv (h : List (HoldCall Val × HoldAnswer Val)) (s : Holdings Val) : Prop where
  sound : Sound s none
  gone : s.set.isNone = schemaGone h
  sorted : ∀ set, s.set = some set → BTreeMap.Sorted set.resources.entries
  set : ∀ set, s.set = some set → ∀ t, set.resources.get t = lastRegOf (typesOf h) t
  length : s.heap.length = (typesOf h).length
  vals : ∀ r : Nat, (s.heap[r]?).map (fun c => (c.val, c.poisoned)) = valueOf h r
  handles : s.handles.map (fun x => (x.type, x.cell)) = handlesOf h
  cells : ∀ x ∈ s.handles, ∀ p, x.cell = some p → p < s.heap.length
  dropped : ∀ k, HandleDropped h k ↔ ∃ x, s.handles[k]? = some x ∧ x.status = .dropped
  forgotten : ∀ k, HandleForgotten h k ↔ ∃ x, s.handles[k]? = some x ∧ x.status = .forgotten

omit [Ord Ty] in
theorem lastRegOf_lt {ts : List Ty} {t : Ty} {r : Nat} (h : lastRegOf ts t = some r) : r < ts.length := by
  induction ts with
  | nil => cases h
  | cons u ts ih =>
    simp only [lastRegOf] at h
    split at h
    · cases h; simp
    · exact Nat.lt_succ_of_lt (ih h)

omit [Ord Ty] in
theorem lastRegOf_inj {ts : List Ty} {t u : Ty} {r : Nat} (ht : lastRegOf ts t = some r) (hu : lastRegOf ts u = some r) : t = u := by
  induction ts with
  | nil => cases ht
  | cons w ts ih =>
    simp only [lastRegOf] at ht hu
    split at ht <;> rename_i h1 <;> split at hu <;> rename_i h2
    · exact h1.symm.trans h2
    · cases ht; exact absurd (lastRegOf_lt hu) (Nat.lt_irrefl _)
    · cases hu; exact absurd (lastRegOf_lt ht) (Nat.lt_irrefl _)
    · exact ih ht hu

section
variable [TransOrd Ty] [LawfulEqOrd Ty]

omit [LawfulEqOrd Ty] [DecidableEq Ty] in
theorem get_insert {m : BTreeMap Ty Nat} (hs : BTreeMap.Sorted m.entries) (t u : Ty) (v : Nat) :
    (m.insert t v).1.get u = if compare u t = .eq then some v else m.get u := BTreeMap.findL_insertL hs

omit [DecidableEq Ty] in
/-- A cell is among the entries exactly if it is that of a type. -/
theorem entry_iff {m : BTreeMap Ty Nat} (hs : BTreeMap.Sorted m.entries) (p : Nat) :
    (∃ e ∈ m.entries, e.2 = p) ↔ ∃ t, m.get t = some p := by
  constructor
  · rintro ⟨⟨t, q⟩, he, rfl⟩
    exact ⟨t, BTreeMap.findL_of_mem hs he⟩
  · rintro ⟨t, ht⟩
    obtain ⟨k, hk, _⟩ := BTreeMap.mem_of_findL ht
    exact ⟨_, hk, rfl⟩

/-- Something has the cell exactly if something should. -/
theorem HInv.owned {h : List (HoldCall Val × HoldAnswer Val)} {s : Holdings Val} (hi : HInv h s) (r : Nat) :
    s.strongCount r ≠ 0 ↔ Owned h r := by
  have hh : (s.handles.countP fun x => x.status != .dropped && x.cell == some r) ≠ 0 ↔
      ∃ (k : Nat) (t : Ty), (handlesOf h)[k]? = some (t, some r) ∧ ¬ HandleDropped h k := by
    rw [← Nat.pos_iff_ne_zero, List.countP_pos_iff]
    constructor
    · rintro ⟨x, hx, hp⟩
      simp only [Bool.and_eq_true, bne_iff_ne, ne_eq, beq_iff_eq] at hp
      obtain ⟨k, hk⟩ := List.mem_iff_getElem?.1 hx
      refine ⟨k, x.type, by rw [← hi.handles, List.getElem?_map, hk]; simp [hp.2], fun hd => ?_⟩
      obtain ⟨y, hy, hs⟩ := (hi.dropped k).1 hd
      rw [hk] at hy
      cases hy
      exact hp.1 hs
    · rintro ⟨k, t, hk, hd⟩
      rw [← hi.handles, List.getElem?_map, Option.map_eq_some_iff] at hk
      obtain ⟨x, hx, he⟩ := hk
      refine ⟨x, List.mem_of_getElem? hx, ?_⟩
      simp only [Bool.and_eq_true, bne_iff_ne, ne_eq, beq_iff_eq]
      exact ⟨fun hs => hd ((hi.dropped k).2 ⟨x, hx, hs⟩), (Prod.mk.inj he).2⟩
  unfold Holdings.strongCount Owned HandleOn
  rw [← hh]
  cases hset : s.set with
  | none =>
    have : schemaGone h = true := by rw [← hi.gone, hset]; rfl
    simp [this]
  | some set =>
    have hg : schemaGone h = false := by rw [← hi.gone, hset]; rfl
    have : (set.resources.entries.countP fun e => e.2 == r) ≠ 0 ↔ ∃ t, lastRegOf (typesOf h) t = some r := by
      rw [← Nat.pos_iff_ne_zero, List.countP_pos_iff]
      have := entry_iff (hi.sorted set hset) r
      simp only [beq_iff_eq, hi.set set hset] at this ⊢
      exact this
    rw [← this]
    simp only [hg, true_and]
    omega

/-- Registering: what owners there are afterwards. -/
theorem strongCount_register (s : Holdings Val) (set : ResourceSet Ty) (hset : s.set = some set) (t : Ty) (v : Val t) (r : Nat) :
    { s with set := some (set.withResource s.heap t v).1, heap := (set.withResource s.heap t v).2 }.strongCount r +
        (if set.resources.get t = some r then 1 else 0) =
      s.strongCount r + if s.heap.length = r then 1 else 0 := by
  have h := insertL_count (fun p : Nat => p == r) t s.heap.length set.resources.entries
  simp only [List.countP_map, List.countP_cons, List.countP_nil] at h
  unfold Holdings.strongCount
  rw [hset]
  have e : (set.withResource s.heap t v).1.resources.entries = BTreeMap.insertL t s.heap.length set.resources.entries := rfl
  simp only [e]
  have e2 : ((fun p : Nat => p == r) ∘ fun x : Ty × Nat => x.2) = fun e => e.2 == r := rfl
  rw [e2] at h
  have e3 : (BTreeMap.findL t set.resources.entries).toList.countP (fun p => p == r) =
      if set.resources.get t = some r then 1 else 0 := by
    show ((set.resources.get t).toList).countP _ = _
    cases set.resources.get t with
    | none => simp
    | some q =>
      by_cases hq : q = r <;> simp [hq]
  rw [e3] at h
  have e4 : (if (s.heap.length == r) = true then 1 else 0) = if s.heap.length = r then 1 else 0 := by simp
  rw [e4] at h
  omega

theorem register_core {h : List (HoldCall Val × HoldAnswer Val)} {s : Holdings Val} (hi : HInv h s) {set : ResourceSet Ty}
    (hset : s.set = some set) {D : Nat → Bool} {t : Ty} {v : Val t} {a : HoldAnswer Val} {s' : Holdings Val}
    (hs : s.step D (.register t v) = some (a, s')) :
    s'.heap = s.heap ++ [⟨⟨t, v⟩, false⟩] ∧ s'.handles = s.handles ∧ s.drops <+: s'.drops ∧
      a.Fits (panicsIn D s.drops.length s'.drops.length) ∧
      (a ≠ .abort → Sound s' none) ∧ (a = .none → s'.set = some (set.withResource s.heap t v).1) ∧ (a = .panic → s'.set = none) := by
  have hcount := strongCount_register s set hset t v
  simp only [Holdings.step, hset] at hs
  have hheap : (set.withResource s.heap t v).2 = s.heap ++ [⟨⟨t, v⟩, false⟩] := rfl
  have hget : (set.res t).lock = set.resources.get t := rfl
  generalize hs1 : ({ s with set := some (set.withResource s.heap t v).1, heap := (set.withResource s.heap t v).2 } : Holdings Val) = s1
    at hs hcount
  have f1 : s1.set = some (set.withResource s.heap t v).1 := by rw [← hs1]
  have f2 : s1.heap = s.heap ++ [⟨⟨t, v⟩, false⟩] := by rw [← hs1, ← hheap]
  have f3 : s1.handles = s.handles := by rw [← hs1]
  have f4 : s1.drops = s.drops := by rw [← hs1]
  have hlast : ∀ p, set.resources.get t = some p → p < s.heap.length := fun p hp => by
    rw [hi.length]; exact lastRegOf_lt ((hi.set set hset t).symm.trans hp)
  have hsnd : Sound s1 (set.resources.get t) := by
    refine ⟨by rw [f4]; exact hi.sound.nodup, fun r hr => ?_, fun r hr => ?_, fun r d hm => ?_⟩
    · have hc := hcount r
      rw [if_neg hr, Nat.add_zero] at hc
      rw [f4, hi.sound.mem r (by simp), hc, f2, List.length_append, List.length_singleton]
      by_cases e : s.heap.length = r
      · subst e; simp
      · rw [if_neg e]
        constructor
        · exact fun h => ⟨Nat.lt_succ_of_lt h.1, h.2⟩
        · exact fun h => ⟨by omega, h.2⟩
    · have hlt := hlast r hr
      refine ⟨fun hm => ?_, by rw [f2, List.length_append]; omega⟩
      rw [f4] at hm
      have h0 := ((hi.sound.mem r (by simp)).1 hm).2
      have hc := hcount r
      rw [if_pos hr, if_neg (by omega), h0] at hc
      omega
    · rw [f4] at hm
      obtain ⟨c, hc, hv⟩ := hi.sound.vals r d hm
      refine ⟨c, ?_, hv⟩
      rw [f2, List.getElem?_append_left (List.getElem?_eq_some_iff.1 hc).1]
      exact hc
  rw [hget] at hs
  cases hp : set.resources.get t with
  | none =>
    rw [hp] at hs hsnd
    cases hs
    refine ⟨f2, f3, by rw [f4]; exact List.prefix_refl _, ?_, fun _ => hsnd, fun _ => f1, fun h => (by cases h)⟩
    rw [f4, panicsIn_self]; exact rfl
  | some p =>
    rw [hp] at hs hsnd
    dsimp only at hs
    have hf := letGo_frame D false p s1
    have hsd := letGo_sound D false hsnd
    have ho := letGo_once D false p s1
    generalize s1.letGo D false p = q at hs hf hsd ho
    obtain ⟨d, s2⟩ := q
    dsimp only at hs hf hsd ho
    obtain ⟨g1, g2, g3, g4⟩ := hf
    rw [f4] at g4 ho
    rcases ho with ⟨rfl, hk⟩ | ⟨rfl, hk⟩
    · cases hs
      exact ⟨g2.trans f2, g3.trans f3, g4, hk, fun _ => hsd, fun _ => g1.trans f1, fun h => (by cases h)⟩
    · rw [if_neg (by simp)] at hs
      have hlt : ∀ e ∈ (set.withResource s.heap t v).1.resources.entries, e.2 < s2.heap.length := by
        intro e he
        rw [g2, f2, List.length_append, List.length_singleton]
        have hsr : BTreeMap.Sorted (set.withResource s.heap t v).1.resources.entries := BTreeMap.sorted_insertL (hi.sorted set hset)
        obtain ⟨u, hu⟩ := (entry_iff hsr e.2).1 ⟨e, he, rfl⟩
        have hu' := (get_insert (hi.sorted set hset) t u s.heap.length).symm.trans hu
        split at hu'
        · rw [Option.some.injEq] at hu'; omega
        · rw [hi.set set hset] at hu'
          have := lastRegOf_lt hu'
          rw [← hi.length] at this
          omega
      obtain ⟨i1, i2, i3, i4, i5⟩ := dropSet_sound D (set.withResource s.heap t v).1.resources.entries true s2 hsd (g1.trans f1) hlt
      generalize s2.dropSet D true (set.withResource s.heap t v).1.resources.entries = w at hs i1 i2 i3 i4 i5
      obtain ⟨d, s3⟩ := w
      dsimp only at hs i1 i2 i3 i4 i5
      rw [Option.some.injEq, Prod.mk.injEq] at hs
      obtain ⟨rfl, rfl⟩ := hs
      refine ⟨i1.trans (g2.trans f2), i2.trans (g3.trans f3), g4.trans i3, ?_, fun h => ?_, fun h => ?_, fun h => ?_⟩
      · rw [panicsIn_add D g4.length_le i3.length_le, hk]
        cases d with
        | calm => rw [show panicsIn D s2.drops.length s3.drops.length = 0 from i4]; exact rfl
        | panicking => exact i4.elim
        | aborted => rw [show panicsIn D s2.drops.length s3.drops.length = 1 from i4]; exact rfl
      · exact (i5 fun e => h (by rw [if_pos e])).2
      · split at h <;> cases h
      · exact (i5 fun e => by rw [if_pos e] at h; cases h).1

theorem dropSchema_core {h : List (HoldCall Val × HoldAnswer Val)} {s : Holdings Val} (hi : HInv h s)
    {D : Nat → Bool} {a : HoldAnswer Val} {s' : Holdings Val} (hs : s.step D .dropSchema = some (a, s')) :
    s'.heap = s.heap ∧ s'.handles = s.handles ∧ s.drops <+: s'.drops ∧
      a.Fits (panicsIn D s.drops.length s'.drops.length) ∧ (a ≠ .abort → Sound s' none ∧ s'.set = none) := by
  simp only [Holdings.step] at hs
  cases hset : s.set with
  | none => rw [hset] at hs; cases hs
  | some set =>
    rw [hset] at hs
    dsimp only at hs
    have hlt : ∀ e ∈ set.resources.entries, e.2 < s.heap.length := by
      intro e he
      obtain ⟨u, hu⟩ := (entry_iff (hi.sorted set hset) e.2).1 ⟨e, he, rfl⟩
      rw [hi.set set hset] at hu
      rw [hi.length]
      exact lastRegOf_lt hu
    obtain ⟨i1, i2, i3, i4, i5⟩ := dropSet_sound D set.resources.entries false s hi.sound hset hlt
    generalize s.dropSet D false set.resources.entries = w at hs i1 i2 i3 i4 i5
    obtain ⟨d, s3⟩ := w
    dsimp only at hs i1 i2 i3 i4 i5
    rw [Option.some.injEq, Prod.mk.injEq] at hs
    obtain ⟨rfl, rfl⟩ := hs
    refine ⟨i1, i2, i3, i4.answer, fun h => ?_⟩
    have := i5 fun e => h (by rw [e]; rfl)
    exact ⟨this.2, this.1⟩

end

omit [Ord Ty] [DecidableEq Ty] in
theorem handle_eq {s : Holdings Val} {k : Nat} {x : ResHandle Ty} :
    s.handle k = some x ↔ s.handles[k]? = some x ∧ x.status = .live := by
  unfold Holdings.handle
  cases s.handles[k]? with
  | none => simp
  | some y =>
    dsimp only
    split <;> rename_i hy
    · simp only [Option.some.injEq]
      exact ⟨fun e => ⟨e, e ▸ hy⟩, fun e => e.1⟩
    · simp only [Option.some.injEq]
      exact ⟨fun e => (by cases e), fun e => absurd (e.1 ▸ e.2) hy⟩

omit [Ord Ty] [DecidableEq Ty] in
/-- A handle gets another status. -/
theorem countP_status (hs : List (ResHandle Ty)) (k : Nat) (x : ResHandle Ty) (hx : hs[k]? = some x) (hl : x.status = .live)
    (e : CtxEnd) (r : Nat) :
    ((hs.modify k fun x => { x with status := e }).countP fun x => x.status != .dropped && x.cell == some r) +
        (if e = .dropped ∧ x.cell = some r then 1 else 0) =
      hs.countP fun x => x.status != .dropped && x.cell == some r := by
  induction hs generalizing k with
  | nil => cases hx
  | cons y hs ih =>
    cases k with
    | zero =>
      simp only [List.getElem?_cons_zero, Option.some.injEq] at hx
      subst hx
      simp only [List.modify_zero_cons, List.countP_cons, hl]
      cases e <;> by_cases hc : y.cell = some r <;> simp [hc]
    | succ k =>
      simp only [List.getElem?_cons_succ] at hx
      simp only [List.modify_succ_cons, List.countP_cons]
      have := ih k hx
      omega

omit [Ord Ty] [DecidableEq Ty] in
theorem strongCount_status (s : Holdings Val) (k : Nat) (x : ResHandle Ty) (hx : s.handles[k]? = some x) (hl : x.status = .live)
    (e : CtxEnd) (r : Nat) :
    { s with handles := s.handles.modify k fun x => { x with status := e } }.strongCount r +
        (if e = .dropped ∧ x.cell = some r then 1 else 0) = s.strongCount r := by
  have := countP_status s.handles k x hx hl e r
  unfold Holdings.strongCount
  dsimp only
  omega

theorem dropHandle_core {h : List (HoldCall Val × HoldAnswer Val)} {s : Holdings Val} (hi : HInv h s)
    {D : Nat → Bool} {k : Nat} {a : HoldAnswer Val} {s' : Holdings Val} (hs : s.step D (.dropHandle k) = some (a, s')) :
    ∃ x, s.handles[k]? = some x ∧ x.status = .live ∧ s'.heap = s.heap ∧ s'.set = s.set ∧
      s'.handles = (s.handles.modify k fun x => { x with status := .dropped }) ∧ s.drops <+: s'.drops ∧
      a.Fits (panicsIn D s.drops.length s'.drops.length) ∧ Sound s' none := by
  simp only [Holdings.step] at hs
  cases hx : s.handle k with
  | none => rw [hx] at hs; cases hs
  | some x =>
    rw [hx] at hs
    dsimp only at hs
    obtain ⟨hk, hl⟩ := handle_eq.1 hx
    have hcount := strongCount_status s k x hk hl .dropped
    generalize hs1 : ({ s with handles := s.handles.modify k fun x => { x with status := .dropped } } : Holdings Val) = s1
      at hs hcount
    have f1 : s1.set = s.set := by rw [← hs1]
    have f2 : s1.heap = s.heap := by rw [← hs1]
    have f3 : s1.handles = s.handles.modify k fun x => { x with status := .dropped } := by rw [← hs1]
    have f4 : s1.drops = s.drops := by rw [← hs1]
    have hsnd : Sound s1 x.cell := by
      refine ⟨by rw [f4]; exact hi.sound.nodup, fun r hr => ?_, fun r hr => ?_, fun r d hm => ?_⟩
      · have hc := hcount r
        rw [if_neg (fun e => hr e.2), Nat.add_zero] at hc
        rw [f4, f2, hc]
        exact hi.sound.mem r (by simp)
      · have hlt := hi.cells x (List.mem_of_getElem? hk) r hr
        refine ⟨fun hm => ?_, by rw [f2]; exact hlt⟩
        rw [f4] at hm
        have h0 := ((hi.sound.mem r (by simp)).1 hm).2
        have hc := hcount r
        rw [if_pos ⟨rfl, hr⟩, h0] at hc
        omega
      · rw [f4] at hm; rw [f2]; exact hi.sound.vals r d hm
    refine ⟨x, hk, hl, ?_⟩
    cases hp : x.cell with
    | none =>
      rw [hp] at hs hsnd
      cases hs
      refine ⟨f2, f1, f3, by rw [f4]; exact List.prefix_refl _, ?_, hsnd⟩
      rw [f4, panicsIn_self]; exact rfl
    | some p =>
      rw [hp] at hs hsnd
      dsimp only at hs
      have hf := letGo_frame D false p s1
      have hsd := letGo_sound D false hsnd
      have ho := letGo_once D false p s1
      generalize s1.letGo D false p = q at hs hf hsd ho
      obtain ⟨d, s2⟩ := q
      dsimp only at hs hf hsd ho
      obtain ⟨g1, g2, g3, g4⟩ := hf
      rw [f4] at g4 ho
      rw [Option.some.injEq, Prod.mk.injEq] at hs
      obtain ⟨rfl, rfl⟩ := hs
      refine ⟨g2.trans f2, g1.trans f1, g3.trans f3, g4, ?_, hsd⟩
      rcases ho with ⟨rfl, hk⟩ | ⟨rfl, hk⟩
      · exact hk
      · exact hk

/-! ## Histories -/

omit [Ord Ty] [DecidableEq Ty] in
theorem handleDropped_cons (h : List (HoldCall Val × HoldAnswer Val)) (x : HoldCall Val) (a : HoldAnswer Val) (k : Nat) :
    HandleDropped ((x, a) :: h) k ↔ x = .dropHandle k ∨ HandleDropped h k := by
  unfold HandleDropped
  simp only [List.mem_cons, Prod.mk.injEq]
  constructor
  · rintro ⟨b, ⟨e, _⟩ | hm⟩
    · exact .inl e.symm
    · exact .inr ⟨b, hm⟩
  · rintro (rfl | ⟨b, hm⟩)
    · exact ⟨a, .inl ⟨rfl, rfl⟩⟩
    · exact ⟨b, .inr hm⟩

omit [Ord Ty] [DecidableEq Ty] in
theorem handleForgotten_cons (h : List (HoldCall Val × HoldAnswer Val)) (x : HoldCall Val) (a : HoldAnswer Val) (k : Nat) :
    HandleForgotten ((x, a) :: h) k ↔ x = .forgetHandle k ∨ HandleForgotten h k := by
  unfold HandleForgotten
  simp only [List.mem_cons, Prod.mk.injEq]
  constructor
  · rintro ⟨b, ⟨e, _⟩ | hm⟩
    · exact .inl e.symm
    · exact .inr ⟨b, hm⟩
  · rintro (rfl | ⟨b, hm⟩)
    · exact ⟨a, .inl ⟨rfl, rfl⟩⟩
    · exact ⟨b, .inr hm⟩

omit [Ord Ty] [DecidableEq Ty] in
theorem status_modify (hs : List (ResHandle Ty)) (j k : Nat) (x : ResHandle Ty) (hx : hs[j]? = some x) (hl : x.status = .live)
    (e e' : CtxEnd) (he : e' ≠ .live) :
    (∃ y, (hs.modify j fun x => { x with status := e })[k]? = some y ∧ y.status = e') ↔
      (k = j ∧ e = e') ∨ ∃ y, hs[k]? = some y ∧ y.status = e' := by
  rw [List.getElem?_modify]
  by_cases hk : j = k
  · subst hk
    rw [hx]
    simp only [if_true, Option.map_eq_map, Option.map_some, Option.some.injEq, true_and]
    constructor
    · rintro ⟨y, rfl, h⟩; exact .inl h
    · rintro (rfl | ⟨y, rfl, h⟩)
      · exact ⟨_, rfl, rfl⟩
      · exact absurd (h.symm.trans hl) he
  · simp only [if_neg hk, Option.map_eq_map, Option.map_id']
    exact ⟨.inr, fun h => h.resolve_left fun h => hk h.1.symm⟩

section
variable [TransOrd Ty] [LawfulEqOrd Ty]

omit [TransOrd Ty] [LawfulEqOrd Ty] in
theorem hinv_start : HInv (Val := Val) [] Holdings.start := by
  refine ⟨⟨List.nodup_nil, fun r _ => ?_, fun r h => (by cases h), fun r d h => (by cases h)⟩, rfl, fun set e => ?_, fun set e t => ?_,
    rfl, fun r => ?_, rfl, fun x h => (by cases h), fun k => ?_, fun k => ?_⟩
  · simp [Holdings.start]
  · cases e; exact List.Pairwise.nil
  · cases e; rfl
  · simp [Holdings.start, valueOf]
  · simp [HandleDropped, Holdings.start]
  · simp [HandleForgotten, Holdings.start]

theorem HInv.register {h : List (HoldCall Val × HoldAnswer Val)} {s : Holdings Val} (hi : HInv h s) {D : Nat → Bool} {t : Ty}
    {v : Val t} {a : HoldAnswer Val} {s' : Holdings Val} (hs : s.step D (.register t v) = some (a, s')) (ha : a ≠ .abort) :
    HInv ((.register t v, a) :: h) s' := by
  cases hset : s.set with
  | none => simp only [Holdings.step, hset] at hs; cases hs
  | some set =>
    obtain ⟨c1, c2, _, c4, c5, c6, c7⟩ := register_core hi hset hs
    have hg : schemaGone h = false := by rw [← hi.gone, hset]; rfl
    have hcase : a = .none ∨ a = .panic := by
      cases a with
      | none => exact .inl rfl
      | panic => exact .inr rfl
      | abort => exact absurd rfl ha
      | value t v => exact c4.elim
      | ran b => exact c4.elim
    refine ⟨c5 ha, ?_, fun set' e => ?_, fun set' e u => ?_, ?_, fun r => ?_, ?_, fun x hx p hp => ?_, fun k => ?_, fun k => ?_⟩
    · rcases hcase with rfl | rfl
      · rw [c6 rfl]; simp [schemaGone, hg]
      · rw [c7 rfl]; simp [schemaGone]
    · rcases hcase with rfl | rfl
      · rw [c6 rfl] at e; cases e
        exact BTreeMap.sorted_insertL (hi.sorted set hset)
      · rw [c7 rfl] at e; cases e
    · rcases hcase with rfl | rfl
      · rw [c6 rfl] at e; cases e
        have := get_insert (hi.sorted set hset) t u s.heap.length
        refine this.trans ?_
        simp only [typesOf, lastRegOf, hi.set set hset, hi.length, compare_eq_iff_eq]
        by_cases e : u = t
        · simp [e]
        · rw [if_neg e, if_neg fun e' => e e'.symm]
      · rw [c7 rfl] at e; cases e
    · rw [c1, List.length_append, hi.length]; rfl
    · rw [c1]
      simp only [valueOf]
      rw [← hi.length, ← hi.vals r]
      by_cases e : r = s.heap.length
      · subst e; simp
      · rw [if_neg e]
        rcases Nat.lt_or_gt_of_ne e with hlt | hgt
        · rw [List.getElem?_append_left hlt]
        · rw [List.getElem?_eq_none (by rw [List.length_append, List.length_singleton]; omega),
            List.getElem?_eq_none (by omega)]
    · rw [c2, hi.handles]; rfl
    · rw [c2] at hx
      rw [c1, List.length_append]
      exact Nat.lt_add_right _ (hi.cells x hx p hp)
    · rw [handleDropped_cons, c2, ← hi.dropped k]; simp
    · rw [handleForgotten_cons, c2, ← hi.forgotten k]; simp

theorem HInv.take {h : List (HoldCall Val × HoldAnswer Val)} {s : Holdings Val} (hi : HInv h s) {D : Nat → Bool} {t : Ty}
    {a : HoldAnswer Val} {s' : Holdings Val} (hs : s.step D (.take t) = some (a, s')) :
    a = .none ∧ s'.drops = s.drops ∧ HInv ((.take t, a) :: h) s' := by
  simp only [Holdings.step] at hs
  cases hset : s.set with
  | none => rw [hset] at hs; cases hs
  | some set =>
    rw [hset] at hs
    simp only [Option.some.injEq, Prod.mk.injEq] at hs
    obtain ⟨rfl, rfl⟩ := hs
    have hg : schemaGone h = false := by rw [← hi.gone, hset]; rfl
    have hlock : (set.res t).lock = lastRegOf (typesOf h) t := hi.set set hset t
    have hcount : ∀ r, lastRegOf (typesOf h) t = some r → s.strongCount r ≠ 0 := fun r hr =>
      (hi.owned r).2 (.inl ⟨hg, t, hr⟩)
    refine ⟨rfl, rfl, ⟨hi.sound.nodup, fun r _ => ?_, fun r e => (by cases e), hi.sound.vals⟩, ?_, ?_, ?_, hi.length,
      hi.vals, ?_, fun x hx p hp => ?_, fun k => ?_, fun k => ?_⟩
    · rw [hi.sound.mem r (by simp)]
      have : ({ s with handles := s.handles ++ [⟨t, (set.res t).lock, .live⟩] } : Holdings Val).strongCount r =
          s.strongCount r + if lastRegOf (typesOf h) t = some r then 1 else 0 := by
        unfold Holdings.strongCount
        simp only [List.countP_append, List.countP_cons, List.countP_nil, hlock]
        by_cases e : lastRegOf (typesOf h) t = some r <;> simp [e] <;> omega
      rw [hset] at this
      dsimp only at this ⊢
      rw [this]
      by_cases e : lastRegOf (typesOf h) t = some r
      · have := hcount r e
        simp [e, this]
      · simp [e]
    · show false = schemaGone h
      exact hg.symm
    · exact fun set' e => hi.sorted set' (hset.trans e)
    · exact fun set' e => hi.set set' (hset.trans e)
    · simp only [List.map_append, hi.handles, List.map_cons, List.map_nil, hlock]; rfl
    · rcases List.mem_append.1 hx with hx | hx
      · exact hi.cells x hx p hp
      · rw [List.mem_singleton] at hx; subst hx
        dsimp only at hp
        rw [hlock] at hp
        rw [hi.length]
        exact lastRegOf_lt hp
    · rw [handleDropped_cons, hi.dropped k]
      simp only [reduceCtorEq, false_or]
      constructor
      · rintro ⟨x, hx, hd⟩
        exact ⟨x, by rw [List.getElem?_append_left (List.getElem?_eq_some_iff.1 hx).1]; exact hx, hd⟩
      · rintro ⟨x, hx, hd⟩
        rw [List.getElem?_append] at hx
        split at hx
        · exact ⟨x, hx, hd⟩
        · have := List.mem_of_getElem? hx
          rw [List.mem_singleton] at this; subst this; cases hd
    · rw [handleForgotten_cons, hi.forgotten k]
      simp only [reduceCtorEq, false_or]
      constructor
      · rintro ⟨x, hx, hd⟩
        exact ⟨x, by rw [List.getElem?_append_left (List.getElem?_eq_some_iff.1 hx).1]; exact hx, hd⟩
      · rintro ⟨x, hx, hd⟩
        rw [List.getElem?_append] at hx
        split at hx
        · exact ⟨x, hx, hd⟩
        · have := List.mem_of_getElem? hx
          rw [List.mem_singleton] at this; subst this; cases hd

omit [TransOrd Ty] [LawfulEqOrd Ty] in
theorem HInv.read {h : List (HoldCall Val × HoldAnswer Val)} {s : Holdings Val} (hi : HInv h s) {k : Nat} {t : Ty}
    (a : HoldAnswer Val) : HInv ((.read k t, a) :: h) s :=
  ⟨hi.sound, hi.gone, hi.sorted, hi.set, hi.length, hi.vals, hi.handles, hi.cells,
    fun j => by rw [handleDropped_cons, ← hi.dropped j]; simp, fun j => by rw [handleForgotten_cons, ← hi.forgotten j]; simp⟩

omit [TransOrd Ty] [LawfulEqOrd Ty] in
/-- What a handle shows. -/
theorem HInv.at {h : List (HoldCall Val × HoldAnswer Val)} {s : Holdings Val} (hi : HInv h s) {k : Nat} {x : ResHandle Ty}
    (hx : s.handles[k]? = some x) : (handlesOf h)[k]? = some (x.type, x.cell) := by
  rw [← hi.handles, List.getElem?_map, hx]; rfl

omit [TransOrd Ty] [LawfulEqOrd Ty] in
theorem HInv.write {h : List (HoldCall Val × HoldAnswer Val)} {s : Holdings Val} (hi : HInv h s) {D : Nat → Bool} {k : Nat} {t : Ty}
    {f : Val t → Val t × Bool} {a : HoldAnswer Val} {s' : Holdings Val} (hs : s.step D (.write k t f) = some (a, s')) :
    s'.drops = s.drops ∧ HInv ((.write k t f, a) :: h) s' := by
  simp only [Holdings.step] at hs
  cases hx : s.handle k with
  | none => rw [hx] at hs; cases hs
  | some x =>
    rw [hx] at hs
    dsimp only at hs
    obtain ⟨hk, hl⟩ := handle_eq.1 hx
    split at hs
    · rename_i ht
      have hat := hi.at hk
      -- nothing changes
      have same : (∀ r, valueOf ((.write k t f, a) :: h) r = valueOf h r) → HInv ((.write k t f, a) :: h) s := fun hv =>
        ⟨hi.sound, hi.gone, hi.sorted, hi.set, hi.length, fun r => by rw [hv]; exact hi.vals r, hi.handles, hi.cells,
          fun j => by rw [handleDropped_cons, ← hi.dropped j]; simp,
          fun j => by rw [handleForgotten_cons, ← hi.forgotten j]; simp⟩
      cases hp : x.cell with
      | none =>
        simp only [Res.withMut, hp, Option.some.injEq, Prod.mk.injEq] at hs
        obtain ⟨rfl, rfl⟩ := hs
        refine ⟨rfl, same fun r => ?_⟩
        simp only [valueOf, hat, hp]
      | some p =>
        have hlt := hi.cells x (List.mem_of_getElem? hk) p hp
        obtain ⟨c, hc⟩ : ∃ c, s.heap[p]? = some c := ⟨_, List.getElem?_eq_getElem hlt⟩
        have hval : valueOf h p = some (c.val, c.poisoned) := by rw [← hi.vals p, hc]; rfl
        simp only [Res.withMut, hp, hc] at hs
        by_cases hpo : c.poisoned = true
        · rw [if_pos hpo] at hs
          simp only [Option.some.injEq, Prod.mk.injEq] at hs
          obtain ⟨rfl, rfl⟩ := hs
          refine ⟨rfl, same fun r => ?_⟩
          simp only [valueOf, hat, hp]
          split
          · rename_i e; subst e; rw [hval, hpo]
          · rfl
        · rw [if_neg hpo] at hs
          have hpo' : c.poisoned = false := by simpa using hpo
          cases hd : c.val.downcast t with
          | none =>
            rw [hd] at hs
            simp only [Option.some.injEq, Prod.mk.injEq] at hs
            obtain ⟨rfl, rfl⟩ := hs
            refine ⟨rfl, same fun r => ?_⟩
            simp only [valueOf, hat, hp]
            split
            · rename_i e; subst e; rw [hval, hpo']; dsimp only; rw [hd]
            · rfl
          | some v =>
            rw [hd] at hs
            dsimp only at hs
            have hset : s'.drops = s.drops ∧ s'.set = s.set ∧ s'.handles = s.handles ∧
                s'.heap = s.heap.set p ⟨⟨t, (f v).1⟩, (f v).2⟩ := by
              cases hf : (f v).2 <;> simp only [hf, if_true, if_false, Bool.false_eq_true, Option.some.injEq, Prod.mk.injEq] at hs <;>
                obtain ⟨-, rfl⟩ := hs <;> exact ⟨rfl, rfl, rfl, rfl⟩
            obtain ⟨e1, e2, e3, e4⟩ := hset
            have hnd : p ∉ s.drops.map Prod.fst := fun hm => by
              have h0 := ((hi.sound.mem p (by simp)).1 hm).2
              have : 0 < s.handles.countP fun x => x.status != .dropped && x.cell == some p :=
                List.countP_pos_iff.2 ⟨x, List.mem_of_getElem? hk, by simp [hl, hp]⟩
              unfold Holdings.strongCount at h0
              omega
            have hlen : s'.heap.length = s.heap.length := by rw [e4, List.length_set]
            refine ⟨e1, ⟨by rw [e1]; exact hi.sound.nodup, fun r hr => ?_, fun r e => (by cases e), fun r d hm => ?_⟩,
              by rw [e2]; exact hi.gone, by rw [e2]; exact hi.sorted, by rw [e2]; exact hi.set, by rw [hlen]; exact hi.length,
              fun r => ?_, by rw [e3]; exact hi.handles, by rw [e3, hlen]; exact hi.cells,
              fun j => by rw [handleDropped_cons, e3, ← hi.dropped j]; simp,
              fun j => by rw [handleForgotten_cons, e3, ← hi.forgotten j]; simp⟩
            · rw [e1, hlen, strongCount_congr e2 e3]; exact hi.sound.mem r hr
            · rw [e1] at hm
              obtain ⟨c', hc', hv'⟩ := hi.sound.vals r d hm
              have hne : p ≠ r := fun e => hnd (e ▸ List.mem_map.2 ⟨_, hm, rfl⟩)
              exact ⟨c', by rw [e4, List.getElem?_set_ne hne]; exact hc', hv'⟩
            · simp only [valueOf, hat, hp]
              rw [e4]
              by_cases hr : p = r
              · subst hr
                rw [if_pos rfl, hval, hpo']
                dsimp only
                rw [hd, List.getElem?_set_self hlt]
                rfl
              · rw [if_neg hr, List.getElem?_set_ne hr]
                exact hi.vals r
    · cases hs

omit [TransOrd Ty] [LawfulEqOrd Ty] in
theorem HInv.dropHandle {h : List (HoldCall Val × HoldAnswer Val)} {s : Holdings Val} (hi : HInv h s) {D : Nat → Bool} {k : Nat}
    {a : HoldAnswer Val} {s' : Holdings Val} (hs : s.step D (.dropHandle k) = some (a, s')) :
    HInv ((.dropHandle k, a) :: h) s' := by
  obtain ⟨x, hx, hl, e1, e2, e3, _, _, e6⟩ := dropHandle_core hi hs
  have hmap : ∀ y ∈ s'.handles, ∃ z ∈ s.handles, z.cell = y.cell := by
    intro y hy
    rw [e3] at hy
    obtain ⟨j, hj⟩ := List.mem_iff_getElem?.1 hy
    rw [List.getElem?_modify, Option.map_eq_map, Option.map_eq_some_iff] at hj
    obtain ⟨z, hz, he⟩ := hj
    exact ⟨z, List.mem_of_getElem? hz, by rw [← he]; split <;> rfl⟩
  refine ⟨e6, by rw [e2]; exact hi.gone, by rw [e2]; exact hi.sorted, by rw [e2]; exact hi.set, by rw [e1]; exact hi.length,
    by rw [e1]; exact hi.vals, ?_, fun y hy p hp => ?_, fun j => ?_, fun j => ?_⟩
  · show _ = handlesOf h
    rw [← hi.handles, e3]
    apply List.ext_getElem?
    intro i
    simp only [List.getElem?_map, List.getElem?_modify, Option.map_eq_map, Option.map_map]
    congr 1
    funext y
    simp only [Function.comp]
    split <;> rfl
  · obtain ⟨z, hz, hc⟩ := hmap y hy
    rw [e1]
    exact hi.cells z hz p (hc.trans hp)
  · rw [handleDropped_cons, e3, status_modify s.handles k j x hx hl .dropped .dropped (by simp), hi.dropped j]
    simp [eq_comm]
  · rw [handleForgotten_cons, e3, status_modify s.handles k j x hx hl .dropped .forgotten (by simp), hi.forgotten j]
    simp

omit [TransOrd Ty] [LawfulEqOrd Ty] in
theorem HInv.forgetHandle {h : List (HoldCall Val × HoldAnswer Val)} {s : Holdings Val} (hi : HInv h s) {D : Nat → Bool} {k : Nat}
    {a : HoldAnswer Val} {s' : Holdings Val} (hs : s.step D (.forgetHandle k) = some (a, s')) :
    a = .none ∧ s'.drops = s.drops ∧ HInv ((.forgetHandle k, a) :: h) s' := by
  simp only [Holdings.step] at hs
  cases hx : s.handle k with
  | none => rw [hx] at hs; cases hs
  | some x =>
    rw [hx] at hs
    simp only [Option.some.injEq, Prod.mk.injEq] at hs
    obtain ⟨rfl, rfl⟩ := hs
    obtain ⟨hk, hl⟩ := handle_eq.1 hx
    have hcount := strongCount_status s k x hk hl .forgotten
    refine ⟨rfl, rfl, ⟨hi.sound.nodup, fun r hr => ?_, fun r e => (by cases e), hi.sound.vals⟩, hi.gone, hi.sorted, hi.set,
      hi.length, hi.vals, ?_, fun y hy p hp => ?_, fun j => ?_, fun j => ?_⟩
    · have := hcount r
      rw [if_neg (by simp), Nat.add_zero] at this
      rw [this]
      exact hi.sound.mem r hr
    · show _ = handlesOf h
      rw [← hi.handles]
      apply List.ext_getElem?
      intro i
      simp only [List.getElem?_map, List.getElem?_modify, Option.map_eq_map, Option.map_map]
      congr 1
      funext y
      simp only [Function.comp]
      split <;> rfl
    · obtain ⟨j, hj⟩ := List.mem_iff_getElem?.1 hy
      rw [List.getElem?_modify, Option.map_eq_map, Option.map_eq_some_iff] at hj
      obtain ⟨z, hz, he⟩ := hj
      exact hi.cells z (List.mem_of_getElem? hz) p (by rw [← hp, ← he]; split <;> rfl)
    · rw [handleDropped_cons, status_modify s.handles k j x hk hl .forgotten .dropped (by simp), hi.dropped j]
      simp
    · rw [handleForgotten_cons, status_modify s.handles k j x hk hl .forgotten .forgotten (by simp), hi.forgotten j]
      simp [eq_comm]

theorem HInv.dropSchema {h : List (HoldCall Val × HoldAnswer Val)} {s : Holdings Val} (hi : HInv h s) {D : Nat → Bool}
    {a : HoldAnswer Val} {s' : Holdings Val} (hs : s.step D .dropSchema = some (a, s')) (ha : a ≠ .abort) :
    HInv ((.dropSchema, a) :: h) s' := by
  obtain ⟨e1, e2, _, _, e5⟩ := dropSchema_core hi hs
  obtain ⟨e6, e7⟩ := e5 ha
  refine ⟨e6, by rw [e7]; rfl, fun set e => (by rw [e7] at e; cases e), fun set e => (by rw [e7] at e; cases e),
    by rw [e1]; exact hi.length, by rw [e1]; exact hi.vals, by rw [e2]; exact hi.handles, by rw [e1, e2]; exact hi.cells,
    fun k => ?_, fun k => ?_⟩
  · rw [handleDropped_cons, e2, ← hi.dropped k]; simp
  · rw [handleForgotten_cons, e2, ← hi.forgotten k]; simp

theorem HInv.step {h : List (HoldCall Val × HoldAnswer Val)} {s : Holdings Val} (hi : HInv h s) {D : Nat → Bool} {x : HoldCall Val}
    {a : HoldAnswer Val} {s' : Holdings Val} (hs : s.step D x = some (a, s')) (ha : a ≠ .abort) : HInv ((x, a) :: h) s' := by
  cases x with
  | register t v => exact hi.register hs ha
  | take t => exact (hi.take hs).2.2
  | read k t =>
    have : s' = s := by
      simp only [Holdings.step] at hs
      split at hs
      · cases hs
      · split at hs
        · rw [Option.some.injEq, Prod.mk.injEq] at hs; exact hs.2.symm
        · cases hs
    rw [this]
    exact hi.read a
  | write k t f => exact (hi.write hs).2
  | dropHandle k => exact hi.dropHandle hs
  | forgetHandle k => exact (hi.forgetHandle hs).2.2
  | dropSchema => exact hi.dropSchema hs ha

theorem keeps_inv {D : Nat → Bool} {h : List (HoldCall Val × HoldAnswer Val)} {s : Holdings Val} (hk : Keeps D h s) : HInv h s := by
  induction hk with
  | start => exact hinv_start
  | call _ hs ha ih => exact ih.step hs ha

end

end Plotline
