import Verif.Lemmas.App
import Verif.Lemmas.Alike

/-!
# Invariants of the resources of a program using a schema
-/

namespace Plotline

open Std

variable {σ : Sig}

/-- What the program did to resources. -/
structure AppResInv (h : List (AppCall σ)) (a : App σ) : Prop where
  sorted : BTreeMap.Sorted a.schema.env.resources.resources.entries
  nr : a.schema.heap.length = registered h
  reg : ∀ t, (a.schema.env.resources.res t).lock = lastRegistered h t
  cell : ∀ p l, a.schema.heap[p]? = some l → resHolds h p = if l.poisoned then none else some l.val
  nh : a.handles.length = resMade h
  handle : ∀ k, resOf h k = (a.handles[k]?).map fun x => (x.1, x.2.lock)
  ng : a.resGuards.length = resGuardsMade h
  guard : ∀ n, resGuardOf h n = (a.resGuards[n]?).map fun x => (x.type, x.excl, x.cell)
  kept : ∀ n, ResKept h n ↔ ∃ x, a.resGuards[n]? = some x ∧ x.status ≠ .dropped
  usable : ∀ n, ResUsable h n ↔ ∃ x, a.resGuards[n]? = some x ∧ x.status = .live
  regTyped : ∀ t p, (a.schema.env.resources.res t).lock = some p → ∃ l, a.schema.heap[p]? = some l ∧ l.val.1 = t
  handleTyped : ∀ (k : Nat) t p, a.handles[k]? = some ⟨t, ⟨some p⟩⟩ → ∃ l, a.schema.heap[p]? = some l ∧ l.val.1 = t
  guardTyped : ∀ (n : Nat) x p, a.resGuards[n]? = some x → x.cell = some p → ∃ l, a.schema.heap[p]? = some l ∧ l.val.1 = x.type ∧
    (x.status ≠ .dropped → l.poisoned = false)
  excl : ∀ (n m : Nat) x y p, a.resGuards[n]? = some x → a.resGuards[m]? = some y → x.cell = some p → y.cell = some p →
    x.status ≠ .dropped → y.status ≠ .dropped → x.excl = true → n = m

section
variable {g : Graph σ.K σ.T} {h : List (AppCall σ)} {a a' : App σ}

theorem appRes_start : AppResInv ([] : List (AppCall σ)) (App.start g) := by
  constructor <;> simp [App.start, Schema.fromGraph, registered, lastRegistered, resHolds, resMade, resOf, resGuardsMade, resGuardOf, ResKept,
    ResUsable, ResourceSet.res, ResourceSet.empty, BTreeMap.empty, BTreeMap.get, BTreeMap.findL, BTreeMap.Sorted]

/-- A call that has nothing to do with resources. -/
theorem AppResInv.congr (hI : AppResInv h a) {x : AppCall σ} (h1 : a'.schema.env.resources = a.schema.env.resources)
    (h2 : a'.schema.heap = a.schema.heap) (h3 : a'.handles = a.handles) (h4 : a'.resGuards = a.resGuards)
    (e1 : registered (x :: h) = registered h) (e2 : ∀ t, lastRegistered (x :: h) t = lastRegistered h t)
    (e3 : ∀ p, resHolds (x :: h) p = resHolds h p) (e4 : resMade (x :: h) = resMade h) (e5 : ∀ k, resOf (x :: h) k = resOf h k)
    (e6 : resGuardsMade (x :: h) = resGuardsMade h) (e7 : ∀ n, resGuardOf (x :: h) n = resGuardOf h n)
    (e8 : ∀ n, ResKept (x :: h) n ↔ ResKept h n) (e9 : ∀ n, ResUsable (x :: h) n ↔ ResUsable h n) : AppResInv (x :: h) a' where
  sorted := by rw [h1]; exact hI.sorted
  nr := by rw [h2, e1]; exact hI.nr
  reg t := by rw [h1, e2]; exact hI.reg t
  cell p l := by rw [h2, e3]; exact hI.cell p l
  nh := by rw [h3, e4]; exact hI.nh
  handle k := by rw [h3, e5]; exact hI.handle k
  ng := by rw [h4, e6]; exact hI.ng
  guard n := by rw [h4, e7]; exact hI.guard n
  kept n := by rw [e8, h4]; exact hI.kept n
  usable n := by rw [e9, h4]; exact hI.usable n
  regTyped := by rw [h1, h2]; exact hI.regTyped
  handleTyped := by rw [h2, h3]; exact hI.handleTyped
  guardTyped := by rw [h2, h4]; exact hI.guardTyped
  excl := by rw [h4]; exact hI.excl

theorem resGuard_some {n : Nat} {x : ResGuardVal σ.Ty} (hx : a.resGuard n = some x) : a.resGuards[n]? = some x ∧ x.status = .live := by
  unfold App.resGuard at hx
  split at hx
  · split at hx
    · cases hx; exact ⟨by assumption, by assumption⟩
    · cases hx
  · cases hx

theorem resGuard_usable (hI : AppResInv h a) (n : Nat) : ResUsable h n ↔ ∃ x, a.resGuard n = some x := by
  simp only [hI.usable, App.resGuard]
  cases hx : a.resGuards[n]? with
  | none => simp
  | some x => by_cases hs : x.status = .live <;> simp [hs]

theorem resLocked_iff (hI : AppResInv h a) (p : Nat) (e : Bool) : a.resLocked p e = true ↔
    ∃ g t' e', ResKept h g ∧ resGuardOf h g = some (t', e', some p) ∧ (e = true ∨ e' = true) := by
  simp only [App.resLocked, any_iff, Bool.and_eq_true, Bool.or_eq_true, beq_iff_eq, bne_iff_ne, hI.kept, hI.guard]
  constructor
  · rintro ⟨n, x, hx, ⟨h1, h2⟩, h3⟩
    exact ⟨n, x.type, x.excl, ⟨x, hx, h2⟩, by rw [hx]; simp [h1], h3⟩
  · rintro ⟨n, t, e', ⟨x, hx, h2⟩, h4, h3⟩
    rw [hx] at h4
    simp only [Option.map_some, Option.some.injEq, Prod.mk.injEq] at h4
    obtain ⟨_, h5, h6⟩ := h4
    exact ⟨n, x, hx, ⟨h6, h2⟩, by rw [h5]; exact h3⟩

theorem getElem?_snoc {α : Type} (l : List α) (x : α) (n : Nat) (y : α) :
    (l ++ [x])[n]? = some y ↔ l[n]? = some y ∨ (n = l.length ∧ y = x) := by
  rw [List.getElem?_append]
  split
  · rename_i hlt; constructor
    · exact .inl
    · rintro (h | ⟨rfl, _⟩)
      · exact h
      · omega
  · rename_i hge
    rw [List.getElem?_eq_none (l := l) (by omega)]
    by_cases hn : n = l.length
    · subst hn; simp [eq_comm]
    · rw [List.getElem?_eq_none (by simp; omega)]; simp [hn]

theorem appRes_register [LawfulSig σ] (hI : AppResInv h a) (t : σ.Ty) (v : σ.Val t) :
    AppResInv (.register t v :: h) { a with schema := a.schema.withResource t v } := by
  have hh : (a.schema.withResource t v).heap = a.schema.heap ++ [⟨⟨t, v⟩, false⟩] := rfl
  have hold : ∀ (p : Nat) (l : Lock (Dyn σ.Val)), a.schema.heap[p]? = some l → (a.schema.withResource t v).heap[p]? = some l :=
    fun p l hp => by rw [hh, getElem?_snoc]; exact .inl hp
  refine ⟨BTreeMap.sorted_insertL hI.sorted, ?_, ?_, ?_, hI.nh, hI.handle, hI.ng, ?_, hI.kept, hI.usable, ?_, ?_, ?_, hI.excl⟩
  · simp [hh, hI.nr, registered]
  · intro u
    show ((a.schema.withResource t v).env.resources.res u).lock = _
    rw [lock_withResource hI.sorted, hI.reg, hI.nr]
    simp only [lastRegistered, eq_comm]
  · intro p l hp
    simp only [hh] at hp
    rcases (getElem?_snoc _ _ _ _).1 hp with hp | ⟨rfl, rfl⟩
    · have hne : registered h ≠ p := by
        rw [← hI.nr]; have := (List.getElem?_eq_some_iff.1 hp).1; omega
      simp only [resHolds, if_neg hne]
      exact hI.cell p l hp
    · simp [resHolds, hI.nr]
  · intro n; simp only [resGuardOf]; exact hI.guard n
  · intro u p hp
    change ((a.schema.withResource t v).env.resources.res u).lock = _ at hp
    rw [lock_withResource hI.sorted] at hp
    split at hp
    · cases hp; rename_i he; exact ⟨⟨⟨t, v⟩, false⟩, by simp [hh], he.symm⟩
    · obtain ⟨l, h1, h2⟩ := hI.regTyped u p hp
      exact ⟨l, hold p l h1, h2⟩
  · intro k u p hk
    obtain ⟨l, h1, h2⟩ := hI.handleTyped k u p hk
    exact ⟨l, hold p l h1, h2⟩
  · intro n x p hx hp
    obtain ⟨l, h1, h2⟩ := hI.guardTyped n x p hx hp
    exact ⟨l, hold p l h1, h2⟩

theorem appRes_resource (hI : AppResInv h a) (t : σ.Ty) :
    AppResInv (.resource t a.handles.length :: h) { a with handles := a.handles ++ [⟨t, a.schema.env.resources.res t⟩] } := by
  refine ⟨hI.sorted, hI.nr, hI.reg, ?_, by simp [resMade, hI.nh], ?_, hI.ng, ?_, hI.kept, hI.usable, hI.regTyped, ?_, hI.guardTyped,
    hI.excl⟩
  · intro p l hp; simp only [resHolds]; exact hI.cell p l hp
  · intro k
    simp only [resOf]
    by_cases hk : a.handles.length = k
    · subst hk; simp [hI.reg]
    · rw [if_neg hk, hI.handle, List.getElem?_append]
      split
      · rfl
      · rw [List.getElem?_eq_none (by omega), List.getElem?_eq_none (by simp; omega)]
  · intro n; simp only [resGuardOf]; exact hI.guard n
  · intro k u p hk
    rcases (getElem?_snoc _ _ _ _).1 hk with hk | ⟨_, he⟩
    · exact hI.handleTyped k u p hk
    · have h1 := congrArg Sigma.fst he
      change u = t at h1
      subst h1
      have h2 := congrArg Res.lock (eq_of_heq (Sigma.mk.inj he).2)
      exact hI.regTyped u p h2.symm

/-- A guard is made, of a cell no other guard stands in the way of. -/
theorem appRes_lock (hI : AppResInv h a) {k : Nat} {t : σ.Ty} {c c' : Option Nat} {e : Bool} (hk : a.handles[k]? = some ⟨t, ⟨c⟩⟩)
    (hc : ∀ p, c = some p → a.resLocked p e = false ∧
      ∃ l, a.schema.heap[p]? = some l ∧ c' = if l.poisoned then none else some p) (hn : c = none → c' = none) :
    AppResInv (.lockRes k e a.resGuards.length :: h) { a with resGuards := a.resGuards ++ [⟨t, e, c', .live⟩] } := by
  have hsub : ∀ p, c' = some p → c = some p ∧ a.resLocked p e = false ∧ ∃ l, a.schema.heap[p]? = some l ∧ l.poisoned = false := by
    intro p hp
    cases hcc : c with
    | none => rw [hn hcc] at hp; cases hp
    | some q =>
      obtain ⟨h1, l, h2, h3⟩ := hc q hcc
      rw [h3] at hp
      split at hp
      · cases hp
      · rename_i hpo; cases hp; exact ⟨rfl, h1, l, h2, by simpa using hpo⟩
  refine ⟨hI.sorted, hI.nr, hI.reg, ?_, hI.nh, hI.handle, by simp [resGuardsMade, hI.ng], ?_, ?_, ?_, hI.regTyped, hI.handleTyped, ?_, ?_⟩
  · intro p l hp; simp only [resHolds]; exact hI.cell p l hp
  · intro n
    simp only [resGuardOf]
    by_cases hk' : a.resGuards.length = n
    · subst hk'
      rw [if_pos rfl, hI.handle, hk]
      cases c with
      | none => simp [hn rfl]
      | some p =>
        obtain ⟨_, l, h2, h3⟩ := hc p rfl
        simp only [Option.map_some, hI.cell p l h2, h3]
        cases l.poisoned <;> simp
    · rw [if_neg hk', hI.guard, List.getElem?_append]
      split
      · rfl
      · rw [List.getElem?_eq_none (by omega), List.getElem?_eq_none (by simp; omega)]
  · intro n
    simp only [ResKept, hI.kept, getElem?_snoc]
    constructor
    · rintro (rfl | ⟨x, hx, hs⟩)
      · exact ⟨_, .inr ⟨rfl, rfl⟩, by simp⟩
      · exact ⟨x, .inl hx, hs⟩
    · rintro ⟨x, hx | ⟨rfl, rfl⟩, hs⟩
      · exact .inr ⟨x, hx, hs⟩
      · exact .inl rfl
  · intro n
    simp only [ResUsable, hI.usable, getElem?_snoc]
    constructor
    · rintro (rfl | ⟨x, hx, hs⟩)
      · exact ⟨_, .inr ⟨rfl, rfl⟩, rfl⟩
      · exact ⟨x, .inl hx, hs⟩
    · rintro ⟨x, hx | ⟨rfl, rfl⟩, hs⟩
      · exact .inr ⟨x, hx, hs⟩
      · exact .inl rfl
  · intro n x p hx hp
    rcases (getElem?_snoc _ _ _ _).1 hx with hx | ⟨rfl, rfl⟩
    · exact hI.guardTyped n x p hx hp
    · obtain ⟨h1, _, l, h2, h3⟩ := hsub p hp
      subst h1
      obtain ⟨l', h4, h5⟩ := hI.handleTyped k t p hk
      have : l = l' := by rw [h2] at h4; exact Option.some.inj h4
      subst this
      exact ⟨l, h2, h5, fun _ => h3⟩
  · intro n m x y p hx hy h1 h2 h3 h4 h5
    have hfree : ∀ (n : Nat) x, a.resGuards[n]? = some x → x.cell = some p → x.status ≠ .dropped → c' = some p →
        e = false ∧ x.excl = false := by
      intro n x hx hp hs hcp
      obtain ⟨_, h6, _⟩ := hsub p hcp
      have := (List.any_eq_false.1 h6) x (List.mem_of_getElem? hx)
      simpa [hp, hs] using this
    rcases (getElem?_snoc _ _ _ _).1 hx with hx | ⟨rfl, rfl⟩
    · rcases (getElem?_snoc _ _ _ _).1 hy with hy | ⟨rfl, rfl⟩
      · exact hI.excl n m x y p hx hy h1 h2 h3 h4 h5
      · rw [(hfree n x hx h1 h3 h2).2] at h5; cases h5
    · rcases (getElem?_snoc _ _ _ _).1 hy with hy | ⟨rfl, rfl⟩
      · change e = true at h5; rw [(hfree m y hy h2 h4 h1).1] at h5; cases h5
      · rfl

theorem appRes_assign (hI : AppResInv h a) {n p : Nat} {x : ResGuardVal σ.Ty} {l : Lock (Dyn σ.Val)} (hx : a.resGuards[n]? = some x)
    (hlive : x.status = .live) (hp : x.cell = some p) (hl : a.schema.heap[p]? = some l) (v : σ.Val x.type) :
    AppResInv (.assignRes n x.type v :: h)
      { a with schema := { a.schema with heap := a.schema.heap.set p { l with val := ⟨x.type, v⟩ } } } := by
  have hlt := (List.getElem?_eq_some_iff.1 hl).1
  have hset : ∀ (q : Nat) (m : Lock (Dyn σ.Val)), a.schema.heap[q]? = some m →
      ∃ m', (a.schema.heap.set p { l with val := ⟨x.type, v⟩ })[q]? = some m' ∧ m'.val.1 = m.val.1 ∧ m'.poisoned = m.poisoned := by
    intro q m hm
    by_cases hq : q = p
    · subst hq
      obtain ⟨l', h1, h2, _⟩ := hI.guardTyped n x q hx hp
      rw [h1] at hl hm; cases hl; cases hm
      exact ⟨_, List.getElem?_set_self hlt, h2.symm, rfl⟩
    · exact ⟨m, by rw [List.getElem?_set_ne (fun h => hq h.symm)]; exact hm, rfl, rfl⟩
  refine ⟨hI.sorted, by simp [hI.nr, registered], hI.reg, ?_, hI.nh, hI.handle, hI.ng, ?_, hI.kept, hI.usable, ?_, ?_, ?_, hI.excl⟩
  · intro q m hm
    simp only [resHolds, hI.guard, hx, Option.map_some, hp]
    by_cases hq : q = p
    · subst hq
      simp only [List.getElem?_set_self hlt] at hm
      cases hm
      obtain ⟨l', h1, h2, h3⟩ := hI.guardTyped n x q hx hp
      rw [h1] at hl; cases hl
      simp [h3 (by rw [hlive]; simp)]
    · simp only [List.getElem?_set_ne (fun h : p = q => hq h.symm)] at hm
      rw [if_neg (fun h => hq h.symm)]
      exact hI.cell q m hm
  · intro n; simp only [resGuardOf]; exact hI.guard n
  · intro t q hq
    obtain ⟨m, h1, h2⟩ := hI.regTyped t q hq
    obtain ⟨m', h3, h4, _⟩ := hset q m h1
    exact ⟨m', h3, h4.trans h2⟩
  · intro k t q hq
    obtain ⟨m, h1, h2⟩ := hI.handleTyped k t q hq
    obtain ⟨m', h3, h4, _⟩ := hset q m h1
    exact ⟨m', h3, h4.trans h2⟩
  · intro k y q hy hq
    obtain ⟨m, h1, h2, h5⟩ := hI.guardTyped k y q hy hq
    obtain ⟨m', h3, h4, h6⟩ := hset q m h1
    exact ⟨m', h3, h4.trans h2, fun hs => h6.trans (h5 hs)⟩

/-- The guard of a resource is given up. -/
theorem appRes_end (hI : AppResInv h a) {n : Nat} {x : ResGuardVal σ.Ty} {call : AppCall σ} {st : CtxEnd} (hx : a.resGuards[n]? = some x)
    (hlive : x.status = .live) (hc : (∃ b, call = .dropRes n b ∧ st = .dropped) ∨ (call = .forgetRes n ∧ st = .forgotten))
    (hdrop : ∀ b, call = .dropRes n b → ∀ p, x.cell = some p → a'.schema.heap =
      if b && x.excl then a.schema.heap.modify p fun l => { l with poisoned := true } else a.schema.heap)
    (hkeep : call = .forgetRes n ∨ x.cell = none → a'.schema.heap = a.schema.heap)
    (h1 : a'.schema.env.resources = a.schema.env.resources) (h3 : a'.handles = a.handles)
    (h4 : a'.resGuards = a.resGuards.modify n fun x => { x with status := st }) : AppResInv (call :: h) a' := by
  have hget : ∀ (m : Nat) (y : ResGuardVal σ.Ty), a'.resGuards[m]? = some y ↔
      (m ≠ n ∧ a.resGuards[m]? = some y) ∨ (m = n ∧ y = { x with status := st }) := by
    intro m y
    rw [h4]
    by_cases hm : m = n
    · subst hm; rw [getElem?_modify_self, hx]; simp [eq_comm]
    · rw [getElem?_modify_ne _ _ (fun h => hm h.symm)]; simp [hm]
  have hst : st ≠ .live := by rcases hc with ⟨_, _, rfl⟩ | ⟨_, rfl⟩ <;> simp
  -- what becomes of the cells
  have hcell : a'.schema.heap = a.schema.heap ∧ (∀ p, resHolds (call :: h) p = resHolds h p) ∨
      ∃ p, x.cell = some p ∧ x.excl = true ∧ call = .dropRes n true ∧
        a'.schema.heap = a.schema.heap.modify p (fun l => { l with poisoned := true }) := by
    rcases hc with ⟨b, rfl, rfl⟩ | ⟨rfl, rfl⟩
    · cases hp : x.cell with
      | none =>
        refine .inl ⟨hkeep (.inr hp), fun p => ?_⟩
        cases b
        · simp only [resHolds]
        · simp only [resHolds, hI.guard, hx, Option.map_some, hp]
          cases x.excl <;> rfl
      | some p =>
        have hd := hdrop b rfl p hp
        cases b
        · exact .inl ⟨by simpa using hd, fun p => by simp only [resHolds]⟩
        · cases he : x.excl
          · refine .inl ⟨by simpa [he] using hd, fun q => ?_⟩
            simp only [resHolds, hI.guard, hx, Option.map_some, hp, he]
          · exact .inr ⟨p, rfl, rfl, rfl, by simpa [he] using hd⟩
    · exact .inl ⟨hkeep (.inl rfl), fun p => by simp only [resHolds]⟩
  have hsame : ∀ (q : Nat) (m : Lock (Dyn σ.Val)), a.schema.heap[q]? = some m →
      ∃ m', a'.schema.heap[q]? = some m' ∧ m'.val.1 = m.val.1 := by
    intro q m hm
    rcases hcell with ⟨hh, _⟩ | ⟨p, _, _, _, hh⟩
    · exact ⟨m, by rw [hh]; exact hm, rfl⟩
    · rw [hh]
      by_cases hq : p = q
      · subst hq; exact ⟨{ m with poisoned := true }, by rw [getElem?_modify_self, hm]; rfl, rfl⟩
      · exact ⟨m, by rw [getElem?_modify_ne _ _ hq]; exact hm, rfl⟩
  have hlen : a'.schema.heap.length = a.schema.heap.length := by
    rcases hcell with ⟨hh, _⟩ | ⟨p, _, _, _, hh⟩ <;> simp [hh]
  refine ⟨h1 ▸ hI.sorted, ?_, ?_, ?_, ?_, ?_, ?_, ?_, ?_, ?_, ?_, ?_, ?_, ?_⟩
  · rw [hlen, hI.nr]; rcases hc with ⟨b, rfl, _⟩ | ⟨rfl, _⟩ <;> rfl
  · intro t; rw [h1, hI.reg]; rcases hc with ⟨b, rfl, _⟩ | ⟨rfl, _⟩ <;> rfl
  · intro q l hl
    rcases hcell with ⟨hh, hr⟩ | ⟨p, hp, he, rfl, hh⟩
    · rw [hr]; rw [hh] at hl; exact hI.cell q l hl
    · rw [hh] at hl
      simp only [resHolds, hI.guard, hx, Option.map_some, hp, he]
      by_cases hq : p = q
      · subst hq
        rw [getElem?_modify_self] at hl
        obtain ⟨l', h5, h6⟩ := Option.map_eq_some_iff.1 hl
        subst h6
        simp
      · rw [getElem?_modify_ne _ _ hq] at hl
        rw [if_neg hq]
        exact hI.cell q l hl
  · rw [h3, hI.nh]; rcases hc with ⟨b, rfl, _⟩ | ⟨rfl, _⟩ <;> rfl
  · intro k; rw [h3, ← hI.handle]; rcases hc with ⟨b, rfl, _⟩ | ⟨rfl, _⟩ <;> rfl
  · rw [h4, List.length_modify, hI.ng]; rcases hc with ⟨b, rfl, _⟩ | ⟨rfl, _⟩ <;> rfl
  · intro m
    have : resGuardOf (call :: h) m = resGuardOf h m := by
      rcases hc with ⟨b, rfl, _⟩ | ⟨rfl, _⟩
      · simp only [resGuardOf]
      · simp only [resGuardOf]
    rw [this, hI.guard, h4]
    by_cases hm : m = n
    · subst hm; rw [getElem?_modify_self, hx]; rfl
    · rw [getElem?_modify_ne _ _ (fun h => hm h.symm)]
  · intro m
    have : ResKept (call :: h) m ↔ (m ≠ n ∨ st = .forgotten) ∧ ResKept h m := by
      rcases hc with ⟨b, rfl, rfl⟩ | ⟨rfl, rfl⟩
      · simp [ResKept, eq_comm]
      · simp [ResKept]
    rw [this, hI.kept]
    simp only [hget]
    constructor
    · rintro ⟨hm, y, hy, h5⟩
      by_cases hmn : m = n
      · subst hmn
        refine ⟨_, .inr ⟨rfl, rfl⟩, ?_⟩
        rcases hm with hm | rfl
        · exact absurd rfl hm
        · simp
      · exact ⟨y, .inl ⟨hmn, hy⟩, h5⟩
    · rintro ⟨y, ⟨hm, hy⟩ | ⟨rfl, rfl⟩, h5⟩
      · exact ⟨.inl hm, y, hy, h5⟩
      · refine ⟨.inr ?_, x, hx, by rw [hlive]; simp⟩
        rcases hc with ⟨_, _, rfl⟩ | ⟨_, rfl⟩
        · exact absurd rfl h5
        · rfl
  · intro m
    have : ResUsable (call :: h) m ↔ m ≠ n ∧ ResUsable h m := by
      rcases hc with ⟨b, rfl, rfl⟩ | ⟨rfl, rfl⟩ <;> simp [ResUsable, eq_comm]
    rw [this, hI.usable]
    simp only [hget]
    constructor
    · rintro ⟨hm, y, hy, h5⟩; exact ⟨y, .inl ⟨hm, hy⟩, h5⟩
    · rintro ⟨y, ⟨hm, hy⟩ | ⟨rfl, rfl⟩, h5⟩
      · exact ⟨hm, y, hy, h5⟩
      · exact absurd h5 hst
  · intro t q hq
    rw [h1] at hq
    obtain ⟨m, h5, h6⟩ := hI.regTyped t q hq
    obtain ⟨m', h7, h8⟩ := hsame q m h5
    exact ⟨m', h7, h8.trans h6⟩
  · intro k t q hq
    rw [h3] at hq
    obtain ⟨m, h5, h6⟩ := hI.handleTyped k t q hq
    obtain ⟨m', h7, h8⟩ := hsame q m h5
    exact ⟨m', h7, h8.trans h6⟩
  · intro k y q hy hq
    -- the guard as it was before
    obtain ⟨y', hy', e1, e2, e3⟩ : ∃ y', a.resGuards[k]? = some y' ∧ y'.cell = some q ∧ y'.type = y.type ∧
        (y.status ≠ .dropped → y'.status ≠ .dropped) := by
      rcases (hget k y).1 hy with ⟨_, hy⟩ | ⟨rfl, rfl⟩
      · exact ⟨y, hy, hq, rfl, fun h => h⟩
      · exact ⟨x, hx, hq, rfl, fun _ => by rw [hlive]; simp⟩
    obtain ⟨m, h5, h6, h7⟩ := hI.guardTyped k y' q hy' e1
    obtain ⟨m', h8, h9⟩ := hsame q m h5
    refine ⟨m', h8, h9.trans (h6.trans e2), fun hs => ?_⟩
    have hm := h7 (e3 hs)
    rcases hcell with ⟨hh, _⟩ | ⟨p, hp, he, hcd, hh⟩
    · rw [hh, h5] at h8; cases h8; exact hm
    · rw [hh] at h8
      by_cases hpq : p = q
      · subst hpq
        have := hI.excl n k x y' p hx hy' hp e1 (by rw [hlive]; simp) (e3 hs) he
        subst this
        rcases (hget n y).1 hy with ⟨hne, _⟩ | ⟨_, rfl⟩
        · exact absurd rfl hne
        · rcases hc with ⟨_, _, rfl⟩ | ⟨hf, rfl⟩
          · exact absurd rfl hs
          · rw [hf] at hcd; cases hcd
      · rw [getElem?_modify_ne _ _ hpq, h5] at h8; cases h8; exact hm
  · have hback : ∀ (k : Nat) (y : ResGuardVal σ.Ty), a'.resGuards[k]? = some y → ∃ y', a.resGuards[k]? = some y' ∧ y'.cell = y.cell ∧
        y'.excl = y.excl ∧ (y.status ≠ .dropped → y'.status ≠ .dropped) := by
      intro k y hy
      rcases (hget k y).1 hy with ⟨_, hy⟩ | ⟨rfl, rfl⟩
      · exact ⟨y, hy, rfl, rfl, fun h => h⟩
      · exact ⟨x, hx, rfl, rfl, fun _ => by rw [hlive]; simp⟩
    intro k m y z p hy hz h5 h6 h7 h8 h9
    obtain ⟨y', f1, f2, f3, f4⟩ := hback k y hy
    obtain ⟨z', f5, f6, f7, f8⟩ := hback m z hz
    exact hI.excl k m y' z' p f1 f5 (f2.trans h5) (f6.trans h6) (f4 h7) (f8 h8) (f3.trans h9)

theorem endTx_res {n : Nat} {st : CtxEnd} {b : App σ} (hs : a.endTx n st = some b) : b.schema = a.schema ∧ b.handles = a.handles ∧
    b.resGuards = a.resGuards := by
  unfold App.endTx at hs
  split at hs
  · cases hs; exact ⟨rfl, rfl, rfl⟩
  · obtain ⟨_, _, he⟩ := Option.map_eq_some_iff.1 hs; cases he; exact ⟨rfl, rfl, rfl⟩
  · cases hs

theorem appRes_step [LawfulSig σ] (hI : AppResInv h a) {x : AppCall σ} {r : AppAnswer σ} (hs : a.step x = some (r, a'))
    (hr : r ≠ .stuck) : AppResInv (x :: h) a' := by
  cases x with
  | register t v =>
    simp only [App.step] at hs
    split at hs
    · cases hs; exact appRes_register hI t v
    · cases hs
  | resource t k =>
    simp only [App.step] at hs
    split at hs
    · rename_i hk; cases hs; subst hk; exact appRes_resource hI t
    · cases hs
  | lockRes k e n =>
    simp only [App.step] at hs
    split at hs
    · rename_i hn
      subst hn
      split at hs
      · cases hs
      · rename_i hk
        cases hs
        exact appRes_lock hI hk (by simp) (fun _ => rfl)
      · rename_i t p hk
        split at hs
        · cases hs; exact absurd rfl hr
        · rename_i hlock
          split at hs
          · cases hs
          · rename_i l hl
            cases hs
            refine appRes_lock hI hk (fun q hq => ?_) (by simp)
            cases hq
            exact ⟨by simpa using hlock, l, hl, rfl⟩
    · cases hs
  | assignRes n t v =>
    simp only [App.step] at hs
    split at hs
    · cases hs
    · rename_i x hx
      obtain ⟨h1, h2⟩ := resGuard_some hx
      split at hs
      · rename_i he
        obtain ⟨rfl, _⟩ := he
        split at hs
        · rename_i hc
          cases hs
          refine hI.congr rfl rfl rfl rfl rfl (fun _ => rfl) (fun p => ?_) rfl (fun _ => rfl) rfl (fun _ => by simp only [resGuardOf]) (fun _ => Iff.rfl) (fun _ => Iff.rfl)
          simp only [resHolds, hI.guard, h1, Option.map_some, hc]
        · rename_i p hc
          obtain ⟨l', h3, h4, _⟩ := hI.guardTyped n x p h1 hc
          split at hs
          · cases hs
          · rename_i l hl
            rw [h3] at hl; cases hl
            split at hs
            · rename_i hd
              simp [Dyn.downcast, h4] at hd
            · cases hs
              exact appRes_assign hI h1 h2 hc h3 v
      · cases hs
  | dropRes n b =>
    simp only [App.step] at hs
    split at hs
    · cases hs
    · rename_i x hx
      obtain ⟨h1, h2⟩ := resGuard_some hx
      split at hs
      · rename_i hc
        cases hs
        refine appRes_end hI (call := .dropRes n b) h1 h2 (.inl ⟨b, rfl, rfl⟩) (fun b' hb p hp => ?_) (fun _ => rfl) rfl rfl rfl
        rw [hc] at hp; cases hp
      · rename_i p hc
        cases hs
        refine appRes_end hI (call := .dropRes n b) h1 h2 (.inl ⟨b, rfl, rfl⟩) (fun b' hb q hq => ?_) (fun hh => ?_) rfl rfl rfl
        · cases hb; rw [hc] at hq; cases hq; rfl
        · rcases hh with hh | hh
          · cases hh
          · rw [hc] at hh; cases hh
  | forgetRes n =>
    simp only [App.step] at hs
    split at hs
    · cases hs
    · rename_i x hx
      obtain ⟨h1, h2⟩ := resGuard_some hx
      cases hs
      exact appRes_end hI (call := .forgetRes n) h1 h2 (.inr ⟨rfl, rfl⟩) (fun b' hb => by cases hb) (fun _ => rfl) rfl rfl rfl
  | unwindTx n =>
    simp only [App.step] at hs
    split at hs
    · cases hs
    · obtain ⟨b, hb, he⟩ := Option.map_eq_some_iff.1 hs
      cases he
      obtain ⟨h1, h2, h3⟩ := endTx_res hb
      exact hI.congr (by simp [h1]) (by simp [h1]) h2 h3 rfl (fun _ => rfl) (fun _ => by simp only [resHolds]) rfl (fun _ => rfl) rfl
        (fun _ => by simp only [resGuardOf]) (fun _ => Iff.rfl) (fun _ => Iff.rfl)
  | forgetTx n =>
    obtain ⟨b, hb, he⟩ := Option.map_eq_some_iff.1 hs
    cases he
    obtain ⟨h1, h2, h3⟩ := endTx_res hb
    exact hI.congr (by simp [h1]) (by simp [h1]) h2 h3 rfl (fun _ => rfl) (fun _ => by simp only [resHolds]) rfl (fun _ => rfl) rfl
      (fun _ => by simp only [resGuardOf]) (fun _ => Iff.rfl) (fun _ => Iff.rfl)
  | _ =>
    simp only [App.step, Option.map_eq_some_iff] at hs
    repeat' split at hs
    all_goals first
      | (cases hs; done)
      | (obtain ⟨_, _, he⟩ := hs; cases he
         exact hI.congr rfl rfl rfl rfl rfl (fun _ => rfl) (fun _ => by simp only [resHolds]) rfl (fun _ => rfl) rfl
           (fun _ => by simp only [resGuardOf]) (fun _ => Iff.rfl) (fun _ => Iff.rfl))
      | (cases hs
         exact hI.congr rfl rfl rfl rfl rfl (fun _ => rfl) (fun _ => by simp only [resHolds]) rfl (fun _ => rfl) rfl
           (fun _ => by simp only [resGuardOf]) (fun _ => Iff.rfl) (fun _ => Iff.rfl))

theorem AppLegal.res [LawfulSig σ] (hl : AppLegal g h a) : AppResInv h a := by
  induction hl with
  | start => exact appRes_start
  | call _ hs hr ih => exact appRes_step ih hs hr

end

end Plotline
