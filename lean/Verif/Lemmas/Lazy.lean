import Verif.Spec.Lazy

/-! # Lemmas about lazily loaded documents -/

namespace Plotline

variable {Ident Doc : Type} (ident : Doc → Ident)

theorem lazy_run_append (es es' : List (LazyEvent Ident Doc)) :
    LazyState.run ident (es ++ es') = es'.foldl (LazyState.step ident) (LazyState.run ident es) := by
  simp [LazyState.run, List.foldl_append]

theorem lazy_run_snoc (es : List (LazyEvent Ident Doc)) (e : LazyEvent Ident Doc) :
    LazyState.run ident (es ++ [e]) = (LazyState.run ident es).step ident e := by
  simp [LazyState.run, List.foldl_append]

theorem tryDeref_loaded (repo : Ident → Option Doc) (i : Ident) (d : Doc) :
    LazyDocument.tryDeref repo ⟨i, some d⟩ = (some d, ⟨i, some d⟩, []) := rfl

theorem tryDeref_unloaded (repo : Ident → Option Doc) (i : Ident) :
    LazyDocument.tryDeref repo ⟨i, none⟩ = (repo i, ⟨i, repo i⟩, [i]) := by
  unfold LazyDocument.tryDeref
  simp only [onceGet, onceSet]
  cases h : repo i <;> rfl

/-- What `try_deref` returns is what it leaves in the cache. -/
theorem tryDeref_cache (repo : Ident → Option Doc) (l : LazyDocument Ident Doc) :
    (l.tryDeref repo).2.1 = ⟨l.document_id, (l.tryDeref repo).1⟩ := by
  obtain ⟨i, _ | d⟩ := l
  · rw [tryDeref_unloaded]
  · rw [tryDeref_loaded]

/-- A loaded document stays as it is. -/
theorem step_loaded {s : LazyState Ident Doc} {i : Nat} {k : Ident} {d : Doc} (h : s.docs[i]? = some ⟨k, some d⟩)
    (e : LazyEvent Ident Doc) : (s.step ident e).docs[i]? = some ⟨k, some d⟩ := by
  have hlt := (List.getElem?_eq_some_iff.1 h).1
  cases e with
  | repo r => exact h
  | build _ => show (s.docs ++ [_])[i]? = _; rw [List.getElem?_append_left hlt]; exact h
  | new x => show (s.docs ++ [_])[i]? = _; rw [List.getElem?_append_left hlt]; exact h
  | clone j =>
    simp only [LazyState.step]
    split
    · show (s.docs ++ [_])[i]? = _; rw [List.getElem?_append_left hlt]; exact h
    · exact h
  | deref j =>
    simp only [LazyState.step]
    split
    · rename_i l hl
      by_cases e : j = i
      · subst e
        rw [h] at hl; cases hl
        simp [hlt, tryDeref_loaded]
      · simpa [e] using h
    · exact h

theorem steps_loaded {s : LazyState Ident Doc} {i : Nat} {k : Ident} {d : Doc} (h : s.docs[i]? = some ⟨k, some d⟩)
    (es : List (LazyEvent Ident Doc)) : (es.foldl (LazyState.step ident) s).docs[i]? = some ⟨k, some d⟩ := by
  induction es generalizing s with
  | nil => exact h
  | cons e es ih => exact ih (step_loaded ident h e)

/-- Every document keeps its number and its id. -/
theorem step_id {s : LazyState Ident Doc} {i : Nat} {l : LazyDocument Ident Doc} (h : s.docs[i]? = some l)
    (e : LazyEvent Ident Doc) : ∃ l', (s.step ident e).docs[i]? = some l' ∧ l'.document_id = l.document_id := by
  have hlt := (List.getElem?_eq_some_iff.1 h).1
  cases e with
  | repo r => exact ⟨l, h, rfl⟩
  | build _ => exact ⟨l, by show (s.docs ++ [_])[i]? = _; rw [List.getElem?_append_left hlt]; exact h, rfl⟩
  | new x => exact ⟨l, by show (s.docs ++ [_])[i]? = _; rw [List.getElem?_append_left hlt]; exact h, rfl⟩
  | clone j =>
    refine ⟨l, ?_, rfl⟩
    simp only [LazyState.step]
    split
    · show (s.docs ++ [_])[i]? = _; rw [List.getElem?_append_left hlt]; exact h
    · exact h
  | deref j =>
    simp only [LazyState.step]
    split
    · rename_i l' hl
      by_cases e : j = i
      · subst e
        rw [h] at hl; cases hl
        exact ⟨(l.tryDeref s.repo).2.1, by simp [hlt], by rw [tryDeref_cache]⟩
      · exact ⟨l, by simpa [e] using h, rfl⟩
    · exact ⟨l, h, rfl⟩

theorem repoAfter_run (es : List (LazyEvent Ident Doc)) : (LazyState.run ident es).repo = repoAfter es := by
  suffices h : ∀ es : List (LazyEvent Ident Doc), (LazyState.run ident es.reverse).repo = repoAfter es.reverse by
    simpa using h es.reverse
  intro es
  induction es with
  | nil => rfl
  | cons e es ih =>
    rw [List.reverse_cons, lazy_run_snoc]
    have hr : ∀ e : LazyEvent Ident Doc, (∀ r, e ≠ .repo r) →
        repoAfter (es.reverse ++ [e]) = repoAfter es.reverse := by
      intro e he
      unfold repoAfter
      cases e <;> simp at he ⊢
    cases e with
    | repo r =>
      simp [repoAfter, LazyState.step]
    | build _ => rw [hr _ (by simp), ← ih]; rfl
    | new _ => rw [hr _ (by simp), ← ih]; rfl
    | clone _ =>
      rw [hr _ (by simp), ← ih]
      simp only [LazyState.step]; split <;> rfl
    | deref _ =>
      rw [hr _ (by simp), ← ih]
      simp only [LazyState.step]; split <;> rfl

theorem NeverLoaded.get {es : List (LazyEvent Ident Doc)} {i : Nat} {id : Ident} (h : NeverLoaded ident es i id) :
    (LazyState.run ident es).docs[i]? = some ⟨id, none⟩ := by
  induction h with
  | build es id =>
    rw [lazy_run_snoc]
    simp [LazyState.step, created, LazyDocument.build]
  | clone es i id _ ih =>
    rw [lazy_run_snoc]
    simp [LazyState.step, created, ih, LazyDocument.clone]
  | other es e i id _ hne ih =>
    rw [lazy_run_snoc]
    have hlt := (List.getElem?_eq_some_iff.1 ih).1
    cases e with
    | repo r => exact ih
    | build _ => show ((LazyState.run ident es).docs ++ [_])[i]? = _; rw [List.getElem?_append_left hlt]; exact ih
    | new x => show ((LazyState.run ident es).docs ++ [_])[i]? = _; rw [List.getElem?_append_left hlt]; exact ih
    | clone j =>
      simp only [LazyState.step]
      split
      · show ((LazyState.run ident es).docs ++ [_])[i]? = _; rw [List.getElem?_append_left hlt]; exact ih
      · exact ih
    | deref j =>
      simp only [LazyState.step]
      split
      · simpa [hne j rfl] using ih
      · exact ih
  | failed es i id _ hf ih =>
    rw [lazy_run_snoc]
    have hlt := (List.getElem?_eq_some_iff.1 ih).1
    unfold derefResult at hf
    rw [ih] at hf
    simp [tryDeref_unloaded] at hf
    simp only [LazyState.step, ih, tryDeref_unloaded, hf]
    simp [hlt]

/-- A property every document handed out so far has, because the repository only hands out such documents. -/
theorem lazy_all (P : Ident → Doc → Prop) (hnew : ∀ d, P (ident d) d) (es : List (LazyEvent Ident Doc))
    (hrepo : ∀ r, .repo r ∈ es → ∀ k d, r k = some d → P k d) :
    (∀ k d, (LazyState.run ident es).repo k = some d → P k d) ∧
    ∀ (i : Nat) l d, (LazyState.run ident es).docs[i]? = some l → l.document = some d → P l.document_id d := by
  suffices h : ∀ (es : List (LazyEvent Ident Doc)) (s : LazyState Ident Doc),
      (∀ r, .repo r ∈ es → ∀ k d, r k = some d → P k d) → (∀ k d, s.repo k = some d → P k d) →
      (∀ l ∈ s.docs, ∀ d, l.document = some d → P l.document_id d) →
      (∀ k d, (es.foldl (LazyState.step ident) s).repo k = some d → P k d) ∧
      ∀ l ∈ (es.foldl (LazyState.step ident) s).docs, ∀ d, l.document = some d → P l.document_id d by
    obtain ⟨h1, h2⟩ := h es LazyState.init hrepo (by intro k d h; cases h) (by intro l h; cases h)
    exact ⟨h1, fun i l d hl => h2 l (List.mem_of_getElem? hl) d⟩
  intro es
  induction es with
  | nil => intro s _ h1 h2; exact ⟨h1, h2⟩
  | cons e es ih =>
    intro s hr h1 h2
    refine ih (s.step ident e) (fun r hm => hr r (List.mem_cons_of_mem _ hm)) ?_ ?_
    · cases e with
      | repo r => exact hr r (List.mem_cons_self ..)
      | build _ => exact h1
      | new _ => exact h1
      | clone _ => simp only [LazyState.step]; split <;> exact h1
      | deref _ => simp only [LazyState.step]; split <;> exact h1
    · cases e with
      | repo r => exact h2
      | build k =>
        intro l hl d hd
        simp only [LazyState.step, List.mem_append, List.mem_singleton] at hl
        rcases hl with hl | rfl
        · exact h2 l hl d hd
        · cases hd
      | new x =>
        intro l hl d hd
        simp only [LazyState.step, LazyDocument.new, onceSet, List.mem_append, List.mem_singleton] at hl
        rcases hl with hl | rfl
        · exact h2 l hl d hd
        · cases hd; exact hnew _
      | clone j =>
        simp only [LazyState.step]
        split
        · rename_i l0 hl0
          intro l hl d hd
          simp only [List.mem_append, List.mem_singleton] at hl
          rcases hl with hl | rfl
          · exact h2 l hl d hd
          · exact h2 l0 (List.mem_of_getElem? hl0) d hd
        · exact h2
      | deref j =>
        simp only [LazyState.step]
        split
        · rename_i l0 hl0
          intro l hl d hd
          rcases List.mem_or_eq_of_mem_set hl with hl | rfl
          · exact h2 l hl d hd
          · obtain ⟨k, _ | x⟩ := l0
            · rw [tryDeref_unloaded] at hd ⊢
              exact h1 _ _ hd
            · rw [tryDeref_loaded] at hd ⊢
              exact h2 _ (List.mem_of_getElem? hl0) d hd
        · exact h2

/-! ## Concurrent calls -/

/-- What holds at every moment: a thread past its own `set` sees the cache filled, and every document returned so far is the
cached one. -/
structure DerefInv (s : DerefState Doc) : Prop where
  get2 : ∀ t, s.pcs t = .get2 → s.cache ≠ none
  results : ∀ c ∈ s.calls, ∀ d, c.result = some d → s.cache = some d
  /-- A thread about to `set` was given that document by the repository. -/
  found : ∀ t d, s.pcs t = .set d → s.found t = some d
  /-- A thread for which the repository did not find anything is before or at `find`. -/
  unfound : ∀ t, s.pcs t = .get ∨ s.pcs t = .find → s.found t = none
  /-- Only calls that lost the race miss a document the repository found. -/
  lost : ∀ c ∈ s.calls, c.result = none → c.found ≠ none → s.cache ≠ none

theorem DerefState.start_inv (c : Option Doc) : DerefInv (DerefState.start c) :=
  ⟨by simp [start], by simp [start], by simp [start], by simp [start], by simp [start]⟩

/-- The cache is never emptied or replaced. -/
theorem DerefState.step_cache (s : DerefState Doc) (t : Nat) (a : Option Doc) {d : Doc} (h : s.cache = some d) :
    (s.step t a).cache = some d := by
  unfold step
  split
  · exact h
  · rw [h]; exact h
  · split <;> exact h
  · rw [h]; rfl
  · exact h

theorem DerefState.step_inv {s : DerefState Doc} (hs : DerefInv s) (t : Nat) (a : Option Doc) : DerefInv (s.step t a) := by
  obtain ⟨h1, h2, h3, h4, h5⟩ := hs
  -- returning from a call
  have hret : ∀ r : Option Doc, (∀ d, r = some d → s.cache = some d) → (r = none → s.found t ≠ none → s.cache ≠ none) →
      DerefInv (s.ret t r) := by
    intro r hr hl
    refine ⟨?_, ?_, ?_, ?_, ?_⟩
    · intro t' h
      simp only [ret, pc] at h ⊢
      by_cases e : t' = t
      · simp [e] at h
      · simp only [if_neg e] at h; exact h1 t' h
    · intro c hc d hd
      simp only [ret, pc, List.mem_append, List.mem_singleton] at hc ⊢
      rcases hc with hc | rfl
      · exact h2 c hc d hd
      · exact hr d hd
    · intro t' d h
      simp only [ret, pc] at h ⊢
      by_cases e : t' = t
      · simp [e] at h
      · simp only [if_neg e] at h; exact h3 t' d h
    · intro t' h
      simp only [ret, pc] at h ⊢
      by_cases e : t' = t
      · simp [e] at h
      · simp only [if_neg e] at h; exact h4 t' h
    · intro c hc hn hf
      simp only [ret, pc, List.mem_append, List.mem_singleton] at hc ⊢
      rcases hc with hc | rfl
      · exact h5 c hc hn hf
      · exact hl hn hf
  unfold step
  split
  · rename_i hpc
    refine ⟨?_, h2, ?_, ?_, h5⟩
    · intro t' h
      simp only [pc] at h ⊢
      by_cases e : t' = t
      · simp [e] at h
      · simp only [if_neg e] at h; exact h1 t' h
    · intro t' d h
      simp only [pc] at h ⊢
      by_cases e : t' = t
      · simp [e] at h
      · simp only [if_neg e] at h ⊢; exact h3 t' d h
    · intro t' h
      simp only [pc] at h ⊢
      by_cases e : t' = t
      · simp [e]
      · simp only [if_neg e] at h ⊢; exact h4 t' h
  · rename_i hpc
    split
    · rename_i d hd
      exact hret _ (by rintro d' ⟨⟩; exact hd) (by intro h; cases h)
    · refine ⟨?_, h2, ?_, ?_, h5⟩
      · intro t' h
        simp only [pc] at h ⊢
        by_cases e : t' = t
        · simp [e] at h
        · simp only [if_neg e] at h; exact h1 t' h
      · intro t' d h
        simp only [pc] at h ⊢
        by_cases e : t' = t
        · simp [e] at h
        · simp only [if_neg e] at h ⊢; exact h3 t' d h
      · intro t' h
        simp only [pc] at h ⊢
        by_cases e : t' = t
        · subst e; exact h4 t' (.inl hpc)
        · simp only [if_neg e] at h ⊢; exact h4 t' h
  · rename_i hpc
    split
    · exact hret none (by intro d h; cases h) (fun _ h => absurd (h4 t (.inr hpc)) h)
    · rename_i d
      refine ⟨?_, h2, ?_, ?_, h5⟩
      · intro t' h
        simp only [pc] at h ⊢
        by_cases e : t' = t
        · simp [e] at h
        · simp only [if_neg e] at h; exact h1 t' h
      · intro t' d' h
        simp only [pc] at h ⊢
        by_cases e : t' = t
        · simp [e] at h; simp [e, h]
        · simp only [if_neg e] at h ⊢; exact h3 t' d' h
      · intro t' h
        simp only [pc] at h ⊢
        by_cases e : t' = t
        · simp [e] at h
        · simp only [if_neg e] at h ⊢; exact h4 t' h
  · rename_i d hpc
    cases hc : s.cache with
    | none =>
      simp only [onceSet]
      refine ⟨?_, ?_, ?_, ?_, ?_⟩
      · intro t' h; simp
      · intro c hcc d' hd'
        have := h2 c hcc d' hd'
        rw [hc] at this; cases this
      · intro t' d h
        simp only [pc] at h ⊢
        by_cases e : t' = t
        · simp [e] at h
        · simp only [if_neg e] at h; exact h3 t' d h
      · intro t' h
        simp only [pc] at h ⊢
        by_cases e : t' = t
        · simp [e] at h
        · simp only [if_neg e] at h; exact h4 t' h
      · intro c _ _ _; simp
    | some old =>
      simp only [onceSet]
      have : ({ s with cache := some old } : DerefState Doc) = s := by rw [← hc]
      rw [this]
      exact hret none (by intro d h; cases h) (fun _ _ => by simp [hc])
  · rename_i hpc
    refine hret _ (fun d h => h) (fun hn _ => ?_)
    exact absurd hn (h1 t hpc)

theorem DerefState.run_inv (sched : List (Nat × Option Doc)) {s : DerefState Doc} (hs : DerefInv s) :
    DerefInv (s.run sched) := by
  induction sched generalizing s with
  | nil => exact hs
  | cons e sched ih => exact ih (step_inv hs e.1 e.2)

theorem DerefState.run_cache (sched : List (Nat × Option Doc)) {s : DerefState Doc} {d : Doc} (h : s.cache = some d) :
    (s.run sched).cache = some d := by
  induction sched generalizing s with
  | nil => exact h
  | cons e sched ih => exact ih (step_cache s e.1 e.2 h)

theorem DerefState.run_append (s : DerefState Doc) (a b : List (Nat × Option Doc)) : s.run (a ++ b) = (s.run a).run b := by
  simp [run, List.foldl_append]

/-! ## Races -/

/-- Another thread stored a document since this one saw none. -/
def Beaten (cache : Option Doc) (sched : List (Nat × Option Doc)) (t : Nat) : Prop :=
  ∃ a t' x b, sched = a ++ (t', x) :: b ∧ t' ≠ t ∧ (derefAfter cache a).cache = none ∧
    (derefAfter cache (a ++ [(t', x)])).cache ≠ none ∧
    ∀ b', b' <+: b → (derefAfter cache (a ++ (t', x) :: b')).pcs t ≠ .idle

structure RaceInv (cache : Option Doc) (sched : List (Nat × Option Doc)) : Prop where
  beaten : ∀ t, (derefAfter cache sched).pcs t = .find ∨ (∃ d, (derefAfter cache sched).pcs t = .set d) →
    (derefAfter cache sched).cache = none ∨ Beaten cache sched t
  get2 : ∀ t, (derefAfter cache sched).pcs t = .get2 →
    ∃ d, (derefAfter cache sched).found t = some d ∧ (derefAfter cache sched).cache = some d
  calls : ∀ c ∈ (derefAfter cache sched).calls, ∀ d, c.found = some d →
    c.result = some d ∨ (c.result = none ∧ LostRace cache sched c)

theorem derefAfter_snoc (cache : Option Doc) (sched : List (Nat × Option Doc)) (e : Nat × Option Doc) :
    derefAfter cache (sched ++ [e]) = (derefAfter cache sched).step e.1 e.2 := by
  simp [derefAfter, DerefState.run, List.foldl_append]

theorem LostRace.more {cache : Option Doc} {sched : List (Nat × Option Doc)} {c : DerefCall Doc} (h : LostRace cache sched c)
    (e : Nat × Option Doc) : LostRace cache (sched ++ [e]) c := by
  obtain ⟨a, t, x, b, y, rest, rfl, h⟩ := h
  exact ⟨a, t, x, b, y, rest ++ [e], by simp, h⟩

theorem Beaten.more {cache : Option Doc} {sched : List (Nat × Option Doc)} {t : Nat} (h : Beaten cache sched t)
    (e : Nat × Option Doc) (hp : (derefAfter cache (sched ++ [e])).pcs t ≠ .idle) : Beaten cache (sched ++ [e]) t := by
  obtain ⟨a, t', x, b, rfl, h1, h2, h3, h4⟩ := h
  refine ⟨a, t', x, b ++ [e], by simp, h1, h2, h3, ?_⟩
  intro b' hb'
  rcases List.prefix_concat_iff.1 hb' with rfl | hb'
  · simpa using hp
  · exact h4 b' hb'

theorem raceInv_snoc {cache : Option Doc} {sched : List (Nat × Option Doc)} (h : RaceInv cache sched) (e : Nat × Option Doc) :
    RaceInv cache (sched ++ [e]) := by
  have hI : DerefInv (derefAfter cache sched) := DerefState.run_inv sched (DerefState.start_inv cache)
  obtain ⟨h1, h2, h3⟩ := h
  obtain ⟨t0, x0⟩ := e
  have hsn := derefAfter_snoc cache sched (t0, x0)
  -- threads other than the one that steps stay where they are
  have hoth : ∀ t, t ≠ t0 → (derefAfter cache (sched ++ [(t0, x0)])).pcs t = (derefAfter cache sched).pcs t ∧
      (derefAfter cache (sched ++ [(t0, x0)])).found t = (derefAfter cache sched).found t := by
    intro t ht
    rw [hsn]
    unfold DerefState.step
    split
    · simp [DerefState.pc, ht]
    · split <;> simp [DerefState.pc, DerefState.ret, ht]
    · split <;> simp [DerefState.pc, DerefState.ret, ht]
    · split <;> simp [DerefState.pc, DerefState.ret, ht]
    · simp [DerefState.pc, DerefState.ret, ht]
  have hold : ∀ c ∈ (derefAfter cache sched).calls, ∀ d, c.found = some d →
      c.result = some d ∨ (c.result = none ∧ LostRace cache (sched ++ [(t0, x0)]) c) := by
    intro c hc d hd
    rcases h3 c hc d hd with h | ⟨h, hl⟩
    · exact .inl h
    · exact .inr ⟨h, hl.more _⟩
  -- what has to be shown of the thread that steps, when the cache stays what it is
  have key : (derefAfter cache (sched ++ [(t0, x0)])).cache = (derefAfter cache sched).cache →
      ((derefAfter cache (sched ++ [(t0, x0)])).pcs t0 = .find ∨ (∃ d, (derefAfter cache (sched ++ [(t0, x0)])).pcs t0 = .set d) →
        (derefAfter cache sched).cache = none ∨ (derefAfter cache sched).pcs t0 = .find) →
      ((derefAfter cache (sched ++ [(t0, x0)])).pcs t0 = .get2 → False) →
      (∀ c ∈ (derefAfter cache (sched ++ [(t0, x0)])).calls, c ∈ (derefAfter cache sched).calls ∨ ∀ d, c.found = some d →
        c.result = some d ∨ (c.result = none ∧ LostRace cache (sched ++ [(t0, x0)]) c)) →
      RaceInv cache (sched ++ [(t0, x0)]) := by
    intro hcache hA hB hC
    refine ⟨?_, ?_, ?_⟩
    · intro t ht
      rw [hcache]
      by_cases hc : (derefAfter cache sched).cache = none
      · exact .inl hc
      · right
        have hni : (derefAfter cache (sched ++ [(t0, x0)])).pcs t ≠ .idle := by
          rcases ht with ht | ⟨d, ht⟩ <;> rw [ht] <;> simp
        have hb : Beaten cache sched t := by
          by_cases he : t = t0
          · subst he
            rcases hA ht with h | h
            · exact (hc h).elim
            · exact (h1 t (.inl h)).resolve_left hc
          · rw [(hoth t he).1] at ht
            exact (h1 t ht).resolve_left hc
        exact hb.more _ hni
    · intro t ht
      rw [hcache]
      by_cases he : t = t0
      · subst he; exact (hB ht).elim
      · rw [(hoth t he).2]; rw [(hoth t he).1] at ht; exact h2 t ht
    · intro c hc
      rcases hC c hc with hc | hc
      · exact hold c hc
      · exact hc
  cases hpc : (derefAfter cache sched).pcs t0 with
  | idle =>
    apply key <;> rw [hsn] <;> simp only [DerefState.step, hpc]
    · rfl
    · simp [DerefState.pc]
    · simp [DerefState.pc]
    · intro c hc; exact .inl hc
  | get =>
    have hf := hI.unfound t0 (.inl hpc)
    cases hcache : (derefAfter cache sched).cache with
    | some d0 =>
      apply key <;> rw [hsn] <;> simp only [DerefState.step, hpc, hcache, onceGet]
      · exact hcache
      · simp [DerefState.pc, DerefState.ret]
      · simp [DerefState.pc, DerefState.ret]
      · intro c hc
        simp only [DerefState.ret, DerefState.pc, List.mem_append, List.mem_singleton] at hc
        rcases hc with hc | rfl
        · exact .inl hc
        · right; intro d hd; rw [hf] at hd; cases hd
    | none =>
      apply key <;> rw [hsn] <;> simp only [DerefState.step, hpc, hcache, onceGet]
      · exact hcache
      · intro _; exact .inl trivial
      · simp [DerefState.pc]
      · intro c hc; exact .inl hc
  | find =>
    have hf := hI.unfound t0 (.inr hpc)
    cases x0 with
    | none =>
      apply key <;> rw [hsn] <;> simp only [DerefState.step, hpc]
      · rfl
      · simp [DerefState.pc, DerefState.ret]
      · simp [DerefState.pc, DerefState.ret]
      · intro c hc
        simp only [DerefState.ret, DerefState.pc, List.mem_append, List.mem_singleton] at hc
        rcases hc with hc | rfl
        · exact .inl hc
        · right; intro d hd; rw [hf] at hd; cases hd
    | some d =>
      apply key <;> rw [hsn] <;> simp only [DerefState.step, hpc]
      · rfl
      · intro _; exact .inr trivial
      · simp [DerefState.pc]
      · intro c hc; exact .inl hc
  | set d =>
    have hf := hI.found t0 d hpc
    cases hcache : (derefAfter cache sched).cache with
    | none =>
      have hs' : derefAfter cache (sched ++ [(t0, x0)]) = { (derefAfter cache sched).pc t0 .get2 with cache := some d } := by
        rw [hsn]; simp only [DerefState.step, hpc, hcache, onceSet]
      refine ⟨?_, ?_, ?_⟩
      · intro t ht
        by_cases he : t = t0
        · subst he; rw [hs'] at ht; simp [DerefState.pc] at ht
        · right
          refine ⟨sched, t0, x0, [], rfl, Ne.symm he, hcache, ?_, ?_⟩
          · rw [hs']; simp
          · intro b' hb'
            rw [List.prefix_nil.1 hb']
            rcases ht with ht | ⟨d, ht⟩ <;> rw [ht] <;> simp
      · intro t ht
        by_cases he : t = t0
        · subst he; rw [hs']; exact ⟨d, hf, rfl⟩
        · rw [(hoth t he).1] at ht
          obtain ⟨d', _, hc'⟩ := h2 t ht
          rw [hcache] at hc'; cases hc'
      · intro c hc
        rw [hs'] at hc
        exact hold c hc
    | some old =>
      have hs' : derefAfter cache (sched ++ [(t0, x0)]) = (derefAfter cache sched).ret t0 none := by
        rw [hsn]; simp only [DerefState.step, hpc, hcache, onceSet]
        have : ({ derefAfter cache sched with cache := some old } : DerefState Doc) = derefAfter cache sched := by rw [← hcache]
        rw [this]
      apply key
      · rw [hs']; rfl
      · rw [hs']; simp [DerefState.pc, DerefState.ret]
      · rw [hs']; simp [DerefState.pc, DerefState.ret]
      · intro c hc
        rw [hs'] at hc
        simp only [DerefState.ret, DerefState.pc, List.mem_append, List.mem_singleton] at hc
        rcases hc with hc | rfl
        · exact .inl hc
        · right
          intro d' _
          right
          obtain ⟨a, t', x, b, hab, hb1, hb2, hb3, hb4⟩ :=
            (h1 t0 (.inr ⟨d, hpc⟩)).resolve_left (by rw [hcache]; simp)
          refine ⟨rfl, a, t', x, b, x0, [], by rw [hab], hb1, hb2, hb3, hb4, ?_⟩
          rw [← hab, hs']; rfl
  | get2 =>
    obtain ⟨d, hf, hcache⟩ := h2 t0 hpc
    apply key <;> rw [hsn] <;> simp only [DerefState.step, hpc, hcache, onceGet]
    · exact hcache
    · simp [DerefState.pc, DerefState.ret]
    · simp [DerefState.pc, DerefState.ret]
    · intro c hc
      simp only [DerefState.ret, DerefState.pc, List.mem_append, List.mem_singleton] at hc
      rcases hc with hc | rfl
      · exact .inl hc
      · right; intro d' hd'; rw [hf] at hd'; exact .inl hd'

theorem raceInv (cache : Option Doc) (sched : List (Nat × Option Doc)) : RaceInv cache sched := by
  have : ∀ l : List (Nat × Option Doc), RaceInv cache l.reverse := by
    intro l
    induction l with
    | nil => refine ⟨?_, ?_, ?_⟩ <;> simp [derefAfter, DerefState.run, DerefState.start]
    | cons e l ih => rw [List.reverse_cons]; exact raceInv_snoc ih e
  simpa using this sched.reverse

end Plotline
