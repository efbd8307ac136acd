import Verif.Lemmas.Lazy

/-! # Properties C36 to C40: lazily loaded documents

C40 is completed in `Verif.Props.Cli`, which has the repository that refutes it. -/

namespace Plotline

variable {Ident Doc : Type}

/-! ## C36 -/

/-- C36: once `try_deref` returned a document, it returns that document after any further history, without asking the
repository. -/
theorem C36_never_changes (ident : Doc → Ident) (es more : List (LazyEvent Ident Doc)) (i : Nat) (d : Doc)
    (h : derefResult ident es i = some (some d)) :
    derefResult ident (es ++ .deref i :: more) i = some (some d) ∧
    askedIn ident (es ++ .deref i :: more ++ [.deref i]) = askedIn ident (es ++ .deref i :: more) := by
  unfold derefResult at h
  obtain ⟨l, hl, hd⟩ := Option.map_eq_some_iff.1 h
  have hlt := (List.getElem?_eq_some_iff.1 hl).1
  have h0 : (LazyState.run ident (es ++ [.deref i])).docs[i]? = some ⟨l.document_id, some d⟩ := by
    rw [lazy_run_snoc]
    simp only [LazyState.step, hl, tryDeref_cache, hd]
    simp [hlt]
  have h1 : (LazyState.run ident (es ++ .deref i :: more)).docs[i]? = some ⟨l.document_id, some d⟩ := by
    have := steps_loaded ident h0 more
    rw [← lazy_run_append] at this
    simpa using this
  refine ⟨?_, ?_⟩
  · unfold derefResult; rw [h1]; rfl
  · unfold askedIn
    rw [lazy_run_snoc]
    simp only [LazyState.step, h1, tryDeref_loaded]
    simp

/-- C36 for clones made after the first successful `try_deref`: they return that document after any further history, without
asking the repository. -/
theorem C36_clones (ident : Doc → Ident) (es more more' : List (LazyEvent Ident Doc)) (i : Nat) (d : Doc)
    (h : derefResult ident es i = some (some d)) :
    let pre := es ++ .deref i :: more
    derefResult ident (pre ++ .clone i :: more') (created ident pre) = some (some d) ∧
    askedIn ident (pre ++ .clone i :: more' ++ [.deref (created ident pre)]) = askedIn ident (pre ++ .clone i :: more') := by
  intro pre
  unfold derefResult at h
  obtain ⟨l, hl, hd⟩ := Option.map_eq_some_iff.1 h
  have hlt := (List.getElem?_eq_some_iff.1 hl).1
  have h0 : (LazyState.run ident (es ++ [.deref i])).docs[i]? = some ⟨l.document_id, some d⟩ := by
    rw [lazy_run_snoc]
    simp only [LazyState.step, hl, tryDeref_cache, hd]
    simp [hlt]
  have h1 : (LazyState.run ident pre).docs[i]? = some ⟨l.document_id, some d⟩ := by
    have := steps_loaded ident h0 more
    rw [← lazy_run_append] at this
    simpa [pre] using this
  have h2 : (LazyState.run ident (pre ++ [.clone i])).docs[created ident pre]? = some ⟨l.document_id, some d⟩ := by
    rw [lazy_run_snoc]
    simp [LazyState.step, h1, created, LazyDocument.clone]
  have h3 : (LazyState.run ident (pre ++ .clone i :: more')).docs[created ident pre]? = some ⟨l.document_id, some d⟩ := by
    have := steps_loaded ident h2 more'
    rw [← lazy_run_append] at this
    simpa using this
  refine ⟨?_, ?_⟩
  · unfold derefResult; rw [h3]; rfl
  · unfold askedIn
    rw [lazy_run_snoc]
    simp only [LazyState.step, h3, tryDeref_loaded]
    simp

/-! ## C37 -/

/-- C37: while no `try_deref` succeeded, the result is what the repository holds at that moment under the document's id. -/
theorem C37_retried (ident : Doc → Ident) (es : List (LazyEvent Ident Doc)) (i : Nat) (id : Ident)
    (h : NeverLoaded ident es i id) : derefResult ident es i = some (repoAfter es id) := by
  unfold derefResult
  rw [h.get]
  simp [tryDeref_unloaded, repoAfter_run]

/-- C37: and the repository is asked for that id, once. -/
theorem C37_asks (ident : Doc → Ident) (es : List (LazyEvent Ident Doc)) (i : Nat) (id : Ident)
    (h : NeverLoaded ident es i id) : askedIn ident (es ++ [.deref i]) = askedIn ident es ++ [id] := by
  unfold askedIn
  rw [lazy_run_snoc]
  simp [LazyState.step, h.get, tryDeref_unloaded]

/-! ## C38 -/

/-- C38, the part about agreement: after any interleaving of any number of threads, whatever the repository answers, all
calls that returned a document returned the same one, which is the cached one. -/
theorem C38_agreement (cache : Option Doc) (sched : List (Nat × Option Doc)) :
    let s := (DerefState.start cache).run sched
    (∀ c ∈ s.calls, ∀ d, c.result = some d → s.cache = some d) ∧
    (∀ c ∈ s.calls, ∀ c' ∈ s.calls, ∀ d d', c.result = some d → c'.result = some d' → d = d') := by
  intro s
  have hi := DerefState.run_inv sched (DerefState.start_inv cache)
  refine ⟨hi.results, ?_⟩
  intro c hc c' hc' d d' hd hd'
  have h1 := hi.results c hc d hd
  have h2 := hi.results c' hc' d' hd'
  rw [h1] at h2; exact Option.some.inj h2

/-- C38: the cached document never changes, in any continuation of any interleaving. -/
theorem C38_cache_stable (cache : Option Doc) (sched more : List (Nat × Option Doc)) (d : Doc)
    (h : ((DerefState.start cache).run sched).cache = some d) :
    ((DerefState.start cache).run (sched ++ more)).cache = some d := by
  rw [DerefState.run_append]; exact DerefState.run_cache more h

/-- C38 is false of the code in its last part: of two threads for which the repository finds the document, the second to
store it gets `None`. -/
theorem C38_refuted : ∃ sched : List (Nat × Option Nat),
    ⟨1, some 7, none⟩ ∈ ((DerefState.start (none : Option Nat)).run sched).calls := by
  refine ⟨[(0, none), (1, none), (0, none), (1, none), (0, some 7), (1, some 7), (0, none), (1, none), (0, none)], ?_⟩
  decide

/-- C38, what holds of its last part: a call that returned `None` although the repository found the document for it did so
because another thread had loaded it, and a document is cached from then on. -/
theorem C38_only_race_losers_partial (cache : Option Doc) (sched : List (Nat × Option Doc)) :
    let s := (DerefState.start cache).run sched
    ∀ c ∈ s.calls, c.result = none → c.found ≠ none → s.cache ≠ none := by
  intro s
  exact (DerefState.run_inv sched (DerefState.start_inv cache)).lost

/-- C38, its last part exactly: a call for which the repository found a document returns that document, unless another
thread stored one while the call was going on. -/
theorem C38_found_or_lost_partial (cache : Option Doc) (sched : List (Nat × Option Doc)) :
    ∀ c ∈ (derefAfter cache sched).calls, ∀ d, c.found = some d →
      c.result = some d ∨ (c.result = none ∧ LostRace cache sched c) := (raceInv cache sched).calls

/-- C38: a call started once a document is cached returns it, in any interleaving. The schedule `more` contains two steps of
thread `t`, which is not in a call before. -/
theorem C38_loaded_found (cache : Option Doc) (sched between more : List (Nat × Option Doc)) (t : Nat) (a a' : Option Doc)
    (d : Doc) (h : ((DerefState.start cache).run sched).cache = some d)
    (hidle : ((DerefState.start cache).run sched).pcs t = .idle) (hb : ∀ e ∈ between, e.1 ≠ t) :
    ∃ c ∈ ((DerefState.start cache).run (sched ++ (t, a) :: between ++ (t, a') :: more)).calls,
      c.thread = t ∧ c.result = some d := by
  have e1 : sched ++ (t, a) :: between ++ (t, a') :: more = sched ++ ([(t, a)] ++ (between ++ ([(t, a')] ++ more))) := by simp
  rw [e1, DerefState.run_append, DerefState.run_append, DerefState.run_append, DerefState.run_append]
  generalize (DerefState.start cache).run sched = s at h hidle
  -- the call begins
  have h1 : (s.run [(t, a)]).pcs t = .get ∧ (s.run [(t, a)]).cache = some d := by
    refine ⟨?_, DerefState.run_cache [(t, a)] h⟩
    simp [DerefState.run, DerefState.step, hidle, DerefState.pc]
  generalize s.run [(t, a)] = s1 at h1
  -- others do not move the thread
  have h2 : ∀ (between : List (Nat × Option Doc)) (s : DerefState Doc), (∀ e ∈ between, e.1 ≠ t) →
      (s.run between).pcs t = s.pcs t := by
    intro between
    induction between with
    | nil => intro s _; rfl
    | cons e l ih =>
      intro s hb
      have hne := hb e (List.mem_cons_self ..)
      show ((s.step e.1 e.2).run l).pcs t = _
      rw [ih _ (fun x hx => hb x (List.mem_cons_of_mem _ hx))]
      unfold DerefState.step
      split
      · simp [DerefState.pc, Ne.symm hne]
      · split <;> simp [DerefState.pc, DerefState.ret, Ne.symm hne]
      · split <;> simp [DerefState.pc, DerefState.ret, Ne.symm hne]
      · split <;> simp [DerefState.pc, DerefState.ret, Ne.symm hne]
      · simp [DerefState.pc, DerefState.ret, Ne.symm hne]
  have h3 : (s1.run between).pcs t = .get ∧ (s1.run between).cache = some d :=
    ⟨by rw [h2 between s1 hb]; exact h1.1, DerefState.run_cache between h1.2⟩
  generalize s1.run between = s2 at h3
  have h4 : ⟨t, s2.found t, some d⟩ ∈ (s2.run [(t, a')]).calls := by
    simp [DerefState.run, DerefState.step, h3.1, h3.2, onceGet, DerefState.ret]
  generalize s2.run [(t, a')] = s3 at h4
  refine ⟨⟨t, s2.found t, some d⟩, ?_, rfl, rfl⟩
  -- finished calls stay
  have h5 : ∀ (more : List (Nat × Option Doc)) (s : DerefState Doc) (c : DerefCall Doc), c ∈ s.calls → c ∈ (s.run more).calls := by
    intro more
    induction more with
    | nil => intro s c h; exact h
    | cons e l ih =>
      intro s c h
      refine ih (s.step e.1 e.2) c ?_
      unfold DerefState.step
      split
      · exact h
      · split
        · exact List.mem_append_left _ h
        · exact h
      · split
        · exact List.mem_append_left _ h
        · exact h
      · split
        · exact h
        · exact List.mem_append_left _ h
      · exact List.mem_append_left _ h
  exact h5 more s3 _ h4

/-- C38: a document returned was in the cache at first or is one the repository answered with. -/
theorem C38_provenance (cache : Option Doc) (sched : List (Nat × Option Doc)) (c : DerefCall Doc) (d : Doc)
    (hc : c ∈ ((DerefState.start cache).run sched).calls) (hd : c.result = some d) :
    cache = some d ∨ ∃ t, (t, some d) ∈ sched := by
  suffices h : ∀ (P : Doc → Prop) (sched : List (Nat × Option Doc)) (s : DerefState Doc),
      (∀ d, s.cache = some d → P d) → (∀ t d, s.pcs t = .set d → P d) → (∀ t d, (t, some d) ∈ sched → P d) →
      ∀ d, (s.run sched).cache = some d → P d by
    exact h (fun d => cache = some d ∨ ∃ t, (t, some d) ∈ sched) sched (DerefState.start cache) (fun d h => .inl h)
      (by intro t d h; cases h) (fun t d h => .inr ⟨t, h⟩) d ((C38_agreement cache sched).1 c hc d hd)
  intro P sched
  induction sched with
  | nil => intro s h1 _ _ d h; exact h1 d h
  | cons e sched ih =>
    obtain ⟨t, a⟩ := e
    intro s h1 h2 h3
    refine ih (s.step t a) ?_ ?_ (fun t' d h => h3 t' d (List.mem_cons_of_mem _ h))
    · intro d
      unfold DerefState.step
      split
      · exact h1 d
      · split <;> exact h1 d
      · split <;> exact h1 d
      · rename_i d0 hpc
        cases hc : s.cache with
        | none =>
          simp only [onceSet]
          rintro ⟨⟩
          exact h2 t _ hpc
        | some old =>
          simp only [onceSet]
          intro h
          exact h1 d (hc.trans h)
      · exact h1 d
    · intro t' d
      have hidle : ∀ (q : DerefPc Doc), (∀ d, q = .set d → P d) → (if t' = t then q else s.pcs t') = .set d → P d := by
        intro q hq h
        by_cases e : t' = t
        · simp only [if_pos e] at h; exact hq d h
        · simp only [if_neg e] at h; exact h2 t' d h
      unfold DerefState.step
      split
      · exact hidle .get (by intro d h; cases h)
      · split
        · exact hidle .idle (by intro d h; cases h)
        · exact hidle .find (by intro d h; cases h)
      · split
        · exact hidle .idle (by intro d h; cases h)
        · rename_i d0
          exact hidle (.set d0) (by rintro d ⟨⟩; exact h3 t d0 (List.mem_cons_self ..))
      · split
        · exact hidle .get2 (by intro d h; cases h)
        · exact hidle .idle (by intro d h; cases h)
      · exact hidle .idle (by intro d h; cases h)

/-! ## C39 -/

/-- C39: a document built from content reports the content's id, and after any further history dereferences to that content
without asking the repository. -/
theorem C39_new (ident : Doc → Ident) (es more : List (LazyEvent Ident Doc)) (d : Doc) :
    let i := created ident es
    idResult ident (es ++ .new d :: more) i = some (ident d) ∧
    derefResult ident (es ++ .new d :: more) i = some (some d) ∧
    askedIn ident (es ++ .new d :: more ++ [.deref i]) = askedIn ident (es ++ .new d :: more) := by
  intro i
  have h0 : (LazyState.run ident (es ++ [.new d])).docs[i]? = some ⟨ident d, some d⟩ := by
    rw [lazy_run_snoc]
    simp [LazyState.step, LazyDocument.new, onceSet, i, created]
  have h1 : (LazyState.run ident (es ++ .new d :: more)).docs[i]? = some ⟨ident d, some d⟩ := by
    have := steps_loaded ident h0 more
    rw [← lazy_run_append] at this
    simpa using this
  refine ⟨?_, ?_, ?_⟩
  · unfold idResult; rw [h1]; rfl
  · unfold derefResult; rw [h1]; rfl
  · unfold askedIn
    rw [lazy_run_snoc]
    simp only [LazyState.step, h1, tryDeref_loaded]
    simp

/-! ## C40 -/

/-- C40: `id()` never changes. -/
theorem C40_id_never_changes (ident : Doc → Ident) (es more : List (LazyEvent Ident Doc)) (i : Nat) (id : Ident)
    (h : idResult ident es i = some id) : idResult ident (es ++ more) i = some id := by
  unfold idResult at h ⊢
  obtain ⟨l, hl, hid⟩ := Option.map_eq_some_iff.1 h
  suffices hs : ∀ (more : List (LazyEvent Ident Doc)) (s : LazyState Ident Doc) l, s.docs[i]? = some l →
      ∃ l', (more.foldl (LazyState.step ident) s).docs[i]? = some l' ∧ l'.document_id = l.document_id by
    obtain ⟨l', h1, h2⟩ := hs more _ l hl
    rw [lazy_run_append, h1]
    show some l'.document_id = _
    rw [h2]; exact congrArg some hid
  intro more
  induction more with
  | nil => intro s l h; exact ⟨l, h, rfl⟩
  | cons e more ih =>
    intro s l h
    obtain ⟨l1, h1, e1⟩ := step_id ident h e
    obtain ⟨l2, h2, e2⟩ := ih _ l1 h1
    exact ⟨l2, h2, e2.trans e1⟩

/-- C40, its second half for faithful repositories: if what the repository returns for an id always has that id, then so has
every document `try_deref` returns.
Missing from C40: the repository of the command line tool is not faithful (`C40_refuted`). -/
theorem C40_loaded_id_partial (ident : Doc → Ident) (es : List (LazyEvent Ident Doc)) (i : Nat) (id : Ident) (d : Doc)
    (hrepo : ∀ r, .repo r ∈ es → ∀ k d, r k = some d → ident d = k)
    (hid : idResult ident es i = some id) (hd : derefResult ident es i = some (some d)) : ident d = id := by
  obtain ⟨h1, h2⟩ := lazy_all ident (fun k d => ident d = k) (fun _ => rfl) es hrepo
  unfold idResult at hid
  unfold derefResult at hd
  obtain ⟨l, hl, rfl⟩ := Option.map_eq_some_iff.1 hid
  rw [hl] at hd
  obtain ⟨k, _ | x⟩ := l
  · simp only [Option.map_some, tryDeref_unloaded] at hd
    exact h1 k d (by simpa using hd)
  · simp only [Option.map_some, tryDeref_loaded] at hd
    cases hd
    exact h2 i _ d hl rfl

/-! Examples: documents are `(id, content)`. -/

/-- A document is created, is missing, appears, is loaded, and changes in the repository. -/
def lazyHistory : List (LazyEvent Nat (Nat × Nat)) :=
  [.build 3, .deref 0, .repo fun k => if k = 3 then some (3, 30) else none]

example : NeverLoaded Prod.fst lazyHistory 0 3 :=
  .other [.build 3, .deref 0] _ 0 3 (.failed [.build 3] 0 3 (.build [] 3) (by decide)) (by intro j h; cases h)
example : derefResult Prod.fst lazyHistory 0 = some (some (3, 30)) := by decide
example : derefResult Prod.fst (lazyHistory ++ [.deref 0, .repo fun _ => none]) 0 = some (some (3, 30)) := by decide
example : derefResult Prod.fst (lazyHistory ++ [.repo fun _ => none]) 0 = some none := by decide
example : derefResult Prod.fst (lazyHistory ++ [.deref 0, .repo fun _ => none, .clone 0, .deref 1]) 1 = some (some (3, 30)) := by
  decide
example : askedIn Prod.fst (lazyHistory ++ [.deref 0, .deref 0, .clone 0, .deref 1]) = [3, 3] := by decide
example : ((DerefState.start (none : Option Nat)).run
    [(0, none), (1, none), (0, none), (1, none), (0, some 7), (1, some 7), (0, none), (1, none), (0, none), (1, none),
      (1, none)]).calls = [⟨1, some 7, none⟩, ⟨0, some 7, some 7⟩, ⟨1, none, some 7⟩] := by decide

end Plotline
