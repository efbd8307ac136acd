import Verif.Lemmas.ThreadsRun

/-! # Threads sharing a schema (C110) -/

namespace Plotline

open Std

set_option linter.unusedSectionVars false

variable {σ : Sig} [LawfulSig σ] {g : Graph σ.K σ.T} {prefer : Bool} {c c' : Crowd σ} {es : List (ThreadEvent σ)}

/-! ## One call at a time -/

theorem crowd_inv (hg : g.Reachable) (hr : Crowd.Run prefer (Crowd.start g) es c) : CrowdInv g c := crowdInv_run hg hr crowdInv_start

theorem step_past {e : ThreadEvent σ} (hs : Crowd.Step prefer c e c') : c'.past.map Prod.snd = ((answersOf [e]).map Prod.fst).reverse ++ c.past.map Prod.snd := by
  cases hs <;> simp [answersOf]

theorem run_past (hr : Crowd.Run prefer c es c') : c'.past.map Prod.snd = ((answersOf es).map Prod.fst).reverse ++ c.past.map Prod.snd := by
  induction hr with
  | nil => simp [answersOf]
  | @cons _ _ _ e _ hs _ ih => rw [ih, step_past hs]; cases e <;> simp [answersOf]

theorem run_calls (hr : Crowd.Run prefer c es c') :
    c.app.calls ((answersOf es).map Prod.fst) = some ((answersOf es).map Prod.snd, c'.app) := by
  induction hr with
  | nil => simp [answersOf, App.calls]
  | cons hs _ ih =>
    cases hs with
    | call _ _ hs _ => simp [answersOf, App.calls, hs, ih]
    | wait _ _ _ => simpa [answersOf] using ih
    | wake _ _ hs _ => simp [answersOf, App.calls, hs, ih]

/-- C110: whatever threads do, the calls that return are as if one program had made them, one after another, in the order in which they
return: they return the same and leave the schema the same. So everything that was shown of one program (C78 to C81) holds here, where
`h` are the calls of all threads that returned so far. -/
theorem C110_one_by_one (hg : g.Reachable) (hr : Crowd.Run prefer (Crowd.start g) es c) :
    (App.start g).calls ((answersOf es).map Prod.fst) = some ((answersOf es).map Prod.snd, c.app) ∧
      AppLegal g ((answersOf es).map Prod.fst).reverse c.app := by
  refine ⟨run_calls hr, ?_⟩
  have := (crowd_inv hg hr).legal
  rw [run_past hr] at this
  simpa [Crowd.start] using this

/-- C110: in particular a guard gives what was put in the graph last, by whichever thread. -/
theorem C110_get (hg : g.Reachable) (hr : Crowd.Run prefer (Crowd.start g) es c) {t n : Nat} {i : σ.K} {r : AppAnswer σ}
    (hs : Crowd.Step prefer c (.returned t (.guardGet n i) r) c') : r = .node (storedAt g ((answersOf es).map Prod.fst).reverse i) := by
  have hl := (C110_one_by_one hg hr).2
  generalize he : (ThreadEvent.returned t (AppCall.guardGet n i) r) = e at hs
  cases hs with
  | call _ _ hs _ => cases he; exact C78_get hg hl n i _ hs
  | wait _ _ _ => cases he
  | wake hq _ hs _ =>
    injection he with h1 h2 h3
    rw [← h2] at hs
    cases h3
    exact C78_get hg hl n i _ hs

/-- C110: and a guard of a resource what was assigned to it last, by whichever thread. -/
theorem C110_peek (hg : g.Reachable) (hr : Crowd.Run prefer (Crowd.start g) es c) {t n : Nat} {ty : σ.Ty} {r : AppAnswer σ}
    (hs : Crowd.Step prefer c (.returned t (.peekRes ty n) r) c') :
    ∃ e p, resGuardOf ((answersOf es).map Prod.fst).reverse n = some (ty, e, p) ∧
      match p with
      | none => r = .value ty none
      | some p => ∃ v, resHolds ((answersOf es).map Prod.fst).reverse p = some ⟨ty, v⟩ ∧ r = .value ty (some v) := by
  have hl := (C110_one_by_one hg hr).2
  generalize he : (ThreadEvent.returned t (AppCall.peekRes ty n) r) = e at hs
  cases hs with
  | call _ _ hs _ => cases he; exact (C80_peek hl ty n _ hs).2
  | wait _ _ _ => cases he
  | wake hq _ hs _ =>
    injection he with h1 h2 h3
    rw [← h2] at hs
    cases h3
    exact (C80_peek hl ty n _ hs).2

/-! ## Nobody comes between -/

/-- A call of another thread returned. -/
theorem step_cases (hg : g.Reachable) (hI : CrowdInv g c) {e : ThreadEvent σ} (hs : Crowd.Step prefer c e c') {t : Nat} (ht : ¬ e.Serves t) :
    c'.past = c.past ∨ ∃ s y, s ≠ t ∧ c'.past = (s, y) :: c.past ∧ AppPossible (c.past.map Prod.snd) y ∧
      (∀ v, y.needs = some v → maker c.past v = some s) ∧ ¬ NeverReturns (c.past.map Prod.snd) y := by
  cases hs with
  | @call s y r a hm _ hs hr =>
    exact .inr ⟨s, y, ht, rfl, (C79_possible hg hI.legal y).1 ⟨_, _, hs⟩, hm.2.1, fun h => hr ((C79_stuck hg hI.legal y _ hs).2 h)⟩
  | wait => exact .inl rfl
  | @wake s y r a hq _ hs hr =>
    refine .inr ⟨s, _, ht, rfl, (C79_possible hg hI.legal _).1 ⟨_, _, hs⟩, ?_, fun h => hr ((C79_stuck hg hI.legal _ _ hs).2 h)⟩
    intro v hv
    rw [named_eq hg hI.legal, needs_renamed] at hv
    exact hI.own _ _ hq v hv

theorem hasGraph_fwd (hI : CrowdInv g c) {t s : Nat} {y : AppCall σ} {excl : Bool} (hp : AppPossible (c.past.map Prod.snd) y)
    (hown : ∀ v, y.needs = some v → maker c.past v = some s) (hts : s ≠ t) (hh : HasGraph c.past t excl) : HasGraph ((s, y) :: c.past) t excl := by
  have key : ∀ v, maker c.past v = some t → y.needs ≠ some v ∧ y.makes ≠ some v := by
    intro v hv
    refine ⟨fun he => ?_, fun he => fresh_uncounted hp he ((hI.made v).1 ⟨_, hv⟩)⟩
    rw [hown v he] at hv
    exact hts (Option.some.inj hv)
  rcases hh with ⟨n, e, h1, h2, h3⟩ | ⟨n, h1, h3⟩
  · obtain ⟨k1, k2⟩ := key _ h3
    exact .inl ⟨n, e, guardKept_fwd k1 h1, h2, by rw [maker_cons k2]; exact h3⟩
  · obtain ⟨k1, k2⟩ := key _ h3
    exact .inr ⟨n, (txKept_other k1).2 h1, by rw [maker_cons k2]; exact h3⟩

/-- Who uses the graph exclusively is the only one to use it. -/
theorem hasGraph_guard (hg : g.Reachable) (hI : CrowdInv g c) {t s m : Nat} {excl e : Bool} (hh : HasGraph c.past t excl)
    (hu : GuardUsable (c.past.map Prod.snd) m e) (he : excl = true ∨ e = true) (hm : maker c.past (.guard m) = some s) : s = t := by
  have hG := hI.legal.gInv hg
  obtain ⟨x, hx, hxe, hxs⟩ := (hG.usable m e).1 hu
  have hxd : x.status ≠ .dropped := by rw [hxs]; simp
  rcases hh with ⟨n, e', h1, h2, h3⟩ | ⟨n, h1, h3⟩
  · obtain ⟨y, hy, hye, hyd⟩ := (hG.kept n e').1 h1
    have : n = m := by
      rcases he with he | he
      · exact hG.excl1 n m y x hy hx (by rw [hye]; exact h2 he) hyd hxd
      · exact (hG.excl1 m n x y hx hy (by rw [hxe]; exact he) hxd hyd).symm
    subst this
    rw [h3] at hm; exact (Option.some.inj hm).symm
  · obtain ⟨y, hy, hyh⟩ := (hG.txKept n).1 h1
    exact (hG.excl2 m n x y hx hy hxd hyh).elim

theorem hasGraph_commit (hg : g.Reachable) (hI : CrowdInv g c) {t s m : Nat} {excl : Bool} (hh : HasGraph c.past t excl)
    (hp : AppPossible (c.past.map Prod.snd) (.inTx m (.commit 0))) (hm : maker c.past (.tx m) = some s) : s = t := by
  have hG := hI.legal.gInv hg
  obtain ⟨h1, h2, hne⟩ := hp
  have hne := hne rfl
  obtain ⟨⟨wo, st⟩, hx⟩ := (tx_made hG m).1 h1
  have hhold : (⟨wo, st⟩ : TxOwner σ).holds = true := by
    cases wo with
    | none =>
      have := hG.fresh m st hx
      split at this
      · exact absurd this hne
      · rw [this] at h2; exact absurd h2 (possible_over _)
    | some w =>
      have := (hG.world m w st hx).2.1.2 h2.1
      simp [TxOwner.holds, this]
  rcases hh with ⟨n, e', h1, _, h3⟩ | ⟨n, h1, h3⟩
  · obtain ⟨y, hy, _, hyd⟩ := (hG.kept n e').1 h1
    exact (hG.excl2 n m y _ hy hx hyd hhold).elim
  · obtain ⟨y, hy, hyh⟩ := (hG.txKept n).1 h1
    have : n = m := hG.excl3 n m y _ hy hx hyh hhold
    subst this
    rw [h3] at hm; exact (Option.some.inj hm).symm

/-- C110: while a thread has the graph for itself, and makes no call that returns, nothing in the graph changes. -/
theorem C110_alone (hg : g.Reachable) (hr : Crowd.Run prefer (Crowd.start g) es c) {t : Nat} (hh : HasGraph c.past t true) {es' : List (ThreadEvent σ)}
    (hr' : Crowd.Run prefer c es' c') (hq : ∀ e ∈ es', ¬ e.Serves t) (i : σ.K) :
    storedAt g (c'.past.map Prod.snd) i = storedAt g (c.past.map Prod.snd) i := by
  have hI := crowd_inv hg hr
  clear hr
  induction hr' with
  | nil => rfl
  | @cons c c1 c2 e es hs _ ih =>
    have hI1 := crowdInv_step hg hI hs
    have hq1 := hq e (by simp)
    have hq2 : ∀ e ∈ es, ¬ e.Serves t := fun e he => hq e (by simp [he])
    rcases step_cases hg hI hs hq1 with hp | ⟨s, y, hst, hp, hpos, hown, _⟩
    · rw [ih (by rw [hp]; exact hh) hq2 hI1, hp]
    · have hh1 : HasGraph c1.past t true := by rw [hp]; exact hasGraph_fwd hI hpos hown hst hh
      rw [ih hh1 hq2 hI1, hp]
      show storedAt g (y :: c.past.map Prod.snd) i = _
      have hguard : ∀ m e, GuardUsable (c.past.map Prod.snd) m e → y.needs = some (.guard m) → False := fun m e hu hn =>
        hst (hasGraph_guard hg hI hh hu (.inl rfl) (hown _ hn))
      cases y with
      | touch m j f => obtain ⟨e, he⟩ := hpos; exact (hguard m e he rfl).elim
      | insert m n => exact (hguard m true hpos rfl).elim
      | remove m n => exact (hguard m true hpos rfl).elim
      | replace m n => exact (hguard m true hpos rfl).elim
      | inTx m k =>
        cases k with
        | commit k =>
          cases k with
          | zero => exact (hst (hasGraph_commit hg hI hh hpos (hown _ rfl))).elim
          | succ k => rfl
        | _ => rfl
      | _ => rfl

/-- C110: while a thread has the graph, nothing gets into it or out of it (which is not to say that nobody changes a node inside, through
a shared reference). -/
theorem C110_shared (hg : g.Reachable) (hr : Crowd.Run prefer (Crowd.start g) es c) {t : Nat} (hh : HasGraph c.past t false) {es' : List (ThreadEvent σ)}
    (hr' : Crowd.Run prefer c es' c') (hq : ∀ e ∈ es', ¬ e.Serves t) (i : σ.K) :
    (storedAt g (c'.past.map Prod.snd) i).isSome = (storedAt g (c.past.map Prod.snd) i).isSome := by
  have hI := crowd_inv hg hr
  clear hr
  induction hr' with
  | nil => rfl
  | @cons c c1 c2 e es hs _ ih =>
    have hI1 := crowdInv_step hg hI hs
    have hq1 := hq e (by simp)
    have hq2 : ∀ e ∈ es, ¬ e.Serves t := fun e he => hq e (by simp [he])
    rcases step_cases hg hI hs hq1 with hp | ⟨s, y, hst, hp, hpos, hown, _⟩
    · rw [ih (by rw [hp]; exact hh) hq2 hI1, hp]
    · have hh1 : HasGraph c1.past t false := by rw [hp]; exact hasGraph_fwd hI hpos hown hst hh
      rw [ih hh1 hq2 hI1, hp]
      show (storedAt g (y :: c.past.map Prod.snd) i).isSome = _
      have hguard : ∀ m, GuardUsable (c.past.map Prod.snd) m true → y.needs = some (.guard m) → False := fun m hu hn =>
        hst (hasGraph_guard hg hI hh hu (.inr rfl) (hown _ hn))
      cases y with
      | touch m j f => simp only [storedAt]; split <;> simp
      | insert m n => exact (hguard m hpos rfl).elim
      | remove m n => exact (hguard m hpos rfl).elim
      | replace m n => exact (hguard m hpos rfl).elim
      | inTx m k =>
        cases k with
        | commit k =>
          cases k with
          | zero => exact (hst (hasGraph_commit hg hI hh hpos (hown _ rfl))).elim
          | succ k => rfl
        | _ => rfl
      | _ => rfl

/-- C110: while a thread has a resource, and makes no call that returns, what the resource holds does not change. -/
theorem C110_resource (hg : g.Reachable) (hr : Crowd.Run prefer (Crowd.start g) es c) {t p : Nat} (hh : HasRes c.past t p) {es' : List (ThreadEvent σ)}
    (hr' : Crowd.Run prefer c es' c') (hq : ∀ e ∈ es', ¬ e.Serves t) :
    resHolds (c'.past.map Prod.snd) p = resHolds (c.past.map Prod.snd) p := by
  have hI := crowd_inv hg hr
  clear hr
  induction hr' with
  | nil => rfl
  | @cons c c1 c2 e es hs _ ih =>
    have hI1 := crowdInv_step hg hI hs
    have hq1 := hq e (by simp)
    have hq2 : ∀ e ∈ es, ¬ e.Serves t := fun e he => hq e (by simp [he])
    rcases step_cases hg hI hs hq1 with hp | ⟨s, y, hst, hp, hpos, hown, _⟩
    · rw [ih (by rw [hp]; exact hh) hq2 hI1, hp]
    · obtain ⟨n, ty, e, h1, h2, h3⟩ := hh
      have hR := hI.legal.res
      have hk2 : y.makes ≠ some (.res n) := fun he => fresh_uncounted hpos he ((hI.made _).1 ⟨_, h3⟩)
      have hk1 : y.needs ≠ some (.res n) := by
        intro he
        rw [hown _ he] at h3
        exact hst (Option.some.inj h3)
      have hh1 : HasRes c1.past t p := by
        rw [hp]
        exact ⟨n, ty, e, resKept_fwd hk1 h1, by show resGuardOf (y :: _) n = _; rw [resGuardOf_other hk2]; exact h2, by rw [maker_cons hk2]; exact h3⟩
      rw [ih hh1 hq2 hI1, hp]
      show resHolds (y :: c.past.map Prod.snd) p = _
      obtain ⟨x, hx, hxd⟩ := (hR.kept n).1 h1
      have hxc : x.cell = some p := by rw [hR.guard, hx] at h2; simp at h2; exact h2.2.2
      have hguard : ∀ m ty', ResUsable (c.past.map Prod.snd) m → resGuardOf (c.past.map Prod.snd) m = some (ty', true, some p) →
          y.needs = some (.res m) → False := by
        intro m ty' hu hgd hn
        obtain ⟨z, hz, hzs⟩ := (hR.usable m).1 hu
        rw [hR.guard, hz] at hgd
        simp at hgd
        have := hR.excl m n z x p hz hx hgd.2.2 hxc (by rw [hzs]; simp) hxd hgd.2.1
        subst this
        exact hk1 hn
      cases y with
      | register ty' v =>
        obtain ⟨l, hl, _⟩ := hR.guardTyped n x p hx hxc
        have hlt := (List.getElem?_eq_some_iff.1 hl).1
        rw [hR.nr] at hlt
        simp only [resHolds]
        rw [if_neg (by omega)]
      | assignRes m ty' v =>
        obtain ⟨hu, r, hgd⟩ := hpos
        simp only [resHolds, hgd]
        cases r with
        | none => rfl
        | some r =>
          by_cases hrp : r = p
          · subst hrp; exact (hguard m ty' hu hgd rfl).elim
          · simp [hrp]
      | dropRes m b =>
        cases b with
        | false => rfl
        | true =>
          simp only [resHolds]
          cases hgd : resGuardOf (c.past.map Prod.snd) m with
          | none => rfl
          | some q =>
            obtain ⟨ty', e', r⟩ := q
            cases e' with
            | false => rfl
            | true =>
              cases r with
              | none => rfl
              | some r =>
                by_cases hrp : r = p
                · subst hrp; exact (hguard m ty' hpos hgd rfl).elim
                · simp [hrp]
      | _ => rfl

/-! ## Who waits -/

theorem behind_iff (hg : g.Reachable) (hI : CrowdInv g c) {x : AppCall σ}
    (hp : AppPossible (c.past.map Prod.snd) (renamed (c.past.map Prod.snd) x)) : c.behind prefer x ↔ OthersFirst prefer c.past c.queue x := by
  unfold Crowd.behind OthersFirst
  refine and_congr_right fun _ => exists_congr fun u => exists_congr fun y => exists_congr fun l => and_congr_right fun hq => ?_
  rw [asks_eq hg hI.legal hp, asks_eq hg hI.legal (hI.able u y hq)]

theorem renamed_possible {h : List (AppCall σ)} {x : AppCall σ} (hp : AppPossible h x) : AppPossible h (renamed h x) := by
  cases x <;> simp_all [renamed, AppPossible]

/-- C110: a call returns at once exactly if it is not one that waits for a lock that is held, and nobody goes first; otherwise it waits. -/
theorem C110_at_once (hg : g.Reachable) (hr : Crowd.Run prefer (Crowd.start g) es c) {t : Nat} {x : AppCall σ} (hm : c.may t x)
    (hp : AppPossible (c.past.map Prod.snd) x) :
    ((∃ r c', Crowd.Step prefer c (.returned t x r) c') ↔
      ¬ NeverReturns (c.past.map Prod.snd) x ∧ ¬ OthersFirst prefer c.past c.queue x) ∧
    ((∃ c', Crowd.Step prefer c (.waits t x) c') ↔ NeverReturns (c.past.map Prod.snd) x ∨ OthersFirst prefer c.past c.queue x) := by
  have hI := crowd_inv hg hr
  have hb := behind_iff (prefer := prefer) hg hI (renamed_possible hp)
  obtain ⟨r, a, hs⟩ := (C79_possible hg hI.legal x).2 hp
  have hst := C79_stuck hg hI.legal x r hs
  refine ⟨⟨?_, ?_⟩, ?_, ?_⟩
  · rintro ⟨r', c', h⟩
    generalize he : ThreadEvent.returned t x r' = e at h
    cases h with
    | call _ hnb hs' hr' =>
      cases he
      rw [hs] at hs'
      cases hs'
      exact ⟨fun h => hr' (hst.2 h), fun h => hnb (hb.2 h)⟩
    | wait => cases he
    | wake hq =>
      cases he
      exact (hm.1 _ hq rfl).elim
  · rintro ⟨h1, h2⟩
    exact ⟨r, _, .call hm (fun h => h2 (hb.1 h)) hs fun h => h1 (hst.1 h)⟩
  · rintro ⟨c', h⟩
    generalize he : ThreadEvent.waits t x = e at h
    cases h with
    | call => cases he
    | wake => cases he
    | wait _ hs' hw =>
      cases he
      rw [hs] at hs'
      cases hs'
      exact hw.imp hst.1 hb.1
  · intro h
    exact ⟨_, .wait hm hs (h.imp hst.2 hb.2)⟩

/-- C110: a call that waits can return at any moment at which the same holds of it, and at no other. -/
theorem C110_now (hg : g.Reachable) (hr : Crowd.Run prefer (Crowd.start g) es c) {t : Nat} {x : AppCall σ} (hq : (t, x) ∈ c.queue) :
    (∃ y r c', Crowd.Step prefer c (.returned t y r) c') ↔
      ¬ NeverReturns (c.past.map Prod.snd) x ∧ ¬ OthersFirst prefer c.past c.queue x := by
  have hI := crowd_inv hg hr
  have hp := hI.able t x hq
  have hb := behind_iff (prefer := prefer) hg hI hp
  have hn := named_eq hg hI.legal x
  obtain ⟨r, a, hs⟩ := (C79_possible hg hI.legal _).2 hp
  have hst := (C79_stuck hg hI.legal _ r hs).trans (neverReturns_renamed _ _ x)
  constructor
  · rintro ⟨y, r', c', h⟩
    generalize he : ThreadEvent.returned t y r' = e at h
    cases h with
    | call hm =>
      cases he
      exact (hm.1 _ hq rfl).elim
    | wait => cases he
    | @wake t' x' r'' _ hq' hnb hs' hr' =>
      injection he with h1 h2 h3
      subst h1
      subst h3
      have := queue_single hI hq hq'
      subst this
      rw [hn, hs] at hs'
      cases hs'
      exact ⟨fun h => hr' (hst.2 h), fun h => hnb (hb.2 h)⟩
  · rintro ⟨h1, h2⟩
    exact ⟨_, r, _, .wake hq (fun h => h2 (hb.1 h)) (by rw [hn]; exact hs) fun h => h1 (hst.1 h)⟩

/-! ## Who waits for ever -/

/-- C110: a thread that is one of some that wait for each other never gets its lock, whatever happens; nor does it help to wait. -/
theorem C110_stuck_for_ever (hg : g.Reachable) (hr : Crowd.Run prefer (Crowd.start g) es c) {t : Nat} (hd : c.Doomed prefer t)
    {es' : List (ThreadEvent σ)} (hr' : Crowd.Run prefer c es' c') : (∀ e ∈ es', ¬ e.Serves t) ∧ c'.Doomed prefer t := by
  obtain ⟨D, ht, hD⟩ := hd
  obtain ⟨h1, h2⟩ := deadlock_run hg hr' (crowd_inv hg hr) hD
  exact ⟨h1 t ht, D, ht, h2⟩

/-- C110: and nobody else waits for ever, as long as those who have locks let go of them: all the others can be served. -/
theorem C110_otherwise (hg : g.Reachable) (hr : Crowd.Run prefer (Crowd.start g) es c) :
    ∃ es' c', Crowd.Run prefer c es' c' ∧ AtRest prefer c' ∧ (∀ q ∈ c'.queue, q ∈ c.queue) ∧
      ∀ q ∈ c.queue, ¬ c.Doomed prefer q.1 → ∃ e ∈ es', e.Serves q.1 := by
  obtain ⟨c', ⟨es', h1, h2, h3, h4⟩, hD⟩ := crowd_tidy (prefer := prefer) hg _ (crowd_inv hg hr) (Nat.le_refl _)
  refine ⟨es', c', h1, hD, h2, ?_⟩
  intro q hq hd
  rcases h3 q hq with hq' | h
  · exact absurd ⟨_, ⟨q.2, hq'⟩, h4 _ (rest_deadlock hg (crowdInv_run hg h1 (crowd_inv hg hr)) hD)⟩ hd
  · exact h

/-- C110: a thread that waits can be served if, and only if, it is not one of some that wait for each other. -/
theorem C110_served_iff (hg : g.Reachable) (hr : Crowd.Run prefer (Crowd.start g) es c) {t : Nat} {x : AppCall σ} (hq : (t, x) ∈ c.queue) :
    (∃ es' c', Crowd.Run prefer c es' c' ∧ ∃ e ∈ es', e.Serves t) ↔ ¬ c.Doomed prefer t := by
  constructor
  · rintro ⟨es', c', hr', e, he, hs⟩ hd
    exact (C110_stuck_for_ever hg hr hd hr').1 e he hs
  · intro hd
    obtain ⟨es', c', h1, _, _, h3⟩ := C110_otherwise hg hr
    exact ⟨es', c', h1, h3 _ hq hd⟩

/-- C110: and they are, in whatever order that happens and whatever else is done meanwhile: once nobody can be served any more, and those who
do not wait have let go of all they had, forgetting nothing, exactly those were not served that were waiting for each other all along. Others
that come and wait must have been served by then too. -/
theorem C110_at_rest (hg : g.Reachable) (hr : Crowd.Run prefer (Crowd.start g) es c) {es' : List (ThreadEvent σ)} (hr' : Crowd.Run prefer c es' c')
    (hf : ∀ s y r, .returned s y r ∈ es' → ∀ n, y ≠ .forgetGuard n ∧ y ≠ .forgetTx n ∧ y ≠ .forgetRes n)
    (hw : ∀ s y, .waits s y ∈ es' → ∀ q ∈ c'.queue, q.1 ≠ s)
    (hrest : AtRest prefer c') {q : Nat × AppCall σ} (hq : q ∈ c.queue) :
    (∃ e ∈ es', e.Serves q.1) ↔ ¬ c.Doomed prefer q.1 := by
  have hI := crowd_inv hg hr
  constructor
  · rintro ⟨e, he, hs⟩ hd
    exact (C110_stuck_for_ever hg hr hd hr').1 e he hs
  · intro hd
    rcases run_waiting hr' hq with h | h
    · refine absurd ⟨_, ⟨q.2, h⟩, deadlock_run_back hg hr' hI ?_ ?_ (rest_deadlock hg (crowdInv_run hg hr' hI) hrest)⟩ hd
      · intro s y r he
        have := hf s y r he
        cases y <;> simp_all [AppCall.Forgets]
      · rintro s y he ⟨x, hx⟩
        exact hw s y he _ hx rfl
    · exact h

theorem hinders_has {h : List (AppCall σ)} {x : AppCall σ} {v : Holder} {l : LockName} {e : Bool} (hv : Hinders h x v)
    (ha : asksOf h x = some (l, e)) : v.Has h l := by
  cases x with
  | read n =>
    cases ha
    cases v with
    | guard m => exact ⟨rfl, _, hv⟩
    | tx m => exact ⟨rfl, hv⟩
    | res m => cases hv
  | write n =>
    cases ha
    cases v with
    | guard m => exact ⟨rfl, hv⟩
    | tx m => exact ⟨rfl, hv⟩
    | res m => cases hv
  | lockRes k e n =>
    cases v with
    | res m =>
      obtain ⟨t, r, t', e', h1, h2, h3, _⟩ := hv
      simp only [asksOf, h1] at ha
      cases ha
      exact ⟨h2, t', e', r, h3, rfl⟩
    | _ => cases hv
  | inTx z y =>
    cases y with
    | context t d =>
      cases t with
      | zero =>
        have hl : l = .graph := by
          simp only [asksOf] at ha
          split at ha
          · cases ha; rfl
          · cases ha
        subst hl
        cases v with
        | guard m => exact ⟨rfl, hv.2⟩
        | tx m => exact ⟨rfl, hv.2⟩
        | res m => cases hv
      | succ t => cases ha
    | _ => cases ha
  | _ => cases ha

/-- C110: threads that take locks in an order, and forget none, never wait for each other: whatever lock a thread waits for comes after
all those it has. -/
theorem C110_ordered (hg : g.Reachable) (hr : Crowd.Run prefer (Crowd.start g) es c) (rank : LockName → Nat)
    (hf : ∀ v, Kept (c.past.map Prod.snd) v → StillUsable (c.past.map Prod.snd) v)
    (ho : ∀ t x, (t, x) ∈ c.queue → ∃ l e, asksOf (c.past.map Prod.snd) x = some (l, e) ∧
      ∀ v l', maker c.past v = some t → v.Has (c.past.map Prod.snd) l' → rank l' < rank l) (t : Nat) : ¬ c.Doomed prefer t := by
  rintro ⟨D, ht, hD⟩
  have hI := crowd_inv hg hr
  have held : ∀ u y l e, (u, y) ∈ c.queue → asksOf (c.past.map Prod.snd) y = some (l, e) →
      (∃ v, Hinders (c.past.map Prod.snd) y v ∧ ((Kept (c.past.map Prod.snd) v ∧ ¬ StillUsable (c.past.map Prod.snd) v) ∨
        ∃ u, maker c.past v = some u ∧ D u)) → ∃ t' x' l' e', D t' ∧ (t', x') ∈ c.queue ∧ asksOf (c.past.map Prod.snd) x' = some (l', e') ∧
          rank l < rank l' := by
    rintro u y l e _ ha ⟨v, hv, ⟨hk, hu⟩ | ⟨w, hm, hw⟩⟩
    · exact absurd (hf v hk) hu
    · obtain ⟨x', hx', _⟩ := hD w hw
      obtain ⟨l', e', h1, h2⟩ := ho w x' hx'
      exact ⟨w, x', l', e', hw, hx', h1, h2 v l hm (hinders_has hv ha)⟩
  have next : ∀ t x l e, D t → (t, x) ∈ c.queue → asksOf (c.past.map Prod.snd) x = some (l, e) →
      ∃ t' x' l' e', D t' ∧ (t', x') ∈ c.queue ∧ asksOf (c.past.map Prod.snd) x' = some (l', e') ∧ rank l < rank l' := by
    intro t x l e ht hx ha
    obtain ⟨x', hx', hb⟩ := hD t ht
    cases queue_single hI hx hx'
    rcases hb with hb | ⟨_, u, y, m, hu, hy, h1, h2⟩
    · exact held t x l e hx ha hb
    · rw [ha] at h1; cases h1
      obtain ⟨y', hy', hb⟩ := hD u hu
      cases queue_single hI hy hy'
      rcases hb with hb | ⟨_, _, _, _, _, _, h3, _⟩
      · exact held u y l true hy h2 hb
      · rw [h2] at h3; cases h3
  have climb : ∀ n, ∃ t x l e, D t ∧ (t, x) ∈ c.queue ∧ asksOf (c.past.map Prod.snd) x = some (l, e) ∧ n ≤ rank l := by
    intro n
    induction n with
    | zero =>
      obtain ⟨x, hx, _⟩ := hD t ht
      obtain ⟨l, e, h1, _⟩ := ho t x hx
      exact ⟨t, x, l, e, ht, hx, h1, Nat.zero_le _⟩
    | succ n ih =>
      obtain ⟨t, x, l, e, h1, h2, h3, h4⟩ := ih
      obtain ⟨t', x', l', e', k1, k2, k3, k4⟩ := next t x l e h1 h2 h3
      exact ⟨t', x', l', e', k1, k2, k3, by omega⟩
  have hne : c.queue ≠ [] := by
    obtain ⟨x, hx, _⟩ := hD t ht
    intro he; rw [he] at hx; cases hx
  obtain ⟨q, _, hmax⟩ := max_exists (fun q : Nat × AppCall σ => ((asksOf (c.past.map Prod.snd) q.2).map fun a => rank a.1).getD 0) _ hne
  obtain ⟨t', x, l, e, _, h2, h3, h4⟩ := climb (((asksOf (c.past.map Prod.snd) q.2).map fun a => rank a.1).getD 0 + 1)
  have := hmax _ h2
  simp only [h3, Option.map_some, Option.getD_some] at this
  omega

/-! ## Examples -/

/-- `Crowd.may`, or less, to be computed. -/
def Crowd.mayB (c : Crowd σ) (t : Nat) (x : AppCall σ) : Bool :=
  c.queue.all (fun q => q.1 != t) && (match x.needs with | none => true | some v => maker c.past v == some t) &&
    match x with | .register _ _ => c.queue.isEmpty | _ => true

/-- `Crowd.behind`, to be computed. -/
def Crowd.behindB (prefer : Bool) (c : Crowd σ) (x : AppCall σ) : Bool :=
  prefer && match c.app.asks x with
    | some (l, false) => c.queue.any fun q => c.app.asks q.2 == some (l, true)
    | _ => false

/-- Threads make these calls, first to last; those that have to wait do so. -/
def Crowd.play (prefer : Bool) : Crowd σ → List (Nat × AppCall σ) → Option (Crowd σ)
  | c, [] => some c
  | c, (t, x) :: l =>
    if c.mayB t x = true then
      match c.app.step x with
      | none => none
      | some (.stuck, _) => Crowd.play prefer ⟨c.app, c.past, c.queue ++ [(t, x)]⟩ l
      | some (_, a) =>
        if c.behindB prefer x = true then Crowd.play prefer ⟨c.app, c.past, c.queue ++ [(t, x)]⟩ l
        else Crowd.play prefer ⟨a, (t, x) :: c.past, c.queue⟩ l
    else none

theorem play_run : ∀ {l : List (Nat × AppCall σ)} {c c' : Crowd σ}, c.play prefer l = some c' → ∃ es, Crowd.Run prefer c es c' := by
  intro l
  induction l with
  | nil => intro c c' h; cases h; exact ⟨[], .nil _⟩
  | cons q l ih =>
    intro c c' h
    obtain ⟨t, x⟩ := q
    simp only [Crowd.play] at h
    split at h
    · rename_i hm
      simp only [Crowd.mayB, Bool.and_eq_true] at hm
      obtain ⟨⟨h1, h2⟩, h3⟩ := hm
      have hmay : c.may t x := by
        refine ⟨fun q hq => by simpa using List.all_eq_true.1 h1 q hq, ?_, ?_⟩
        · intro v hv; rw [hv] at h2; simpa using h2
        · rintro ty v rfl q hq
          simp at h3; rw [h3] at hq; cases hq
      split at h
      · cases h
      · rename_i hs
        obtain ⟨es, hr⟩ := ih h
        exact ⟨_, .cons (.wait hmay hs (.inl rfl)) hr⟩
      · rename_i r a hr hs
        split at h
        · rename_i hb
          obtain ⟨es, hr⟩ := ih h
          refine ⟨_, .cons (.wait hmay hs (.inr ?_)) hr⟩
          simp only [Crowd.behindB, Bool.and_eq_true] at hb
          obtain ⟨hp, hb⟩ := hb
          split at hb
          · rename_i m hm
            obtain ⟨⟨u, y⟩, hq, hy⟩ := List.any_eq_true.1 hb
            exact ⟨hp, u, y, m, hq, hm, by simpa using hy⟩
          · cases hb
        · rename_i hb
          obtain ⟨es, hr'⟩ := ih h
          refine ⟨_, .cons (.call hmay ?_ hs hr) hr'⟩
          rintro ⟨hp, u, y, m, hq, h4, h5⟩
          apply hb
          simp only [Crowd.behindB, hp, h4, Bool.true_and, List.any_eq_true]
          exact ⟨(u, y), hq, by simp [h5]⟩
    · cases h

-- one thread has the resource and wants the graph, another one has the graph and wants the resource
def crossing : List (Nat × AppCall demo) :=
  [(0, .register 7 (1 : Nat)), (0, .resource 7 0), (0, .lockRes 0 true 0), (1, .write 0), (0, .read 1), (1, .lockRes 0 false 1)]

example : ∃ es c, Crowd.Run false (Crowd.start demoGraph : Crowd demo) es c ∧ c.Doomed false 0 ∧ c.Doomed false 1 := by
  have : ∃ c, (Crowd.start demoGraph : Crowd demo).play false crossing = some c ∧
      c.past = [(1, .write 0), (0, .lockRes 0 true 0), (0, .resource 7 0), (0, .register 7 (1 : Nat))] ∧
      c.queue = [(0, .read 1), (1, .lockRes 0 false 1)] := ⟨_, by with_unfolding_all rfl, rfl, rfl⟩
  obtain ⟨c, hc, hp, hq⟩ := this
  obtain ⟨es, hr⟩ := play_run hc
  have hd : Deadlock false c.past c.queue fun t => t = 0 ∨ t = 1 := by
    rw [hp, hq]
    rintro t (rfl | rfl)
    · exact ⟨.read 1, by simp, .inl ⟨.guard 0, .inl ⟨rfl, rfl⟩, .inr ⟨1, rfl, .inr rfl⟩⟩⟩
    · refine ⟨.lockRes 0 false 1, by simp, .inl ⟨.res 0, ⟨7, 0, 7, true, rfl, .inl rfl, ?_, .inr rfl⟩, .inr ⟨0, rfl, .inl rfl⟩⟩⟩
      with_unfolding_all rfl
  exact ⟨es, c, hr, ⟨_, .inl rfl, hd⟩, ⟨_, .inr rfl, hd⟩⟩

-- until then each has what it has for itself
example : HasGraph (crossing.take 4).reverse 1 true ∧ HasRes (crossing.take 4).reverse 0 0 :=
  ⟨.inl ⟨0, true, .inl ⟨rfl, rfl⟩, fun _ => rfl, rfl⟩, 0, 7, true, .inl rfl, by with_unfolding_all rfl, rfl⟩

-- a thread that has the graph to read it, asks again while another one waits to write: it waits for ever if those who want to write go first
example : ∃ es c, Crowd.Run true (Crowd.start demoGraph : Crowd demo) es c ∧ c.queue = [(1, .write 1), (0, .read 1)] ∧ c.Doomed true 0 ∧ c.Doomed true 1 := by
  have : ∃ c, (Crowd.start demoGraph : Crowd demo).play true [(0, .read 0), (1, .write 1), (0, .read 1)] = some c ∧
      c.past = [(0, .read 0)] ∧ c.queue = [(1, .write 1), (0, .read 1)] := ⟨_, by with_unfolding_all rfl, rfl, rfl⟩
  obtain ⟨c, hc, hp, hq⟩ := this
  obtain ⟨es, hr⟩ := play_run hc
  have hd : Deadlock true c.past c.queue fun t => t = 0 ∨ t = 1 := by
    rw [hp, hq]
    rintro t (rfl | rfl)
    · exact ⟨.read 1, by simp, .inr ⟨rfl, 1, .write 1, .graph, .inr rfl, by simp, rfl, rfl⟩⟩
    · exact ⟨.write 1, by simp, .inl ⟨.guard 0, ⟨false, .inl ⟨rfl, rfl⟩⟩, .inr ⟨0, rfl, .inl rfl⟩⟩⟩
  exact ⟨es, c, hr, hq, ⟨_, .inl rfl, hd⟩, ⟨_, .inr rfl, hd⟩⟩
-- … and has what it asks for if they do not
example : ∃ es c, Crowd.Run false (Crowd.start demoGraph : Crowd demo) es c ∧ c.past = [(0, .read 1), (0, .read 0)] ∧ c.queue = [(1, .write 1)] := by
  have : ∃ c, (Crowd.start demoGraph : Crowd demo).play false [(0, .read 0), (1, .write 1), (0, .read 1)] = some c ∧
      c.past = [(0, .read 1), (0, .read 0)] ∧ c.queue = [(1, .write 1)] := ⟨_, by with_unfolding_all rfl, rfl, rfl⟩
  obtain ⟨c, hc, hp, hq⟩ := this
  obtain ⟨es, hr⟩ := play_run hc
  exact ⟨es, c, hr, hp, hq⟩

-- a thread that forgot a guard keeps everybody from writing, also itself; nobody else has to wait with it
example : ∃ es c, Crowd.Run true (Crowd.start demoGraph : Crowd demo) es c ∧ c.queue = [(1, .write 1)] ∧ c.Doomed true 1 := by
  have : ∃ c, (Crowd.start demoGraph : Crowd demo).play true [(0, .read 0), (0, .forgetGuard 0), (1, .write 1)] = some c ∧
      c.past = [(0, .forgetGuard 0), (0, .read 0)] ∧ c.queue = [(1, .write 1)] := ⟨_, by with_unfolding_all rfl, rfl, rfl⟩
  obtain ⟨c, hc, hp, hq⟩ := this
  obtain ⟨es, hr⟩ := play_run hc
  refine ⟨es, c, hr, hq, fun t => t = 1, rfl, ?_⟩
  rw [hp, hq]
  rintro t rfl
  refine ⟨.write 1, by simp, .inl ⟨.guard 0, ⟨false, .inl ⟨rfl, rfl⟩⟩, .inl ⟨⟨false, .inl ⟨rfl, rfl⟩⟩, ?_⟩⟩⟩
  rintro ⟨e, he, _⟩
  exact he rfl

-- the graph first, then the resource: one waits for the other, but not for ever
example : ∃ es c, Crowd.Run true (Crowd.start demoGraph : Crowd demo) es c ∧ c.queue = [(1, .write 1), (0, .lockRes 0 true 1)] ∧
    ∀ t, ¬ c.Doomed true t := by
  have : ∃ c, (Crowd.start demoGraph : Crowd demo).play true [(0, .register 7 (1 : Nat)), (0, .resource 7 0), (2, .lockRes 0 true 0), (0, .write 0),
        (1, .write 1), (0, .lockRes 0 true 1)] = some c ∧
      c.past = [(0, .write 0), (2, .lockRes 0 true 0), (0, .resource 7 0), (0, .register 7 (1 : Nat))] ∧
      c.queue = [(1, .write 1), (0, .lockRes 0 true 1)] := ⟨_, by with_unfolding_all rfl, rfl, rfl⟩
  obtain ⟨c, hc, hp, hq⟩ := this
  obtain ⟨es, hr⟩ := play_run hc
  refine ⟨es, c, hr, hq, C110_ordered (g := demoGraph) (.fromIter _) hr (fun | .graph => 0 | .cell p => p + 1) ?_ ?_⟩
  · rw [hp]
    intro v hv
    cases v with
    | guard n => simpa [Kept, StillUsable, GuardKept, GuardUsable] using hv
    | tx n => simp [Kept, TxKept] at hv
    | res n => simpa [Kept, StillUsable, ResKept, ResUsable] using hv
  · rw [hp, hq]
    intro t x hx
    simp only [List.mem_cons, Prod.mk.injEq, List.not_mem_nil, or_false] at hx
    rcases hx with ⟨rfl, rfl⟩ | ⟨rfl, rfl⟩
    · refine ⟨.graph, true, rfl, ?_⟩
      intro v l' hm _
      cases v <;> simp [maker, AppCall.makes] at hm
    · refine ⟨.cell 0, true, rfl, ?_⟩
      intro v l' hm hh
      cases v with
      | guard n => rw [hh.1]; decide
      | tx n => rw [hh.1]; decide
      | res n => simp [maker, AppCall.makes] at hm

end Plotline
