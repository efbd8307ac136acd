import Verif.Lemmas.Threads

/-! # Threads sharing a schema: who waits for ever, and how the others get on -/

namespace Plotline

open Std

set_option linter.unusedSectionVars false

variable {σ : Sig}

/-- The calls that wait for locks. -/
def AppCall.Locks : AppCall σ → Prop
  | .read _ | .write _ | .inTx _ _ | .lockRes _ _ _ => True
  | _ => False

/-- What holds of threads and the schema they use. -/
structure CrowdInv (g : Graph σ.K σ.T) (c : Crowd σ) : Prop where
  legal : AppLegal g (c.past.map Prod.snd) c.app
  single : c.queue.Pairwise fun p q => p.1 ≠ q.1
  able : ∀ t x, (t, x) ∈ c.queue → AppPossible (c.past.map Prod.snd) (renamed (c.past.map Prod.snd) x)
  own : ∀ t x, (t, x) ∈ c.queue → ∀ v, x.needs = some v → maker c.past v = some t
  locks : ∀ t x, (t, x) ∈ c.queue → x.Locks
  made : ∀ v, (∃ u, maker c.past v = some u) ↔ Counted (c.past.map Prod.snd) v

theorem queue_single {c : Crowd σ} {g : Graph σ.K σ.T} (hI : CrowdInv g c) {t : Nat} {x y : AppCall σ} (hx : (t, x) ∈ c.queue)
    (hy : (t, y) ∈ c.queue) : x = y := by
  have : ∀ {l : List (Nat × AppCall σ)}, (l.Pairwise fun p q => p.1 ≠ q.1) → (t, x) ∈ l → (t, y) ∈ l → x = y := by
    intro l
    induction l with
    | nil => intro _ h; cases h
    | cons q l ih =>
      intro hp h1 h2
      obtain ⟨hq, hp⟩ := List.pairwise_cons.1 hp
      rcases List.mem_cons.1 h1 with h1 | h1
      · rcases List.mem_cons.1 h2 with h2 | h2
        · rw [← h1] at h2; cases h2; rfl
        · rw [← h1] at hq; exact (hq _ h2 rfl).elim
      · rcases List.mem_cons.1 h2 with h2 | h2
        · rw [← h2] at hq; exact (hq _ h1 rfl).elim
        · exact ih hp h1 h2
  exact this hI.single hx hy

section
variable [LawfulSig σ] {g : Graph σ.K σ.T} {prefer : Bool} {c c' : Crowd σ}

theorem maker_cons {past : List (Nat × AppCall σ)} {s : Nat} {y : AppCall σ} {v : Holder} (hm : y.makes ≠ some v) :
    maker ((s, y) :: past) v = maker past v := by
  simp only [maker]; rw [if_neg hm]

theorem renamed_makes {h : List (AppCall σ)} {x : AppCall σ} (hx : x.Locks) {v : Holder} (hv : x.needs = some v) : x = renamed h x := by
  cases x <;> simp_all [AppCall.Locks, AppCall.needs, renamed]

/-- A waiting call stays possible, whatever the others do. -/
theorem able_cons {h : List (AppCall σ)} {x y : AppCall σ} (hx : x.Locks) (hp : AppPossible h (renamed h x))
    (hn : ∀ v, x.needs = some v → y.needs ≠ some v) : AppPossible (y :: h) (renamed (y :: h) x) := by
  cases x with
  | read n => simp [renamed, AppPossible]
  | write n => simp [renamed, AppPossible]
  | lockRes k e n =>
    simp only [renamed, AppPossible, and_true] at hp ⊢
    exact Nat.lt_of_lt_of_le hp resMade_mono
  | inTx x c =>
    have h1 := hn (.tx x) rfl
    simp only [renamed, AppPossible] at hp ⊢
    rw [callsOf_other h1]
    exact ⟨Nat.lt_of_lt_of_le hp.1 ownersMade_mono, hp.2⟩
  | _ => exact hx.elim

theorem crowdInv_past (hg : g.Reachable) (hI : CrowdInv g c) {s : Nat} {y : AppCall σ} {r : AppAnswer σ} {a : App σ}
    (hs : c.app.step y = some (r, a)) (hr : r ≠ .stuck) (hown : ∀ v, y.needs = some v → maker c.past v = some s)
    {queue : List (Nat × AppCall σ)} (hsub : ∀ q ∈ queue, q ∈ c.queue) (hsingle : queue.Pairwise fun p q => p.1 ≠ q.1)
    (hnot : ∀ q ∈ queue, q.1 ≠ s) : CrowdInv g ⟨a, (s, y) :: c.past, queue⟩ := by
  have hp := (C79_possible hg hI.legal y).1 ⟨_, _, hs⟩
  have hne : ∀ t x, (t, x) ∈ queue → ∀ v, x.needs = some v → y.needs ≠ some v := by
    intro t x hq v hv he
    have h1 := hI.own t x (hsub _ hq) v hv
    have h2 := hown v he
    rw [h1] at h2
    exact hnot _ hq (Option.some.inj h2)
  refine ⟨.call hI.legal hs hr, hsingle, ?_, ?_, fun t x hq => hI.locks t x (hsub _ hq), ?_⟩
  · intro t x hq
    exact able_cons (hI.locks t x (hsub _ hq)) (hI.able t x (hsub _ hq)) (hne t x hq)
  · intro t x hq v hv
    have h1 := hI.own t x (hsub _ hq) v hv
    have : y.makes ≠ some v := fun he => fresh_uncounted hp he ((hI.made v).1 ⟨_, h1⟩)
    show maker ((s, y) :: c.past) v = some t
    rw [maker_cons this, h1]
  · intro v
    show (∃ u, maker ((s, y) :: c.past) v = some u) ↔ Counted (y :: c.past.map Prod.snd) v
    rw [counted_cons hp, ← hI.made]
    by_cases hm : y.makes = some v
    · simp [maker, hm]
    · rw [maker_cons hm]; simp [hm]

theorem filter_single {l : List (Nat × AppCall σ)} (h : l.Pairwise fun p q => p.1 ≠ q.1) (p : Nat × AppCall σ → Bool) :
    (l.filter p).Pairwise fun p q => p.1 ≠ q.1 := h.filter p

theorem crowdInv_step (hg : g.Reachable) (hI : CrowdInv g c) {e : ThreadEvent σ} (hs : Crowd.Step prefer c e c') : CrowdInv g c' := by
  cases hs with
  | @call t x r a hm _ hs hr => exact crowdInv_past hg hI hs hr hm.2.1 (fun _ h => h) hI.single hm.1
  | @wake t x r a hq _ hs hr =>
    have hn := named_eq hg hI.legal x
    refine crowdInv_past hg hI hs hr ?_ (fun _ h => (List.mem_filter.1 h).1) (filter_single hI.single _) ?_
    · intro v hv
      rw [hn, needs_renamed] at hv
      exact hI.own t x hq v hv
    · intro q hq'
      simpa using (List.mem_filter.1 hq').2
  | @wait t x r a hm hs hb =>
    have hp := (C79_possible hg hI.legal x).1 ⟨_, _, hs⟩
    have hlocks : x.Locks := by
      rcases hb with rfl | hb
      · have := (C79_stuck hg hI.legal x _ hs).1 rfl
        cases x <;> simp_all [NeverReturns, AppCall.Locks]
      · obtain ⟨_, u, y, l, _, h1, _⟩ := hb
        cases x <;> simp_all [App.asks, AppCall.Locks]
    have hren : renamed (c.past.map Prod.snd) x = x := by
      cases x <;> simp_all [AppCall.Locks, renamed, AppPossible]
    refine ⟨hI.legal, ?_, ?_, ?_, ?_, hI.made⟩
    · refine List.pairwise_append.2 ⟨hI.single, by simp, fun p hp' q hq => ?_⟩
      rw [List.mem_singleton.1 hq]
      exact hm.1 p hp'
    · intro u y hq
      rcases List.mem_append.1 hq with hq | hq
      · exact hI.able u y hq
      · cases List.mem_singleton.1 hq
        show AppPossible (c.past.map Prod.snd) (renamed (c.past.map Prod.snd) x)
        rw [hren]; exact hp
    · intro u y hq v hv
      rcases List.mem_append.1 hq with hq | hq
      · exact hI.own u y hq v hv
      · cases List.mem_singleton.1 hq
        exact hm.2.1 v hv
    · intro u y hq
      rcases List.mem_append.1 hq with hq | hq
      · exact hI.locks u y hq
      · cases List.mem_singleton.1 hq
        exact hlocks

theorem crowdInv_run (hg : g.Reachable) {es : List (ThreadEvent σ)} (hr : Crowd.Run prefer c es c') (hI : CrowdInv g c) : CrowdInv g c' := by
  induction hr with
  | nil => exact hI
  | cons hs _ ih => exact ih (crowdInv_step hg hI hs)

theorem crowdInv_start : CrowdInv g (Crowd.start g) := by
  refine ⟨.start, by simp [Crowd.start], ?_, ?_, ?_, ?_⟩
  · intro t x hq; cases hq
  · intro t x hq; cases hq
  · intro t x hq; cases hq
  · intro v; cases v <;> simp [Crowd.start, maker, Counted, guardsMade, ownersMade, resGuardsMade]

/-! ## What hinders goes on to hinder -/

theorem hinders_fwd {h : List (AppCall σ)} {x y : AppCall σ} {v : Holder} (hp : AppPossible h y)
    (hx : ∀ w, x.needs = some w → y.needs ≠ some w) (hk : ∀ k e n, x = .lockRes k e n → k < resMade h)
    (hG : ∀ n e, v = .guard n → GuardKept h n e → GuardKept (y :: h) n e) (hT : ∀ n, v = .tx n → TxKept h n → TxKept (y :: h) n)
    (hR : ∀ n, v = .res n → ResKept h n → ResKept (y :: h) n ∧ y.makes ≠ some (.res n)) (hv : Hinders h x v) : Hinders (y :: h) x v := by
  cases x with
  | read m => cases v <;> simp_all [Hinders]
  | write m =>
    cases v with
    | guard n => obtain ⟨e, he⟩ := hv; exact ⟨e, hG n e rfl he⟩
    | tx n => exact hT n rfl hv
    | res n => cases hv
  | lockRes k e m =>
    cases v with
    | res n =>
      obtain ⟨t, r, t', e', h1, h2, h3, h4⟩ := hv
      obtain ⟨h5, h6⟩ := hR n rfl h2
      exact ⟨t, r, t', e', by rw [resOf_other hp (hk k e m rfl)]; exact h1, h5, by rw [resGuardOf_other h6]; exact h3, h4⟩
    | _ => cases hv
  | inTx z c =>
    have h1 := hx (.tx z) rfl
    have hother : (∃ k e, accessOf c = some (k, e) ∧ Waits (callsOf z h) k e) →
        ∃ k e, accessOf c = some (k, e) ∧ Waits (callsOf z (y :: h)) k e := by rw [callsOf_other h1]; exact fun h => h
    cases v with
    | guard n =>
      cases c with
      | context t d =>
        cases t with
        | zero =>
          obtain ⟨h2, e, h3⟩ := hv
          exact ⟨by rw [txKept_other h1]; exact h2, e, hG n e rfl h3⟩
        | succ t => cases hv
      | _ => cases hv
    | tx n =>
      cases c with
      | context t d =>
        cases t with
        | zero => exact ⟨by rw [txKept_other h1]; exact hv.1, hT n rfl hv.2⟩
        | succ t => exact ⟨hv.1, hother hv.2⟩
      | _ => exact ⟨hv.1, hother hv.2⟩
    | res n =>
      cases c with
      | context t d => cases t <;> cases hv
      | _ => cases hv
  | _ => cases v <;> cases hv

theorem hinders_bwd {h : List (AppCall σ)} {x y : AppCall σ} {v : Holder} (hp : AppPossible h y)
    (hx : ∀ w, x.needs = some w → y.needs ≠ some w) (hk : ∀ k e n, x = .lockRes k e n → k < resMade h)
    (hG : ∀ n e, v = .guard n → GuardKept (y :: h) n e → GuardKept h n e) (hT : ∀ n, v = .tx n → TxKept (y :: h) n → TxKept h n)
    (hR : ∀ n, v = .res n → ResKept (y :: h) n → ResKept h n ∧ y.makes ≠ some (.res n)) (hv : Hinders (y :: h) x v) : Hinders h x v := by
  cases x with
  | read m => cases v <;> simp_all [Hinders]
  | write m =>
    cases v with
    | guard n => obtain ⟨e, he⟩ := hv; exact ⟨e, hG n e rfl he⟩
    | tx n => exact hT n rfl hv
    | res n => cases hv
  | lockRes k e m =>
    cases v with
    | res n =>
      obtain ⟨t, r, t', e', h1, h2, h3, h4⟩ := hv
      obtain ⟨h5, h6⟩ := hR n rfl h2
      rw [resOf_other hp (hk k e m rfl)] at h1
      rw [resGuardOf_other h6] at h3
      exact ⟨t, r, t', e', h1, h5, h3, h4⟩
    | _ => cases hv
  | inTx z c =>
    have h1 := hx (.tx z) rfl
    have hother : (∃ k e, accessOf c = some (k, e) ∧ Waits (callsOf z (y :: h)) k e) →
        ∃ k e, accessOf c = some (k, e) ∧ Waits (callsOf z h) k e := by rw [callsOf_other h1]; exact fun h => h
    cases v with
    | guard n =>
      cases c with
      | context t d =>
        cases t with
        | zero =>
          obtain ⟨h2, e, h3⟩ := hv
          exact ⟨by rw [txKept_other h1] at h2; exact h2, e, hG n e rfl h3⟩
        | succ t => cases hv
      | _ => cases hv
    | tx n =>
      cases c with
      | context t d =>
        cases t with
        | zero => exact ⟨by have := hv.1; rw [txKept_other h1] at this; exact this, hT n rfl hv.2⟩
        | succ t => exact ⟨hv.1, hother hv.2⟩
      | _ => exact ⟨hv.1, hother hv.2⟩
    | res n =>
      cases c with
      | context t d => cases t <;> cases hv
      | _ => cases hv
  | _ => cases v <;> cases hv

theorem asksOf_cons {h : List (AppCall σ)} {x y : AppCall σ} (hp : AppPossible h y)
    (hx : ∀ w, x.needs = some w → y.needs ≠ some w) (hk : ∀ k e n, x = .lockRes k e n → k < resMade h) :
    asksOf (y :: h) x = asksOf h x := by
  cases x with
  | inTx z c =>
    have h1 := hx (.tx z) rfl
    cases c with
    | context t d => cases t <;> simp only [asksOf, callsOf_other h1]
    | _ => rfl
  | lockRes k e n => simp only [asksOf]; rw [resOf_other hp (hk k e n rfl)]
  | _ => rfl

theorem Open_cons {hc : List (Call σ)} {c : Call σ} (hp : Possible hc c) : Open (c :: hc) 0 ↔ c ≠ .commit 0 ∧ c ≠ .abandon 0 ∧ Open hc 0 := by
  have h1 : ∀ h : List (Call σ), transactionsMade h ≠ 0 := by
    intro h
    induction h with
    | nil => simp [transactionsMade]
    | cons x h ih => cases x <;> simp [transactionsMade, ih]
  cases c with
  | transaction c t =>
    have : t ≠ 0 := by rw [hp.2]; exact h1 _
    simp [Open, this]
  | commit t => simp [Open]
  | abandon t => simp [Open]
  | _ => simp [Open]

/-- What was forgotten stays so. -/
theorem forgotten_fwd {h : List (AppCall σ)} {y : AppCall σ} {v : Holder} (hp : AppPossible h y) (hc : Kept h v → Counted h v)
    (hv : Kept h v ∧ ¬ StillUsable h v) : Kept (y :: h) v ∧ ¬ StillUsable (y :: h) v := by
  obtain ⟨hk, hu⟩ := hv
  have hfresh : y.makes ≠ some v := fun he => fresh_uncounted hp he (hc hk)
  cases v with
  | guard n =>
    obtain ⟨e, he⟩ := hk
    have hn : y.needs ≠ some (.guard n) := by
      intro hn
      apply hu
      cases y <;> simp only [AppCall.needs, Option.some.injEq, Holder.guard.injEq, reduceCtorEq] at hn <;> subst hn <;> simp only [AppPossible] at hp
      all_goals first
        | exact hp
        | exact ⟨_, hp⟩
    exact ⟨⟨e, guardKept_fwd hn he⟩, fun ⟨e', hu'⟩ => hu ⟨e', guardUsable_bwd hfresh hu'⟩⟩
  | res n =>
    have hn : y.needs ≠ some (.res n) := by
      intro hn
      apply hu
      cases y <;> simp only [AppCall.needs, Option.some.injEq, Holder.res.injEq, reduceCtorEq] at hn <;> subst hn <;> simp only [AppPossible] at hp
      all_goals first
        | exact hp
        | exact hp.1
    exact ⟨resKept_fwd hn hk, fun hu' => hu (resUsable_bwd hfresh hu')⟩
  | tx n =>
    have ho : ¬ Open (callsOf n h) 0 := fun ho => hu ⟨hk, ho⟩
    by_cases hn : y.needs = some (.tx n)
    · cases y <;> simp only [AppCall.needs, Option.some.injEq, Holder.tx.injEq, reduceCtorEq] at hn <;> subst hn <;> simp only [AppPossible] at hp
      · rename_i m c
        have h1 : callsOf m (.inTx m c :: h) = c :: callsOf m h := by simp [callsOf]
        refine ⟨?_, ?_⟩
        · show TxKept _ _
          rw [txKept_inTx]
          refine .inr ⟨?_, hk⟩
          rintro (rfl | rfl)
          · exact absurd hp.2.1.1 ho
          · exact absurd hp.2.1.1 ho
        · rintro ⟨_, ho'⟩
          rw [h1, Open_cons hp.2.1] at ho'
          exact ho ho'.2.2
      · exact absurd hp.2.1 ho
      · exact absurd hp.2.1 ho
    · refine ⟨(txKept_other hn).2 hk, ?_⟩
      rintro ⟨_, ho'⟩
      rw [callsOf_other hn] at ho'
      exact ho ho'

/-- The calls that forget a guard or a transaction. -/
def AppCall.Forgets : AppCall σ → Prop
  | .forgetGuard _ | .forgetTx _ | .forgetRes _ => True
  | _ => False

/-- What is forgotten was so before, if nothing was forgotten since. -/
theorem forgotten_bwd {h : List (AppCall σ)} {y : AppCall σ} {v : Holder} (hp : AppPossible h y) (hf : ¬ y.Forgets)
    (hc : Kept h v → Counted h v) (hv : Kept (y :: h) v ∧ ¬ StillUsable (y :: h) v) : (Kept h v ∧ ¬ StillUsable h v) ∧ y.makes ≠ some v := by
  obtain ⟨hk, hu⟩ := hv
  cases v with
  | guard n =>
    have hm : y.makes ≠ some (.guard n) := by
      intro hm
      apply hu
      cases y <;> simp only [AppCall.makes, Option.some.injEq, Holder.guard.injEq, reduceCtorEq] at hm <;> subst hm
      · exact ⟨false, .inl ⟨rfl, rfl⟩⟩
      · exact ⟨true, .inl ⟨rfl, rfl⟩⟩
    obtain ⟨e, he⟩ := hk
    refine ⟨⟨⟨e, guardKept_bwd hm he⟩, ?_⟩, hm⟩
    rintro ⟨e', hu'⟩
    apply hu
    refine ⟨e', ?_⟩
    cases y <;> simp_all [GuardKept, GuardUsable, AppCall.Forgets, AppCall.makes]
  | res n =>
    have hm : y.makes ≠ some (.res n) := by
      intro hm
      apply hu
      cases y <;> simp only [AppCall.makes, Option.some.injEq, Holder.res.injEq, reduceCtorEq] at hm <;> subst hm
      exact .inl rfl
    refine ⟨⟨resKept_bwd hm hk, ?_⟩, hm⟩
    intro hu'
    apply hu
    cases y <;> simp_all [Kept, ResKept, ResUsable, AppCall.Forgets, StillUsable]
  | tx n =>
    have hk : TxKept (y :: h) n := hk
    have ho : ¬ Open (callsOf n (y :: h)) 0 := fun ho => hu ⟨hk, ho⟩
    by_cases hn : y.needs = some (.tx n)
    · clear hu hc
      cases y <;> simp only [AppCall.needs, Option.some.injEq, Holder.tx.injEq, reduceCtorEq] at hn <;> subst hn <;> simp only [AppPossible] at hp
      · rename_i m c _
        have h1 : callsOf m (.inTx m c :: h) = c :: callsOf m h := by simp [callsOf]
        rw [h1, Open_cons hp.2.1] at ho
        rw [txKept_inTx] at hk
        rcases hk with ⟨⟨d, rfl⟩, _⟩ | ⟨hk, hk'⟩
        · exact absurd ⟨by simp, by simp, hp.2.1.1⟩ ho
        · refine ⟨⟨hk', ?_⟩, by simp [AppCall.makes]⟩
          rintro ⟨_, ho'⟩
          exact ho ⟨fun e => hk (.inl e) rfl, fun e => hk (.inr e) rfl, ho'⟩
      · exact absurd rfl hk.1
      · exact absurd trivial hf
    · rw [txKept_other hn] at hk
      rw [callsOf_other hn] at ho
      exact ⟨⟨hk, fun hu' => ho hu'.2⟩, fun hm => fresh_uncounted hp hm (hc hk)⟩

/-! ## Deadlocks last -/

theorem able_made (hI : CrowdInv g c) {t : Nat} {x : AppCall σ} (hq : (t, x) ∈ c.queue) :
    ∀ k e n, x = .lockRes k e n → k < resMade (c.past.map Prod.snd) := by
  rintro k e n rfl
  exact (hI.able t _ hq).1

/-- A call that was made and is still waited for is not made on what another thread uses. -/
theorem other_needs (hI : CrowdInv g c) {t s : Nat} {x y : AppCall σ} (hq : (t, x) ∈ c.queue)
    (hown : ∀ v, y.needs = some v → maker c.past v = some s) (hts : t ≠ s) : ∀ w, x.needs = some w → y.needs ≠ some w := by
  intro w hw he
  have h1 := hI.own t x hq w hw
  rw [hown w he] at h1
  exact hts (Option.some.inj h1).symm

/-- Threads that wait for each other go on to, whatever call of another thread returns. -/
theorem deadlock_past (hg : g.Reachable) (hI : CrowdInv g c) {D : Nat → Prop} (hD : Deadlock prefer c.past c.queue D) {s : Nat} {y : AppCall σ}
    (hp : AppPossible (c.past.map Prod.snd) y) (hown : ∀ v, y.needs = some v → maker c.past v = some s) (hs : ¬ D s)
    {queue : List (Nat × AppCall σ)} (hq : ∀ t x, D t → (t, x) ∈ c.queue → (t, x) ∈ queue) : Deadlock prefer ((s, y) :: c.past) queue D := by
  intro t ht
  have hne : ∀ {t}, D t → t ≠ s := fun ht e => hs (e ▸ ht)
  obtain ⟨x, hx, hb⟩ := hD t ht
  refine ⟨x, hq t x ht hx, ?_⟩
  have hox := other_needs hI hx hown (hne ht)
  have hkx := able_made hI hx
  have hkept : ∀ v, Kept (c.past.map Prod.snd) v → y.makes ≠ some v := fun v hv he => fresh_uncounted hp he (kept_counted hg hI.legal hv)
  show (∃ v, Hinders (y :: c.past.map Prod.snd) x v ∧ ((Kept (y :: c.past.map Prod.snd) v ∧ ¬ StillUsable (y :: c.past.map Prod.snd) v) ∨
      ∃ u, maker ((s, y) :: c.past) v = some u ∧ D u)) ∨ _
  rcases hb with ⟨v, hv, hb⟩ | ⟨hpr, u, z, l, hu, hz, h1, h2⟩
  · left
    refine ⟨v, ?_, ?_⟩
    · rcases hb with hb | ⟨u, hu, hDu⟩
      · have hf := forgotten_fwd hp (kept_counted hg hI.legal) hb
        refine hinders_fwd hp hox hkx ?_ ?_ ?_ hv
        · rintro n e rfl he
          refine guardKept_fwd (fun hn => ?_) he
          apply hb.2
          cases y <;> simp only [AppCall.needs, Option.some.injEq, Holder.guard.injEq, reduceCtorEq] at hn <;> subst hn <;> simp only [AppPossible] at hp
          all_goals first
            | exact hp
            | exact ⟨_, hp⟩
        · rintro n rfl _
          exact hf.1
        · rintro n rfl hn
          exact ⟨hf.1, hkept _ hn⟩
      · have hn : y.needs ≠ some v := by
          intro he
          rw [hown v he] at hu
          exact hne hDu (Option.some.inj hu).symm
        refine hinders_fwd hp hox hkx ?_ ?_ ?_ hv
        · rintro n e rfl he; exact guardKept_fwd hn he
        · rintro n rfl hk; exact (txKept_other hn).2 hk
        · rintro n rfl hk; exact ⟨resKept_fwd hn hk, hkept _ hk⟩
    · rcases hb with hb | ⟨u, hu, hDu⟩
      · exact .inl (forgotten_fwd hp (kept_counted hg hI.legal) hb)
      · refine .inr ⟨u, ?_, hDu⟩
        rw [maker_cons, hu]
        exact fun he => fresh_uncounted hp he ((hI.made v).1 ⟨_, hu⟩)
  · right
    refine ⟨hpr, u, z, l, hu, hq u z hu hz, ?_, ?_⟩
    · show asksOf (y :: _) x = _
      rw [asksOf_cons hp hox hkx, h1]
    · show asksOf (y :: _) z = _
      rw [asksOf_cons hp (other_needs hI hz hown (hne hu)) (able_made hI hz), h2]

/-- None of the threads that wait for each other is served. -/
theorem deadlock_step (hg : g.Reachable) (hI : CrowdInv g c) {D : Nat → Prop} (hD : Deadlock prefer c.past c.queue D) {e : ThreadEvent σ}
    (hs : Crowd.Step prefer c e c') : (∀ t, D t → ¬ e.Serves t) ∧ Deadlock prefer c'.past c'.queue D := by
  cases hs with
  | @call s y r a hm _ hs hr =>
    have hsD : ¬ D s := by
      intro hd
      obtain ⟨x, hx, _⟩ := hD s hd
      exact hm.1 _ hx rfl
    refine ⟨?_, deadlock_past hg hI hD ((C79_possible hg hI.legal y).1 ⟨_, _, hs⟩) hm.2.1 hsD fun t x _ h => h⟩
    rintro t ht rfl
    exact hsD ht
  | @wait s y r a hm hs hb =>
    refine ⟨fun t _ h => h, ?_⟩
    intro t ht
    obtain ⟨x, hx, hb⟩ := hD t ht
    refine ⟨x, List.mem_append_left _ hx, ?_⟩
    rcases hb with hb | ⟨hpr, u, z, l, hu, hz, h1, h2⟩
    · exact .inl hb
    · exact .inr ⟨hpr, u, z, l, hu, List.mem_append_left _ hz, h1, h2⟩
  | @wake s y r a hq hnb hs hr =>
    have hne := named_eq hg hI.legal y
    have hsD : ¬ D s := by
      intro hd
      obtain ⟨x, hx, hb⟩ := hD s hd
      cases queue_single hI hx hq
      rcases hb with ⟨v, hv, _⟩ | ⟨hpr, u, z, l, hu, hz, h1, h2⟩
      · apply hr
        refine (C79_stuck hg hI.legal _ _ hs).2 ?_
        rw [hne, neverReturns_renamed]
        exact (neverReturns_iff _ _).2 ⟨v, hv⟩
      · refine hnb ⟨hpr, u, z, l, hz, ?_, ?_⟩
        · rw [asks_eq hg hI.legal (hI.able _ _ hq), h1]
        · rw [asks_eq hg hI.legal (hI.able _ _ hz), h2]
    refine ⟨?_, deadlock_past hg hI hD ((C79_possible hg hI.legal _).1 ⟨_, _, hs⟩) ?_ hsD ?_⟩
    · rintro t ht rfl
      exact hsD ht
    · intro v hv
      rw [hne, needs_renamed] at hv
      exact hI.own _ _ hq v hv
    · intro t x ht hx
      refine List.mem_filter.2 ⟨hx, ?_⟩
      simp only [bne_iff_ne, ne_eq]
      exact fun e => hsD (e ▸ ht)

theorem deadlock_run (hg : g.Reachable) {es : List (ThreadEvent σ)} (hr : Crowd.Run prefer c es c') (hI : CrowdInv g c) {D : Nat → Prop}
    (hD : Deadlock prefer c.past c.queue D) : (∀ t, D t → ∀ e ∈ es, ¬ e.Serves t) ∧ Deadlock prefer c'.past c'.queue D := by
  induction hr with
  | nil => exact ⟨fun _ _ e he => absurd he (List.not_mem_nil), hD⟩
  | cons hs _ ih =>
    obtain ⟨h1, h2⟩ := deadlock_step hg hI hD hs
    obtain ⟨h3, h4⟩ := ih (crowdInv_step hg hI hs) h2
    refine ⟨fun t ht e he => ?_, h4⟩
    rcases List.mem_cons.1 he with rfl | he
    · exact h1 t ht
    · exact h3 t ht e he

/-! ## Deadlocks do not come from letting go -/

theorem deadlock_back (hg : g.Reachable) (hI : CrowdInv g c) {D : Nat → Prop} {s : Nat} {y : AppCall σ} {queue : List (Nat × AppCall σ)}
    (hD : Deadlock prefer ((s, y) :: c.past) queue D) (hp : AppPossible (c.past.map Prod.snd) y) (hf : ¬ y.Forgets)
    (hown : ∀ v, y.needs = some v → maker c.past v = some s) (hnot : ∀ q ∈ queue, q.1 ≠ s) (hq : ∀ q ∈ queue, q ∈ c.queue) :
    Deadlock prefer c.past c.queue D := by
  intro t ht
  have hne : ∀ {t}, D t → t ≠ s := by
    intro t ht
    obtain ⟨x, hx, _⟩ := hD t ht
    exact hnot _ hx
  obtain ⟨x, hx, hb⟩ := hD t ht
  have hx' := hq _ hx
  refine ⟨x, hx', ?_⟩
  have hox := other_needs hI hx' hown (hne ht)
  have hkx := able_made hI hx'
  have hb : (∃ v, Hinders (y :: c.past.map Prod.snd) x v ∧ ((Kept (y :: c.past.map Prod.snd) v ∧ ¬ StillUsable (y :: c.past.map Prod.snd) v) ∨
      ∃ u, maker ((s, y) :: c.past) v = some u ∧ D u)) ∨ (prefer = true ∧ ∃ u z l, D u ∧ (u, z) ∈ queue ∧
        asksOf (y :: c.past.map Prod.snd) x = some (l, false) ∧ asksOf (y :: c.past.map Prod.snd) z = some (l, true)) := hb
  rcases hb with ⟨v, hv, hb⟩ | ⟨hpr, u, z, l, hu, hz, h1, h2⟩
  · left
    refine ⟨v, ?_⟩
    rcases hb with hb | ⟨u, hu, hDu⟩
    · obtain ⟨hf', hm⟩ := forgotten_bwd hp hf (kept_counted hg hI.legal) hb
      refine ⟨hinders_bwd hp hox hkx ?_ ?_ ?_ hv, .inl hf'⟩
      · rintro n e rfl he; exact guardKept_bwd hm he
      · rintro n rfl _; exact hf'.1
      · rintro n rfl hn; exact ⟨hf'.1, hm⟩
    · have hm : y.makes ≠ some v := by
        intro hm
        simp only [maker] at hu
        rw [if_pos hm] at hu
        exact hne hDu (Option.some.inj hu).symm
      rw [maker_cons hm] at hu
      have hn : y.needs ≠ some v := by
        intro he
        rw [hown v he] at hu
        exact hne hDu (Option.some.inj hu).symm
      refine ⟨hinders_bwd hp hox hkx ?_ ?_ ?_ hv, .inr ⟨u, hu, hDu⟩⟩
      · rintro n e rfl he; exact guardKept_bwd hm he
      · rintro n rfl hk; exact (txKept_other hn).1 hk
      · rintro n rfl hk; exact ⟨resKept_bwd hm hk, hm⟩
  · right
    refine ⟨hpr, u, z, l, hu, hq _ hz, ?_, ?_⟩
    · rw [asksOf_cons hp hox hkx] at h1; exact h1
    · rw [asksOf_cons hp (other_needs hI (hq _ hz) hown (hne hu)) (able_made hI (hq _ hz))] at h2; exact h2

/-- From `c` the threads may come to `c'`, nobody else waiting, and nobody waiting for ever who did not. -/
def Tidies (prefer : Bool) (c c' : Crowd σ) : Prop :=
  ∃ es, Crowd.Run prefer c es c' ∧ (∀ q ∈ c'.queue, q ∈ c.queue) ∧ (∀ q ∈ c.queue, q ∈ c'.queue ∨ ∃ e ∈ es, e.Serves q.1) ∧
    (∀ D, Deadlock prefer c'.past c'.queue D → Deadlock prefer c.past c.queue D)

theorem Tidies.refl (c : Crowd σ) : Tidies prefer c c := ⟨[], .nil c, fun _ h => h, fun _ h => .inl h, fun _ h => h⟩

theorem crowd_append {c c' c'' : Crowd σ} {es es' : List (ThreadEvent σ)} (h : Crowd.Run prefer c es c') (h' : Crowd.Run prefer c' es' c'') :
    Crowd.Run prefer c (es ++ es') c'' := by
  induction h with
  | nil => exact h'
  | cons hs _ ih => exact .cons hs (ih h')

theorem Tidies.trans {c c' c'' : Crowd σ} (h : Tidies prefer c c') (h' : Tidies prefer c' c'') : Tidies prefer c c'' := by
  obtain ⟨es, h1, h2, h3, h4⟩ := h
  obtain ⟨es', k1, k2, k3, k4⟩ := h'
  refine ⟨es ++ es', crowd_append h1 k1, fun q hq => h2 q (k2 q hq), ?_, fun D hD => h4 D (k4 D hD)⟩
  intro q hq
  rcases h3 q hq with hq | ⟨e, he, hs⟩
  · rcases k3 q hq with hq | ⟨e, he, hs⟩
    · exact .inl hq
    · exact .inr ⟨e, List.mem_append_right _ he, hs⟩
  · exact .inr ⟨e, List.mem_append_left _ he, hs⟩

theorem Tidies.inv (hg : g.Reachable) {c c' : Crowd σ} (h : Tidies prefer c c') (hI : CrowdInv g c) : CrowdInv g c' := by
  obtain ⟨es, h1, _⟩ := h
  exact crowdInv_run hg h1 hI

/-- The calls that let go of something. -/
inductive Drops : AppCall σ → Prop where
  | guard (n : Nat) : Drops (.dropGuard n false)
  | res (n : Nat) : Drops (.dropRes n false)
  | ctx (n c : Nat) : Drops (.inTx n (.dropCtx c))
  | tx (n t : Nat) : Drops (.inTx n (.abandon t))

theorem Drops.never {h : List (AppCall σ)} {y : AppCall σ} (hy : Drops y) : ¬ NeverReturns h y := by
  cases hy <;> simp [NeverReturns, accessOf]

theorem Drops.makes {y : AppCall σ} (hy : Drops y) : y.makes = none := by cases hy <;> rfl

theorem Drops.usable {h : List (AppCall σ)} {y : AppCall σ} (hy : Drops y) (hp : AppPossible h y) {v : Holder} (hv : ¬ StillUsable h v) :
    ¬ StillUsable (y :: h) v := by
  intro hu
  apply hv
  cases v with
  | guard n => obtain ⟨e, he⟩ := hu; exact ⟨e, guardUsable_bwd (by rw [hy.makes]; simp) he⟩
  | res n => exact resUsable_bwd (by rw [hy.makes]; simp) hu
  | tx n =>
    obtain ⟨hu1, hu2⟩ := hu
    by_cases hn : y.needs = some (.tx n)
    · cases hy <;> simp only [AppCall.needs, Option.some.injEq, Holder.tx.injEq, reduceCtorEq] at hn <;> subst hn
      · rename_i m k
        have h1 : callsOf m (.inTx m (.dropCtx k) :: h) = .dropCtx k :: callsOf m h := by simp [callsOf]
        rw [h1, Open_cons hp.2.1] at hu2
        rw [txKept_inTx] at hu1
        simp at hu1
        exact ⟨hu1, hu2.2.2⟩
      · rename_i m k
        have h1 : callsOf m (.inTx m (.abandon k) :: h) = .abandon k :: callsOf m h := by simp [callsOf]
        rw [h1, Open_cons hp.2.1] at hu2
        rw [txKept_inTx] at hu1
        simp at hu1
        exact ⟨hu1.2, hu2.2.2⟩
    · exact ⟨(txKept_other hn).1 hu1, by rw [callsOf_other hn] at hu2; exact hu2⟩

/-- A thread that does not wait lets go of something of its own. -/
theorem drops_step (hg : g.Reachable) (hI : CrowdInv g c) {s : Nat} {y : AppCall σ} (hy : Drops y) (hp : AppPossible (c.past.map Prod.snd) y)
    (hown : ∀ v, y.needs = some v → maker c.past v = some s) (hs : ∀ q ∈ c.queue, q.1 ≠ s) :
    ∃ a : App σ, Tidies prefer c ⟨a, (s, y) :: c.past, c.queue⟩ := by
  obtain ⟨r, a, hst, hr⟩ := returns hg hI.legal hp hy.never
  have hstep : Crowd.Step prefer c (.returned s y r) ⟨a, (s, y) :: c.past, c.queue⟩ := by
    refine .call ⟨hs, hown, ?_⟩ ?_ hst hr
    · rintro ty v rfl; cases hy
    · rintro ⟨_, u, z, l, _, h1, _⟩
      cases hy <;> simp [App.asks] at h1
  refine ⟨a, [_], .cons hstep (.nil _), fun _ h => h, fun _ h => .inl h, fun D hD => ?_⟩
  exact deadlock_back hg hI hD hp (by cases hy <;> exact fun h => h) hown hs fun _ h => h

/-- What letting go leads to. -/
def LetsGo (prefer : Bool) (c c' : Crowd σ) : Prop :=
  Tidies prefer c c' ∧ c'.queue = c.queue ∧ (∀ v, maker c'.past v = maker c.past v) ∧
    ∀ v, ¬ StillUsable (c.past.map Prod.snd) v → ¬ StillUsable (c'.past.map Prod.snd) v

theorem LetsGo.refl (c : Crowd σ) : LetsGo prefer c c := ⟨.refl c, rfl, fun _ => rfl, fun _ h => h⟩

theorem LetsGo.trans {c c' c'' : Crowd σ} (h : LetsGo prefer c c') (h' : LetsGo prefer c' c'') : LetsGo prefer c c'' :=
  ⟨h.1.trans h'.1, h'.2.1.trans h.2.1, fun v => (h'.2.2.1 v).trans (h.2.2.1 v), fun v hv => h'.2.2.2 v (h.2.2.2 v hv)⟩

theorem drops_lets (hg : g.Reachable) (hI : CrowdInv g c) {s : Nat} {y : AppCall σ} (hy : Drops y) (hp : AppPossible (c.past.map Prod.snd) y)
    (hown : ∀ v, y.needs = some v → maker c.past v = some s) (hs : ∀ q ∈ c.queue, q.1 ≠ s) :
    ∃ c', LetsGo prefer c c' ∧ c'.past = (s, y) :: c.past := by
  obtain ⟨a, ha⟩ := drops_step (prefer := prefer) hg hI hy hp hown hs
  refine ⟨_, ⟨ha, rfl, fun v => maker_cons (by rw [hy.makes]; simp), fun v hv => hy.usable hp hv⟩, rfl⟩

theorem lets_tx (hg : g.Reachable) {n s : Nat} {hc : List (Call σ)} (hcl : Closable hc) : ∀ {c : Crowd σ}, CrowdInv g c →
    callsOf n (c.past.map Prod.snd) = hc → maker c.past (.tx n) = some s → (∀ q ∈ c.queue, q.1 ≠ s) →
    ∃ c', LetsGo prefer c c' ∧ ¬ StillUsable (c'.past.map Prod.snd) (.tx n) := by
  have key : ∀ {c : Crowd σ}, CrowdInv g c → maker c.past (.tx n) = some s → ∀ y, Drops (.inTx n y) → y ≠ .commit 0 →
      Possible (callsOf n (c.past.map Prod.snd)) y → AppPossible (c.past.map Prod.snd) (.inTx n y) := by
    intro c hI hm y _ hy hp
    exact ⟨(hI.made (.tx n)).1 ⟨_, hm⟩, hp, fun e => absurd e hy⟩
  have hown : ∀ {c : Crowd σ} {y : Call σ}, maker c.past (.tx n) = some s → ∀ v, (AppCall.inTx n y).needs = some v → maker c.past v = some s := by
    intro c y hm v hv
    simp only [AppCall.needs, Option.some.injEq] at hv
    rw [← hv]; exact hm
  induction hcl with
  | last hp =>
    intro c hI hc hm hs
    subst hc
    obtain ⟨c', h1, h2⟩ := drops_lets (prefer := prefer) hg hI (.tx n 0) (key hI hm _ (.tx n 0) (by simp) hp) (hown hm) hs
    refine ⟨c', h1, ?_⟩
    rw [h2]
    rintro ⟨h3, _⟩
    simp [TxKept] at h3
  | ctx k hp _ ih =>
    intro c hI hc hm hs
    subst hc
    obtain ⟨c', h1, h2⟩ := drops_lets (prefer := prefer) hg hI (.ctx n k) (key hI hm _ (.ctx n k) (by simp) hp) (hown hm) hs
    obtain ⟨c'', k1, k2⟩ := ih (h1.1.inv hg hI) (by rw [h2]; simp [callsOf]) (by rw [h1.2.2.1]; exact hm) (by rw [h1.2.1]; exact hs)
    exact ⟨c'', h1.trans k1, k2⟩
  | tx k _ hp _ ih =>
    intro c hI hc hm hs
    subst hc
    obtain ⟨c', h1, h2⟩ := drops_lets (prefer := prefer) hg hI (.tx n k) (key hI hm _ (.tx n k) (by simp) hp) (hown hm) hs
    obtain ⟨c'', k1, k2⟩ := ih (h1.1.inv hg hI) (by rw [h2]; simp [callsOf]) (by rw [h1.2.2.1]; exact hm) (by rw [h1.2.1]; exact hs)
    exact ⟨c'', h1.trans k1, k2⟩

/-- A value of a thread that does not wait can be let go of. -/
theorem lets_one (hg : g.Reachable) (hI : CrowdInv g c) {v : Holder} {s : Nat} (hm : maker c.past v = some s) (hs : ∀ q ∈ c.queue, q.1 ≠ s) :
    ∃ c', LetsGo prefer c c' ∧ ¬ StillUsable (c'.past.map Prod.snd) v := by
  by_cases hu : StillUsable (c.past.map Prod.snd) v
  · cases v with
    | guard n =>
      obtain ⟨c', h1, h2⟩ := drops_lets (prefer := prefer) hg hI (.guard n) hu (by
        intro v hv; simp only [AppCall.needs, Option.some.injEq] at hv; rw [← hv]; exact hm) hs
      refine ⟨c', h1, ?_⟩
      rw [h2]
      rintro ⟨e, he⟩
      simp [GuardUsable] at he
    | res n =>
      obtain ⟨c', h1, h2⟩ := drops_lets (prefer := prefer) hg hI (.res n) hu (by
        intro v hv; simp only [AppCall.needs, Option.some.injEq] at hv; rw [← hv]; exact hm) hs
      refine ⟨c', h1, ?_⟩
      rw [h2]
      intro he
      simp [StillUsable, ResUsable] at he
    | tx n =>
      have hG := hI.legal.gInv hg
      obtain ⟨hu1, hu2⟩ := hu
      obtain ⟨⟨wo, st⟩, hx, hw⟩ := (hG.txKept n).1 hu1
      cases wo with
      | none => simp [TxOwner.holds] at hw
      | some w =>
        obtain ⟨_, _, g', hl, _⟩ := hG.world n w st hx
        exact lets_tx hg (closable _ (Nat.le_refl _) hl hu2) hI rfl hm hs
  · exact ⟨c, .refl c, hu⟩

theorem lets_all (hg : g.Reachable) : ∀ (L : List Holder) {c : Crowd σ}, CrowdInv g c →
    ∃ c', LetsGo prefer c c' ∧ ∀ v ∈ L, ∀ s, maker c'.past v = some s → (∀ q ∈ c'.queue, q.1 ≠ s) → ¬ StillUsable (c'.past.map Prod.snd) v := by
  intro L
  induction L with
  | nil => intro c _; exact ⟨c, .refl c, fun v hv => by cases hv⟩
  | cons v L ih =>
    intro c hI
    have : ∃ c1, LetsGo prefer c c1 ∧ ∀ s, maker c1.past v = some s → (∀ q ∈ c1.queue, q.1 ≠ s) → ¬ StillUsable (c1.past.map Prod.snd) v := by
      by_cases hm : ∃ s, maker c.past v = some s ∧ ∀ q ∈ c.queue, q.1 ≠ s
      · obtain ⟨s, h1, h2⟩ := hm
        obtain ⟨c1, h3, h4⟩ := lets_one (prefer := prefer) hg hI h1 h2
        exact ⟨c1, h3, fun _ _ _ => h4⟩
      · exact ⟨c, .refl c, fun s h1 h2 => absurd ⟨s, h1, h2⟩ hm⟩
    obtain ⟨c1, h1, h2⟩ := this
    obtain ⟨c2, k1, k2⟩ := ih (h1.1.inv hg hI)
    refine ⟨c2, h1.trans k1, ?_⟩
    intro w hw s hm hq
    rcases List.mem_cons.1 hw with rfl | hw
    · refine k1.2.2.2 _ (h2 s ?_ ?_)
      · rw [← k1.2.2.1]; exact hm
      · rw [← k1.2.1]; exact hq
    · exact k2 w hw s hm hq

theorem counted_list (h : List (AppCall σ)) : ∃ L : List Holder, ∀ v, Counted h v → v ∈ L := by
  refine ⟨(List.range (guardsMade h)).map .guard ++ (List.range (ownersMade h)).map .tx ++ (List.range (resGuardsMade h)).map .res, ?_⟩
  intro v hv
  cases v <;> simpa [Counted] using hv

theorem hinders_kept {h : List (AppCall σ)} {x : AppCall σ} {v : Holder} (hv : Hinders h x v) : Kept h v ∨ x.needs = some v := by
  cases x with
  | read n =>
    cases v with
    | guard m => exact .inl ⟨_, hv⟩
    | tx m => exact .inl hv
    | res m => cases hv
  | write n =>
    cases v with
    | guard m => exact .inl hv
    | tx m => exact .inl hv
    | res m => cases hv
  | lockRes k e n =>
    cases v with
    | res m => obtain ⟨_, _, _, _, _, hk, _⟩ := hv; exact .inl hk
    | _ => cases hv
  | inTx z y =>
    cases v with
    | guard m =>
      cases y with
      | context t d =>
        cases t with
        | zero => exact .inl hv.2
        | succ t => cases hv
      | _ => cases hv
    | tx m =>
      cases y with
      | context t d =>
        cases t with
        | zero => exact .inl hv.2
        | succ t => obtain ⟨rfl, _⟩ := hv; exact .inr rfl
      | _ => obtain ⟨rfl, _⟩ := hv; exact .inr rfl
    | res m =>
      cases y with
      | context t d => cases t <;> cases hv
      | _ => cases hv
  | _ => cases v <;> cases hv

/-- When nobody can be served, and those who do not wait have nothing, all who wait do so for each other. -/
theorem rest_deadlock (hg : g.Reachable) (hI : CrowdInv g c) (hrest : AtRest prefer c) :
    Deadlock prefer c.past c.queue (fun t => ∃ x, (t, x) ∈ c.queue) := by
  obtain ⟨hw, hu⟩ := hrest
  rintro t ⟨x, hx⟩
  refine ⟨x, hx, ?_⟩
  by_cases hnr : NeverReturns (c.past.map Prod.snd) x
  · left
    obtain ⟨v, hv⟩ := (neverReturns_iff _ _).1 hnr
    refine ⟨v, hv, ?_⟩
    rcases hinders_kept hv with hk | hk
    · by_cases hus : StillUsable (c.past.map Prod.snd) v
      · right
        obtain ⟨u, hm⟩ := (hI.made v).2 (kept_counted hg hI.legal hk)
        refine ⟨u, hm, Classical.byContradiction fun hno => ?_⟩
        refine hu v u hm ?_ hus
        rintro ⟨w, y⟩ hq rfl
        exact hno ⟨y, hq⟩
      · exact .inl ⟨hk, hus⟩
    · exact .inr ⟨t, hI.own t x hx v hk, x, hx⟩
  · right
    have hb : c.behind prefer x := Classical.byContradiction fun hb => hw ⟨t, x, hx, hb, hnr⟩
    obtain ⟨hpr, u, y, l, hy, e1, e2⟩ := hb
    refine ⟨hpr, u, y, l, ⟨y, hy⟩, hy, ?_, ?_⟩
    · rw [← asks_eq hg hI.legal (hI.able _ _ hx), e1]
    · rw [← asks_eq hg hI.legal (hI.able _ _ hy), e2]

/-- Everybody is served whom nothing keeps waiting for ever. -/
theorem crowd_tidy (hg : g.Reachable) : ∀ (n : Nat) {c : Crowd σ}, CrowdInv g c → c.queue.length ≤ n →
    ∃ c', Tidies prefer c c' ∧ AtRest prefer c' := by
  intro n
  induction n with
  | zero =>
    intro c hI hn
    obtain ⟨L, hL⟩ := counted_list (c.past.map Prod.snd)
    obtain ⟨c1, h1, h2⟩ := lets_all (prefer := prefer) hg L hI
    refine ⟨c1, h1.1, ?_, fun v u hm hq hu => h2 v (hL v ((hI.made v).1 ⟨u, by rw [← h1.2.2.1]; exact hm⟩)) u hm hq hu⟩
    rintro ⟨t, x, hx, _⟩
    rw [h1.2.1, List.length_eq_zero_iff.1 (Nat.le_zero.1 hn)] at hx
    cases hx
  | succ n ih =>
    intro c hI hn
    obtain ⟨L, hL⟩ := counted_list (c.past.map Prod.snd)
    obtain ⟨c1, h1, h2⟩ := lets_all (prefer := prefer) hg L hI
    have hI1 := h1.1.inv hg hI
    by_cases hw : ∃ t x, (t, x) ∈ c1.queue ∧ ¬ c1.behind prefer x ∧ ¬ NeverReturns (c1.past.map Prod.snd) x
    · obtain ⟨t, x, hq, hb, hnr⟩ := hw
      have hne := named_eq hg hI1.legal x
      have hp := hI1.able t x hq
      obtain ⟨r, a, hs, hr⟩ := returns hg hI1.legal hp (fun h => hnr ((neverReturns_renamed _ _ _).1 h))
      rw [← hne] at hs hp
      have hstep : Crowd.Step prefer c1 _ _ := .wake hq hb hs hr
      have htid : Tidies prefer c1 ⟨a, (t, c1.app.named x) :: c1.past, c1.queue.filter fun q => q.1 != t⟩ := by
        refine ⟨[_], .cons hstep (.nil _), fun q hq => (List.mem_filter.1 hq).1, ?_, ?_⟩
        · intro q hq
          by_cases he : q.1 = t
          · exact .inr ⟨_, List.mem_singleton.2 rfl, he.symm⟩
          · exact .inl (List.mem_filter.2 ⟨hq, by simpa using he⟩)
        · intro D hD
          refine deadlock_back hg hI1 hD hp ?_ ?_ ?_ fun q hq => (List.mem_filter.1 hq).1
          · have := hI1.locks t x hq
            rw [hne]
            cases x <;> simp_all [AppCall.Locks, AppCall.Forgets, renamed]
          · intro v hv
            rw [hne, needs_renamed] at hv
            exact hI1.own t x hq v hv
          · intro q hq
            simpa using (List.mem_filter.1 hq).2
      have hlt : (c1.queue.filter fun q => q.1 != t).length < c1.queue.length := by
        refine List.length_filter_lt_length_iff_exists.2 ⟨(t, x), hq, by simp⟩
      obtain ⟨c', k1, k2⟩ := ih (htid.inv hg hI1) (by have := congrArg List.length h1.2.1; simp only; omega)
      exact ⟨c', (h1.1.trans htid).trans k1, k2⟩
    · exact ⟨c1, h1.1, hw, fun v u hm hq hu => h2 v (hL v ((hI.made v).1 ⟨u, by rw [← h1.2.2.1]; exact hm⟩)) u hm hq hu⟩

/-- Threads that wait for each other did so before, if nothing was forgotten and they have not begun to wait since. -/
theorem deadlock_run_back (hg : g.Reachable) {es : List (ThreadEvent σ)} (hr : Crowd.Run prefer c es c') (hI : CrowdInv g c) {D : Nat → Prop}
    (hf : ∀ s y r, .returned s y r ∈ es → ¬ y.Forgets) (hw : ∀ s y, .waits s y ∈ es → ¬ D s)
    (hD : Deadlock prefer c'.past c'.queue D) : Deadlock prefer c.past c.queue D := by
  induction hr with
  | nil => exact hD
  | @cons c c1 c2 e es hs hr ih =>
    have hI1 := crowdInv_step hg hI hs
    have hD1 := ih hI1 (fun s y r h => hf s y r (List.mem_cons_of_mem _ h)) (fun s y h => hw s y (List.mem_cons_of_mem _ h)) hD
    cases hs with
    | @call s y r a hm _ hs _ =>
      exact deadlock_back hg hI hD1 ((C79_possible hg hI.legal y).1 ⟨_, _, hs⟩) (hf s y r (List.mem_cons_self ..)) hm.2.1 hm.1 fun _ h => h
    | @wait s y r a hm hs hb =>
      have hsD := hw s y (List.mem_cons_self ..)
      have hin : ∀ {t x}, D t → (t, x) ∈ c.queue ++ [(s, y)] → (t, x) ∈ c.queue := by
        intro t x ht hx
        rcases List.mem_append.1 hx with hx | hx
        · exact hx
        · cases List.mem_singleton.1 hx; exact absurd ht hsD
      intro t ht
      obtain ⟨x, hx, hb⟩ := hD1 t ht
      refine ⟨x, hin ht hx, ?_⟩
      rcases hb with hb | ⟨hpr, u, z, l, hu, hz, h1, h2⟩
      · exact .inl hb
      · exact .inr ⟨hpr, u, z, l, hu, hin hu hz, h1, h2⟩
    | @wake s y r a hq _ hs _ =>
      refine deadlock_back hg hI hD1 ((C79_possible hg hI.legal _).1 ⟨_, _, hs⟩) (hf s _ r (List.mem_cons_self ..)) ?_ ?_
        fun q hq => (List.mem_filter.1 hq).1
      · intro v hv
        rw [named_eq hg hI.legal, needs_renamed] at hv
        exact hI.own _ _ hq v hv
      · intro q hq
        simpa using (List.mem_filter.1 hq).2

theorem step_waiting {e : ThreadEvent σ} (hs : Crowd.Step prefer c e c') {q : Nat × AppCall σ} (hq : q ∈ c.queue) :
    q ∈ c'.queue ∨ e.Serves q.1 := by
  cases hs with
  | call => exact .inl hq
  | wait => exact .inl (List.mem_append_left _ hq)
  | @wake s y r a _ _ _ _ =>
    by_cases he : q.1 = s
    · exact .inr he.symm
    · exact .inl (List.mem_filter.2 ⟨hq, by simpa using he⟩)

theorem run_waiting {es : List (ThreadEvent σ)} (hr : Crowd.Run prefer c es c') {q : Nat × AppCall σ} (hq : q ∈ c.queue) :
    q ∈ c'.queue ∨ ∃ e ∈ es, e.Serves q.1 := by
  induction hr with
  | nil => exact .inl hq
  | cons hs _ ih =>
    rcases step_waiting hs hq with h | h
    · rcases ih h with h | ⟨e, he, h⟩
      · exact .inl h
      · exact .inr ⟨e, List.mem_cons_of_mem _ he, h⟩
    · exact .inr ⟨_, List.mem_cons_self .., h⟩

end

end Plotline
