import Verif.Spec.Threads
import Verif.Props.App

/-! # Threads sharing a schema: what one call changes for the others -/

namespace Plotline

open Std

set_option linter.unusedSectionVars false

variable {σ : Sig}

/-! ## Transactions can be ended -/

/-- The transaction can be dropped, after what is made from it. -/
inductive Closable : List (Call σ) → Prop where
  | last {h : List (Call σ)} : Possible h (.abandon 0) → Closable h
  | ctx {h : List (Call σ)} (c : Nat) : Possible h (.dropCtx c) → Closable (.dropCtx c :: h) → Closable h
  | tx {h : List (Call σ)} (t : Nat) : t ≠ 0 → Possible h (.abandon t) → Closable (.abandon t :: h) → Closable h

/-- How many contexts and transactions are there to be ended. -/
def World.left (w : World σ) : Nat := w.ctxs.countP (fun x => x.status == .live) + w.txs.countP (fun x => x.live)

theorem countP_modify_lt {α : Type} {p : α → Bool} {f : α → α} (hf : ∀ x, p (f x) = false) :
    ∀ {l : List α} {n : Nat} {x : α}, l[n]? = some x → p x = true → (l.modify n f).countP p < l.countP p := by
  intro l
  induction l with
  | nil => intro n x h; simp at h
  | cons y l ih =>
    intro n x h hp
    cases n with
    | zero =>
      simp at h; subst h
      simp [List.modify_cons, List.countP_cons, hf, hp]
    | succ n =>
      simp only [List.getElem?_cons_succ] at h
      have := ih h hp
      simp only [List.modify_succ_cons, List.countP_cons]
      omega

theorem countP_modify_same {α : Type} {p : α → Bool} {f : α → α} (hf : ∀ x, p (f x) = p x) :
    ∀ (l : List α) (n : Nat), (l.modify n f).countP p = l.countP p := by
  intro l
  induction l with
  | nil => intro n; simp
  | cons y l ih =>
    intro n
    cases n with
    | zero => simp [List.modify_cons, List.countP_cons, hf]
    | succ n => simp [List.modify_succ_cons, List.countP_cons, ih]

theorem max_exists {α : Type} (f : α → Nat) : ∀ (l : List α), l ≠ [] → ∃ x ∈ l, ∀ y ∈ l, f y ≤ f x := by
  intro l
  induction l with
  | nil => intro h; exact absurd rfl h
  | cons a l ih =>
    intro _
    by_cases hl : l = []
    · subst hl; exact ⟨a, by simp, by simp⟩
    · obtain ⟨x, hx, hm⟩ := ih hl
      by_cases h : f x ≤ f a
      · exact ⟨a, by simp, fun y hy => by rcases List.mem_cons.1 hy with rfl | hy; exact Nat.le_refl _; exact Nat.le_trans (hm y hy) h⟩
      · exact ⟨x, by simp [hx], fun y hy => by rcases List.mem_cons.1 hy with rfl | hy; omega; exact hm y hy⟩

theorem closable {g : Graph σ.K σ.T} : ∀ (n : Nat) {h : List (Call σ)} {w : World σ}, w.left ≤ n → Legal g h w → Open h 0 → Closable h := by
  intro n
  induction n with
  | zero =>
    intro h w hn hl ho
    obtain ⟨x, hx⟩ := (tx_open hl.shape 0).1 ho
    obtain ⟨h1, h2⟩ := tx_some hx
    have : 0 < w.txs.countP (fun x => x.live) := List.countP_pos_iff.2 ⟨x, List.mem_of_getElem? h1, h2⟩
    unfold World.left at hn; omega
  | succ n ih =>
    intro h w hn hl ho
    by_cases hc : ∃ c, Held h c
    · -- the live context with the longest chain
      have hne : (w.ctxs.filter fun x => x.status == .live) ≠ [] := by
        obtain ⟨c, hc⟩ := hc
        obtain ⟨x, hx⟩ := (ctx_held hl.shape c).1 hc
        obtain ⟨h1, h2, _⟩ := ctx_some hx
        intro he
        have : x ∈ w.ctxs.filter fun x => x.status == .live := List.mem_filter.2 ⟨List.mem_of_getElem? h1, by simp [h2]⟩
        rw [he] at this; cases this
      obtain ⟨x, hx, hmax⟩ := max_exists (fun x : CtxVal => x.chain.length) _ hne
      obtain ⟨hx1, hx2⟩ := List.mem_filter.1 hx
      obtain ⟨c, hcx⟩ := List.mem_iff_getElem?.1 hx1
      have hst : x.status = .live := by simpa using hx2
      have hctx : w.ctx c = some x := by simp [World.ctx, hcx, hst]
      by_cases hu : w.unborrowed c = true
      · have hstep : w.step (.dropCtx c) = some (.none, { w with
            txs := w.txs.modify (x.chain.headD 0) fun tx => { tx with owners := tx.owners - 1 }
            ctxs := w.ctxs.modify c fun x => { x with status := .dropped } }) := by simp [World.step, hctx, hu]
        have hp := (C67_possible hl (.dropCtx c)).1 ⟨_, _, hstep⟩
        refine .ctx c hp (ih (w := _) ?_ (.call hl hstep (by simp)) (by simpa [Open] using ho))
        have e1 := countP_modify_lt (p := fun x : CtxVal => x.status == .live) (f := fun x => { x with status := .dropped }) (fun _ => rfl) hcx hx2
        have e2 := countP_modify_same (p := fun x : TxVal σ.K σ.T => x.live) (f := fun tx => { tx with owners := tx.owners - 1 }) (fun _ => rfl)
          w.txs (x.chain.headD 0)
        unfold World.left at hn ⊢
        simp only
        omega
      · -- a subtransaction of it is left, which has no context
        have : ∃ (t : Nat) (tx : TxVal σ.K σ.T), w.txs[t]? = some tx ∧ tx.live = true ∧ tx.context = some c := by
          simp only [World.unborrowed, List.all_eq_true, Bool.not_eq_true'] at hu
          have := Classical.not_forall.1 hu
          obtain ⟨tx, htx⟩ := this
          obtain ⟨hm, htx⟩ := Classical.not_imp.1 htx
          obtain ⟨t, ht⟩ := List.mem_iff_getElem?.1 hm
          simp at htx
          exact ⟨t, tx, ht, htx.1, htx.2⟩
        obtain ⟨t, tx, ht, hlive, hctxt⟩ := this
        have ht0 : t ≠ 0 := by
          rintro rfl
          obtain ⟨tx', h1, h2⟩ := hl.inv.root
          rw [ht] at h1; cases h1; rw [hctxt] at h2; cases h2
        have hun : w.unused t = true := by
          simp only [World.unused, List.all_eq_true]
          intro y hy
          cases hys : decide (y.status = .live ∧ y.chain.head? = some t) with
          | false => simp only [Bool.decide_and] at hys ⊢; simp only [hys, Bool.not_false]
          | true =>
            exfalso
            obtain ⟨h1, h2⟩ := of_decide_eq_true hys
            obtain ⟨d, hd⟩ := List.mem_iff_getElem?.1 hy
            have hsk : w.skel[d]? = some (y.chain, y.status) := by simp [World.skel, hd]
            obtain ⟨t', tx', _, h4, h5, _⟩ := hl.inv.ctx d _ _ hsk
            rw [h5] at h2; simp at h2; subst h2
            rw [ht] at h4; cases h4
            have hskc : w.skel[c]? = some (x.chain, x.status) := by simp [World.skel, hcx]
            have hlen : y.chain.length = x.chain.length + 1 := by rw [h5, hctxt]; simp [parentsOf, hskc]
            have := hmax y (List.mem_filter.2 ⟨hy, by simp [h1]⟩)
            omega
        have htxl : w.tx t = some tx := by simp [World.tx, ht, hlive]
        have hstep : w.step (.abandon t) = some (.none, { w with txs := w.txs.modify t fun tx => { tx with live := false } }) := by
          simp [World.step, htxl, hun]
        have hp := (C67_possible hl (.abandon t)).1 ⟨_, _, hstep⟩
        refine .tx t ht0 hp (ih (w := _) ?_ (.call hl hstep (by simp)) (by simp [Open, ht0, ho]))
        have e1 := countP_modify_lt (p := fun x : TxVal σ.K σ.T => x.live) (f := fun tx => { tx with live := false }) (fun _ => rfl) ht hlive
        unfold World.left at hn ⊢
        simp only
        omega
    · exact .last ⟨ho, fun c hc' => absurd ⟨c, hc'⟩ hc⟩

/-! ## What one call changes -/

/-- As many values were made. -/
def Counted (h : List (AppCall σ)) : Holder → Prop
  | .guard n => n < guardsMade h
  | .tx n => n < ownersMade h
  | .res n => n < resGuardsMade h

/-- The call with the next name for what it makes. -/
def renamed (h : List (AppCall σ)) : AppCall σ → AppCall σ
  | .read _ => .read (guardsMade h)
  | .write _ => .write (guardsMade h)
  | .lockRes k e _ => .lockRes k e (resGuardsMade h)
  | x => x

theorem holder_exists {P : Holder → Prop} : (∃ v, P v) ↔ (∃ n, P (.guard n)) ∨ (∃ n, P (.tx n)) ∨ ∃ n, P (.res n) := by
  constructor
  · rintro ⟨v, hv⟩
    cases v with
    | guard n => exact .inl ⟨n, hv⟩
    | tx n => exact .inr (.inl ⟨n, hv⟩)
    | res n => exact .inr (.inr ⟨n, hv⟩)
  · rintro (⟨n, h⟩ | ⟨n, h⟩ | ⟨n, h⟩)
    · exact ⟨_, h⟩
    · exact ⟨_, h⟩
    · exact ⟨_, h⟩

/-- A call waits if, and only if, something hinders it. -/
theorem neverReturns_iff (h : List (AppCall σ)) (x : AppCall σ) : NeverReturns h x ↔ ∃ v, Hinders h x v := by
  rw [holder_exists]
  cases x with
  | inTx x c =>
    cases c with
    | context t d =>
      cases t with
      | zero => simp [NeverReturns, Hinders]; exact and_or_left
      | succ t => simp [NeverReturns, Hinders, accessOf]
    | _ => simp [NeverReturns, Hinders]
  | lockRes k e n =>
    simp only [NeverReturns, Hinders, exists_false, false_or]
    constructor
    · rintro ⟨t, r, g, t', e', h1, h2, h3, h4⟩; exact ⟨g, t, r, t', e', h1, h2, h3, h4⟩
    · rintro ⟨g, t, r, t', e', h1, h2, h3, h4⟩; exact ⟨t, r, g, t', e', h1, h2, h3, h4⟩
  | _ => simp [NeverReturns, Hinders]

theorem hinders_renamed (h h' : List (AppCall σ)) (x : AppCall σ) (v : Holder) : Hinders h (renamed h' x) v ↔ Hinders h x v := by
  cases x <;> cases v <;> simp [renamed, Hinders]

theorem asksOf_renamed (h h' : List (AppCall σ)) (x : AppCall σ) : asksOf h (renamed h' x) = asksOf h x := by
  cases x <;> simp [renamed, asksOf]

theorem needs_renamed (h : List (AppCall σ)) (x : AppCall σ) : (renamed h x).needs = x.needs := by
  cases x <;> simp [renamed, AppCall.needs]

theorem neverReturns_renamed (h h' : List (AppCall σ)) (x : AppCall σ) : NeverReturns h (renamed h' x) ↔ NeverReturns h x := by
  rw [neverReturns_iff, neverReturns_iff]
  simp only [hinders_renamed]

section
variable {h : List (AppCall σ)} {y : AppCall σ}

theorem callsOf_other {n : Nat} (hy : y.needs ≠ some (.tx n)) : callsOf n (y :: h) = callsOf n h := by
  cases y <;> simp_all [AppCall.needs, callsOf]

theorem guardKept_fwd {n : Nat} {e : Bool} (hy : y.needs ≠ some (.guard n)) (hk : GuardKept h n e) : GuardKept (y :: h) n e := by
  cases y <;> simp_all [AppCall.needs, GuardKept]

theorem guardKept_bwd {n : Nat} {e : Bool} (hy : y.makes ≠ some (.guard n)) (hk : GuardKept (y :: h) n e) : GuardKept h n e := by
  cases y <;> simp_all [AppCall.makes, GuardKept]

theorem guardUsable_fwd {n : Nat} {e : Bool} (hy : y.needs ≠ some (.guard n)) (hk : GuardUsable h n e) : GuardUsable (y :: h) n e := by
  cases y <;> simp_all [AppCall.needs, GuardUsable]

theorem guardUsable_bwd {n : Nat} {e : Bool} (hy : y.makes ≠ some (.guard n)) (hk : GuardUsable (y :: h) n e) : GuardUsable h n e := by
  cases y <;> simp_all [AppCall.makes, GuardUsable]

theorem txKept_other {n : Nat} (hy : y.needs ≠ some (.tx n)) : TxKept (y :: h) n ↔ TxKept h n := by
  cases y with
  | inTx m c => rw [txKept_inTx]; simp_all [AppCall.needs]
  | unwindTx m => simp_all [AppCall.needs, TxKept]
  | _ => simp [TxKept]

theorem resKept_fwd {n : Nat} (hy : y.needs ≠ some (.res n)) (hk : ResKept h n) : ResKept (y :: h) n := by
  cases y <;> simp_all [AppCall.needs, ResKept]

theorem resKept_bwd {n : Nat} (hy : y.makes ≠ some (.res n)) (hk : ResKept (y :: h) n) : ResKept h n := by
  cases y <;> simp_all [AppCall.makes, ResKept]

theorem resUsable_fwd {n : Nat} (hy : y.needs ≠ some (.res n)) (hk : ResUsable h n) : ResUsable (y :: h) n := by
  cases y <;> simp_all [AppCall.needs, ResUsable]

theorem resUsable_bwd {n : Nat} (hy : y.makes ≠ some (.res n)) (hk : ResUsable (y :: h) n) : ResUsable h n := by
  cases y <;> simp_all [AppCall.makes, ResUsable]

theorem resOf_other {k : Nat} (hp : AppPossible h y) (hk : k < resMade h) : resOf (y :: h) k = resOf h k := by
  cases y with
  | resource t k' =>
    simp only [AppPossible] at hp
    subst hp
    simp only [resOf]
    rw [if_neg (by omega)]
  | _ => rfl

theorem resGuardOf_other {n : Nat} (hy : y.makes ≠ some (.res n)) : resGuardOf (y :: h) n = resGuardOf h n := by
  cases y with
  | lockRes k e m =>
    simp only [AppCall.makes, ne_eq, Option.some.injEq, Holder.res.injEq] at hy
    simp only [resGuardOf]
    rw [if_neg hy]
  | _ => simp [resGuardOf]

theorem resMade_mono : resMade h ≤ resMade (y :: h) := by cases y <;> simp [resMade]

theorem ownersMade_mono : ownersMade h ≤ ownersMade (y :: h) := by cases y <;> simp [ownersMade]

theorem counted_cons (hp : AppPossible h y) (v : Holder) : Counted (y :: h) v ↔ y.makes = some v ∨ Counted h v := by
  cases y <;> cases v <;> simp_all [AppCall.makes, Counted, AppPossible, guardsMade, ownersMade, resGuardsMade] <;> omega

theorem fresh_uncounted (hp : AppPossible h y) {v : Holder} (hm : y.makes = some v) : ¬ Counted h v := by
  cases y <;> simp only [AppCall.makes, Option.some.injEq, reduceCtorEq] at hm <;> subst hm <;> simp_all [Counted, AppPossible]

end

section
variable [LawfulSig σ] {g : Graph σ.K σ.T} {h : List (AppCall σ)} {a : App σ}

theorem kept_counted (hg : g.Reachable) (hl : AppLegal g h a) {v : Holder} (hk : Kept h v) : Counted h v := by
  have hI := hl.gInv hg
  have hR := hl.res
  cases v with
  | guard n =>
    obtain ⟨e, he⟩ := hk
    obtain ⟨x, hx, _⟩ := (hI.kept n e).1 he
    show n < guardsMade h
    rw [← hI.ng]; exact (List.getElem?_eq_some_iff.1 hx).1
  | tx n =>
    obtain ⟨x, hx, _⟩ := (hI.txKept n).1 hk
    show n < ownersMade h
    rw [← hI.nt]; exact (List.getElem?_eq_some_iff.1 hx).1
  | res n =>
    obtain ⟨x, hx, _⟩ := (hR.kept n).1 hk
    show n < resGuardsMade h
    rw [← hR.ng]; exact (List.getElem?_eq_some_iff.1 hx).1

theorem usable_kept (hg : g.Reachable) (hl : AppLegal g h a) {v : Holder} (hu : StillUsable h v) : Kept h v := by
  have hI := hl.gInv hg
  have hR := hl.res
  cases v with
  | guard n =>
    obtain ⟨e, he⟩ := hu
    obtain ⟨x, hx, h1, h2⟩ := (hI.usable n e).1 he
    exact ⟨e, (hI.kept n e).2 ⟨x, hx, h1, by rw [h2]; simp⟩⟩
  | tx n => exact hu.1
  | res n =>
    obtain ⟨x, hx, h1⟩ := (hR.usable n).1 hu
    exact (hR.kept n).2 ⟨x, hx, by rw [h1]; simp⟩

theorem resOf_made (hl : AppLegal g h a) {k : Nat} {q : σ.Ty × Option Nat} (hk : resOf h k = some q) : k < resMade h := by
  have hR := hl.res
  rw [hR.handle] at hk
  obtain ⟨x, hx, _⟩ := Option.map_eq_some_iff.1 hk
  rw [← hR.nh]; exact (List.getElem?_eq_some_iff.1 hx).1

/-- A call that is possible and that nothing hinders returns. -/
theorem returns (hg : g.Reachable) (hl : AppLegal g h a) {x : AppCall σ} (hp : AppPossible h x) (hn : ¬ NeverReturns h x) :
    ∃ r a', a.step x = some (r, a') ∧ r ≠ .stuck := by
  obtain ⟨r, a', hs⟩ := (C79_possible hg hl x).2 hp
  exact ⟨r, a', hs, fun he => hn ((C79_stuck hg hl x r hs).1 he)⟩

theorem named_eq (hg : g.Reachable) (hl : AppLegal g h a) (x : AppCall σ) : a.named x = renamed h x := by
  have hI := hl.gInv hg
  have hR := hl.res
  cases x <;> simp [App.named, renamed, hI.ng, hR.ng]

theorem asks_eq (hg : g.Reachable) (hl : AppLegal g h a) {x : AppCall σ} (hp : AppPossible h (renamed h x)) : a.asks x = asksOf h x := by
  have hI := hl.gInv hg
  have hR := hl.res
  cases x with
  | lockRes k e n =>
    simp only [App.asks, asksOf, hR.handle]
    cases hk : a.handles[k]? with
    | none => rfl
    | some v => obtain ⟨t, ⟨o⟩⟩ := v; cases o <;> rfl
  | inTx x c =>
    cases c with
    | context t d =>
      cases t with
      | succ t => rfl
      | zero =>
        simp only [App.asks, asksOf]
        obtain ⟨h1, h2, _⟩ := hp
        obtain ⟨v, hv⟩ := (tx_made hI x).1 h1
        obtain ⟨wo, st⟩ := v
        rw [hv]
        cases wo with
        | some w => have := (hI.world x w st hv).1; split <;> simp_all
        | none =>
          have := hI.fresh x st hv
          by_cases hst : st = .live
          · rw [this, if_pos hst]
          · rw [if_neg hst] at this
            rw [this] at h2
            exact absurd h2 (possible_over _)
    | _ => rfl
  | _ => rfl

end

end Plotline
