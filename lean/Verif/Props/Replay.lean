import Verif.Spec.Replay
import Verif.Props.ByHand
import Verif.Lemmas.LawsRun

/-! # C14 for closures that use the contexts around them, and forget contexts -/

namespace Plotline

open Std

set_option linter.unusedSectionVars false

variable {σ : Sig}

theorem countingOps_last (h : List (Call σ)) (t : Nat) (i : σ.K) : lastOp (countingOps h t) i = lastWriteOf h t i := by
  induction h generalizing t with
  | nil => rfl
  | cons x h ih =>
    cases x with
    | save c n =>
      simp only [countingOps, lastWriteOf]
      by_cases h1 : txOf h c = some t
      · simp only [h1, if_true, lastOp_append, lastOp, true_and, ih, Operation.leaves]
        by_cases h2 : (Plotline.id n == i) = true
        · simp [h2, Operation.id]
        · simp [h2, Operation.id]
      · simp only [h1, if_false, false_and, ih]
    | delete c j =>
      simp only [countingOps, lastWriteOf]
      by_cases h1 : txOf h c = some t
      · simp only [h1, if_true, lastOp_append, lastOp, true_and, ih, Operation.leaves]
        by_cases h2 : (j == i) = true
        · simp [h2, Operation.id]
        · simp [h2, Operation.id]
      · simp only [h1, if_false, false_and, ih]
    | commit s =>
      simp only [countingOps, lastWriteOf]
      split
      · rw [lastOp_append, ih, ih]
      · exact ih t
    | _ => exact ih t

theorem applyAll_last [LawfulSig σ] (m : FMap σ.K σ.T) (ops : List (Operation σ.K σ.T)) (i : σ.K) :
    FMap.applyAll m ops i = (lastOp ops i).getD (m i) := by
  rw [applyAll_find, lastOp_says, says]
  split <;> rename_i h <;> simp only [h] <;> rfl

section
variable [LawfulSig σ] {g : Graph σ.K σ.T} {h : List (AppCall σ)} {a : App σ}

/-- C14, for every closure that compiles and any triggers: a transaction that returns `Ok` leaves in the graph what was there with the
operations that count for it applied in order (`countingOps`: as they are made, those of a subtransaction when it is committed), or just what was
there if the closure forgot its context. The calls `l` are those the closure and the triggers make one by one (`withByHand`), and the transaction is the
one numbered `a.txs.length`. -/
theorem C14_every (hg : g.Reachable) (hl : AppLegal g h a) (hi : Idle h) (ts : TriggerSet σ) (hts : ts.Compiles) (body : Prog σ)
    (hb : body.Compiles [.owned] []) (fuel : Nat) (v : σ.V) (S : Schema σ) (hs : (a.withTriggers ts).transact fuel [] body = some (.ret (.ok v), S)) :
    ∃ m l r, withByHand ts fuel body ⟨[], a⟩ = some (.ret (.ok v), m) ∧ m.calls = (.inTx a.txs.length (.commit 0), r) :: l ∧
      (Leaked (callsOf a.txs.length (l.map (·.1))) 0 → ∀ i, S.graph.get i = a.schema.graph.get i) ∧
      (¬ Leaked (callsOf a.txs.length (l.map (·.1))) 0 →
        S.graph.get = FMap.applyAll a.schema.graph.get (countingOps (callsOf a.txs.length (l.map (·.1))) 0)) := by
  rcases C81_closure hg hl hi ts hts body hb fuel with ⟨h1, _⟩ | ⟨o', S', m, h1, h2, h3, h4, _⟩
  · rw [h1] at hs; cases hs
  · rw [h1] at hs
    cases hs
    obtain ⟨l, b, hm, hr, hgr⟩ := h4 v rfl
    obtain ⟨k1, k2, _⟩ := h3 (by simp)
    have hu : ∀ l : List (AppCall σ), callsOf a.txs.length (l ++ h) = callsOf a.txs.length l := by
      intro l
      induction l with
      | nil => exact (hl.gInv hg).unmade _ (Nat.le_refl _)
      | cons x l ih =>
        cases x <;> simp only [List.cons_append, callsOf, ih]
    have hst : ∀ i, S.graph.get i = storedAt g (.inTx a.txs.length (.commit 0) :: (l.map (·.1) ++ h)) i := fun i => by
      have := ((k1.legal hl).gInv hg).stored i
      rw [hm] at this
      rw [← k2]
      exact this
    have hbe : ∀ i, a.schema.graph.get i = storedAt g (l.map (·.1) ++ h) i := fun i => by
      rw [← hgr]
      exact ((hr.legal hl).gInv hg).stored i
    refine ⟨m, l, _, h2, hm, fun hL i => ?_, fun hL => funext fun i => ?_⟩
    · rw [hst, hbe]
      simp only [storedAt, hu, hL, if_true]
    · rw [hst, applyAll_last, hbe, countingOps_last]
      simp only [storedAt, hu, hL, if_false]

/-- C14: operations registered before the closure runs are as if the closure began with them. -/
theorem C14_registered_before (S : Schema σ) (fuel : Nat) (pre : List (Operation σ.K σ.T)) (body : Prog σ) :
    S.transact (fuel + pre.length) [] (.ops 0 pre body) = S.transact fuel pre body := by
  have key : ∀ (pre done : List (Operation σ.K σ.T)),
      eval S.env (fuel + pre.length) [0] (.ops 0 pre body) (S.begin done) = eval S.env fuel [0] body (S.begin (done ++ pre)) := by
    intro pre
    induction pre with
    | nil => intro done; rw [List.append_nil]; rfl
    | cons o pre ih =>
      intro done
      rw [List.append_cons, ← ih]
      cases o <;> rfl
  unfold Schema.transact
  have := key pre []
  rw [List.nil_append] at this
  rw [this]

end

/-! ## Cases -/

/-- A closure whose subtransaction fails, but saves in the context around it as well as in its own: that node stays. A second subtransaction
saves in its own context first and then around it, and is committed after: what was saved later counts earlier. -/
def outward : Prog demo :=
  .tx 0 (.save 0 ⟨3, 30⟩ <| .save 1 ⟨4, 40⟩ <| .done (.error .noop)) fun _ =>
  .tx 0 (.save 0 ⟨5, 50⟩ <| .save 1 ⟨5, 51⟩ <| .done (.ok ())) fun _ => .done (.ok ())

example : outward.Compiles [.owned] [] := by simp [outward, Prog.Compiles, Usable, Own.lend]

example : ((handApp.withTriggers TriggerSet.empty).transact 20 [] outward).map (fun r => r.2.graph.iter) =
    some [⟨1, 10⟩, ⟨2, 20⟩, ⟨4, 40⟩, ⟨5, 50⟩] := by decide +kernel

/-- The calls it makes in the transaction before the commit. -/
def outwardCalls : List (Call demo) :=
  [.dropCtx 0, .commit 2, .dropCtx 2, .save 0 ⟨5, 51⟩, .save 2 ⟨5, 50⟩, .context 2 2, .transaction 0 2,
   .abandon 1, .dropCtx 1, .save 0 ⟨4, 40⟩, .save 1 ⟨3, 30⟩, .context 1 1, .transaction 0 1, .context 0 0]

example : (withByHand TriggerSet.empty 20 outward ⟨[], handApp⟩).map (fun r => r.2.calls.length) = some (outwardCalls.length + 2) := by
  decide +kernel

example : countingOps outwardCalls 0 = [.save ⟨4, 40⟩, .save ⟨5, 51⟩, .save ⟨5, 50⟩] := by
  simp [countingOps, outwardCalls, txOf, parentTx, Leaked]

/-- Forgetting the context: the graph stays. -/
example : ((handApp.withTriggers TriggerSet.empty).transact 20 [] (.save 0 ⟨3, 30⟩ (.forget (.done (.ok ()))))).map (fun r => r.2.graph.iter) =
    some [⟨1, 10⟩, ⟨2, 20⟩] := by decide +kernel

end Plotline
