import Verif.Lemmas.CompleteRun

/-! # C109: what no program can tell apart is the same by the laws -/

namespace Plotline

open Std

set_option linter.unusedSectionVars false

variable {σ : Sig}

/-- C109: three kinds of programs are enough to tell apart what can be told apart, on schemas without triggers: the closure alone, the
closure followed by a write to the context around, and the closure while a resource is being written. Closures that these do not tell
apart can be rewritten to one another by the laws. -/
theorem C109_three_programs [LawfulSig σ] (hid : ∀ i : σ.K, ∃ n : σ.T, (id n == i) = true) (hval : ∀ t, Nonempty (σ.Val t)) (b b' : Prog σ)
    (hb : Ordinary 1 b) (hb' : Ordinary 1 b')
    (h : ∀ S : Schema σ, S.Used → (∀ s, S.env.fire s = []) → Untold S [] b b' ∧ (∀ o, Untold S [] (afterwards o b) (afterwards o b')) ∧
      ∀ t, Untold S [] (meanwhile t b) (meanwhile t b')) : Same (fun _ => False) 1 b b' := by
  obtain ⟨q, hq, hbq⟩ := plain_normal (quiet := fun _ => False) hb Nat.one_pos
  obtain ⟨q', hq', hbq'⟩ := plain_normal (quiet := fun _ => False) hb' Nat.one_pos
  obtain ⟨x, rfl⟩ := Asking.of_normal hq
  obtain ⟨y, rfl⟩ := Asking.of_normal hq'
  have u : ∀ {S : Schema σ}, S.Used → ∀ {p p' : Prog σ}, Same (fun _ => False) 1 p p' → Untold S [] p p' :=
    fun hS _ _ h => untold_same hS (fun _ h => h.elim) [] h
  have hxy : Asking.Alike' x y := fun w hw => tied hid hval
    (fun S hS => (u hS.1 hbq.symm).trans ((h S hS.1 hS.2).1.trans (u hS.1 hbq')))
    (fun S o hS => (u hS.1 (afterwards_same o hbq.symm)).trans (((h S hS.1 hS.2).2.1 o).trans (u hS.1 (afterwards_same o hbq'))))
    (fun S t hS => (u hS.1 (meanwhile_same t hbq.symm)).trans (((h S hS.1 hS.2).2.2 t).trans (u hS.1 (meanwhile_same t hbq')))) hw
  exact .trans hbq (.trans (Asking.complete hxy) hbq'.symm)

/-- C109: two ordinary closures can be rewritten to one another by the laws exactly if no program can tell them apart: wherever a
program runs the one, it may run the other, and the transaction ends in the same way and leaves the same nodes. -/
theorem C109_complete [LawfulSig σ] (hid : ∀ i : σ.K, ∃ n : σ.T, (id n == i) = true) (hval : ∀ t, Nonempty (σ.Val t)) (b b' : Prog σ)
    (hb : Ordinary 1 b) (hb' : Ordinary 1 b') :
    (∀ q q', Replaced b b' 1 q q' → ∀ S : Schema σ, S.Used → ∀ pre, Untold S pre q q') ↔ Same (fun _ => False) 1 b b' := by
  constructor
  · intro h
    exact C109_three_programs hid hval b b' hb hb' fun S hS _ => ⟨h _ _ (.here Nat.one_pos) S hS [],
      fun o => h _ _ (afterwards_replaced o b b') S hS [], fun t => h _ _ (meanwhile_replaced t b b') S hS []⟩
  · intro h q q' hq S hS pre
    exact untold_same hS (fun _ h => h.elim) pre (hq.same h)

/-- C109: triggers and earlier writes do not tell more. Closures that cannot be told apart by single transactions on schemas without
triggers cannot be told apart on any, not even by whole programs that have them in triggers and in transactions. -/
theorem C109_without_triggers [LawfulSig σ] (hid : ∀ i : σ.K, ∃ n : σ.T, (id n == i) = true) (hval : ∀ t, Nonempty (σ.Val t)) (b b' : Prog σ)
    (hb : Ordinary 1 b) (hb' : Ordinary 1 b')
    (h : ∀ q q', Replaced b b' 1 q q' → ∀ S : Schema σ, S.Used → (∀ s, S.env.fire s = []) → Untold S [] q q')
    (S S1 : Schema σ) (hS : S.Used) (l l' : List (Use σ × Seen σ)) (hl : Pairwise2 (fun x y => ReplacedIn b b' x.1 y.1 ∧ y.2 = x.2) l l')
    (hs : Session S l S1) :
    ∃ S1', Session S l' S1' ∧ (∀ i, S1'.guard.get i = S1.guard.get i) ∧
      ∀ t, (S1'.env.resources.res t).peek S1'.heap = (S1.env.resources.res t).peek S1.heap := by
  have hsame : Same (fun _ => False) 1 b b' := C109_three_programs hid hval b b' hb hb' fun S hS hf => ⟨h _ _ (.here Nat.one_pos) S hS hf,
    fun o => h _ _ (afterwards_replaced o b b') S hS hf, fun t => h _ _ (meanwhile_replaced t b b') S hS hf⟩
  have hr : Rewritten (fun _ => False) S S := ⟨fun _ => rfl, fun s => by
    induction S.env.fire s with
    | nil => exact .nil
    | cons p l ih => exact .cons (.refl p 1) ih, fun _ h => h.elim, fun _ => rfl⟩
  obtain ⟨S1', h1, h2⟩ := C107_session (fun _ => False) S S S1 hS hS hr l l' (hl.imp fun x y hxy => ⟨hxy.1.redone hsame, hxy.2⟩) hs
  exact ⟨S1', h1, h2.nodes, h2.reads⟩

/-! ## Examples -/

theorem demo_ids (i : demo.K) : ∃ n : demo.T, (id n == i) = true := ⟨(⟨i, 0⟩ : Doc), by simp [id, Identify.id]⟩

/-- C109 applies to the closures of C107: that `longWay` and `shortWay` cannot be told apart says that there is a way to rewrite one to
the other. -/
example (h : ∀ q q', Replaced longWay shortWay 1 q q' → ∀ S : Schema demo, S.Used → ∀ pre, Untold S pre q q') :
    Same (fun _ => False) 1 longWay shortWay :=
  (C109_complete demo_ids (fun _ => ⟨(0 : Nat)⟩) longWay shortWay longWay_plain
    (.get _ Nat.one_pos fun _ => .save _ (.delete _ (.save _ (.done _ _))))).1 h

/-- Reading a resource without making use of it can be told: while that resource is being written, it waits for ever. -/
example : ¬ Same (fun _ => False) 1 (.resRead 4 fun _ => .done (.ok ()) : Prog demo) (.done (.ok ())) := by
  intro h
  have h1 : (threeRes.transact 20 [] (meanwhile 4 (.resRead 4 fun _ => .done (.ok ())))).map (·.1) = some .stuck := by decide +kernel
  have h2 : (threeRes.transact 20 [] (meanwhile 4 (.done (.ok ())))).map (·.1) = some (.ret (.ok ())) := by decide +kernel
  obtain ⟨⟨o, S1⟩, r1, e1⟩ := Option.map_eq_some_iff.1 h1
  obtain ⟨⟨o', S1'⟩, r2, e2⟩ := Option.map_eq_some_iff.1 h2
  have := ((untold_same threeRes_used (fun _ h => h.elim) [] (meanwhile_same (σ := demo) (4 : Nat) h)).same _ _ _ _ _ _ r1 r2).1
  simp only at e1 e2
  rw [e1, e2] at this
  cases this

/-- What was written before failing can be told: by who catches the failure inside of the transaction. -/
example : ¬ Same (fun _ => False) 1 (.save 0 ⟨9, 9⟩ .panic : Prog demo) .panic := by
  intro h
  have h1 : (threeRes.transact 20 [] (afterwards (.delete (9 : Nat)) (.save 0 ⟨9, 9⟩ .panic))).map (fun r => r.2.guard.get (9 : Nat)) =
    some (some ⟨9, 9⟩) := by decide +kernel
  have h2 : (threeRes.transact 20 [] (afterwards (.delete (9 : Nat)) .panic)).map (fun r => r.2.guard.get (9 : Nat)) = some none := by
    decide +kernel
  have h3 : (threeRes.transact 20 [] (afterwards (.delete (9 : Nat)) (.save 0 ⟨9, 9⟩ .panic))).map (·.1) = some (.ret (.ok ())) := by
    decide +kernel
  obtain ⟨⟨o, S1⟩, r1, e1⟩ := Option.map_eq_some_iff.1 h1
  obtain ⟨⟨o', S1'⟩, r2, e2⟩ := Option.map_eq_some_iff.1 h2
  rw [r1] at h3
  simp only [Option.map_some, Option.some.injEq] at h3
  have := ((untold_same threeRes_used (fun _ h => h.elim) [] (afterwards_same (σ := demo) (.delete (9 : Nat)) h)).same _ _ _ _ _ _ r1 r2).2
    (by rw [h3]; intro h; cases h) (9 : Nat)
  simp only at e1 e2
  rw [e1, e2] at this
  cases this

end Plotline
