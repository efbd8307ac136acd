import Verif.Lemmas.LawsNormal
import Verif.Props.Alike

/-! # C107: closures and triggers can be rewritten by the laws of maps without anyone noticing -/

namespace Plotline

open Std

set_option linter.unusedSectionVars false

variable {σ : Sig}

/-- C107: a transaction whose closure was rewritten by the laws ends in the same way and leaves the same nodes and the same in all
resources. `stuck` are those that wait for ever. -/
theorem C107_transaction [LawfulSig σ] (quiet : Sched → Prop) (S S1 : Schema σ) (hS : S.Used) (hq : ∀ s, quiet s → S.env.fire s = [])
    (pre pre' : List (Operation σ.K σ.T)) (hpre : ∀ i, lastOp pre' i = lastOp pre i) (b b' : Prog σ) (hb : Same quiet 1 b b')
    (fuel : Nat) (o : Out (Except Error σ.V)) (h : S.transact fuel pre b = some (o, S1)) :
    ∃ fuel' S1', S.transact fuel' pre' b' = some (o, S1') ∧
      (o ≠ .stuck → S1'.heap = S1.heap ∧ ∀ i, S1'.guard.get i = S1.guard.get i) := by
  have hv := (used_sane hS).valid
  have hf : ∀ s, Pairwise2 (Equiv quiet 1) (S.env.fire s) (S.env.fire s) := by
    intro s
    induction S.env.fire s with
    | nil => exact .nil
    | cons p l ih => exact .cons (.refl p 1) ih
  obtain ⟨fuel', S1', h1, _, h2⟩ := transact_equiv hv hv (fun _ => rfl) rfl rfl hf hq hpre (same_equiv hb) h
  exact ⟨fuel', S1', h1, h2⟩

/-- C107: it goes on for ever if the original does, because triggers fire one another without end. -/
theorem C107_endless [LawfulSig σ] (quiet : Sched → Prop) (S : Schema σ) (hS : S.Used) (hq : ∀ s, quiet s → S.env.fire s = [])
    (pre pre' : List (Operation σ.K σ.T)) (hpre : ∀ i, lastOp pre' i = lastOp pre i) (b b' : Prog σ) (hb : Same quiet 1 b b') :
    (∀ fuel, S.transact fuel pre b = none) ↔ ∀ fuel, S.transact fuel pre' b' = none := by
  constructor
  · intro h fuel
    cases h' : S.transact fuel pre' b' with
    | none => rfl
    | some r =>
      obtain ⟨f, S1, h1, _⟩ := C107_transaction quiet S r.2 hS hq pre' pre (fun i => (hpre i).symm) b' b hb.symm fuel r.1 h'
      rw [h f] at h1; cases h1
  · intro h fuel
    cases h' : S.transact fuel pre b with
    | none => rfl
    | some r =>
      obtain ⟨f, S1, h1, _⟩ := C107_transaction quiet S r.2 hS hq pre pre' hpre b b' hb fuel r.1 h'
      rw [h f] at h1; cases h1

/-- C107: whole programs. If the triggers of a schema, the triggers it is given later and the closures of the transactions made on it
are all rewritten by the laws, then every answer stays the same, and so do the nodes and resources in the end. -/
theorem C107_session [LawfulSig σ] (quiet : Sched → Prop) (S S' S1 : Schema σ) (hS : S.Used) (hS' : S'.Used) (hr : Rewritten quiet S S')
    (l l' : List (Use σ × Seen σ)) (hl : Pairwise2 (fun x y => Redone quiet x.1 y.1 ∧ y.2 = x.2) l l') (h : Session S l S1) :
    ∃ S1', Session S' l' S1' ∧ Rewritten quiet S1 S1' :=
  session_rewritten h (used_sane hS) (used_sane hS') hr hl

/-- C107: in both directions. -/
theorem C107_same_courses [LawfulSig σ] (quiet : Sched → Prop) (S S' : Schema σ) (hS : S.Used) (hS' : S'.Used) (hr : Rewritten quiet S S')
    (l l' : List (Use σ × Seen σ)) (hl : Pairwise2 (fun x y => Redone quiet x.1 y.1 ∧ y.2 = x.2) l l') :
    (∃ S1, Session S l S1) ↔ ∃ S1', Session S' l' S1' := by
  constructor
  · rintro ⟨S1, h⟩
    obtain ⟨S1', h1, _⟩ := C107_session quiet S S' S1 hS hS' hr l l' hl h
    exact ⟨S1', h1⟩
  · rintro ⟨S1, h⟩
    obtain ⟨S1', h1, _⟩ := C107_session quiet S' S S1 hS' hS hr.symm l' l (hl.flip fun x y h => ⟨h.1.symm, h.2.symm⟩) h
    exact ⟨S1', h1⟩

/-- What is stored after saves and deletes. -/
theorem writes_leave [LawfulSig σ] (S : Schema σ) (hS : S.Used) (l : List (Operation σ.K σ.T)) (v : σ.V) :
    ∃ fuel S1, S.transact fuel [] (.ops 0 l (.done (.ok v))) = some (.ret (.ok v), S1) ∧
      ∀ i, S1.guard.get i = (lastOp l i).getD (S.guard.get i) := by
  obtain ⟨fuel, he⟩ := eval_of_evalBy S.env 0 (.ops 0 l (.done (.ok v))) [0] (S.begin []) _ (evalBy_ops (c := 0) (f := 0) rfl _ l _)
  refine ⟨fuel, _, by unfold Schema.transact; rw [he], fun i => ?_⟩
  rw [guard_graph]
  show (commitRoot (pushAll (S.begin []) 0 l)).get i = _
  have : commitRoot (pushAll (S.begin []) 0 l) = S.guard.commit l := rfl
  rw [this, get_commit_lastOp (by rw [guard_graph]; exact (used_sane hS).valid)]

theorem transact_fuel {S S1 S2 : Schema σ} {f1 f2 : Nat} {pre : List (Operation σ.K σ.T)} {b : Prog σ} {o1 o2 : Out (Except Error σ.V)}
    (h1 : S.transact f1 pre b = some (o1, S1)) (h2 : S.transact f2 pre b = some (o2, S2)) : o1 = o2 ∧ S1 = S2 := by
  have ha := transact_mono_le S (Nat.le_max_left f1 f2) h1
  have hb := transact_mono_le S (Nat.le_max_right f1 f2) h2
  rw [ha] at hb
  simpa only [Option.some.injEq, Prod.mk.injEq] using hb

theorem lastOp_id [LawfulSig σ] {l : List (Operation σ.K σ.T)} {i : σ.K} {n : σ.T} (h : lastOp l i = some (some n)) : (i == id n) = true := by
  induction l with
  | nil => cases h
  | cons o l ih =>
    rw [lastOp] at h
    cases hl : lastOp l i with
    | some x => rw [hl] at h; exact ih (by rw [hl]; exact h)
    | none =>
      rw [hl, Option.none_or] at h
      split at h
      · rename_i ho
        rw [beq_comm']
        cases o with
        | save m => cases h; exact ho
        | delete j => cases h
      · cases h

/-- C107: for closures that only save and delete the laws say all there is to say: two of them leave the same, whatever was there
before, exactly if for every node the last operation on its id is the same. -/
theorem C107_writes [LawfulSig σ] (l l' : List (Operation σ.K σ.T)) (v : σ.V) :
    (∀ (S : Schema σ), S.Used → ∀ fuel fuel' o o' S1 S1', S.transact fuel [] (.ops 0 l (.done (.ok v))) = some (o, S1) →
      S.transact fuel' [] (.ops 0 l' (.done (.ok v))) = some (o', S1') → ∀ i, S1'.guard.get i = S1.guard.get i) ↔
    ∀ n : σ.T, lastOp l' (id n) = lastOp l (id n) := by
  constructor
  · intro h n
    have on : ∀ g : Graph σ.K σ.T, g.Reachable → (lastOp l' (id n)).getD (g.get (id n)) = (lastOp l (id n)).getD (g.get (id n)) := by
      intro g hg
      have hS : (Schema.fromGraph g).Used := ⟨g, [], hg, .nil _⟩
      obtain ⟨f1, S1, h1, h2⟩ := writes_leave (Schema.fromGraph g) hS l v
      obtain ⟨f2, S2, h3, h4⟩ := writes_leave (Schema.fromGraph g) hS l' v
      have := h _ hS _ _ _ _ _ _ h1 h3 (id n)
      rw [h2, h4, guard_graph] at this
      exact this
    have he := on _ .empty
    have hn := on _ (.insert _ n .empty)
    rw [Graph.get_insert _ _ Graph.Reachable.empty.valid, if_pos (Graph.beq_iff.2 ReflCmp.compare_self)] at hn
    have h0 : (Graph.empty : Graph σ.K σ.T).get (id n) = none := rfl
    rw [h0] at he
    cases h1 : lastOp l (id n) <;> cases h2 : lastOp l' (id n) <;> simp only [h1, h2, Option.getD_some, Option.getD_none] at he hn ⊢
    · rw [he] at hn; cases hn
    · rw [← he] at hn; cases hn
    · rw [he]
  · intro h S hS fuel fuel' o o' S1 S1' h1 h2 i
    obtain ⟨f3, S3, h3, h4⟩ := writes_leave S hS l v
    obtain ⟨f5, S5, h5, h6⟩ := writes_leave S hS l' v
    rw [(transact_fuel h1 h3).2, (transact_fuel h2 h5).2, h4, h6]
    have same : ∀ n : σ.T, (i == id n) = true → lastOp l' i = lastOp l i := fun n hn => by
      rw [lastOp_alike hn, lastOp_alike hn, h n]
    cases hg : S.guard.get i with
    | some n => rw [same n (Graph.get_some_id _ (by rw [guard_graph]; exact (used_sane hS).valid) hg)]
    | none =>
      rcases hl : lastOp l i with _ | _ | n
      · rcases hl' : lastOp l' i with _ | _ | m
        · rfl
        · rfl
        · have := same m (lastOp_id hl'); rw [hl, hl'] at this; cases this
      · rcases hl' : lastOp l' i with _ | _ | m
        · rfl
        · rfl
        · have := same m (lastOp_id hl'); rw [hl, hl'] at this; cases this
      · rw [same n (lastOp_id hl), hl]

/-- C107: every ordinary closure (saves, deletes, lookups, reads of resources, caught panics and transactions of its own) can be rewritten to one that looks up and reads all it needs first and then saves and deletes, without
transactions of its own and without catching panics: on no schema can the two be told apart. -/
theorem C107_look_first [LawfulSig σ] (b : Prog σ) (hb : Ordinary 1 b) : ∃ b', Normal 1 b' ∧
    ∀ (S : Schema σ), S.Used → ∀ (pre : List (Operation σ.K σ.T)) (fuel : Nat) (o : Out (Except Error σ.V)) (S1 : Schema σ),
      S.transact fuel pre b = some (o, S1) → ∃ fuel' S1', S.transact fuel' pre b' = some (o, S1') ∧
        (o ≠ .stuck → S1'.heap = S1.heap ∧ ∀ i, S1'.guard.get i = S1.guard.get i) := by
  obtain ⟨b', h1, h2⟩ := plain_normal (quiet := fun _ => False) hb (by omega)
  exact ⟨b', h1, fun S hS pre fuel o S1 h => C107_transaction (fun _ => False) S S1 hS (fun _ h => h.elim) pre pre (fun _ => rfl) b b' h2 fuel o h⟩

/-- C107: anywhere in a closure or trigger, `Save` without triggers is `ctx.save`. -/
theorem C107_save (quiet : Sched → Prop) (hb : quiet .beforeSave) (ha : quiet .afterSave) (d c : Nat) (hc : c < d) (n : σ.T)
    (k : Except Error σ.V → Prog σ) : Same quiet d (.saveOp c n k) (.save c n (k (.ok σ.unit))) := saveOp_same hb ha hc n k

/-- C107: anywhere in a closure or trigger, `Delete` without triggers is `ctx.delete` of what `ctx.get` finds. -/
theorem C107_delete (quiet : Sched → Prop) (hb : quiet .beforeDelete) (ha : quiet .afterDelete) (d c : Nat) (hc : c < d) (i : σ.K)
    (k : Except Error σ.V → Prog σ) : Same quiet d (.deleteOp c i k)
      (.get c i fun | none => k (.error .noop) | some _ => .delete c i (k (.ok σ.unit))) := deleteOp_same hb ha hc i k

/-! ## Examples -/

/-- Saves a document, looks for it, deletes another in a transaction of its own, and saves the first again. -/
def longWay : Prog demo :=
  .save 0 ⟨1, 5⟩ <| .contains 0 (1 : Nat) fun there =>
    .tx 0 (.delete 0 (2 : Nat) <| .get 1 (2 : Nat) fun old => .save 0 ⟨3, (old.map Doc.body).getD 0⟩ <| .done (.ok ())) fun
      | .error e => .done (.error e)
      | .ok _ => .save 0 ⟨1, if there then 6 else 7⟩ <| .done (.ok ())

/-- The same, looking first and writing last. -/
def shortWay : Prog demo :=
  .get 0 (2 : Nat) fun old => .ops 0 [.save ⟨3, (old.map Doc.body).getD 0⟩, .delete (2 : Nat), .save ⟨1, 6⟩] (.done (.ok ()))

theorem longWay_plain : Ordinary 1 longWay := by
  refine .save _ (.contains _ (by omega) fun _ => .tx (.delete _ (.get _ (by omega) fun _ => .save _ (.done _ _))) fun r => ?_)
  cases r with
  | error e => exact .done _ _
  | ok _ => exact .save _ (.done _ _)

/-- How `longWay` goes on. -/
def longRest (there : Bool) : Except Error Unit → Prog demo
  | .error e => .done (.error e)
  | .ok _ => .save 0 ⟨1, if there then 6 else 7⟩ <| .done (.ok ())

theorem longWay_same : Same (fun _ => False) 1 longWay shortWay := by
  have h0 : longWay = .save 0 ⟨1, 5⟩ (.contains 0 (1 : Nat) fun there => .tx 0 (.delete 0 (2 : Nat) (.get 1 (2 : Nat) fun old =>
      .save 0 ⟨3, (old.map Doc.body).getD 0⟩ (.done (.ok ())))) (longRest there)) := by
    unfold longWay; congr
  rw [h0]
  refine .trans (.save 0 _ (.law (.contains (σ := demo) 0 (1 : Nat) _))) ?_
  refine .trans (.law (.lookOwn (σ := demo) (c := 0) (i := (1 : Nat)) (.save (⟨1, 5⟩ : Doc)) (fun a => .tx 0 (.delete 0 (2 : Nat) (.get 1 (2 : Nat) fun old =>
      .save 0 ⟨3, (old.map Doc.body).getD 0⟩ (.done (.ok ())))) (longRest a.isSome)) Nat.one_pos rfl)) ?_
  refine .trans (.save 0 _ (.tx 0 (.law (.lookOther (σ := demo) (c := 0) (c' := 1) (i := (2 : Nat)) (.delete (2 : Nat))
    (fun old => .save 0 ⟨3, (old.map Doc.body).getD 0⟩ (.done (.ok ()))) (by omega) (by omega) (.inr Nat.one_pos))) fun _ => .refl _ _)) ?_
  refine .trans (.save 0 _ (.law (.txLook (σ := demo) (c := 0) (c' := 0) (2 : Nat) _ _ Nat.one_pos Nat.one_pos))) ?_
  refine .trans (.law (.lookOther (σ := demo) (c := 0) (c' := 0) (i := (2 : Nat)) (.save (⟨1, 5⟩ : Doc)) (fun old => .tx 0 (.delete 0 (2 : Nat)
      (.save 0 ⟨3, (old.map Doc.body).getD 0⟩ (.done (.ok ())))) (longRest true)) Nat.one_pos Nat.one_pos (.inl rfl))) ?_
  refine .get 0 _ fun old => ?_
  refine .trans (.save 0 _ (.law (.txOk (σ := demo) (c := 0) [.delete (2 : Nat), .save (⟨3, (old.map Doc.body).getD 0⟩ : Doc)] () (longRest true)
    Nat.one_pos))) ?_
  refine .law (.writes (σ := demo) (c := 0) (l := [.save ⟨1, 5⟩, .delete (2 : Nat), .save ⟨3, (old.map Doc.body).getD 0⟩, .save ⟨1, 6⟩])
    (l' := [.save ⟨3, (old.map Doc.body).getD 0⟩, .delete (2 : Nat), .save ⟨1, 6⟩]) (.done (.ok ())) Nat.one_pos fun i => ?_)
  by_cases h1 : (1 : Nat) = i
  · subst h1; rfl
  · by_cases h2 : (2 : Nat) = i
    · subst h2; rfl
    · by_cases h3 : (3 : Nat) = i
      · subst h3; rfl
      · simp [lastOp, Operation.id, Identify.id, Plotline.id, h1, h2, h3]

example : (demoSchema.transact 20 [] longWay).map (fun r => (r.1, r.2.guard.iter)) =
    (demoSchema.transact 20 [] shortWay).map (fun r => (r.1, r.2.guard.iter)) := by decide +kernel

/-- C107: the side conditions are needed. What is saved before a change of a resource that panics is there when the panic was caught;
what would be saved after it is not. -/
example : ¬ Same (fun _ => False) 1
    (.catchUnwind (.save 0 ⟨9, 9⟩ (.resWrite 4 (fun v : Nat => (v, true)) fun _ => .done (.ok ()))) fun _ => .done (.ok ()) : Prog demo)
    (.catchUnwind (.resWrite 4 (fun v : Nat => (v, true)) fun _ => .save 0 ⟨9, 9⟩ (.done (.ok ()))) fun _ => .done (.ok ())) := by
  intro h
  obtain ⟨fuel, S1, h1, h2⟩ := C107_transaction (fun _ => False) threeRes _ threeRes_used (fun _ h => h.elim) [] [] (fun _ => rfl) _ _ h
    20 _ rfl
  have h3 : (threeRes.transact 20 [] (.catchUnwind (.resWrite 4 (fun v : Nat => (v, true)) fun _ => .save 0 ⟨9, 9⟩ (.done (.ok ())))
    fun _ => .done (.ok ()))).isSome = true := by decide +kernel
  obtain ⟨r, hr⟩ := Option.isSome_iff_exists.1 h3
  have h4 := (h2 (by intro h; cases h)).2 (9 : Nat)
  rw [(transact_fuel h1 hr).2] at h4
  have h5 : (threeRes.transact 20 [] (.catchUnwind (.resWrite 4 (fun v : Nat => (v, true)) fun _ => .save 0 ⟨9, 9⟩ (.done (.ok ())))
    fun _ => .done (.ok ()))).map (fun r => r.2.guard.get (9 : Nat)) = some none := by decide +kernel
  rw [hr] at h5
  simp only [Option.map_some, Option.some.injEq] at h5
  rw [h5] at h4
  revert h4
  decide +kernel

/-- C107: looking before writing what is looked for is not the same. -/
example : ¬ Same (fun _ => False) 1
    (.save 0 ⟨9, 9⟩ (.get 0 (9 : Nat) fun a => .done (if a.isSome then .ok () else .error .noop)) : Prog demo)
    (.get 0 (9 : Nat) fun a => .save 0 ⟨9, 9⟩ (.done (if a.isSome then .ok () else .error .noop))) := by
  intro h
  have h0 : (threeRes.transact 20 [] (.save 0 ⟨9, 9⟩ (.get 0 (9 : Nat) fun a => .done (if a.isSome then .ok () else .error .noop)))).map (·.1) =
    some (.ret (.ok ())) := by decide +kernel
  obtain ⟨q, hq, hqe⟩ := Option.map_eq_some_iff.1 h0
  obtain ⟨fuel, S1, h1, _⟩ := C107_transaction (fun _ => False) threeRes q.2 threeRes_used (fun _ h => h.elim) [] [] (fun _ => rfl) _ _ h
    20 q.1 hq
  have h3 : (threeRes.transact 20 [] (.get 0 (9 : Nat) fun a => .save 0 ⟨9, 9⟩ (.done (if a.isSome then .ok () else .error .noop)))).map (·.1) =
    some (.ret (.error .noop)) := by decide +kernel
  obtain ⟨r, hr, he⟩ := Option.map_eq_some_iff.1 h3
  have := (transact_fuel h1 hr).1
  rw [he, hqe] at this
  cases this

end Plotline
