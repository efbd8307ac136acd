import Verif.Lemmas.Scopes
import Verif.Lemmas.Cascade
import Verif.Spec.Fixtures

/-! # C62: API calls inside `with` and `with_mut` on a resource -/

namespace Plotline

open Std

set_option linter.unusedSectionVars false

variable {σ : Sig}

/-- C62: whatever a closure or trigger does and however it ends, the guards it took are released: afterwards exactly the
resources in use before are in use. -/
theorem C62_released (E : Env σ) {env : List Nat} {p : Prog σ} {s s' : St σ} {out : Out (Except Error σ.V)}
    (h : Runs E env p s out s') : s'.locks = s.locks := by
  obtain ⟨_, h⟩ := h
  exact eval_locks E h

/-- C62: at every moment of a transaction the locked resources are those whose `with` or `with_mut` is on the call stack. -/
theorem C62_locked_iff_open (S : Schema σ) (pre : List (Operation σ.K σ.T)) (body : Prog σ) (c : Conf σ)
    (h : Conf.Steps S.env ⟨.run [0] body, [], S.begin pre⟩ c) : c.st.locks = openScopes c.stack :=
  steps_locks h rfl

/-- C62: so a read waits for ever exactly if the transaction is inside `with_mut` on that resource. -/
theorem C62_read_waits (S : Schema σ) (pre : List (Operation σ.K σ.T)) (body : Prog σ) (env : List Nat) (t : σ.Ty)
    (k : Option (σ.Val t) → Prog σ) (K : List (Kont σ)) (s : St σ)
    (h : Conf.Steps S.env ⟨.run [0] body, [], S.begin pre⟩ ⟨.run env (.resRead t k), K, s⟩) :
    Conf.step S.env ⟨.run env (.resRead t k), K, s⟩ = some ⟨.back .stuck, K, s⟩ ↔
      ∃ p, (S.env.resources.res t).lock = some p ∧ (p, true) ∈ openScopes K := by
  have hl := C62_locked_iff_open S pre body _ h
  replace hl : s.locks = openScopes K := hl
  rw [← hl]
  have : (∃ p, (S.env.resources.res t).lock = some p ∧ (p, true) ∈ s.locks) ↔ s.resBlocks S.env t false = true := by
    rw [resBlocks_iff]; simp [blocks_iff]
  rw [this]
  simp only [Conf.step]
  cases hb : s.resBlocks S.env t false <;> simp

/-- C62: a write waits for ever exactly if the transaction is inside `with` or `with_mut` on that resource. -/
theorem C62_write_waits (S : Schema σ) (pre : List (Operation σ.K σ.T)) (body : Prog σ) (env : List Nat) (t : σ.Ty)
    (f : σ.Val t → σ.Val t × Bool) (k : Bool → Prog σ) (K : List (Kont σ)) (s : St σ)
    (h : Conf.Steps S.env ⟨.run [0] body, [], S.begin pre⟩ ⟨.run env (.resWrite t f k), K, s⟩) :
    Conf.step S.env ⟨.run env (.resWrite t f k), K, s⟩ = some ⟨.back .stuck, K, s⟩ ↔
      ∃ p excl, (S.env.resources.res t).lock = some p ∧ (p, excl) ∈ openScopes K := by
  have hl := C62_locked_iff_open S pre body _ h
  replace hl : s.locks = openScopes K := hl
  rw [← hl]
  have : (∃ p excl, (S.env.resources.res t).lock = some p ∧ (p, excl) ∈ s.locks) ↔ s.resBlocks S.env t true = true := by
    rw [resBlocks_iff]
    constructor
    · rintro ⟨p, e, hp, hm⟩
      exact ⟨p, hp, (blocks_iff ..).2 (by cases e <;> simp [hm])⟩
    · rintro ⟨p, hp, hb⟩
      rcases (blocks_iff ..).1 hb with hm | ⟨_, hm⟩ <;> exact ⟨p, _, hp, hm⟩
  rw [this]
  simp only [Conf.step]
  cases hb : s.resBlocks S.env t true with
  | true => simp
  | false =>
    simp only [Bool.false_eq_true, if_false, iff_false]
    intro h
    split at h <;> cases h

/-- In any schema the API makes, resources of different types have different cells. -/
theorem C62_own_cells [LawfulSig σ] (S : Schema σ) (h : Made S) : S.env.OwnCells :=
  (made_cells h).2.2

/-- C62: a transaction whose closure and triggers never ask for a lock they hold never waits for itself. -/
theorem C62_never_waits (S : Schema σ) (hc : S.env.OwnCells) (fires : Sched → List (σ.Ty × Bool) → Prop)
    (hE : S.env.Disciplined fires) (body : Prog σ) (hb : body.Disciplined fires 1 []) (pre : List (Operation σ.K σ.T))
    (fuel : Nat) (S' : Schema σ) : S.transact fuel pre body ≠ some (.stuck, S') := by
  intro h
  obtain ⟨s', he, _⟩ := transact_some h
  exact eval_not_stuck S.env fires hE hc fuel [0] [] body (S.begin pre) s' .stuck hb
    ⟨fun _ _ h => by simp [Schema.begin] at h, fun _ _ h => by cases h⟩ he rfl

/-- C62: what `with` shows stays so until its closure ends: nothing the closure calls can change the resource. -/
theorem C62_reader_sees_no_change (E : Env σ) {env : List Nat} {t : σ.Ty} {p : Nat} {body : Prog σ} {s s' : St σ}
    {out : Out (Except Error σ.V)} (hp : (E.resources.res t).lock = some p) (hfree : s.blocks p false = false)
    (h : Runs E env body (lockRes s p false) out s') :
    (E.resources.res t).peek s'.heap = (E.resources.res t).peek s.heap := by
  obtain ⟨fuel, h⟩ := h
  refine peek_congr _ _ _ fun q hq => ?_
  rw [hp] at hq; cases hq
  refine eval_cell_shared (s := lockRes s p false) E p h (show _ ∈ (p, false) :: s.locks from List.mem_cons_self ..)
    fun (hm : _ ∈ (p, false) :: s.locks) => ?_
  rcases List.mem_cons.1 hm with e | hm
  · cases e
  · rw [(blocks_iff ..).2 (.inl hm)] at hfree; cases hfree

/-- C62: inside `with_mut` only the closure's own assignments change the resource. -/
theorem C62_writer_is_alone (E : Env σ) (hc : E.OwnCells) {env : List Nat} {t : σ.Ty} {p : Nat} {body : Prog σ} {s s' : St σ}
    {out : Out (Except Error σ.V)} (hp : (E.resources.res t).lock = some p) (hE : E.Every (Prog.LeavesAlone t))
    (hb : body.Every (Prog.LeavesAlone t)) (h : Runs E env body (lockRes s p true) out s') :
    (E.resources.res t).peek s'.heap = (E.resources.res t).peek s.heap := by
  obtain ⟨fuel, h⟩ := h
  have key : ∀ q : Prog σ, q.LeavesAlone t → ∀ u x k, q = .resAssign u x k → (E.resources.res u).lock ≠ some p := by
    rintro q hq u x k rfl hu
    exact hq (hc u t p hu hp)
  refine peek_congr _ _ _ fun q hq => ?_
  rw [hp] at hq; cases hq
  exact eval_cell (s := lockRes s p true) E p (fun s ts hs u hu => every_mono key u (hE s ts hs u hu)) (every_mono key body hb) h
    ⟨true, show _ ∈ (p, true) :: s.locks from List.mem_cons_self ..⟩

/-- C62: a panic in the closure of `with_mut` makes the resource unavailable. -/
theorem C62_panic_in_with_mut (E : Env σ) {env : List Nat} {t : σ.Ty} {p : Nat} {v : σ.Val t} {body : σ.Val t → Prog σ}
    {k : Option (Except Error σ.V) → Prog σ} {s s1 : St σ} (hp : (E.resources.res t).lock = some p)
    (hb : s.blocks p true = false) (hv : (E.resources.res t).peek s.heap = some v)
    (h : Runs E env (body v) (lockRes s p true) .panic s1) :
    ∃ s', Runs E env (.resScope t true body k) s .panic s' ∧ (E.resources.res t).peek s'.heap = none := by
  refine ⟨_, (runs_resScope E hp hb hv).2 ⟨_, _, h, rfl, rfl⟩, ?_⟩
  unfold Res.peek
  rw [hp]
  simp only [unwindRes, if_true, List.getElem?_modify]
  cases s1.heap[p]? <;> simp

/-- C62: a panic in the closure of `with` leaves it as it was. -/
theorem C62_panic_in_with (E : Env σ) {env : List Nat} {t : σ.Ty} {p : Nat} {v : σ.Val t} {body : σ.Val t → Prog σ}
    {k : Option (Except Error σ.V) → Prog σ} {s s1 : St σ} (hp : (E.resources.res t).lock = some p)
    (hb : s.blocks p false = false) (hv : (E.resources.res t).peek s.heap = some v)
    (h : Runs E env (body v) (lockRes s p false) .panic s1) :
    ∃ s', Runs E env (.resScope t false body k) s .panic s' ∧ (E.resources.res t).peek s'.heap = some v := by
  refine ⟨_, (runs_resScope E hp hb hv).2 ⟨_, _, h, rfl, rfl⟩, ?_⟩
  rw [← hv]
  exact C62_reader_sees_no_change (s' := s1) E hp hb h

/-- C33: a closure passed to `with` that panics does not disable the resource: it holds what it held and exists, and no other resource is
changed by the panic. -/
theorem C33_reader (E : Env σ) {env : List Nat} {t : σ.Ty} {p : Nat} {v : σ.Val t} {body : σ.Val t → Prog σ}
    {k : Option (Except Error σ.V) → Prog σ} {s s1 s' : St σ} {out : Out (Except Error σ.V)} (hp : (E.resources.res t).lock = some p)
    (hb : s.blocks p false = false) (hv : (E.resources.res t).peek s.heap = some v)
    (h : Runs E env (body v) (lockRes s p false) .panic s1) (hs : Runs E env (.resScope t false body k) s out s') :
    out = .panic ∧ (E.resources.res t).peek s'.heap = some v ∧ (E.resources.res t).exists s'.heap = true ∧
      ∀ u, (E.resources.res u).peek s'.heap = (E.resources.res u).peek s1.heap := by
  obtain ⟨s2, h2, h3⟩ := C62_panic_in_with (k := k) E hp hb hv h
  obtain ⟨o1, s3, h4, h5⟩ := (runs_resScope E hp hb hv).1 hs
  obtain ⟨rfl, rfl⟩ := h4.det h
  obtain ⟨rfl, rfl⟩ := hs.det h2
  obtain ⟨_, rfl⟩ := h5
  refine ⟨rfl, h3, ?_, fun u => rfl⟩
  simp only [Res.exists, Res.with, h3]

/-- C62: an operation inside `with_mut` whose triggers use the same resource never ends. -/
theorem C62_save_inside_waits (S : Schema σ) (pre : List (Operation σ.K σ.T)) {t : σ.Ty} {v : σ.Val t} (n : σ.T)
    (hv : (S.env.resources.res t).peek S.heap = some v) (hbefore : S.env.fire .beforeSave = [])
    (kt : Option (σ.Val t) → Prog σ) (rest : List (Prog σ)) (hafter : S.env.fire .afterSave = .resRead t kt :: rest)
    (k : Except Error σ.V → Prog σ) (k' : Option (Except Error σ.V) → Prog σ) :
    ∃ fuel0, ∀ fuel, fuel0 ≤ fuel → ∃ S', S.transact fuel pre (.resScope t true (fun _ => Prog.saveOp 0 n k) k') = some (.stuck, S') := by
  cases hp : (S.env.resources.res t).lock with
  | none => unfold Res.peek at hv; rw [hp] at hv; cases hv
  | some p =>
    have hr : ∃ s', Runs S.env [0] (.resScope t true (fun _ => Prog.saveOp 0 n k) k') (S.begin pre) .stuck s' := by
      let s1 := midSave (setTarget (openChild (lockRes (S.begin pre) p true) 0) 1 n) 1
      have hl : s1.locks = [(p, true)] := rfl
      have hb : s1.resBlocks S.env t false = true :=
        (resBlocks_iff ..).2 ⟨p, hp, (blocks_iff ..).2 (.inl (by rw [hl]; simp))⟩
      have h1 : Runs S.env [1] (.resRead t kt) s1 .stuck s1 :=
        (runs_now fun fuel => by simp only [eval, hb, if_true]).2 ⟨rfl, rfl⟩
      have h2 : Runs S.env [1, 0] (saveBody n) (openChild (lockRes (S.begin pre) p true) 0) .stuck s1 :=
        (runs_saveBody ..).2 ⟨.ret (.ok ()), _, by rw [hbefore]; exact .none _, .inl ⟨.stuck, rfl, by rw [hafter]; exact .stuck h1, rfl⟩⟩
      have h3 : Runs S.env [0] (Prog.saveOp 0 n k) (lockRes (S.begin pre) p true) .stuck (closeChild s1 1) :=
        (runs_tx S.env (f := 0) rfl ..).2 ⟨.stuck, s1, h2, rfl, rfl⟩
      exact ⟨_, (runs_resScope S.env hp rfl hv).2 ⟨.stuck, _, h3, rfl, rfl⟩⟩
    obtain ⟨s', fuel0, hr⟩ := hr
    refine ⟨fuel0, fun fuel hle => ?_⟩
    have := eval_mono_le S.env hle hr
    exact ⟨_, by unfold Schema.transact; rw [this]⟩

/-- C62: a write in one step, `with_mut(|v| ..)` without API calls inside, is the scope that computes, assigns and ends. -/
theorem C62_scope_is_write (E : Env σ) (env : List Nat) (t : σ.Ty) (f : σ.Val t → σ.Val t × Bool) (k : Bool → Prog σ)
    (s s' : St σ) (out : Out (Except Error σ.V)) :
    Runs E env (.resScope t true (fun v => .resAssign t (f v).1 (if (f v).2 then .panic else .done (.ok σ.unit)))
        fun o => k o.isSome) s out s' ↔
      Runs E env (.resWrite t f k) s out s' := by
  cases hp : (E.resources.res t).lock with
  | none =>
    have hb : s.resBlocks E t true = false := by
      cases h : s.resBlocks E t true with
      | false => rfl
      | true => obtain ⟨p, h, _⟩ := (resBlocks_iff ..).1 h; rw [hp] at h; cases h
    rw [runs_step (q := k false) (s1 := s) fun fuel => by simp only [eval, hp]; rfl]
    exact (runs_step (q := k false) (s1 := s) fun fuel => by
      simp only [eval, hb, Bool.false_eq_true, if_false, Res.withMut, hp]).symm
  | some p =>
    have hbb : s.resBlocks E t true = s.blocks p true := by
      rw [Bool.eq_iff_iff, resBlocks_iff]
      constructor
      · rintro ⟨q, hq, h⟩; rw [hp] at hq; cases hq; exact h
      · exact fun h => ⟨p, hp, h⟩
    cases hb : s.blocks p true with
    | true =>
      rw [runs_now (o := .stuck) (s1 := s) fun fuel => by simp only [eval, hp, hb, if_true]]
      exact (runs_now (o := .stuck) (s1 := s) fun fuel => by simp only [eval, hbb, hb, if_true]).symm
    | false =>
      cases hv : (E.resources.res t).peek s.heap with
      | none =>
        rw [runs_step (q := k false) (s1 := s) fun fuel => by
          simp only [eval, hp, hb, Bool.false_eq_true, if_false, hv]; rfl]
        refine (runs_step (q := k false) (s1 := s) fun fuel => ?_).symm
        have : (E.resources.res t).withMut s.heap (fun v => ((f v).1, if (f v).2 then none else some ())) =
            (.unavailable, s.heap) := by
          unfold Res.peek at hv; unfold Res.withMut
          rw [hp] at hv ⊢
          dsimp only at hv ⊢
          cases hc : s.heap[p]? with
          | none => rfl
          | some cell =>
            rw [hc] at hv; dsimp only at hv ⊢
            split
            · rfl
            · rename_i hpo; rw [if_neg hpo] at hv; rw [hv]
        simp only [eval, hbb, hb, Bool.false_eq_true, if_false, this]
      | some v =>
        rw [runs_resScope E hp hb hv]
        have hlt : p < s.heap.length := by
          have hr : E.resources.res t = ⟨some p⟩ := by cases h : E.resources.res t; rw [h] at hp; cases hp; rfl
          rw [hr] at hv; exact peek_lt hv
        have hw : (E.resources.res t).withMut s.heap (fun v => ((f v).1, if (f v).2 then none else some ())) =
            if (f v).2 then (.panicked, s.heap.set p ⟨⟨t, (f v).1⟩, true⟩) else (.ran (), s.heap.set p ⟨⟨t, (f v).1⟩, false⟩) := by
          unfold Res.peek at hv; unfold Res.withMut
          rw [hp] at hv ⊢
          dsimp only at hv ⊢
          cases hc : s.heap[p]? with
          | none => rw [hc] at hv; cases hv
          | some cell =>
            rw [hc] at hv; dsimp only at hv ⊢
            split at hv
            · cases hv
            · rename_i hpo; rw [if_neg hpo, hv]; dsimp only; cases h : (f v).2 <;> simp
        have hin : ((lockRes s p true).locks.contains (p, true)) = true := by simp [lockRes]
        have ha : ∀ o s1, Runs E env (.resAssign t (f v).1 (if (f v).2 then .panic else .done (.ok σ.unit))) (lockRes s p true) o s1 ↔
            o = (if (f v).2 then .panic else .ret (.ok σ.unit)) ∧ s1 = assignRes (lockRes s p true) p t (f v).1 := by
          intro o s1
          rw [runs_step (env' := env) (q := if (f v).2 then .panic else .done (.ok σ.unit))
            (s1 := assignRes (lockRes s p true) p t (f v).1) fun fuel => by simp only [eval, hp, hin, if_true]]
          exact runs_now fun fuel => by cases (f v).2 <;> simp [eval]
        cases hf : (f v).2 with
        | true =>
          rw [hf] at hw ha
          rw [runs_now (p := .resWrite t f k) (o := .panic) (s1 := { s with heap := s.heap.set p ⟨⟨t, (f v).1⟩, true⟩ }) fun fuel => by
            simp only [eval, hbb, hb, Bool.false_eq_true, if_false, hw, if_true]]
          have he : unwindRes (assignRes (lockRes s p true) p t (f v).1) p true =
              { s with heap := s.heap.set p ⟨⟨t, (f v).1⟩, true⟩ } := by
            have : (s.heap.set p ⟨⟨t, (f v).1⟩, false⟩).modify p (fun cell => { cell with poisoned := true }) =
                s.heap.set p ⟨⟨t, (f v).1⟩, true⟩ := by
              apply List.ext_getElem?
              intro i
              simp only [List.getElem?_modify, List.getElem?_set]
              by_cases h : p = i
              · subst h; simp [hlt]
              · simp [h]
            simp [unwindRes, assignRes, lockRes, this]
          constructor
          · rintro ⟨o, s1, h1, h2⟩
            obtain ⟨rfl, rfl⟩ := (ha _ _).1 h1
            simp only [if_true, he] at h2
            exact h2
          · intro h
            refine ⟨_, _, (ha _ _).2 ⟨rfl, rfl⟩, ?_⟩
            simp only [if_true, he]
            exact h
        | false =>
          rw [hf] at hw ha
          rw [runs_step (p := .resWrite t f k) (env' := env) (q := k true) (s1 := { s with heap := s.heap.set p ⟨⟨t, (f v).1⟩, false⟩ }) fun fuel => by
            simp only [eval, hbb, hb, Bool.false_eq_true, if_false, hw]]
          have he : unlockRes (assignRes (lockRes s p true) p t (f v).1) =
              { s with heap := s.heap.set p ⟨⟨t, (f v).1⟩, false⟩ } := rfl
          constructor
          · rintro ⟨o, s1, h1, h2⟩
            obtain ⟨rfl, rfl⟩ := (ha _ _).1 h1
            simp only [Bool.false_eq_true, if_false, he] at h2
            exact h2
          · intro h
            refine ⟨_, _, (ha _ _).2 ⟨rfl, rfl⟩, ?_⟩
            simp only [Bool.false_eq_true, if_false, he]
            exact h

/-! Concrete cases: a schema with a number as resource, and a trigger on it. -/

section
private def numbered : Schema demo := (Schema.fromGraph (σ := demo) ⟨BTreeMap.empty⟩).withResource (1 : Nat) (7 : Nat)

/-- `with` inside `with`: both see the value. -/
example : ((numbered.transact 9 []
    (.resScope (1 : Nat) false (fun v => .resScope (1 : Nat) false
      (fun w => if v = (7 : Nat) ∧ w = (7 : Nat) then .done (.ok ()) else .panic)
        fun o => if o.isSome then .done (.ok ()) else .panic)
      fun o => if o.isSome then .done (.ok ()) else .panic)).map (·.1)) = some (.ret (.ok ())) := by decide +kernel

/-- `with_mut` inside `with`: waits for ever. -/
example : ((numbered.transact 9 []
    (.resScope (1 : Nat) false (fun _ => .resScope (1 : Nat) true (fun _ => .done (.ok ())) fun _ => .done (.ok ()))
      fun _ => .done (.ok ()))).map (·.1)) = some .stuck := by decide +kernel

/-- `with_mut` assigning 8, then reading after its end. -/
example : ((numbered.transact 9 []
    (.resScope (1 : Nat) true (fun _ => .resAssign (1 : Nat) (8 : Nat) (.done (.ok ())))
      fun _ => .resRead (1 : Nat) fun o => if o = some (8 : Nat) then .done (.ok ()) else .panic)).map (·.1)) =
    some (.ret (.ok ())) := by decide +kernel

/-- Panicking inside `with_mut` after having assigned: unavailable afterwards, whatever the transaction does. -/
example : ((numbered.transact 9 []
    (.catchUnwind (.resScope (1 : Nat) true (fun _ => .resAssign (1 : Nat) (8 : Nat) .panic) fun _ => .done (.ok ()))
      fun _ => .resRead (1 : Nat) fun o => if o = none then .done (.ok ()) else .panic)).map (·.1)) =
    some (.ret (.ok ())) := by decide +kernel

/-- Saving inside `with_mut` with a trigger that reads the same resource, and one that reads another. -/
example : ((numbered.withTrigger .afterSave (.resRead (1 : Nat) fun _ => .done (.ok ()))).transact 19 []
    (.resScope (1 : Nat) true (fun _ => Prog.saveOp 0 (⟨1, 1⟩ : Doc) fun _ => .done (.ok ())) fun _ => .done (.ok ()))).map
      (·.1) = some .stuck := by decide +kernel
example : ((numbered.withTrigger .afterSave (.resRead (2 : Nat) fun _ => .done (.ok ()))).transact 19 []
    (.resScope (1 : Nat) true (fun _ => Prog.saveOp 0 (⟨1, 1⟩ : Doc) fun _ => .done (.ok ())) fun _ => .done (.ok ()))).map
      (·.1) = some (.ret (.ok ())) := by decide +kernel

/-- A closure that keeps to the discipline: saves inside `with`, and writes afterwards. -/
example : (Prog.resScope (σ := demo) (1 : Nat) false (fun v => .resRead (1 : Nat) fun _ => Prog.save 0 ⟨1, v⟩ (.done (.ok ())))
    fun _ => .resWrite (1 : Nat) (fun v => (v, false)) fun _ => .done (.ok ())).Disciplined (fun _ _ => False) 1 [] := by
  simp [Prog.Disciplined]

end

end Plotline
