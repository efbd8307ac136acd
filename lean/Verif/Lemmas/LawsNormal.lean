import Verif.Lemmas.LawsRun

/-! Closures that look first and write last. -/

namespace Plotline

open Std

set_option linter.unusedSectionVars false

variable {σ : Sig} {quiet : Sched → Prop}

theorem Same.op {d : Nat} (c : Nat) (o : Operation σ.K σ.T) {k k' : Prog σ} (h : Same quiet d k k') : Same quiet d (.op c o k) (.op c o k') := by
  cases o with
  | save n => exact .save c n h
  | delete i => exact .delete c i h

theorem Same.ops {d : Nat} (c : Nat) (l : List (Operation σ.K σ.T)) {k k' : Prog σ} (h : Same quiet d k k') :
    Same quiet d (.ops c l k) (.ops c l k') := by
  induction l with
  | nil => exact h
  | cons o l ih => exact Same.op c o ih

/-- Branches that each have a normal form have one together. -/
theorem normal_each {α : Type} {d : Nat} {k : α → Prog σ} (h : ∀ a, ∃ q, Normal d q ∧ Same quiet d (k a) q) :
    ∃ k' : α → Prog σ, (∀ a, Normal d (k' a)) ∧ ∀ a, Same quiet d (k a) (k' a) :=
  ⟨fun a => (h a).choose, fun a => (h a).choose_spec.1, fun a => (h a).choose_spec.2⟩

theorem normal_op {d : Nat} (hd : 0 < d) (o : Operation σ.K σ.T) {q : Prog σ} (hq : Normal d q) : ∃ q', Normal d q' ∧ Same quiet d (.op 0 o q) q' := by
  induction hq with
  | ops l hb => exact ⟨_, .ops (o :: l) hb, .refl _ _⟩
  | @get c i k hc _ ih =>
    by_cases h : (o.id == i) = false ∨ 0 < c
    · obtain ⟨k', h1, h2⟩ := normal_each fun a => ih a
      exact ⟨.get c i k', .get i hc h1, .trans (.law (.lookOther o k hd hc h)) (.get c i h2)⟩
    · have h1 : (o.id == i) = true := by cases h' : (o.id == i) <;> simp_all
      have h2 : c = 0 := by omega
      subst h2
      obtain ⟨q', h3, h4⟩ := ih o.leaves
      exact ⟨q', h3, .trans (.law (.lookOwn o k hd h1)) h4⟩
  | @resRead t k _ ih =>
    obtain ⟨k', h1, h2⟩ := normal_each fun a => ih a
    exact ⟨.resRead t k', .resRead t h1, .trans (.law (.readWrite o t k hd)) (.resRead t h2)⟩

theorem normal_ops {d : Nat} (hd : 0 < d) (l : List (Operation σ.K σ.T)) {q : Prog σ} (hq : Normal d q) :
    ∃ q', Normal d q' ∧ Same quiet d (.ops 0 l q) q' := by
  induction l with
  | nil => exact ⟨q, hq, .refl _ _⟩
  | cons o l ih =>
    obtain ⟨q1, h1, h2⟩ := ih
    obtain ⟨q2, h3, h4⟩ := normal_op hd o h1
    exact ⟨q2, h3, .trans (Same.op 0 o h2) h4⟩

theorem normal_tx {d : Nat} (hd : 0 < d) {b : Prog σ} (hb : Normal (d + 1) b) {k : Except Error σ.V → Prog σ} (hk : ∀ a, Normal d (k a)) :
    ∃ q, Normal d q ∧ Same quiet d (.tx 0 b k) q := by
  induction hb with
  | ops l hl =>
    cases hl with
    | done r =>
      cases r with
      | error e => exact ⟨_, hk (.error e), .law (.txError l e k hd)⟩
      | ok v =>
        obtain ⟨q, h1, h2⟩ := normal_ops hd l (hk (.ok v))
        exact ⟨q, h1, .trans (.law (.txOk l v k hd)) h2⟩
    | panic => exact ⟨.panic, .ops [] .panic, .law (.txPanic l k hd)⟩
  | @get c i b hc _ ih =>
    obtain ⟨k', h1, h2⟩ := normal_each fun a => ih a
    cases c with
    | zero => exact ⟨.get 0 i k', .get i hd h1, .trans (.law (.txLookOwn i b k hd)) (.get 0 i h2)⟩
    | succ c =>
      have hc' : c < d := by omega
      exact ⟨.get c i k', .get i hc' h1, .trans (.law (.txLook i b k hd hc')) (.get c i h2)⟩
  | @resRead t b _ ih =>
    obtain ⟨k', h1, h2⟩ := normal_each fun a => ih a
    exact ⟨.resRead t k', .resRead t h1, .trans (.law (.txRead t b k hd)) (.resRead t h2)⟩

theorem catch_ops {d : Nat} (c : Nat) (l : List (Operation σ.K σ.T)) (b : Prog σ) (k : Option (Except Error σ.V) → Prog σ) :
    Same quiet d (.catchUnwind (.ops c l b) k) (.ops c l (.catchUnwind b k)) := by
  induction l with
  | nil => exact .refl _ _
  | cons o l ih => exact .trans (.law (.catchWrite c o _ k)) (Same.op c o ih)

theorem normal_catch {d : Nat} (hd : 0 < d) {b : Prog σ} (hb : Normal d b) {k : Option (Except Error σ.V) → Prog σ} (hk : ∀ a, Normal d (k a)) :
    ∃ q, Normal d q ∧ Same quiet d (.catchUnwind b k) q := by
  induction hb with
  | ops l hl =>
    cases hl with
    | done r =>
      obtain ⟨q, h1, h2⟩ := normal_ops hd l (hk (some r))
      exact ⟨q, h1, .trans (catch_ops 0 l _ k) (.trans (Same.ops 0 l (.law (.catchDone r k))) h2)⟩
    | panic =>
      obtain ⟨q, h1, h2⟩ := normal_ops hd l (hk none)
      exact ⟨q, h1, .trans (catch_ops 0 l _ k) (.trans (Same.ops 0 l (.law (.catchPanic k))) h2)⟩
  | @get c i b hc _ ih =>
    obtain ⟨k', h1, h2⟩ := normal_each fun a => ih a
    exact ⟨.get c i k', .get i hc h1, .trans (.law (.catchLook c i b k)) (.get c i h2)⟩
  | @resRead t b _ ih =>
    obtain ⟨k', h1, h2⟩ := normal_each fun a => ih a
    exact ⟨.resRead t k', .resRead t h1, .trans (.law (.catchRead t b k)) (.resRead t h2)⟩

/-- Every closure of this kind can be rewritten to one that looks first and writes last. -/
theorem plain_normal {d : Nat} {p : Prog σ} (hp : Ordinary d p) : 0 < d → ∃ q, Normal d q ∧ Same quiet d p q := by
  induction hp with
  | done d r => exact fun _ => ⟨_, .ops [] (.done r), .refl _ _⟩
  | panic d => exact fun _ => ⟨_, .ops [] .panic, .refl _ _⟩
  | save n _ ih =>
    intro hd
    obtain ⟨q, h1, h2⟩ := ih hd
    obtain ⟨q', h3, h4⟩ := normal_op (quiet := quiet) hd (.save n) h1
    exact ⟨q', h3, .trans (.save 0 n h2) h4⟩
  | delete i _ ih =>
    intro hd
    obtain ⟨q, h1, h2⟩ := ih hd
    obtain ⟨q', h3, h4⟩ := normal_op (quiet := quiet) hd (.delete i) h1
    exact ⟨q', h3, .trans (.delete 0 i h2) h4⟩
  | @get _ c i k hc _ ih =>
    intro hd
    obtain ⟨k', h1, h2⟩ := normal_each fun a => ih a hd
    exact ⟨.get c i k', .get i hc h1, .get c i h2⟩
  | @contains _ c i k hc _ ih =>
    intro hd
    obtain ⟨k', h1, h2⟩ := normal_each fun a => ih a hd
    exact ⟨.get c i fun a => k' a.isSome, .get i hc fun a => h1 _, .trans (.contains c i h2) (.law (.contains c i k'))⟩
  | @resRead _ t k _ ih =>
    intro hd
    obtain ⟨k', h1, h2⟩ := normal_each fun a => ih a hd
    exact ⟨.resRead t k', .resRead t h1, .resRead t h2⟩
  | tx _ _ ihb ih =>
    intro hd
    obtain ⟨b', h1, h2⟩ := ihb (by omega)
    obtain ⟨k', h3, h4⟩ := normal_each fun a => ih a hd
    obtain ⟨q, h5, h6⟩ := normal_tx (quiet := quiet) hd h1 h3
    exact ⟨q, h5, .trans (.tx 0 h2 h4) h6⟩
  | catchUnwind _ _ ihb ih =>
    intro hd
    obtain ⟨b', h1, h2⟩ := ihb hd
    obtain ⟨k', h3, h4⟩ := normal_each fun a => ih a hd
    obtain ⟨q, h5, h6⟩ := normal_catch (quiet := quiet) hd h1 h3
    exact ⟨q, h5, .trans (.catchUnwind h2 h4) h6⟩

/-! ## Save and delete -/

/-- Without triggers on saves, saving through the operation is saving. -/
theorem saveOp_same (hb : quiet .beforeSave) (ha : quiet .afterSave) {d c : Nat} (hc : c < d) (n : σ.T) (k : Except Error σ.V → Prog σ) :
    Same quiet d (.saveOp c n k) (.save c n (k (.ok σ.unit))) := by
  have h1 : Same quiet (d + 1) (saveBody n) (.ops 0 [.save n] (.withTarget n (.done (.ok σ.unit)))) := by
    refine .trans (.withTarget n (.law (.noTriggers _ (by omega) hb))) ?_
    refine .trans (.law (.targetRead n _ (by omega))) ?_
    refine .trans (.withTarget n (.save 0 n (.law (.noTriggers _ (by omega) ha)))) ?_
    exact .law (.targetWrite n (.save n) _ (by omega))
  refine .trans (.tx c h1 fun a => .refl _ _) ?_
  refine .trans (.law (.txTarget [.save n] n k (.done _))) ?_
  exact .law (.txOk [.save n] σ.unit k hc)

/-- Without triggers on deletes, deleting through the operation is looking and deleting. -/
theorem deleteOp_same (hb : quiet .beforeDelete) (ha : quiet .afterDelete) {d c : Nat} (hc : c < d) (i : σ.K) (k : Except Error σ.V → Prog σ) :
    Same quiet d (.deleteOp c i k)
      (.get c i fun | none => k (.error .noop) | some _ => .delete c i (k (.ok σ.unit))) := by
  refine .trans (.law (.txLookOwn i _ k hc)) (.get c i fun a => ?_)
  cases a with
  | none => exact .law (.txError [] .noop k hc)
  | some n =>
    have h1 : Same quiet (d + 1) (.withTarget n (.runTriggers 0 .beforeDelete fun | .error e => .done (.error e) | .ok _ => .delete 0 i deleteAfter))
        (.ops 0 [.delete i] (.withTarget n (.done (.ok σ.unit)))) := by
      refine .trans (.withTarget n (.law (.noTriggers _ (by omega) hb))) ?_
      refine .trans (.withTarget n (.delete 0 i (.law (.noTriggers _ (by omega) ha)))) ?_
      exact .law (.targetWrite n (.delete i) _ (by omega))
    refine .trans (.tx c h1 fun a => .refl _ _) ?_
    refine .trans (.law (.txTarget [.delete i] n k (.done _))) ?_
    exact .law (.txOk [.delete i] σ.unit k hc)

end Plotline
