import Verif.Spec.Complete
import Verif.Lemmas.LawsNormal

/-! The laws are complete: closures that look first and write last. -/

namespace Plotline

open Std

set_option linter.unusedSectionVars false

variable {σ : Sig} {quiet : Sched → Prop}

/-- Closures that look first and write last. `none` is a panic. -/
inductive Asking (σ : Sig) where
  | leaf (l : List (Operation σ.K σ.T)) (e : Option (Except Error σ.V))
  | look (i : σ.K) (k : Option σ.T → Asking σ)
  | read (t : σ.Ty) (k : Option (σ.Val t) → Asking σ)

/-- How a closure ends. -/
def leafEnd : Option (Except Error σ.V) → Prog σ
  | none => .panic
  | some r => .done r

namespace Asking

def prog : Asking σ → Prog σ
  | leaf l e => .ops 0 l (leafEnd e)
  | look i k => .get 0 i fun a => (k a).prog
  | read t k => .resRead t fun v => (k v).prog

theorem of_normal {p : Prog σ} (h : Normal 1 p) : ∃ x : Asking σ, x.prog = p := by
  induction h with
  | ops l hb =>
    cases hb with
    | done r => exact ⟨.leaf l (some r), rfl⟩
    | panic => exact ⟨.leaf l none, rfl⟩
  | @get c i k hc _ ih =>
    have : c = 0 := by omega
    subst this
    exact ⟨.look i fun a => (ih a).choose, congrArg (Prog.get 0 i) (funext fun a => (ih a).choose_spec)⟩
  | @resRead t k _ ih =>
    exact ⟨.read t fun a => (ih a).choose, congrArg (Prog.resRead t) (funext fun a => (ih a).choose_spec)⟩

/-- What is asked for is known to be `a`. -/
def knowing (i : σ.K) (a : Option σ.T) : Asking σ → Asking σ
  | leaf l e => leaf l e
  | look j k => if (j == i) = true then knowing i a (k a) else look j fun b => knowing i a (k b)
  | read t k => read t fun v => knowing i a (k v)

/-- What is in a resource is known to be `v`. -/
def having (t : σ.Ty) (v : Option (σ.Val t)) : Asking σ → Asking σ
  | leaf l e => leaf l e
  | look j k => look j fun b => having t v (k b)
  | read u k => if h : t = u then having t v (k (h ▸ v)) else read u fun w => having t v (k w)

theorem having_read_same (t : σ.Ty) (v : Option (σ.Val t)) (k : Option (σ.Val t) → Asking σ) : having t v (read t k) = having t v (k v) := by
  simp [having]

theorem having_read_other {t u : σ.Ty} (h : t ≠ u) (v : Option (σ.Val t)) (k : Option (σ.Val u) → Asking σ) :
    having t v (read u k) = read u fun w => having t v (k w) := by
  simp [having, h]

theorem knowing_having (i : σ.K) (a : Option σ.T) (t : σ.Ty) (v : Option (σ.Val t)) (x : Asking σ) :
    knowing i a (having t v x) = having t v (knowing i a x) := by
  induction x with
  | leaf l e => rfl
  | look j k ih =>
    simp only [having, knowing]
    split
    · exact ih a
    · simp only [having, ih]
  | read u k ih =>
    by_cases h : t = u
    · subst h
      rw [having_read_same, ih]
      simp only [knowing, having_read_same]
    · rw [having_read_other h]
      simp only [knowing]
      rw [having_read_other h]
      simp only [ih]

/-! ## Asking is made of no account by knowing -/

/-- What is going to be looked up can be looked up first. -/
theorem look_first [LawfulSig σ] (i : σ.K) (x : Asking σ) : Same quiet 1 x.prog (look i fun a => knowing i a x).prog := by
  have h1 : (0 : Nat) < 1 := Nat.one_pos
  induction x with
  | leaf l e => exact .symm (.law (.lookUnused i _ h1))
  | look j k ih =>
    by_cases h : (j == i) = true
    · refine .trans (.law (.lookAlike 0 _ h)) (.trans (.get 0 i ih) ?_)
      have : (look i fun a => knowing i a (look j k)).prog = .get 0 i fun a => (fun b a => (knowing i a (k b)).prog) a a := by
        simp only [prog, knowing, h, if_true]
      rw [this]
      exact .law (.lookAgain 0 i fun b a => (knowing i a (k b)).prog)
    · have : (look i fun a => knowing i a (look j k)).prog = .get 0 i fun a => .get 0 j fun b => (fun b a => (knowing i a (k b)).prog) b a := by
        simp only [prog, knowing, h, Bool.false_eq_true, if_false]
      rw [this]
      exact .trans (.get 0 j ih) (.law (.lookOrder j i (fun b a => (knowing i a (k b)).prog) h1 h1))
  | read t k ih =>
    exact .trans (.resRead t ih) (.symm (.law (.readLook i t (fun a v => (knowing i a (k v)).prog) h1)))

/-- After a lookup it is known what it found. -/
theorem look_known [LawfulSig σ] (i : σ.K) (k : Option σ.T → Asking σ) : Same quiet 1 (look i k).prog (look i fun a => knowing i a (k a)).prog :=
  .trans (.get 0 i fun b => look_first i (k b)) (.law (.lookAgain 0 i fun b a => (knowing i a (k b)).prog))

theorem read_first (t : σ.Ty) (x : Asking σ) : Same quiet 1 (.resRead t fun _ => x.prog) (read t fun v => having t v x).prog := by
  have h1 : (0 : Nat) < 1 := Nat.one_pos
  induction x with
  | leaf l e => exact .refl _ _
  | look j k ih =>
    exact .trans (.symm (.law (.readLook j t (fun b _ => (k b).prog) h1))) (.trans (.get 0 j ih)
      (.law (.readLook j t (fun b v => (having t v (k b)).prog) h1)))
  | read u k ih =>
    by_cases h : t = u
    · subst h
      have : (read t fun v => having t v (read t k)).prog = .resRead t fun v => (fun w v => (having t v (k w)).prog) v v := by
        simp only [prog, having_read_same]
      rw [this]
      exact .trans (.law (.readAgain t fun _ w => (k w).prog)) (.trans (.symm (.law (.readAgain t fun w _ => (k w).prog)))
        (.trans (.resRead t ih) (.law (.readAgain t fun w v => (having t v (k w)).prog))))
    · have : (read t fun v => having t v (read u k)).prog = .resRead t fun v => .resRead u fun w => (fun w v => (having t v (k w)).prog) w v := by
        simp only [prog, having_read_other h]
      rw [this]
      exact .trans (.law (.readOrder t u fun _ w => (k w).prog)) (.trans (.resRead u ih)
        (.law (.readOrder u t fun w v => (having t v (k w)).prog)))

/-- After reading a resource it is known what is in it. -/
theorem read_known (t : σ.Ty) (k : Option (σ.Val t) → Asking σ) : Same quiet 1 (read t k).prog (read t fun v => having t v (k v)).prog :=
  .trans (.symm (.law (.readAgain t fun w _ => (k w).prog))) (.trans (.resRead t fun w => read_first t (k w))
    (.law (.readAgain t fun w v => (having t v (k w)).prog)))

/-- Only what can be found counts. -/
theorem look_real {i : σ.K} {k k' : Option σ.T → Asking σ} (h0 : Same quiet 1 (k none).prog (k' none).prog)
    (h1 : ∀ n : σ.T, (id n == i) = true → Same quiet 1 (k (some n)).prog (k' (some n)).prog) : Same quiet 1 (look i k).prog (look i k').prog := by
  classical
  let m : Option σ.T → Prog σ := fun
    | none => (k none).prog
    | some n => if (id n == i) = true then (k (some n)).prog else (k' (some n)).prog
  refine .trans (.law (.lookReal (k' := m) i rfl fun n hn => ?_)) (.get 0 i fun a => ?_)
  · simp only [m, hn, if_true]
  · cases a with
    | none => exact h0
    | some n =>
      by_cases hn : (id n == i) = true
      · simp only [m, hn, if_true]; exact h1 n hn
      · simp only [m, hn]; exact .refl _ _

/-! ## What a closure does in a place -/

end Asking

/-- What is found by looking up and by reading; `none` instead of what is read if that waits for ever. -/
structure Sight (σ : Sig) where
  get : σ.K → Option σ.T
  read : (t : σ.Ty) → Option (Option (σ.Val t))

namespace Sight

def look (w : Sight σ) (i : σ.K) (a : Option σ.T) : Sight σ := { w with get := fun j => if (j == i) = true then a else w.get j }

def have' (w : Sight σ) (t : σ.Ty) (v : Option (σ.Val t)) : Sight σ := { w with read := fun u => if h : t = u then some (h ▸ v) else w.read u }

/-- There are schemas and places in programs from where this is found. -/
structure Real (w : Sight σ) : Prop where
  nodes : ∃ g : Graph σ.K σ.T, g.Reachable ∧ ∀ i, g.get i = w.get i
  few : ∃ L : List σ.Ty, ∀ t, t ∉ L → w.read t = some none
  one : ∀ t u, w.read t = none → w.read u = none → t = u

theorem Real.look [LawfulSig σ] {w : Sight σ} (h : w.Real) {i : σ.K} {a : Option σ.T} (ha : ∀ n, a = some n → (id n == i) = true) :
    (w.look i a).Real := by
  obtain ⟨⟨g, hg, hw⟩, h2, h3⟩ := h
  refine ⟨?_, h2, h3⟩
  cases a with
  | none =>
    refine ⟨(g.remove i).1, .remove _ _ hg, fun j => ?_⟩
    rw [Graph.get_remove _ _ hg.valid, hw]
    rfl
  | some n =>
    refine ⟨(g.insert n).1, .insert _ _ hg, fun j => ?_⟩
    rw [Graph.get_insert _ _ hg.valid, hw]
    have hc : compare (id n) i = .eq := Graph.beq_iff.1 (ha n rfl)
    have : (j == id n) = (j == i) := by
      rw [Bool.eq_iff_iff, Graph.beq_iff, Graph.beq_iff]
      exact ⟨fun h => TransCmp.eq_trans h hc, fun h => TransCmp.eq_trans h (OrientedCmp.eq_symm hc)⟩
    simp only [Sight.look, this]

theorem Real.have' {w : Sight σ} (h : w.Real) (t : σ.Ty) (v : Option (σ.Val t)) : (w.have' t v).Real := by
  obtain ⟨h1, ⟨L, h2⟩, h3⟩ := h
  refine ⟨h1, ⟨t :: L, fun u hu => ?_⟩, fun a b ha hb => ?_⟩
  · simp only [List.mem_cons, not_or] at hu
    simp only [Sight.have', dif_neg (Ne.symm hu.1)]
    exact h2 u hu.2
  · have key : ∀ a, (w.have' t v).read a = none → w.read a = none := by
      intro a ha
      by_cases e : t = a
      · subst e; simp [Sight.have'] at ha
      · simpa only [Sight.have', dif_neg e] using ha
    exact h3 a b (key a ha) (key b hb)

end Sight

namespace Asking

/-- What a closure writes and how it ends; `none` if it waits for ever. -/
def doing (w : Sight σ) : Asking σ → Option (List (Operation σ.K σ.T) × Option (Except Error σ.V))
  | leaf l e => some (l, e)
  | look i k => doing w (k (w.get i))
  | read t k => match w.read t with
    | none => none
    | some v => doing w (k v)

theorem doing_knowing [LawfulSig σ] (w : Sight σ) (i : σ.K) (a : Option σ.T) (x : Asking σ) : doing w (knowing i a x) = doing (w.look i a) x := by
  induction x with
  | leaf l e => rfl
  | look j k ih =>
    simp only [knowing, doing]
    split
    · rename_i h
      rw [ih]
      simp [Sight.look, h]
    · rename_i h
      simp only [doing, ih]
      simp [Sight.look, h]
  | read t k ih =>
    simp only [knowing, doing, ih]
    rfl

theorem doing_having (w : Sight σ) (t : σ.Ty) (v : Option (σ.Val t)) (x : Asking σ) : doing w (having t v x) = doing (w.have' t v) x := by
  induction x with
  | leaf l e => rfl
  | look j k ih =>
    simp only [having, doing, ih]
    rfl
  | read u k ih =>
    by_cases h : t = u
    · subst h
      rw [having_read_same, ih]
      simp [doing, Sight.have']
    · rw [having_read_other h]
      simp only [doing, ih]
      simp [Sight.have', h]

/-- Closures write the same and end in the same way, wherever they are. -/
inductive Tied : Option (List (Operation σ.K σ.T) × Option (Except Error σ.V)) → Option (List (Operation σ.K σ.T) × Option (Except Error σ.V)) → Prop
  | never : Tied none none
  | ends {l l' : List (Operation σ.K σ.T)} (e : Option (Except Error σ.V)) : (∀ i, lastOp l' i = lastOp l i) → Tied (some (l, e)) (some (l', e))

def Alike' (x y : Asking σ) : Prop := ∀ w : Sight σ, w.Real → Tied (doing w x) (doing w y)

theorem Alike'.knowing [LawfulSig σ] {x y : Asking σ} (h : Alike' x y) {i : σ.K} {a : Option σ.T} (ha : ∀ n, a = some n → (id n == i) = true) :
    Alike' (x.knowing i a) (y.knowing i a) := fun w hw => by
  rw [doing_knowing, doing_knowing]
  exact h _ (hw.look ha)

theorem Alike'.having {x y : Asking σ} (h : Alike' x y) (t : σ.Ty) (v : Option (σ.Val t)) :
    Alike' (x.having t v) (y.having t v) := fun w hw => by
  rw [doing_having, doing_having]
  exact h _ (hw.have' t v)

/-! ## What does the same is the same by the laws -/

theorem having_having {t u : σ.Ty} (h : t ≠ u) (v : Option (σ.Val t)) (w : Option (σ.Val u)) (x : Asking σ) :
    having t v (having u w x) = having u w (having t v x) := by
  induction x with
  | leaf l e => rfl
  | look j k ih => simp only [having, ih]
  | read z k ih =>
    by_cases h1 : t = z
    · subst h1
      rw [having_read_same, having_read_other (Ne.symm h), having_read_same, ih]
    · by_cases h2 : u = z
      · subst h2
        rw [having_read_same, having_read_other h, having_read_same, ih]
      · rw [having_read_other h1, having_read_other h2, having_read_other h1, having_read_other h2]
        simp only [ih]

/-- Something that was found out. -/
inductive Fact (σ : Sig) where
  | looked (i : σ.K) (a : Option σ.T)
  | had (t : σ.Ty) (v : Option (σ.Val t))

/-- What is left to be asked after all this was found out. -/
def learnt : List (Fact σ) → Asking σ → Asking σ
  | [], x => x
  | .looked i a :: κ, x => knowing i a (learnt κ x)
  | .had t v :: κ, x => having t v (learnt κ x)

theorem learnt_leaf (κ : List (Fact σ)) (l : List (Operation σ.K σ.T)) (e : Option (Except Error σ.V)) : learnt κ (leaf l e) = leaf l e := by
  induction κ with
  | nil => rfl
  | cons f κ ih => cases f <;> simp only [learnt, ih] <;> rfl

theorem learnt_look (κ : List (Fact σ)) (i : σ.K) (k : Option σ.T → Asking σ) :
    (∃ a, learnt κ (look i k) = learnt κ (k a)) ∨ learnt κ (look i k) = look i fun a => learnt κ (k a) := by
  induction κ with
  | nil => exact .inr rfl
  | cons f κ ih =>
    rcases ih with ⟨a, h⟩ | h
    · left
      cases f <;> exact ⟨a, by simp only [learnt, h]⟩
    · cases f with
      | looked j b =>
        by_cases hj : (i == j) = true
        · left; exact ⟨b, by simp only [learnt, h, knowing, hj, if_true]⟩
        · right; simp only [learnt, h, knowing, hj]; rfl
      | had t v => right; simp only [learnt, h, having]

theorem learnt_read (κ : List (Fact σ)) (t : σ.Ty) (k : Option (σ.Val t) → Asking σ) :
    (∃ a, learnt κ (read t k) = learnt κ (k a)) ∨ learnt κ (read t k) = read t fun a => learnt κ (k a) := by
  induction κ with
  | nil => exact .inr rfl
  | cons f κ ih =>
    rcases ih with ⟨a, h⟩ | h
    · left
      cases f <;> exact ⟨a, by simp only [learnt, h]⟩
    · cases f with
      | looked j b => right; simp only [learnt, h, knowing]
      | had u v =>
        by_cases hu : u = t
        · subst hu
          left; exact ⟨v, by simp only [learnt, h, having_read_same]⟩
        · right; simp only [learnt, h]; rw [having_read_other hu]

/-- Nothing is there, and reading one of the resources waits for ever. -/
def bare (t : Option σ.Ty) : Sight σ := ⟨fun _ => none, fun u => if t = some u then none else some none⟩

theorem bare_real (t : Option σ.Ty) : (bare t : Sight σ).Real := by
  refine ⟨⟨.empty, .empty, fun _ => rfl⟩, ⟨t.toList, fun u hu => ?_⟩, fun a b ha hb => ?_⟩
  · have : t ≠ some u := fun h => hu (by simp [h])
    simp only [bare, if_neg this]
  · simp only [bare] at ha hb
    split at ha <;> split at hb
    · rename_i h1 h2; rw [h1] at h2; exact Option.some.inj h2
    all_goals simp_all

theorem bare_blocks (t : σ.Ty) : (bare (some t) : Sight σ).read t = none := by simp [bare]

theorem look_same [LawfulSig σ] (w : Sight σ) (i : σ.K) (a : Option σ.T) : (w.look i a).get i = a := by
  simp [Sight.look]

theorem knowing_look [LawfulSig σ] (i : σ.K) (a : Option σ.T) (k : Option σ.T → Asking σ) : knowing i a (look i k) = knowing i a (k a) := by
  simp [knowing]

theorem complete_leaf [LawfulSig σ] (l : List (Operation σ.K σ.T)) (e : Option (Except Error σ.V)) (y : Asking σ) : ∀ κ : List (Fact σ),
    Alike' (leaf l e) (learnt κ y) → Same quiet 1 (leaf l e).prog (learnt κ y).prog := by
  induction y with
  | leaf l' e' =>
    intro κ h
    rw [learnt_leaf] at h ⊢
    have := h _ (bare_real none)
    simp only [doing] at this
    cases this with
    | ends _ hl => exact .law (.writes _ Nat.one_pos hl)
  | look i k ih =>
    intro κ h
    rcases learnt_look κ i k with ⟨a, h1⟩ | h1
    · rw [h1] at h ⊢; exact ih a κ h
    · rw [h1] at h ⊢
      have key : ∀ a : Option σ.T, (∀ n, a = some n → (id n == i) = true) →
          Same quiet 1 (knowing i a (leaf l e)).prog (knowing i a (learnt κ (k a))).prog := fun a ha => by
        have := h.knowing ha
        rw [knowing_look] at this
        exact ih a (.looked i a :: κ) this
      refine .trans (look_first i _) (.trans (look_real ?_ fun n hn => ?_) (.symm (look_known i fun a => learnt κ (k a))))
      · exact key none fun _ h => nomatch h
      · exact key (some n) fun m h => by cases h; exact hn
  | read t k ih =>
    intro κ h
    rcases learnt_read κ t k with ⟨a, h1⟩ | h1
    · rw [h1] at h ⊢; exact ih a κ h
    · rw [h1] at h
      have := h _ (bare_real (some t))
      simp only [doing, bare_blocks] at this
      cases this

/-- A closure that reads a resource on every way can begin with reading it. -/
theorem read_always [LawfulSig σ] (t : σ.Ty) (y : Asking σ) : ∀ κ : List (Fact σ),
    (∀ w : Sight σ, w.Real → w.read t = none → doing w (learnt κ y) = none) →
    Same quiet 1 (learnt κ y).prog (read t fun v => having t v (learnt κ y)).prog := by
  induction y with
  | leaf l e =>
    intro κ h
    have := h _ (bare_real (some t)) (bare_blocks t)
    rw [learnt_leaf] at this
    cases this
  | look i k ih =>
    intro κ h
    rcases learnt_look κ i k with ⟨a, h1⟩ | h1
    · rw [h1] at h ⊢; exact ih a κ h
    · rw [h1] at h ⊢
      have key : ∀ a : Option σ.T, (∀ n, a = some n → (id n == i) = true) → Same quiet 1 (knowing i a (learnt κ (k a))).prog
          (read t fun v => having t v (knowing i a (learnt κ (k a)))).prog := fun a ha => by
        refine ih a (.looked i a :: κ) fun w hw hb => ?_
        have := h _ (hw.look ha) hb
        simp only [doing, look_same] at this
        simpa only [learnt, doing_knowing] using this
      refine .trans (look_known i _) (.trans (look_real (k' := fun a => read t fun v => having t v (knowing i a (learnt κ (k a)))) ?_ fun n hn => ?_) ?_)
      · exact key none fun _ h => nomatch h
      · exact key (some n) fun m h => by cases h; exact hn
      · refine .trans (.law (.readLook i t (fun a v => (having t v (knowing i a (learnt κ (k a)))).prog) Nat.one_pos)) (.resRead t fun v => ?_)
        simp only [← knowing_having]
        exact .symm (look_known i fun a => having t v (learnt κ (k a)))
  | read u k ih =>
    intro κ h
    rcases learnt_read κ u k with ⟨a, h1⟩ | h1
    · rw [h1] at h ⊢; exact ih a κ h
    · rw [h1] at h ⊢
      by_cases e : t = u
      · subst e
        simp only [having_read_same]
        exact read_known t _
      · simp only [having_read_other e]
        have key : ∀ x, Same quiet 1 (having u x (learnt κ (k x))).prog (read t fun v => having t v (having u x (learnt κ (k x)))).prog := fun x => by
          refine ih x (.had u x :: κ) fun w hw hb => ?_
          have := h _ (hw.have' u x) (by simp only [Sight.have', dif_neg (Ne.symm e)]; exact hb)
          simp only [doing, Sight.have', dif_pos] at this
          simpa only [learnt, doing_having, Sight.have'] using this
        refine .trans (read_known u _) (.trans (.resRead u key) (.trans (.law (.readOrder u t
          fun x v => (having t v (having u x (learnt κ (k x)))).prog)) (.resRead t fun v => ?_)))
        simp only [having_having e]
        exact .symm (read_known u fun x => having t v (learnt κ (k x)))

/-- Closures that do the same wherever they are can be rewritten to one another. -/
theorem complete_learnt [LawfulSig σ] (x : Asking σ) : ∀ (κ : List (Fact σ)) (y : Asking σ), Alike' (learnt κ x) y →
    Same quiet 1 (learnt κ x).prog y.prog := by
  induction x with
  | leaf l e =>
    intro κ y h
    rw [learnt_leaf] at h ⊢
    exact complete_leaf l e y [] h
  | look i k ih =>
    intro κ y h
    rcases learnt_look κ i k with ⟨a, h1⟩ | h1
    · rw [h1] at h ⊢; exact ih a κ y h
    · rw [h1] at h ⊢
      have key : ∀ a : Option σ.T, (∀ n, a = some n → (id n == i) = true) →
          Same quiet 1 (knowing i a (learnt κ (k a))).prog (knowing i a y).prog := fun a ha => by
        have := h.knowing ha
        rw [knowing_look] at this
        exact ih a (.looked i a :: κ) _ this
      refine .trans (look_known i _) (.trans (look_real ?_ fun n hn => ?_) (.symm (look_first i y)))
      · exact key none fun _ h => nomatch h
      · exact key (some n) fun m h => by cases h; exact hn
  | read t k ih =>
    intro κ y h
    rcases learnt_read κ t k with ⟨a, h1⟩ | h1
    · rw [h1] at h ⊢; exact ih a κ y h
    · rw [h1] at h ⊢
      refine .trans (read_known t _) (.trans (.resRead t fun v => ?_) (.symm (read_always t y [] fun w hw hb => ?_)))
      · have := h.having t v
        rw [having_read_same] at this
        exact ih v (.had t v :: κ) _ this
      · have := h w hw
        simp only [doing, hb] at this
        show doing w y = none
        generalize doing w y = z at this
        cases this
        rfl

theorem complete [LawfulSig σ] {x y : Asking σ} (h : Alike' x y) : Same quiet 1 x.prog y.prog := complete_learnt x [] y h

end Asking

end Plotline
