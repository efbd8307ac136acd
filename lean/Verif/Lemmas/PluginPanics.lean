import Verif.Model.PluginPanics
import Verif.Lemmas.TreePanics
import Verif.Lemmas.Component
import Verif.Lemmas.Plugin

/-! The triggers of the interval plugin when user code panics. -/

namespace Plotline

open Std

set_option linter.unusedSectionVars false

section
variable {K T I B : Type} {W : Nat → Type} [Ord K] [BEq K] [Identify T K] [Ord B] [BEq I] [Interval I B]

/-- The insertions call user code a number of times; with a panic before that they panic. -/
theorem insertEachR_calls (is : List (NodeInterval K I)) (t : ITree (NodeInterval K I) B) :
    ∃ N, 2 * is.length ≤ N ∧ (∀ k, k < N → (insertEachR k is t).2 = true) ∧ ∀ k, N ≤ k → insertEachR k is t = (insertEach is t, false) := by
  induction is generalizing t with
  | nil => exact ⟨0, Nat.le_refl _, fun k h => absurd h (Nat.not_lt_zero _), fun k _ => rfl⟩
  | cons i is ih =>
    obtain ⟨M, hM⟩ := ITree.insertR_calm i t
    obtain ⟨N, h0, h1, h2⟩ := ih (t.insert i)
    have hpos : M ≠ 0 := by
      rintro rfl
      have h := hM.1 0 (Nat.le_refl _)
      have h' : (t.insertR i 0).2 = none := by cases t <;> rfl
      rw [h] at h'
      cases h'
    refine ⟨N + M + 1, by simp only [List.length_cons]; omega, fun k hk => ?_, fun k hk => ?_⟩
    · cases k with
      | zero => rfl
      | succ k =>
        simp only [insertEachR]
        by_cases h : k < M
        · have := (hM.2 k h).1
          rcases hx : t.insertR i k with ⟨cs, o⟩
          rw [hx] at this
          cases this
          rfl
        · rw [hM.1 k (by omega)]
          exact h1 _ (by omega)
    · cases k with
      | zero => omega
      | succ k =>
        simp only [insertEachR]
        rw [hM.1 k (by omega)]
        exact h2 _ (by omega)

/-- The same of deletions, which may also hang. -/
theorem deleteEachR_calls (fuel : Nat) (is : List (NodeInterval K I)) (t : ITree (NodeInterval K I) B) :
    ∃ N, (is ≠ [] → 0 < N) ∧ (∀ k, k < N → ∃ t', deleteEachR fuel k is t = some (t', true)) ∧
      ∀ k, N ≤ k → deleteEachR fuel k is t = (deleteEach fuel is t).map fun t' => (t', false) := by
  induction is generalizing t with
  | nil => exact ⟨0, fun h => absurd rfl h, fun k h => absurd h (Nat.not_lt_zero _), fun k _ => by cases k <;> rfl⟩
  | cons i is ih =>
    obtain ⟨M, hM⟩ := ITree.deleteR_steady i t
    have hM := hM fuel
    have early : ∀ k, k < M → deleteEachR fuel (k + 1) (i :: is) t = some (.nil, true) := by
      intro k h
      have := (hM.2 k h).1
      simp only [deleteEachR]
      rcases hx : t.deleteR fuel i k with ⟨cs, o⟩
      rw [hx] at this
      cases this
      rfl
    cases hd : t.delete fuel i with
    | none =>
      refine ⟨M + 1, fun _ => Nat.succ_pos _, fun k hk => ?_, fun k hk => ?_⟩
      · cases k with
        | zero => exact ⟨_, rfl⟩
        | succ k => exact ⟨_, early k (by omega)⟩
      · cases k with
        | zero => omega
        | succ k =>
          simp only [deleteEachR, deleteEach]
          rw [hM.1 k (by omega), hd]
          rfl
    | some t1 =>
      obtain ⟨N, h0, h1, h2⟩ := ih t1
      refine ⟨N + M + 1, fun _ => Nat.succ_pos _, fun k hk => ?_, fun k hk => ?_⟩
      · cases k with
        | zero => exact ⟨_, rfl⟩
        | succ k =>
          by_cases h : k < M
          · exact ⟨_, early k h⟩
          · simp only [deleteEachR]
            rw [hM.1 k (by omega), hd]
            exact h1 _ (by omega)
      · cases k with
        | zero => omega
        | succ k =>
          simp only [deleteEachR, deleteEach]
          rw [hM.1 k (by omega), hd]
          exact h2 _ (by omega)

variable {H : PTy → Prop}

theorem nextFate_confined (h : H (.other 0)) {k : Option Nat → Prog (PSigOf K T I B (Fated W))}
    (hk : ∀ f, Confined (σ := PSigOf K T I B (Fated W)) H (k f)) : Confined (σ := PSigOf K T I B (Fated W)) H (nextFate k) := by
  refine .read h fun a => ?_
  cases a with
  | none => exact hk _
  | some s => exact .write h fun _ => hk _

theorem withIntervalsR_confined (h0 : H (.other 0)) (h1 : H .extractor)
    {k : Option (List (NodeInterval K I)) → Option Nat → Prog (PSigOf K T I B (Fated W))}
    (hk : ∀ is f, Confined (σ := PSigOf K T I B (Fated W)) H (k is f)) : Confined (σ := PSigOf K T I B (Fated W)) H (withIntervalsR k) := by
  refine nextFate_confined h0 fun f => .target fun a => ?_
  cases a with
  | none => exact hk _ _
  | some n =>
    refine .read h1 fun x => ?_
    cases x with
    | none => exact hk _ _
    | some e =>
      rcases f with _ | _ | _ | _ | f
      · exact hk _ _
      · exact .panic
      · exact .panic
      · exact .panic
      · exact hk _ _

theorem onSaveR_confined (h0 : H (.other 0)) (h1 : H .extractor) (h2 : H .treeOfId) :
    Confined (σ := PSigOf K T I B (Fated W)) H onSaveR := by
  refine withIntervalsR_confined h0 h1 fun is f => ?_
  cases is with
  | none => exact .done _
  | some is =>
    cases f with
    | none => exact .write h2 fun _ => .done _
    | some n => exact .write h2 fun _ => .done _

theorem onDeleteR_confined (fuel : Nat) (h0 : H (.other 0)) (h1 : H .extractor) (h2 : H .treeOfId) :
    Confined (σ := PSigOf K T I B (Fated W)) H (onDeleteR fuel) := by
  refine withIntervalsR_confined h0 h1 fun is f => ?_
  cases is with
  | none => exact .done _
  | some is =>
    refine .read h2 fun x => ?_
    cases x with
    | none => exact .done _
    | some t =>
      simp only
      split
      · exact .reenter
      · exact .write h2 fun _ => .done _

/-- What can be read once a trigger of the plugin has taken its entry of the stream. -/
def afterFate (m : Readings (PSigOf K T I B (Fated W))) (s : Fates) : Readings (PSigOf K T I B (Fated W)) :=
  m.put (.other 0) (some fun n => s (n + 1))

theorem afterFate_other {m : Readings (PSigOf K T I B (Fated W))} {s : Fates} {t : PTy} (h : PTy.other 0 ≠ t) :
    afterFate m s t = m t := put_other _ h

theorem afterFate_fates {m : Readings (PSigOf K T I B (Fated W))} {s : Fates} :
    afterFate m s (.other 0) = some fun n => s (n + 1) := put_self _ _

section
variable {look : K → Option T} {has : K → Bool} {m : Readings (PSigOf K T I B (Fated W))} {s : Fates} {extract : T → List I} {n : T}

theorem acts_target {k : Option (List (NodeInterval K I)) → Option Nat → Prog (PSigOf K T I B (Fated W))}
    (hs : m (.other 0) = some s) (hx : m .extractor = some extract) :
    (withIntervalsR k).acts (σ := PSigOf K T I B (Fated W)) look has (some n) m =
      match s 0 with
      | none => (k (some (nodeIntervals extract n)) none).acts (σ := PSigOf K T I B (Fated W)) look has (some n) (afterFate m s)
      | some 0 | some 1 | some 2 => (.panic, afterFate m s)
      | some (j + 3) =>
        (k (some (nodeIntervals extract n)) (some j)).acts (σ := PSigOf K T I B (Fated W)) look has (some n) (afterFate m s) := by
  have hx' : (Readings.put m (.other 0) (some fun n => s (n + 1)) : Readings (PSigOf K T I B (Fated W))) .extractor = some extract :=
    (afterFate_other (by intro e; cases e)).trans hx
  simp only [withIntervalsR, nextFate, Prog.acts, hs, hx', Bool.false_eq_true, if_false]
  rcases s 0 with _ | _ | _ | _ | j <;> rfl

theorem acts_early_save (hs : m (.other 0) = some s) (hx : m .extractor = some extract) {k : Nat} (hk : s 0 = some k) (h3 : k < 3) :
    (onSaveR (K := K) (T := T) (I := I) (B := B) (W := W)).acts (σ := PSigOf K T I B (Fated W)) look has (some n) m =
      (.panic, afterFate m s) := by
  unfold onSaveR
  rw [acts_target hs hx, hk]
  match k, h3 with
  | 0, _ => rfl
  | 1, _ => rfl
  | 2, _ => rfl

theorem acts_early_delete (fuel : Nat) (hs : m (.other 0) = some s) (hx : m .extractor = some extract) {k : Nat} (hk : s 0 = some k)
    (h3 : k < 3) :
    (onDeleteR (K := K) (T := T) (I := I) (B := B) (W := W) fuel).acts (σ := PSigOf K T I B (Fated W)) look has (some n) m =
      (.panic, afterFate m s) := by
  unfold onDeleteR
  rw [acts_target hs hx, hk]
  match k, h3 with
  | 0, _ => rfl
  | 1, _ => rfl
  | 2, _ => rfl

/-- An index that cannot be read is left alone. -/
theorem acts_gone_save (hs : m (.other 0) = some s) (hx : m .extractor = some extract) (ht : m .treeOfId = none)
    (hk : ∀ k, s 0 = some k → 3 ≤ k) :
    (onSaveR (K := K) (T := T) (I := I) (B := B) (W := W)).acts (σ := PSigOf K T I B (Fated W)) look has (some n) m =
      (.ret (.ok ()), afterFate m s) := by
  have ht' : afterFate m s .treeOfId = none := (afterFate_other (by intro e; cases e)).trans ht
  unfold onSaveR
  rw [acts_target hs hx]
  rcases h : s 0 with _ | _ | _ | _ | j
  · simp only [Prog.acts, ht']
  · exact absurd (hk _ h) (by omega)
  · exact absurd (hk _ h) (by omega)
  · exact absurd (hk _ h) (by omega)
  · simp only [Prog.acts, ht']

theorem acts_gone_delete (fuel : Nat) (hs : m (.other 0) = some s) (hx : m .extractor = some extract) (ht : m .treeOfId = none)
    (hk : ∀ k, s 0 = some k → 3 ≤ k) :
    (onDeleteR (K := K) (T := T) (I := I) (B := B) (W := W) fuel).acts (σ := PSigOf K T I B (Fated W)) look has (some n) m =
      (.ret (.ok ()), afterFate m s) := by
  have ht' : afterFate m s .treeOfId = none := (afterFate_other (by intro e; cases e)).trans ht
  unfold onDeleteR
  rw [acts_target hs hx]
  rcases h : s 0 with _ | _ | _ | _ | j
  · simp only [Prog.acts, ht']
  · exact absurd (hk _ h) (by omega)
  · exact absurd (hk _ h) (by omega)
  · exact absurd (hk _ h) (by omega)
  · simp only [Prog.acts, ht']

open Classical in
/-- The insertions are all made, or the index is lost. -/
theorem acts_save (hs : m (.other 0) = some s) (hx : m .extractor = some extract) (t : ITree (NodeInterval K I) B)
    (ht : m .treeOfId = some t) (hk : ∀ k, s 0 = some k → 3 ≤ k) :
    (onSaveR (K := K) (T := T) (I := I) (B := B) (W := W)).acts (σ := PSigOf K T I B (Fated W)) look has (some n) m =
      if ∃ k, s 0 = some (k + 3) ∧ (insertEachR k (nodeIntervals (K := K) extract n) t).2 = true then
        (.panic, (afterFate m s).put .treeOfId none)
      else (.ret (.ok ()), (afterFate m s).put .treeOfId (some (insertEach (nodeIntervals extract n) t))) := by
  have ht' : afterFate m s .treeOfId = some t := (afterFate_other (by intro e; cases e)).trans ht
  unfold onSaveR
  rw [acts_target hs hx]
  rcases h : s 0 with _ | _ | _ | _ | j
  · simp only [Prog.acts, ht', Bool.false_eq_true, if_false]
    rw [if_neg (by rintro ⟨k, e, _⟩; cases e)]
  · exact absurd (hk _ h) (by omega)
  · exact absurd (hk _ h) (by omega)
  · exact absurd (hk _ h) (by omega)
  · simp only [Prog.acts, ht']
    by_cases hp : (insertEachR j (nodeIntervals (K := K) extract n) t).2 = true
    · rw [if_pos hp, if_pos ⟨j, rfl, hp⟩]
    · obtain ⟨N, _, h1, h2⟩ := insertEachR_calls (nodeIntervals (K := K) extract n) t
      rw [if_neg hp, if_neg (by rintro ⟨k, e, hp'⟩; cases e; exact hp hp')]
      rw [h2 j (Nat.le_of_not_lt fun hl => hp (h1 j hl))]

open Classical in
/-- The deletions are all made, or the index is lost, or they hang. -/
theorem acts_delete (fuel : Nat) (hs : m (.other 0) = some s) (hx : m .extractor = some extract) (t : ITree (NodeInterval K I) B)
    (ht : m .treeOfId = some t) (hk : ∀ k, s 0 = some k → 3 ≤ k) :
    (onDeleteR (K := K) (T := T) (I := I) (B := B) (W := W) fuel).acts (σ := PSigOf K T I B (Fated W)) look has (some n) m =
      if ∃ k t', s 0 = some (k + 3) ∧ deleteEachR fuel k (nodeIntervals (K := K) extract n) t = some (t', true) then
        (.panic, (afterFate m s).put .treeOfId none)
      else match deleteEach fuel (nodeIntervals (K := K) extract n) t with
        | none => (.stuck, afterFate m s)
        | some t' => (.ret (.ok ()), (afterFate m s).put .treeOfId (some t')) := by
  have ht' : afterFate m s .treeOfId = some t := (afterFate_other (by intro e; cases e)).trans ht
  unfold onDeleteR
  rw [acts_target hs hx]
  rcases h : s 0 with _ | _ | _ | _ | j
  · rw [if_neg (by rintro ⟨k, t', e, _⟩; cases e)]
    simp only [Prog.acts, ht', deleteFate]
    cases deleteEach fuel (nodeIntervals (K := K) extract n) t with
    | none => rfl
    | some t' =>
      simp only [Option.map_some, Prog.acts, ht', Bool.false_eq_true, if_false]
  · exact absurd (hk _ h) (by omega)
  · exact absurd (hk _ h) (by omega)
  · exact absurd (hk _ h) (by omega)
  · simp only [Prog.acts, ht', deleteFate]
    obtain ⟨N, _, h1, h2⟩ := deleteEachR_calls fuel (nodeIntervals (K := K) extract n) t
    by_cases hl : j < N
    · obtain ⟨t', e⟩ := h1 j hl
      rw [if_pos ⟨j, t', rfl, e⟩, e]
      simp only [Prog.acts, ht', if_true]
    · have e := h2 j (Nat.le_of_not_lt hl)
      rw [if_neg]
      · rw [e]
        cases deleteEach fuel (nodeIntervals (K := K) extract n) t with
        | none => rfl
        | some t' => simp only [Option.map_some, Prog.acts, ht', Bool.false_eq_true, if_false]
      · rintro ⟨k, t', e1, e2⟩
        cases e1
        rw [e] at e2
        cases hd : deleteEach fuel (nodeIntervals (K := K) extract n) t with
        | none => rw [hd] at e2; cases e2
        | some t' => rw [hd] at e2; cases e2

end

/-! ## One save or delete with one trigger -/

/-- How the operation ends, given how the trigger after it does. -/
def endOf {σ : Sig} : Out (Except Error σ.V) → Out (Except Error σ.V)
  | .ret (.ok _) => .ret (.ok σ.unit)
  | o => o

/-- A body that ends as `endOf`, with what it wrote to the graph. -/
theorem transact_ends {σ : Sig} (S : Schema σ) {body : Prog σ} {o : Out (Except Error σ.V)} {s' : St σ}
    (hr : Runs S.env [0] body (S.begin []) (endOf o) s') (hg : s'.graph = S.guard) (g : Graph σ.K σ.T) (hc : commitRoot s' = g) :
    ∃ (fuel0 : Nat) (S1 : Schema σ), (∀ fuel, fuel0 ≤ fuel → S.transact fuel [] body = some (endOf o, S1)) ∧ S1.env = S.env ∧ S1.heap = s'.heap ∧
      (o = .panic → S1.guard = S.guard) ∧ (∀ v, o = .ret (.ok v) → S1.guard = g) := by
  obtain ⟨fuel0, hr⟩ := hr
  rcases o with (e | v) | _ | _
  · refine ⟨fuel0, { S with graph := s'.graph, heap := s'.heap }, fun fuel hle => transact_mono_le S hle (by unfold Schema.transact; rw [hr]; rfl), rfl, rfl, ?_, ?_⟩
    · intro e; cases e
    · intro v e; cases e
  · refine ⟨fuel0, { S with graph := commitRoot s', heap := s'.heap }, fun fuel hle => transact_mono_le S hle (by unfold Schema.transact; rw [hr]; rfl), rfl, rfl, ?_, ?_⟩
    · intro e; cases e
    · intro v _; rw [guard_eq]; exact hc
  · refine ⟨fuel0, { S with graph := s'.graph, heap := s'.heap, poisoned := true }, fun fuel hle => transact_mono_le S hle (by unfold Schema.transact; rw [hr]; rfl), rfl, rfl, ?_, ?_⟩
    · intro _; rw [guard_eq]; exact hg
    · intro v e; cases e
  · refine ⟨fuel0, { S with graph := s'.graph, heap := s'.heap }, fun fuel hle => transact_mono_le S hle (by unfold Schema.transact; rw [hr]; rfl), rfl, rfl, ?_, ?_⟩
    · intro e; cases e
    · intro v e; cases e

theorem fires_one {σ : Sig} {E : Env σ} {f : Nat} {p : Prog σ} {s s' : St σ} {o : Out (Except Error σ.V)} (h : Runs E [f] p s o s') :
    ∃ r, Fires E f [p] s r s' ∧ outOf r = endOf (σ := σ) o := by
  rcases o with (e | v) | _ | _
  · exact ⟨_, .error h, rfl⟩
  · exact ⟨_, .next h (.none _), rfl⟩
  · exact ⟨_, .panic h, rfl⟩
  · exact ⟨_, .stuck h, rfl⟩

theorem save_one {σ : Sig} [LawfulSig σ] {H : σ.Ty → Prop} {p : Prog σ} (hp : Confined H p) (S : Schema σ) (hS : Sane S)
    (hb : S.env.fire .beforeSave = []) (ha : S.env.fire .afterSave = [p]) (n : σ.T) (r : Out (Except Error σ.V) × Readings σ)
    (hv : ∀ look has, p.acts look has (some n) S.readings = r) :
    ∃ (fuel0 : Nat) (S1 : Schema σ), (∀ fuel, fuel0 ≤ fuel → S.save fuel n = some (endOf r.1, S1)) ∧ S1.readings = r.2 ∧
      (r.1 = .panic → S1.guard = S.guard) ∧ (∀ v, r.1 = .ret (.ok v) → S1.guard = (S.guard.insert n).1) := by
  obtain ⟨fuel, s', h1, h2, h3, h4, h5, h6⟩ := confined_acts hS.own hp 0 (pushOp (setTarget (S.begin []) 0 n) 0 (.save n))
    (fun x hx => by cases hx) hS.inHeap
  rw [show readTarget (pushOp (setTarget (S.begin []) 0 n) 0 (.save n)) 0 = some n from rfl,
    show (pushOp (setTarget (S.begin []) 0 n) 0 (.save n)).readings S.env = S.readings from rfl, hv] at h1 h2
  obtain ⟨r1, hf, e⟩ := fires_one ⟨fuel, h1⟩
  have hr : Runs S.env [0] (saveBody n) (S.begin []) (endOf r.1) s' := by
    rw [runs_saveBody]
    refine ⟨.ret (.ok ()), setTarget (S.begin []) 0 n, by rw [hb]; exact .none _, .inl ⟨r1, rfl, ?_, e.symm⟩⟩
    rw [ha]; exact hf
  obtain ⟨fuel0, S1, k1, k2, k3, k4, k5⟩ := transact_ends S hr h3 ((S.guard.insert n).1) (by
    unfold commitRoot
    rw [h3, h4]
    rfl)
  refine ⟨fuel0, S1, k1, ?_, k4, k5⟩
  rw [← h2]
  unfold Schema.readings St.readings
  rw [k2, k3]

theorem delete_one {σ : Sig} [LawfulSig σ] {H : σ.Ty → Prop} {p : Prog σ} (hp : Confined H p) (S : Schema σ) (hS : Sane S)
    (hb : S.env.fire .beforeDelete = []) (ha : S.env.fire .afterDelete = [p]) (i : σ.K) (n : σ.T) (hn : S.guard.get i = some n)
    (r : Out (Except Error σ.V) × Readings σ) (hv : ∀ look has, p.acts look has (some n) S.readings = r) :
    ∃ (fuel0 : Nat) (S1 : Schema σ), (∀ fuel, fuel0 ≤ fuel → S.delete fuel i = some (endOf r.1, S1)) ∧ S1.readings = r.2 ∧
      (r.1 = .panic → S1.guard = S.guard) ∧ (∀ v, r.1 = .ret (.ok v) → S1.guard = (S.guard.remove i).1) := by
  obtain ⟨fuel, s', h1, h2, h3, h4, h5, h6⟩ := confined_acts hS.own hp 0 (pushOp (setTarget (S.begin []) 0 n) 0 (.delete i))
    (fun x hx => by cases hx) hS.inHeap
  rw [show readTarget (pushOp (setTarget (S.begin []) 0 n) 0 (.delete i)) 0 = some n from rfl,
    show (pushOp (setTarget (S.begin []) 0 n) 0 (.delete i)).readings S.env = S.readings from rfl, hv] at h1 h2
  obtain ⟨r1, hf, e⟩ := fires_one ⟨fuel, h1⟩
  have hr : Runs S.env [0] (deleteBody i) (S.begin []) (endOf r.1) s' := by
    rw [runs_deleteBody]
    refine .inr ⟨n, .ret (.ok ()), setTarget (S.begin []) 0 n, (by
      simp only [ctxGet, Schema.begin, List.getElem?_cons_zero, List.reverse_nil, List.find?_nil]; exact hn), by rw [hb]; exact .none _, .inl ⟨r1, rfl, ?_, e.symm⟩⟩
    rw [ha]; exact hf
  obtain ⟨fuel0, S1, k1, k2, k3, k4, k5⟩ := transact_ends S hr h3 ((S.guard.remove i).1) (by
    unfold commitRoot
    rw [h3, h4]
    rfl)
  refine ⟨fuel0, S1, k1, ?_, k4, k5⟩
  rw [← h2]
  unfold Schema.readings St.readings
  rw [k2, k3]

end

end Plotline
