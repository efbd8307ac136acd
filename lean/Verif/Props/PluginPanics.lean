import Verif.Lemmas.PluginPanics
import Verif.Lemmas.PluginLog
import Verif.Props.Component

/-! # C104: user code that panics in the interval plugin -/

namespace Plotline

open Std

set_option linter.unusedSectionVars false

section
variable {K T I B : Type} {V : Nat → Type} [Ord K] [BEq K] [Identify T K] [Ord B] [BEq I] [Interval I B]

/-- A trigger that writes down the intervals of its target, whatever user code does. -/
def noteR (extract : T → List I) (ev : NodeInterval K I → IEvent (NodeInterval K I)) :
    Prog (PSigOf K T I B (Fated (Noted K I V))) :=
  .targetRead 0 fun
    | none => .done (.ok ())
    | some n => .resWrite (.other 1) (fun es => (es ++ (intervalsOf extract [n]).map ev, false)) fun _ => .done (.ok ())

/-- The plugin, installed where its index exists, and right after it a journal of its own kind. -/
def journaledR (fuel : Nat) (extract : T → List I) (fates : Fates) (S : Schema (PSigOf K T I B (Fated (Noted K I V)))) :
    Schema (PSigOf K T I B (Fated (Noted K I V))) :=
  (((installR true fuel extract fates S).withResource (.other 1) []).withTrigger .afterSave (noteR extract .insert)).withTrigger
    .afterDelete (noteR extract .delete)

/-- The resource types of the two. -/
def OfIndexR (t : PTy) : Prop := t = .extractor ∨ t = .treeOfId ∨ t = .other 0 ∨ t = .other 1

/-- The index can only be read if it is what the events in the journal make of the empty tree. -/
def NeverWrong (extract : T → List I) (m : Readings (PSigOf K T I B (Fated (Noted K I V)))) : Prop :=
  m .extractor = some extract ∧ (∃ s, m (.other 0) = some s) ∧ ∃ es : List (IEvent (NodeInterval K I)), m (.other 1) = some es ∧
    ∀ t : ITree (NodeInterval K I) B, m .treeOfId = some t → Built es t

/-- The index can be read and is what the events in the journal make of the empty tree, and user code will panic only in the
extractor, the id of a node and its first clone. -/
def Sheltered (extract : T → List I) (m : Readings (PSigOf K T I B (Fated (Noted K I V)))) : Prop :=
  m .extractor = some extract ∧ (∃ s : Fates, m (.other 0) = some s ∧ ∀ n k, s n = some k → k < 3) ∧
    ∃ (t : ITree (NodeInterval K I) B) (es : List (IEvent (NodeInterval K I))),
      m .treeOfId = some t ∧ m (.other 1) = some es ∧ Built es t

/-- The index cannot be read. -/
def NoIndex (m : Readings (PSigOf K T I B (Fated (Noted K I V)))) : Prop := m .treeOfId = none

theorem neverWrong_only (extract : T → List I) : OnlyOf (σ := PSigOf K T I B (Fated (Noted K I V))) OfIndexR (NeverWrong extract) := by
  rintro m m' h ⟨h1, ⟨s, h2⟩, es, h3, h4⟩
  refine ⟨(h _ (.inl rfl)).trans h1, ⟨s, (h _ (.inr (.inr (.inl rfl)))).trans h2⟩, es, (h _ (.inr (.inr (.inr rfl)))).trans h3,
    fun t ht => h4 t ?_⟩
  rw [← h _ (.inr (.inl rfl))]; exact ht

theorem sheltered_only (extract : T → List I) : OnlyOf (σ := PSigOf K T I B (Fated (Noted K I V))) OfIndexR (Sheltered extract) := by
  rintro m m' h ⟨h1, ⟨s, h2, h2'⟩, t, es, h3, h4, h5⟩
  exact ⟨(h _ (.inl rfl)).trans h1, ⟨s, (h _ (.inr (.inr (.inl rfl)))).trans h2, h2'⟩, t, es, (h _ (.inr (.inl rfl))).trans h3,
    (h _ (.inr (.inr (.inr rfl)))).trans h4, h5⟩

theorem noIndex_only : OnlyOf (σ := PSigOf K T I B (Fated (Noted K I V))) OfIndexR NoIndex :=
  fun _ _ h h1 => (h _ (.inr (.inl rfl))).trans h1

theorem noteR_confined (extract : T → List I) (ev : NodeInterval K I → IEvent (NodeInterval K I)) :
    Confined (σ := PSigOf K T I B (Fated (Noted K I V))) OfIndexR (noteR extract ev) := by
  refine .target fun a => ?_
  cases a with
  | none => exact .done _
  | some n => exact .write (.inr (.inr (.inr rfl))) fun _ => .done _

/-- What the journal's trigger does. -/
theorem acts_noteR {look : K → Option T} {has : K → Bool} {m : Readings (PSigOf K T I B (Fated (Noted K I V)))} {extract : T → List I}
    {ev : NodeInterval K I → IEvent (NodeInterval K I)} {n : T} {es : List (IEvent (NodeInterval K I))} (h : m (.other 1) = some es) :
    (noteR (B := B) (V := V) extract ev).acts (σ := PSigOf K T I B (Fated (Noted K I V))) look has (some n) m =
      (.ret (.ok ()), m.put (.other 1) (some (es ++ (intervalsOf extract [n]).map ev))) := by
  simp only [noteR, Prog.acts, h, Bool.false_eq_true, if_false]

/-- Whether the entry is one of a panic outside the tree. -/
theorem fate_cases (f : Option Nat) : (∃ k, f = some k ∧ k < 3) ∨ ∀ k, f = some k → 3 ≤ k := by
  cases f with
  | none => exact .inr fun k e => by cases e
  | some k =>
    by_cases h : k < 3
    · exact .inl ⟨k, rfl, h⟩
    · exact .inr fun j e => by cases e; omega

theorem notTarget_save {look : K → Option T} {has : K → Bool} {m : Readings (PSigOf K T I B (Fated (Noted K I V)))} {s : Fates}
    (hs : m (.other 0) = some s) (extract : T → List I) (ev : NodeInterval K I → IEvent (NodeInterval K I)) :
    actsAll (σ := PSigOf K T I B (Fated (Noted K I V))) look has none [onSaveR, noteR extract ev] m = (.ret (.ok ()), afterFate m s) := by
  simp only [actsAll, onSaveR, withIntervalsR, nextFate, Prog.acts, hs, Bool.false_eq_true, if_false, noteR]
  rfl

theorem notTarget_delete {look : K → Option T} {has : K → Bool} {m : Readings (PSigOf K T I B (Fated (Noted K I V)))} {s : Fates}
    (fuel : Nat) (hs : m (.other 0) = some s) (extract : T → List I) (ev : NodeInterval K I → IEvent (NodeInterval K I)) :
    actsAll (σ := PSigOf K T I B (Fated (Noted K I V))) look has none [onDeleteR fuel, noteR extract ev] m =
      (.ret (.ok ()), afterFate m s) := by
  simp only [actsAll, onDeleteR, withIntervalsR, nextFate, Prog.acts, hs, Bool.false_eq_true, if_false, noteR]
  rfl

theorem other_ne {t : PTy} {i : Nat} (h : t = .extractor ∨ t = .treeOfId) : PTy.other i ≠ t := by
  rintro rfl; rcases h with h | h <;> cases h

theorem one_ne : PTy.other 0 ≠ PTy.other 1 := by intro e; cases e

/-- The journal and the entries do not share their resources with the index. -/
theorem neverWrong_fate {extract : T → List I} {m : Readings (PSigOf K T I B (Fated (Noted K I V)))} (h : NeverWrong extract m) (s : Fates) :
    NeverWrong extract (afterFate m s) := by
  obtain ⟨h1, _, es, h3, h4⟩ := h
  refine ⟨(afterFate_other (other_ne (.inl rfl))).trans h1, ⟨_, afterFate_fates⟩, es, (afterFate_other one_ne).trans h3,
    fun t ht => h4 t ?_⟩
  rw [afterFate_other (other_ne (.inr rfl))] at ht; exact ht

theorem neverWrong_lost {extract : T → List I} {m : Readings (PSigOf K T I B (Fated (Noted K I V)))} (h : NeverWrong extract m) :
    NeverWrong extract (m.put .treeOfId none) := by
  obtain ⟨h1, ⟨s, h2⟩, es, h3, h4⟩ := h
  refine ⟨(put_other _ (by intro e; cases e)).trans h1, ⟨s, (put_other _ (by intro e; cases e)).trans h2⟩, es,
    (put_other _ (by intro e; cases e)).trans h3, fun t ht => ?_⟩
  rw [put_self] at ht; cases ht

/-- The index and the journal after both were brought up to date. -/
theorem neverWrong_both {extract : T → List I} {m : Readings (PSigOf K T I B (Fated (Noted K I V)))} (h : NeverWrong extract m)
    (t : ITree (NodeInterval K I) B) (es es' : List (IEvent (NodeInterval K I))) (hb : Built es' t) :
    NeverWrong extract ((m.put .treeOfId (some t)).put (.other 1) (some es')) := by
  obtain ⟨h1, ⟨s, h2⟩, _⟩ := h
  refine ⟨?_, ⟨s, ?_⟩, es', put_self _ _, fun t' ht => ?_⟩
  · rw [put_other _ (by intro e; cases e), put_other _ (by intro e; cases e)]; exact h1
  · rw [put_other _ (by intro e; cases e), put_other _ (by intro e; cases e)]; exact h2
  · rw [put_other _ (by intro e; cases e), put_self] at ht
    cases ht; exact hb

theorem neverWrong_gone {extract : T → List I} {m : Readings (PSigOf K T I B (Fated (Noted K I V)))} (h : NeverWrong extract m)
    (ht : m .treeOfId = none) (es' : List (IEvent (NodeInterval K I))) : NeverWrong extract (m.put (.other 1) (some es')) := by
  obtain ⟨h1, ⟨s, h2⟩, _⟩ := h
  refine ⟨?_, ⟨s, ?_⟩, es', put_self _ _, fun t' ht' => ?_⟩
  · rw [put_other _ (by intro e; cases e)]; exact h1
  · rw [put_other _ (by intro e; cases e)]; exact h2
  · rw [put_other _ (by intro e; cases e), ht] at ht'; cases ht'

theorem intervals_one (extract : T → List I) (n : T) :
    intervalsOf (K := K) extract [n] = nodeIntervals extract n := by simp [intervalsOf, nodeIntervals]

theorem saveR_neverWrong (extract : T → List I) :
    Restores (σ := PSigOf K T I B (Fated (Noted K I V))) (NeverWrong extract) [onSaveR, noteR extract .insert] := by
  intro look has target m h hne
  have h' := h
  obtain ⟨h1, ⟨s, h2⟩, es, h3, h4⟩ := h'
  have hm1 := neverWrong_fate h s
  have h3' : afterFate m s (.other 1) = some es := (afterFate_other one_ne).trans h3
  cases target with
  | none => rw [notTarget_save h2]; exact hm1
  | some n =>
    rcases fate_cases (s 0) with ⟨k, hk, hk3⟩ | hk
    · simp only [actsAll, acts_early_save h2 h1 hk hk3]; exact hm1
    · cases ht : m .treeOfId with
      | none =>
        simp only [actsAll, acts_gone_save h2 h1 ht hk, acts_noteR h3']
        exact neverWrong_gone hm1 ((afterFate_other (other_ne (.inr rfl))).trans ht) _
      | some t =>
        have hv := acts_save (look := look) (has := has) (n := n) h2 h1 t ht hk
        split at hv
        · simp only [actsAll, hv]; exact neverWrong_lost hm1
        · simp only [actsAll, hv]
          rw [acts_noteR ((put_other _ (by intro e; cases e)).trans h3')]
          refine neverWrong_both hm1 _ es _ ?_
          rw [intervals_one]
          exact insertEach_built (h4 t ht) _

theorem deleteR_neverWrong (fuel : Nat) (extract : T → List I) :
    Restores (σ := PSigOf K T I B (Fated (Noted K I V))) (NeverWrong extract) [onDeleteR fuel, noteR extract .delete] := by
  intro look has target m h hne
  have h' := h
  obtain ⟨h1, ⟨s, h2⟩, es, h3, h4⟩ := h'
  have hm1 := neverWrong_fate h s
  have h3' : afterFate m s (.other 1) = some es := (afterFate_other one_ne).trans h3
  cases target with
  | none => rw [notTarget_delete fuel h2]; exact hm1
  | some n =>
    rcases fate_cases (s 0) with ⟨k, hk, hk3⟩ | hk
    · simp only [actsAll, acts_early_delete fuel h2 h1 hk hk3]; exact hm1
    · cases ht : m .treeOfId with
      | none =>
        simp only [actsAll, acts_gone_delete fuel h2 h1 ht hk, acts_noteR h3']
        exact neverWrong_gone hm1 ((afterFate_other (other_ne (.inr rfl))).trans ht) _
      | some t =>
        have hv := acts_delete (look := look) (has := has) (n := n) fuel h2 h1 t ht hk
        split at hv
        · simp only [actsAll, hv]; exact neverWrong_lost hm1
        · cases hd : deleteEach fuel (nodeIntervals (K := K) extract n) t with
          | none =>
            rw [hd] at hv
            simp only [actsAll, hv] at hne; exact absurd rfl hne
          | some t' =>
            rw [hd] at hv
            simp only [actsAll, hv]
            rw [acts_noteR ((put_other _ (by intro e; cases e)).trans h3')]
            refine neverWrong_both hm1 _ es _ ?_
            rw [intervals_one]
            exact deleteEach_built (h4 t ht) fuel _ hd

theorem sheltered_fate {extract : T → List I} {m : Readings (PSigOf K T I B (Fated (Noted K I V)))} {s : Fates}
    (h : Sheltered extract m) (hs : m (.other 0) = some s) : Sheltered extract (afterFate m s) := by
  obtain ⟨h1, ⟨s', h2, h2'⟩, t, es, h3, h4, h5⟩ := h
  rw [hs] at h2; cases h2
  exact ⟨(afterFate_other (other_ne (.inl rfl))).trans h1, ⟨_, afterFate_fates, fun n => h2' (n + 1)⟩, t, es,
    (afterFate_other (other_ne (.inr rfl))).trans h3, (afterFate_other one_ne).trans h4, h5⟩

theorem sheltered_both {extract : T → List I} {m : Readings (PSigOf K T I B (Fated (Noted K I V)))} (h : Sheltered extract m)
    (t : ITree (NodeInterval K I) B) (es' : List (IEvent (NodeInterval K I))) (hb : Built es' t) :
    Sheltered extract ((m.put .treeOfId (some t)).put (.other 1) (some es')) := by
  obtain ⟨h1, ⟨s, h2, h2'⟩, _⟩ := h
  refine ⟨?_, ⟨s, ?_, h2'⟩, t, es', ?_, put_self _ _, hb⟩
  · rw [put_other _ (by intro e; cases e), put_other _ (by intro e; cases e)]; exact h1
  · rw [put_other _ (by intro e; cases e), put_other _ (by intro e; cases e)]; exact h2
  · rw [put_other _ (by intro e; cases e), put_self]

theorem saveR_sheltered (extract : T → List I) :
    Restores (σ := PSigOf K T I B (Fated (Noted K I V))) (Sheltered extract) [onSaveR, noteR extract .insert] := by
  intro look has target m h hne
  have h' := h
  obtain ⟨h1, ⟨s, h2, h2'⟩, t, es, ht, h3, h4⟩ := h'
  have hm1 := sheltered_fate h h2
  have h3' : afterFate m s (.other 1) = some es := (afterFate_other one_ne).trans h3
  cases target with
  | none => rw [notTarget_save h2]; exact hm1
  | some n =>
    rcases fate_cases (s 0) with ⟨k, hk, hk3⟩ | hk
    · simp only [actsAll, acts_early_save h2 h1 hk hk3]; exact hm1
    · have hv := acts_save (look := look) (has := has) (n := n) h2 h1 t ht hk
      split at hv
      · rename_i hp
        obtain ⟨k, hp, _⟩ := hp
        exact absurd (h2' _ _ hp) (by omega)
      · simp only [actsAll, hv]
        rw [acts_noteR ((put_other _ (by intro e; cases e)).trans h3')]
        refine sheltered_both hm1 _ _ ?_
        rw [intervals_one]
        exact insertEach_built h4 _

theorem deleteR_sheltered (fuel : Nat) (extract : T → List I) :
    Restores (σ := PSigOf K T I B (Fated (Noted K I V))) (Sheltered extract) [onDeleteR fuel, noteR extract .delete] := by
  intro look has target m h hne
  have h' := h
  obtain ⟨h1, ⟨s, h2, h2'⟩, t, es, ht, h3, h4⟩ := h'
  have hm1 := sheltered_fate h h2
  have h3' : afterFate m s (.other 1) = some es := (afterFate_other one_ne).trans h3
  cases target with
  | none => rw [notTarget_delete fuel h2]; exact hm1
  | some n =>
    rcases fate_cases (s 0) with ⟨k, hk, hk3⟩ | hk
    · simp only [actsAll, acts_early_delete fuel h2 h1 hk hk3]; exact hm1
    · have hv := acts_delete (look := look) (has := has) (n := n) fuel h2 h1 t ht hk
      split at hv
      · rename_i hp
        obtain ⟨k, _, hp, _⟩ := hp
        exact absurd (h2' _ _ hp) (by omega)
      · cases hd : deleteEach fuel (nodeIntervals (K := K) extract n) t with
        | none =>
          rw [hd] at hv
          simp only [actsAll, hv] at hne; exact absurd rfl hne
        | some t' =>
          rw [hd] at hv
          simp only [actsAll, hv]
          rw [acts_noteR ((put_other _ (by intro e; cases e)).trans h3')]
          refine sheltered_both hm1 _ _ ?_
          rw [intervals_one]
          exact deleteEach_built h4 fuel _ hd

/-- A trigger of a component does not make readable what is not. -/
theorem acts_unreadable {σ : Sig} {H : σ.Ty → Prop} {look : σ.K → Option σ.T} {has : σ.K → Bool} {target : Option σ.T} {t : σ.Ty}
    {p : Prog σ} (hp : Confined H p) : ∀ m : Readings σ, m t = none → (p.acts look has target m).2 t = none := by
  induction hp with
  | done => exact fun _ h => h
  | panic => exact fun _ h => h
  | reenter => exact fun _ h => h
  | get i _ ih => exact fun m h => ih _ m h
  | contains i _ ih => exact fun m h => ih _ m h
  | target _ ih => exact fun m h => ih _ m h
  | read _ _ ih => exact fun m h => ih _ m h
  | @write u fn k _ _ ih =>
    intro m h
    simp only [Prog.acts]
    cases hu : m u with
    | none => exact ih _ m h
    | some v =>
      have e : u ≠ t := by rintro rfl; rw [h] at hu; cases hu
      simp only
      split
      · exact (put_other _ e).trans h
      · exact ih _ _ ((put_other _ e).trans h)

theorem actsAll_unreadable {σ : Sig} {H : σ.Ty → Prop} {look : σ.K → Option σ.T} {has : σ.K → Bool} {target : Option σ.T} {t : σ.Ty}
    {b : List (Prog σ)} (hb : ∀ p ∈ b, Confined H p) : ∀ m : Readings σ, m t = none → (actsAll look has target b m).2 t = none := by
  induction b with
  | nil => exact fun _ h => h
  | cons p b ih =>
    intro m h
    have h1 := acts_unreadable (look := look) (has := has) (target := target) (hb p List.mem_cons_self) m h
    simp only [actsAll]
    rcases hx : p.acts look has target m with ⟨(e | v) | _ | _, m'⟩
    · rw [hx] at h1; exact h1
    · rw [hx] at h1; exact ih (fun q hq => hb q (List.mem_cons_of_mem _ hq)) m' h1
    · rw [hx] at h1; exact h1
    · rw [hx] at h1; exact h1

theorem Grouped.unreadable {σ : Sig} {H : σ.Ty → Prop} {P : Readings σ → Prop} {l : List (Prog σ)} (h : Grouped H P l) (t : σ.Ty) :
    Grouped H (fun m => m t = none) l := by
  induction h with
  | nil => exact .nil
  | other h1 _ ih => exact .other h1 ih
  | own h1 _ _ ih => exact .own h1 (fun _ _ _ m hm _ => actsAll_unreadable h1 m hm) ih

variable [TransOrd K] [LawfulBEqOrd K]

theorem journaledR_session (fuel : Nat) (extract : T → List I) (fates : Fates) (S : Schema (PSigOf K T I B (Fated (Noted K I V)))) :
    ∃ l, Session S l (journaledR fuel extract fates S) :=
  ⟨[_, _, _, _, _, _, _, _], .cons (.register ..) (.cons (.register ..) (.cons (.register ..) (.cons (.trigger ..) (.cons (.trigger ..)
    (.cons (.register ..) (.cons (.trigger ..) (.cons (.trigger ..) (.nil _))))))))⟩

theorem journaledR_readings (fuel : Nat) (extract : T → List I) (fates : Fates) (S : Schema (PSigOf K T I B (Fated (Noted K I V))))
    (hS : S.Used) : (journaledR fuel extract fates S).readings .extractor = some extract ∧
      (journaledR fuel extract fates S).readings .treeOfId = some .nil ∧
      (journaledR fuel extract fates S).readings (.other 0) = some fates ∧
      (journaledR fuel extract fates S).readings (.other 1) = some ([] : List (IEvent (NodeInterval K I))) := by
  have h0 := used_sane hS
  have h1 := sane_withResource h0 (PTy.other 0) fates
  have h2 := sane_withResource h1 PTy.extractor extract
  have h3 := sane_withResource h2 PTy.treeOfId (ITree.nil : ITree (NodeInterval K I) B)
  have e : (journaledR fuel extract fates S).readings =
      ((((S.withResource (PTy.other 0) fates).withResource PTy.extractor extract).withResource PTy.treeOfId
        (ITree.nil : ITree (NodeInterval K I) B)).withResource (PTy.other 1) ([] : List (IEvent (NodeInterval K I)))).readings := rfl
  rw [e]
  unfold Schema.readings
  refine ⟨?_, ?_, ?_, ?_⟩
  · rw [peek_withResource h3, dif_neg (by intro e; cases e), peek_withResource h2, dif_neg (by intro e; cases e),
      peek_withResource h1, dif_pos rfl]
  · rw [peek_withResource h3, dif_neg (by intro e; cases e), peek_withResource h2, dif_pos rfl]
  · rw [peek_withResource h3, dif_neg (by intro e; cases e), peek_withResource h2, dif_neg (by intro e; cases e),
      peek_withResource h1, dif_neg (by intro e; cases e), peek_withResource h0, dif_pos rfl]
  · rw [peek_withResource h3, dif_pos rfl]

theorem journaledR_fire (fuel : Nat) (extract : T → List I) (fates : Fates) (S : Schema (PSigOf K T I B (Fated (Noted K I V))))
    (hS : S.Used) (s : Sched) : (journaledR fuel extract fates S).env.fire s =
      if s = .afterSave then S.env.fire s ++ [onSaveR, noteR extract .insert]
      else if s = .afterDelete then S.env.fire s ++ [onDeleteR fuel, noteR extract .delete] else S.env.fire s := by
  have h0 := sane_withResource (used_sane hS) (PTy.other 0) fates
  have h2 := sane_withResource (sane_withResource h0 PTy.extractor extract) PTy.treeOfId (ITree.nil : ITree (NodeInterval K I) B)
  have h3 := sane_gives h2 (.trigger _ .afterSave onSaveR)
  have h4 := sane_gives h3 (.trigger _ .afterDelete (onDeleteR fuel))
  have h5 := sane_withResource h4 (PTy.other 1) ([] : List (IEvent (NodeInterval K I)))
  have h6 := sane_gives h5 (.trigger _ .afterSave (noteR extract .insert))
  have e4 := fire_withTrigger h6 .afterDelete s (noteR extract .delete)
  have e3 := fire_withTrigger h5 .afterSave s (noteR extract .insert)
  have e2 := fire_withTrigger h3 .afterDelete s (onDeleteR fuel)
  have e1 := fire_withTrigger h2 .afterSave s (onSaveR (K := K) (T := T) (I := I) (B := B) (W := Noted K I V))
  have e0 : ((((S.withResource (PTy.other 0) fates).withResource PTy.extractor extract).withResource PTy.treeOfId
      (ITree.nil : ITree (NodeInterval K I) B))).env.fire s = S.env.fire s := rfl
  have e5 : ∀ S' : Schema (PSigOf K T I B (Fated (Noted K I V))),
      (S'.withResource (PTy.other 1) ([] : List (IEvent (NodeInterval K I)))).env.fire s = S'.env.fire s := fun _ => rfl
  refine e4.trans ?_
  rw [e3, e5, e2, e1, e0]
  cases s <;> simp

/-- The triggers are groups of the plugin's and others. -/
theorem journaledR_grouped {P : Readings (PSigOf K T I B (Fated (Noted K I V))) → Prop} (fuel : Nat) (extract : T → List I) (fates : Fates)
    (S : Schema (PSigOf K T I B (Fated (Noted K I V)))) (hS : S.Used) (ht : ∀ s, ∀ p ∈ S.env.fire s, p.Avoids OfIndexR)
    (h1 : Restores (σ := PSigOf K T I B (Fated (Noted K I V))) P [onSaveR, noteR extract .insert])
    (h2 : Restores (σ := PSigOf K T I B (Fated (Noted K I V))) P [onDeleteR fuel, noteR extract .delete]) (s : Sched) :
    Grouped OfIndexR P ((journaledR fuel extract fates S).env.fire s) := by
  have hg : Grouped OfIndexR P (S.env.fire s) := .avoiding (ht s)
  have i0 : OfIndexR (.other 0) := .inr (.inr (.inl rfl))
  rw [journaledR_fire fuel extract fates S hS]
  split
  · refine hg.append ?_
    rw [← List.append_nil [onSaveR, noteR extract .insert]]
    refine .own (fun p hp => ?_) h1 .nil
    simp only [List.mem_cons, List.not_mem_nil, or_false] at hp
    rcases hp with rfl | rfl
    · exact onSaveR_confined i0 (.inl rfl) (.inr (.inl rfl))
    · exact noteR_confined _ _
  · split
    · refine hg.append ?_
      rw [← List.append_nil [onDeleteR fuel, noteR extract .delete]]
      refine .own (fun p hp => ?_) h2 .nil
      simp only [List.mem_cons, List.not_mem_nil, or_false] at hp
      rcases hp with rfl | rfl
      · exact onDeleteR_confined fuel i0 (.inl rfl) (.inr (.inl rfl))
      · exact noteR_confined _ _
    · exact hg

/-- C104: install the plugin and beside it a journal of the saves and deletes it has dealt with, and let user code panic in it
whenever it likes. After any course of uses that leaves the two alone and comes to its end, an index that can be read is exactly
what the journal makes of the empty tree. So queries are never answered from an index a panic has left half way. -/
theorem C104_never_wrong_partial (fuel : Nat) (extract : T → List I) (fates : Fates) (S S1 : Schema (PSigOf K T I B (Fated (Noted K I V))))
    (hS : S.Used) (ht : ∀ s, ∀ p ∈ S.env.fire s, p.Avoids OfIndexR)
    (l : List (Use (PSigOf K T I B (Fated (Noted K I V))) × Seen (PSigOf K T I B (Fated (Noted K I V)))))
    (hl : ∀ x ∈ l, x.1.Avoids OfIndexR) (h : Session (journaledR fuel extract fates S) l S1)
    (t : ITree (NodeInterval K I) B) (hr : S1.readings .treeOfId = some t) :
    ∃ es : List (IEvent (NodeInterval K I)), S1.readings (.other 1) = some es ∧ Built es t := by
  obtain ⟨l0, h0⟩ := journaledR_session fuel extract fates S
  obtain ⟨r1, r2, r3, r4⟩ := journaledR_readings fuel extract fates S hS
  obtain ⟨_, _, es, h3, h4⟩ := (C93_session (neverWrong_only extract) _ S1 (Session.used hS h0)
    (journaledR_grouped fuel extract fates S hS ht (saveR_neverWrong extract) (deleteR_neverWrong fuel extract))
    ⟨r1, ⟨_, r3⟩, [], r4, fun t e => by rw [r2] at e; cases e; exact .empty⟩ l hl h).1
  exact ⟨es, h3, h4 t hr⟩

/-- C104: if user code panics only in the extractor, in the id of a node and in its first clone, which are called before the tree is
asked for, no panic loses the index: it can be read after any course of uses, and is what the journal makes of the empty tree. -/
theorem C104_sheltered_partial (fuel : Nat) (extract : T → List I) (fates : Fates) (hfates : ∀ n k, fates n = some k → k < 3)
    (S S1 : Schema (PSigOf K T I B (Fated (Noted K I V)))) (hS : S.Used) (ht : ∀ s, ∀ p ∈ S.env.fire s, p.Avoids OfIndexR)
    (l : List (Use (PSigOf K T I B (Fated (Noted K I V))) × Seen (PSigOf K T I B (Fated (Noted K I V)))))
    (hl : ∀ x ∈ l, x.1.Avoids OfIndexR) (h : Session (journaledR fuel extract fates S) l S1) :
    ∃ (t : ITree (NodeInterval K I) B) (es : List (IEvent (NodeInterval K I))),
      S1.readings .treeOfId = some t ∧ S1.readings (.other 1) = some es ∧ Built es t := by
  obtain ⟨l0, h0⟩ := journaledR_session fuel extract fates S
  obtain ⟨r1, r2, r3, r4⟩ := journaledR_readings fuel extract fates S hS
  exact (C93_session (sheltered_only extract) _ S1 (Session.used hS h0)
    (journaledR_grouped fuel extract fates S hS ht (saveR_sheltered extract) (deleteR_sheltered fuel extract))
    ⟨r1, ⟨_, r3, hfates⟩, _, [], r2, r4, .empty⟩ l hl h).1.2.2

/-- C104: an index that cannot be read any more is never read again, whatever is done to the schema short of installing the plugin
anew. -/
theorem C104_gone_for_good (fuel : Nat) (extract : T → List I) (fates : Fates)
    (S S1 S2 : Schema (PSigOf K T I B (Fated (Noted K I V)))) (hS : S.Used) (ht : ∀ s, ∀ p ∈ S.env.fire s, p.Avoids OfIndexR)
    (l l' : List (Use (PSigOf K T I B (Fated (Noted K I V))) × Seen (PSigOf K T I B (Fated (Noted K I V)))))
    (hl : ∀ x ∈ l ++ l', x.1.Avoids OfIndexR) (h : Session (journaledR fuel extract fates S) l S1)
    (hr : S1.readings .treeOfId = none) (h' : Session S1 l' S2) : S2.readings .treeOfId = none := by
  obtain ⟨l0, h0⟩ := journaledR_session fuel extract fates S
  have hu := Session.used hS h0
  have hg := (C93_session (P := fun _ => True) (H := OfIndexR) (fun _ _ _ _ => trivial) _ S1 hu
    (journaledR_grouped fuel extract fates S hS ht (fun _ _ _ _ _ _ => trivial) (fun _ _ _ _ _ _ => trivial)) trivial l
    (fun x hx => hl x (List.mem_append_left _ hx)) h).2
  exact (C93_session noIndex_only S1 S2 (Session.used hu h) (fun s => (hg s).unreadable .treeOfId) hr l'
    (fun x hx => hl x (List.mem_append_right _ hx)) h').1

/-! ## What a panic costs -/

section
variable {W : Nat → Type}

/-- Nothing but the plugin is at work when `n` is saved. -/
structure OnlyPlugin (S : Schema (PSigOf K T I B (Fated W))) (fuel : Nat) (extract : T → List I) (fates : Fates) : Prop where
  used : S.Used
  beforeSave : S.env.fire .beforeSave = []
  afterSave : S.env.fire .afterSave = [onSaveR]
  beforeDelete : S.env.fire .beforeDelete = []
  afterDelete : S.env.fire .afterDelete = [onDeleteR fuel]
  extractor : S.readings .extractor = some extract
  fates : S.readings (.other 0) = some fates

/-- C104: a panic in the extractor, in the id of the node or in its first clone ends the operation with that panic. Nothing is
stored or deleted, and the index, if it can be read, is as before. -/
theorem C104_outside_partial (S : Schema (PSigOf K T I B (Fated W))) (fuel : Nat) (extract : T → List I) (fates : Fates)
    (hS : OnlyPlugin S fuel extract fates) (k : Nat) (hk : fates 0 = some k) (h3 : k < 3) :
    (∀ n : T, ∃ fuel0 S1, (∀ f, fuel0 ≤ f → S.save f n = some (.panic, S1)) ∧ S1.guard = S.guard ∧
      S1.readings .treeOfId = S.readings .treeOfId) ∧
    ∀ (i : K) (n : T), S.guard.get i = some n → ∃ fuel0 S1, (∀ f, fuel0 ≤ f → S.delete f i = some (.panic, S1)) ∧ S1.guard = S.guard ∧
      S1.readings .treeOfId = S.readings .treeOfId := by
  have hs := used_sane hS.used
  refine ⟨fun n => ?_, fun i n hi => ?_⟩
  · obtain ⟨fuel0, S1, h1, h2, h4, _⟩ := save_one (H := fun _ => True) (onSaveR_confined trivial trivial trivial) S hs hS.beforeSave
      hS.afterSave n _ (fun look has => acts_early_save (n := n) hS.fates hS.extractor hk h3)
    exact ⟨fuel0, S1, h1, h4 rfl, by rw [h2]; exact afterFate_other (m := S.readings) (s := fates) (other_ne (.inr rfl))⟩
  · obtain ⟨fuel0, S1, h1, h2, h4, _⟩ := delete_one (H := fun _ => True) (onDeleteR_confined fuel trivial trivial trivial) S hs
      hS.beforeDelete hS.afterDelete i n hi _ (fun look has => acts_early_delete (n := n) fuel hS.fates hS.extractor hk h3)
    exact ⟨fuel0, S1, h1, h4 rfl, by rw [h2]; exact afterFate_other (m := S.readings) (s := fates) (other_ne (.inr rfl))⟩

/-- C104: saving a node calls user code a number of times, at least twice for each of its intervals, while the index is being changed.
A panic in any of these calls ends the save with that panic, nothing is stored, and the index is lost. If there is none, the
node is stored and its intervals are inserted. -/
theorem C104_save_loses (extract : T → List I) (n : T) (t : ITree (NodeInterval K I) B) :
    ∃ N, 2 * (extract n).length ≤ N ∧ ∀ (S : Schema (PSigOf K T I B (Fated W))) (fuel : Nat) (fates : Fates), OnlyPlugin S fuel extract fates →
      S.readings .treeOfId = some t →
      (∀ k, fates 0 = some (k + 3) → k < N → ∃ fuel0 S1, (∀ f, fuel0 ≤ f → S.save f n = some (.panic, S1)) ∧ S1.guard = S.guard ∧
        S1.readings .treeOfId = none) ∧
      ((∀ k, fates 0 = some k → N + 3 ≤ k) → ∃ fuel0 S1, (∀ f, fuel0 ≤ f → S.save f n = some (.ret (.ok ()), S1)) ∧
        S1.guard = (S.guard.insert n).1 ∧ S1.readings .treeOfId = some (insertEach (nodeIntervals extract n) t)) := by
  obtain ⟨N, h0, hN1, hN2⟩ := insertEachR_calls (nodeIntervals (K := K) extract n) t
  refine ⟨N, by simpa [nodeIntervals] using h0, fun S fuel fates hS ht => ⟨fun k hk hkN => ?_, fun hk => ?_⟩⟩
  · have hv := fun look has => (acts_save (look := look) (has := has) (n := n) hS.fates hS.extractor t ht
      (fun j hj => by rw [hk] at hj; cases hj; omega)).trans (if_pos ⟨k, hk, hN1 k hkN⟩)
    obtain ⟨fuel0, S1, h1, h2, h4, _⟩ := save_one (H := fun _ => True) (onSaveR_confined trivial trivial trivial) S
      (used_sane hS.used) hS.beforeSave hS.afterSave n _ hv
    exact ⟨fuel0, S1, h1, h4 rfl, by
      rw [h2]; exact put_self (σ := PSigOf K T I B (Fated W)) (m := afterFate S.readings fates) PTy.treeOfId _⟩
  · have hv := fun look has => (acts_save (look := look) (has := has) (n := n) hS.fates hS.extractor t ht
      (fun j hj => by have := hk j hj; omega)).trans (if_neg (by
        rintro ⟨k, e, hp⟩
        have := hk _ e
        rw [hN2 k (by omega)] at hp; cases hp))
    obtain ⟨fuel0, S1, h1, h2, _, h4⟩ := save_one (H := fun _ => True) (onSaveR_confined trivial trivial trivial) S
      (used_sane hS.used) hS.beforeSave hS.afterSave n _ hv
    exact ⟨fuel0, S1, h1, h4 _ rfl, by
      rw [h2]; exact put_self (σ := PSigOf K T I B (Fated W)) (m := afterFate S.readings fates) PTy.treeOfId _⟩

/-- C104: the same of deleting a node that has intervals, if the deletions return. -/
theorem C104_delete_loses (fuel : Nat) (extract : T → List I) (i : K) (n : T) (t t' : ITree (NodeInterval K I) B)
    (hd : deleteEach fuel (nodeIntervals extract n) t = some t') :
    ∃ N, (extract n ≠ [] → 0 < N) ∧ ∀ (S : Schema (PSigOf K T I B (Fated W))) (fates : Fates), OnlyPlugin S fuel extract fates →
      S.readings .treeOfId = some t → S.guard.get i = some n →
      (∀ k, fates 0 = some (k + 3) → k < N → ∃ fuel0 S1, (∀ f, fuel0 ≤ f → S.delete f i = some (.panic, S1)) ∧ S1.guard = S.guard ∧
        S1.readings .treeOfId = none) ∧
      ((∀ k, fates 0 = some k → N + 3 ≤ k) → ∃ fuel0 S1, (∀ f, fuel0 ≤ f → S.delete f i = some (.ret (.ok ()), S1)) ∧
        S1.guard = (S.guard.remove i).1 ∧ S1.readings .treeOfId = some t') := by
  obtain ⟨N, h0, hN1, hN2⟩ := deleteEachR_calls fuel (nodeIntervals (K := K) extract n) t
  refine ⟨N, fun h => h0 (by simpa [nodeIntervals] using h), fun S fates hS ht hi => ⟨fun k hk hkN => ?_, fun hk => ?_⟩⟩
  · obtain ⟨u, hu⟩ := hN1 k hkN
    have hv := fun look has => (acts_delete (look := look) (has := has) (n := n) fuel hS.fates hS.extractor t ht
      (fun j hj => by rw [hk] at hj; cases hj; omega)).trans (if_pos ⟨k, u, hk, hu⟩)
    obtain ⟨fuel0, S1, h1, h2, h4, _⟩ := delete_one (H := fun _ => True) (onDeleteR_confined fuel trivial trivial trivial) S
      (used_sane hS.used) hS.beforeDelete hS.afterDelete i n hi _ hv
    exact ⟨fuel0, S1, h1, h4 rfl, by
      rw [h2]; exact put_self (σ := PSigOf K T I B (Fated W)) (m := afterFate S.readings fates) PTy.treeOfId _⟩
  · have hv := fun look has => (acts_delete (look := look) (has := has) (n := n) fuel hS.fates hS.extractor t ht
      (fun j hj => by have := hk j hj; omega)).trans (if_neg (by
        rintro ⟨k, u, e, hp⟩
        have := hk _ e
        rw [hN2 k (by omega), hd] at hp; cases hp))
    rw [hd] at hv
    obtain ⟨fuel0, S1, h1, h2, _, h4⟩ := delete_one (H := fun _ => True) (onDeleteR_confined fuel trivial trivial trivial) S
      (used_sane hS.used) hS.beforeDelete hS.afterDelete i n hi _ hv
    exact ⟨fuel0, S1, h1, h4 _ rfl, by
      rw [h2]; exact put_self (σ := PSigOf K T I B (Fated W)) (m := afterFate S.readings fates) PTy.treeOfId _⟩

/-- C104: once the index is lost, saves and deletes in which user code does not panic succeed; only the log tells
(`C104_logged`). -/
theorem C104_silent (S : Schema (PSigOf K T I B (Fated W))) (fuel : Nat) (extract : T → List I) (fates : Fates)
    (hS : OnlyPlugin S fuel extract fates) (ht : S.readings .treeOfId = none) (hk : fates 0 = none) :
    (∀ n : T, ∃ fuel0 S1, (∀ f, fuel0 ≤ f → S.save f n = some (.ret (.ok ()), S1)) ∧ S1.guard = (S.guard.insert n).1 ∧
      S1.readings .treeOfId = none) ∧
    ∀ (i : K) (n : T), S.guard.get i = some n → ∃ fuel0 S1, (∀ f, fuel0 ≤ f → S.delete f i = some (.ret (.ok ()), S1)) ∧
      S1.guard = (S.guard.remove i).1 ∧ S1.readings .treeOfId = none := by
  have hs := used_sane hS.used
  have hk' : ∀ k, fates 0 = some k → 3 ≤ k := fun k e => by rw [hk] at e; cases e
  refine ⟨fun n => ?_, fun i n hi => ?_⟩
  · obtain ⟨fuel0, S1, h1, h2, _, h4⟩ := save_one (H := fun _ => True) (onSaveR_confined trivial trivial trivial) S hs hS.beforeSave
      hS.afterSave n _ (fun look has => acts_gone_save (n := n) hS.fates hS.extractor ht hk')
    exact ⟨fuel0, S1, h1, h4 _ rfl, by rw [h2]; exact (afterFate_other (m := S.readings) (s := fates) (other_ne (.inr rfl))).trans ht⟩
  · obtain ⟨fuel0, S1, h1, h2, _, h4⟩ := delete_one (H := fun _ => True) (onDeleteR_confined fuel trivial trivial trivial) S hs
      hS.beforeDelete hS.afterDelete i n hi _ (fun look has => acts_gone_delete (n := n) fuel hS.fates hS.extractor ht hk')
    exact ⟨fuel0, S1, h1, h4 _ rfl, by rw [h2]; exact (afterFate_other (m := S.readings) (s := fates) (other_ne (.inr rfl))).trans ht⟩

/-- C104: once the index, which was there, is lost, a save and a delete in which user code does not panic log one line saying that the resource cannot
be accessed, and nothing else (but for the line a poisoned graph gives). -/
theorem C104_logged (S : Schema (PSigOf K T I B (Fated W))) (fuel : Nat) (extract : T → List I) (fates : Fates)
    (hS : OnlyPlugin S fuel extract fates) (hk : fates 0 = none) (hreg : (S.env.resources.res .treeOfId).lock ≠ none)
    (ht : S.readings .treeOfId = none) :
    (∀ (n : T) ls, S.Logs [] (saveBody n) ls ↔ ls = S.guardLog ++ [.resource .treeOfId]) ∧
    ∀ (i : K) (n : T) ls, S.guard.get i = some n → (S.Logs [] (deleteBody i) ls ↔ ls = S.guardLog ++ [.resource .treeOfId]) := by
  have hs := used_sane hS.used
  obtain ⟨p, hp⟩ := Option.ne_none_iff_exists'.1 hreg
  have hlt : p < S.heap.length := hs.inHeap _ _ hp
  have hc := List.getElem?_eq_getElem hlt
  have hpo : S.heap[p].poisoned = true := by
    have hty := used_typed hS.used _ p hp _ hc
    have ht : (S.env.resources.res PTy.treeOfId).peek S.heap = none := ht
    simp only [Res.peek, hp, hc] at ht
    split at ht
    · assumption
    · rw [Dyn.downcast, dif_pos hty] at ht; cases ht
  have one : ∀ {body : Prog (PSigOf K T I B (Fated W))} {ls}, S.Logs [] body ls → ∀ ls', S.Logs [] body ls' ↔ ls' = ls := by
    rintro body ls ⟨inner, o, s, h1, h2, rfl⟩ ls'
    refine ⟨?_, fun e => e ▸ ⟨inner, o, s, h1, h2, rfl⟩⟩
    rintro ⟨inner', o', s', h1', _, rfl⟩
    obtain ⟨e1, e2⟩ := h1'.unique h1 (step_end _ _ _) (step_end _ _ _)
    cases e2
    rw [e1]
  have hber : ∀ n op, Bereft S.env (pushOp (setTarget (S.begin []) 0 n) 0 op) extract fates n := fun n op =>
    ⟨hs.own, hs.inHeap, rfl, hS.fates, hS.extractor, hk, fun excl => ⟨p, _, hp, rfl, hc, hpo⟩, rfl⟩
  refine ⟨fun n => one ?_, fun i n ls hi => one ?_ ls⟩
  · obtain ⟨s', hf, h⟩ := (hber n (.save n)).save
    refine ⟨[.resource .treeOfId], .ret (.ok ()), s', ?_, (by simp), ?_⟩
    · refine .quiet (c' := ⟨.run [0] _, [], setTarget (S.begin []) 0 n⟩) rfl (fun l h => by cases h) (fire_none hS.beforeSave _ _ _
        (.quiet (c := ⟨.run [0] (.targetRead 0 _), [], _⟩) (c' := ⟨.run [0] (.save 0 n saveAfter), [], setTarget (S.begin []) 0 n⟩) rfl (fun l h => ?_)
        (.quiet (c' := ⟨.run [0] saveAfter, [], pushOp (setTarget (S.begin []) 0 n) 0 (.save n)⟩) rfl (fun l h => by cases h)
        (fire_single (ls' := []) hS.afterSave _ _ h (.quiet rfl (fun l h => by cases h) (.refl _))))))
      cases h with
      | targetRead e hp =>
        obtain ⟨fr, l, e1, e2, e3⟩ := hp
        cases e; cases e1; cases e2; cases e3
    · unfold commitLog
      rw [hf]
      exact (List.append_nil _).symm
  · obtain ⟨s', hf, h⟩ := (hber n (.delete i)).delete fuel
    have hg : ctxGet (S.begin []).graph (S.begin []).frames 0 i = some n := by
      simp only [ctxGet, Schema.begin, List.getElem?_cons_zero, List.reverse_nil, List.find?_nil]; exact hi
    refine ⟨[.resource .treeOfId], .ret (.ok ()), s', ?_, (by simp), ?_⟩
    · refine .quiet (c' := ⟨.run [0] (.withTarget n (.runTriggers 0 .beforeDelete fun
        | .error e => .done (.error e)
        | .ok _ => .delete 0 i deleteAfter)), [], S.begin []⟩) ?_ (fun l h => ?_)
        (.quiet (c' := ⟨.run [0] _, [], setTarget (S.begin []) 0 n⟩) rfl (fun l h => by cases h) (fire_none hS.beforeDelete _ _ _
        (.quiet (c := ⟨.run [0] (.delete 0 i deleteAfter), [], _⟩) (c' := ⟨.run [0] deleteAfter, [], pushOp (setTarget (S.begin []) 0 n) 0 (.delete i)⟩) rfl (fun l h => by cases h)
        (fire_single (ls' := []) hS.afterDelete _ _ h (.quiet rfl (fun l h => by cases h) (.refl _))))))
      · simp only [Conf.step, deleteBody, List.getElem?_cons_zero, hg]
        refine congrArg (fun q => some (⟨.run [0] (.withTarget n (.runTriggers 0 .beforeDelete q)), [], S.begin []⟩ :
          Conf (PSigOf K T I B (Fated W)))) (funext fun x => ?_)
        cases x <;> rfl
      · generalize hc : (⟨.run [0] (deleteBody i), [], S.begin []⟩ : Conf (PSigOf K T I B (Fated W))) = c at h
        cases h with
        | missing h1 h2 =>
          injection hc with hc1 hc2 hc3
          injection hc1 with hc1 hc4
          injection hc4 with hc4 hc5
          subst hc1 hc3 hc5
          cases h1
          rw [hg] at h2; cases h2
        | _ => cases hc
    · unfold commitLog
      rw [hf]
      exact (List.append_nil _).symm

end

end

/-! ## Examples -/

/-- The plugin on an empty graph of nodes that are their own ids. The user code panics in the second operation, at the call given. -/
def shaken (call : Nat) : Schema (PSigOf LooseId LooseId Span Nat (Fated (Noted LooseId Span fun _ => Nat))) :=
  journaledR 20 looseSpans (fun n => if n = 1 then some call else none) (Schema.fromGraph Graph.empty)

/-- What operations one after the other give, with the nodes, the index and the journal after each. -/
def tries : List (LooseId × Bool) → Schema (PSigOf LooseId LooseId Span Nat (Fated (Noted LooseId Span fun _ => Nat))) →
    List (Out (Except Error Unit) × List LooseId × Option (List (NodeInterval LooseId Span)) × Option (List (IEvent (NodeInterval LooseId Span))))
  | [], _ => []
  | (n, del) :: l, S =>
    match if del then S.delete 30 n else S.save 30 n with
    | none => []
    | some (o, S') => (o, S'.guard.iter, ((S'.env.resources.res .treeOfId).peek S'.heap).map ITree.inorder,
        (S'.env.resources.res (.other 1)).peek S'.heap) :: tries l S'

set_option synthInstance.maxSize 1000 in
/-- The extractor panics: the save is lost, and nothing else. -/
example : tries [(⟨1, 5⟩, false), (⟨2, 8⟩, false), (⟨3, 9⟩, false)] (shaken 0) =
    [(.ret (.ok ()), [⟨1, 5⟩], some [⟨⟨1, 5⟩, 5, 5⟩], some [.insert ⟨⟨1, 5⟩, 5, 5⟩]),
     (.panic, [⟨1, 5⟩], some [⟨⟨1, 5⟩, 5, 5⟩], some [.insert ⟨⟨1, 5⟩, 5, 5⟩]),
     (.ret (.ok ()), [⟨1, 5⟩, ⟨3, 9⟩], some [⟨⟨1, 5⟩, 5, 5⟩, ⟨⟨3, 9⟩, 9, 9⟩],
       some [.insert ⟨⟨1, 5⟩, 5, 5⟩, .insert ⟨⟨3, 9⟩, 9, 9⟩])] := by decide +kernel

set_option synthInstance.maxSize 1000 in
/-- `hi` panics while the interval is being inserted: the index is lost, and the next save does not say so. -/
example : tries [(⟨1, 5⟩, false), (⟨2, 8⟩, false), (⟨3, 9⟩, false)] (shaken 4) =
    [(.ret (.ok ()), [⟨1, 5⟩], some [⟨⟨1, 5⟩, 5, 5⟩], some [.insert ⟨⟨1, 5⟩, 5, 5⟩]),
     (.panic, [⟨1, 5⟩], none, some [.insert ⟨⟨1, 5⟩, 5, 5⟩]),
     (.ret (.ok ()), [⟨1, 5⟩, ⟨3, 9⟩], none, some [.insert ⟨⟨1, 5⟩, 5, 5⟩, .insert ⟨⟨3, 9⟩, 9, 9⟩])] := by decide +kernel

set_option synthInstance.maxSize 1000 in
/-- The same while an interval is being deleted, at the comparison of the intervals. -/
example : (tries [(⟨1, 5⟩, false), (⟨1, 0⟩, true), (⟨1, 0⟩, true)] (shaken 4)).map (fun x => (x.1, x.2.1, x.2.2.1)) =
    [(.ret (.ok ()), [⟨1, 5⟩], some [⟨⟨1, 5⟩, 5, 5⟩]), (.panic, [⟨1, 5⟩], none), (.ret (.ok ()), [], none)] := by decide +kernel

set_option synthInstance.maxSize 1000 in
/-- Installed as it is published the plugin has no index of the kind its triggers use, so that there is none to be lost; and the other
stays empty. -/
example : let S := installR (W := fun _ => Nat) (B := Nat) false 20 looseSpans (fun n => if n = 0 then some 4 else none) (Schema.fromGraph Graph.empty)
    ((S.save 30 ⟨1, 5⟩).map fun y => (y.1, y.2.guard.iter)) = some (.ret (.ok ()), [⟨1, 5⟩]) ∧ S.readings .treeOfId = none ∧
      ((S.readings .treeOfNode).map fun t => t.inorder.length) = some 0 := by
  refine ⟨by decide +kernel, by decide +kernel, by decide +kernel⟩

/-- The schema after a save. -/
def saved (n : LooseId) (S : Schema (PSigOf LooseId LooseId Span Nat (Fated fun _ => Nat))) :
    Schema (PSigOf LooseId LooseId Span Nat (Fated fun _ => Nat)) := ((S.save 30 n).map Prod.snd).getD S

/-- The plugin alone, with user code that panics in the second operation. -/
def nervous : Schema (PSigOf LooseId LooseId Span Nat (Fated fun _ => Nat)) :=
  installR true 20 looseSpans (fun n => if n = 1 then some 4 else none) (Schema.fromGraph Graph.empty)

/-- `nervous` is a schema as in `C104_outside_partial` and the theorems after it. -/
example : OnlyPlugin nervous 20 looseSpans (fun n => if n = 1 then some 4 else none) :=
  ⟨Session.used (S := Schema.fromGraph Graph.empty) ⟨_, [], .empty, .nil _⟩ (.cons (.register ..) (.cons (.register ..) (.cons (.register ..)
    (.cons (.trigger ..) (.cons (.trigger ..) (.nil _)))))), rfl, rfl, rfl, rfl, rfl, rfl⟩

set_option synthInstance.maxSize 1000 in
/-- After its panic the schema is one as in `C104_logged`: the index was there and is lost. -/
example : ((saved ⟨2, 8⟩ (saved ⟨1, 5⟩ nervous)).env.resources.res .treeOfId).lock ≠ none ∧
    (saved ⟨2, 8⟩ (saved ⟨1, 5⟩ nervous)).readings .treeOfId = none := by
  refine ⟨by decide +kernel, by decide +kernel⟩

set_option synthInstance.maxSize 1000 in
/-- C104 is false: there are a save that stores a node and its interval, a second one in which user code panics, and a third one that
succeeds, after which the graph has the first and the third node, and the index of neither can be read. -/
theorem C104_refuted : ∃ (fates : Fates) (S S1 S2 S3 : Schema (PSigOf LooseId LooseId Span Nat (Fated fun _ => Nat)))
    (t : ITree (NodeInterval LooseId Span) Nat), S = installR true 20 looseSpans fates (Schema.fromGraph Graph.empty) ∧
    (∀ n, n ≠ 1 → fates n = none) ∧
    S.save 30 ⟨1, 5⟩ = some (.ret (.ok ()), S1) ∧ S1.readings .treeOfId = some t ∧ t.inorder = [⟨⟨1, 5⟩, 5, 5⟩] ∧
    S1.save 30 ⟨2, 8⟩ = some (.panic, S2) ∧ S2.guard.iter = [⟨1, 5⟩] ∧ S2.readings .treeOfId = none ∧
    S2.save 30 ⟨3, 9⟩ = some (.ret (.ok ()), S3) ∧ S3.guard.iter = [⟨1, 5⟩, ⟨3, 9⟩] ∧ S3.readings .treeOfId = none := by
  have step : ∀ (S : Schema (PSigOf LooseId LooseId Span Nat (Fated fun _ => Nat))) (n : LooseId) (o : Out (Except Error Unit)),
      (S.save 30 n).map Prod.fst = some o → S.save 30 n = some (o, saved n S) := by
    intro S n o h
    unfold saved
    cases hx : S.save 30 n with
    | none => rw [hx] at h; cases h
    | some r => rw [hx] at h; cases h; rfl
  refine ⟨fun n => if n = 1 then some 4 else none, nervous, saved ⟨1, 5⟩ nervous, saved ⟨2, 8⟩ (saved ⟨1, 5⟩ nervous),
    saved ⟨3, 9⟩ (saved ⟨2, 8⟩ (saved ⟨1, 5⟩ nervous)), .node ⟨⟨1, 5⟩, 5, 5⟩ 5 .nil .nil, rfl, fun n h => if_neg h, ?_⟩
  refine ⟨step _ _ _ (by decide +kernel), by decide +kernel, by decide +kernel, step _ _ _ (by decide +kernel), by decide +kernel,
    by decide +kernel, step _ _ _ (by decide +kernel), by decide +kernel, by decide +kernel⟩

end Plotline
