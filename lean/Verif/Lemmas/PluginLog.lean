import Verif.Lemmas.PluginPanics
import Verif.Lemmas.Log
import Verif.Lemmas.Alike

/-! # What the triggers of the interval plugin log -/

namespace Plotline

open Std

set_option linter.unusedSectionVars false

theorem Conf.Talk.trans {σ : Sig} {E : Env σ} {c d e : Conf σ} {ls ls' : List (LogLine σ)} (h : Conf.Talk E c ls d)
    (h' : Conf.Talk E d ls' e) : Conf.Talk E c (ls ++ ls') e := by
  induction h with
  | refl => exact h'
  | quiet h1 h2 _ ih => exact .quiet h1 h2 (ih h')
  | line h1 h2 _ ih => exact .line h1 h2 (ih h')

/-- No triggers run, and nothing is logged. -/
theorem fire_none {σ : Sig} {E : Env σ} {s : Sched} (h : E.fire s = []) (k : Except Error Unit → Prog σ) (st : St σ) (Ks : List (Kont σ))
    {ls : List (LogLine σ)} {d : Conf σ} (ht : Conf.Talk E ⟨.run [0] (k (.ok ())), Ks, st⟩ ls d) :
    Conf.Talk E ⟨.run [0] (.runTriggers 0 s k), Ks, st⟩ ls d := by
  refine .quiet ?_ (fun l h => by cases h) ht
  unfold Env.fire at h
  simp only [Conf.step, List.getElem?_cons_zero]
  cases hs : E.triggers.select s with
  | none => rfl
  | some l => rw [hs] at h; cases (show l = [] from h); rfl

/-- One trigger runs and returns `Ok`; what it logs is logged. -/
theorem fire_single {σ : Sig} {E : Env σ} {s : Sched} {p : Prog σ} (h : E.fire s = [p]) (k : Except Error Unit → Prog σ) {st st' : St σ}
    (Ks : List (Kont σ)) {ls ls' : List (LogLine σ)} {d : Conf σ} {v : σ.V}
    (hp : ∀ Ks, Conf.Talk E ⟨.run [0] p, Ks, st⟩ ls ⟨.back (.ret (.ok v)), Ks, st'⟩)
    (ht : Conf.Talk E ⟨.run [0] (k (.ok ())), Ks, st'⟩ ls' d) :
    Conf.Talk E ⟨.run [0] (.runTriggers 0 s k), Ks, st⟩ (ls ++ ls') d := by
  refine .quiet (c' := ⟨.run [0] p, .triggers 0 [] [0] k :: Ks, st⟩) ?_ (fun l h => by cases h)
    ((hp _).trans (.quiet rfl (fun l h => by cases h) ht))
  unfold Env.fire at h
  simp only [Conf.step, List.getElem?_cons_zero]
  cases hs : E.triggers.select s with
  | none => rw [hs] at h; cases h
  | some l => rw [hs] at h; cases (show l = [p] from h); rfl

theorem step_resWrite_some {σ : Sig} {E : Env σ} {env : List Nat} {t : σ.Ty} {fn : σ.Val t → σ.Val t × Bool} {k : Bool → Prog σ}
    {Ks : List (Kont σ)} {s : St σ} {v : σ.Val t} {q : Nat} (hb : s.resBlocks E t true = false)
    (hv : (E.resources.res t).peek s.heap = some v) (hq : (E.resources.res t).lock = some q) (hf : (fn v).2 = false) :
    Conf.step E ⟨.run env (.resWrite t fn k), Ks, s⟩ = some ⟨.run env (k true), Ks, { s with heap := s.heap.set q ⟨⟨t, (fn v).1⟩, false⟩ }⟩ := by
  simp only [Conf.step, hb]
  rw [if_neg (by simp), withMut_peek, hv, hq]
  simp only [hf, Bool.false_eq_true, if_false]
  rfl

theorem step_resWrite_none {σ : Sig} {E : Env σ} {env : List Nat} {t : σ.Ty} {fn : σ.Val t → σ.Val t × Bool} {k : Bool → Prog σ}
    {Ks : List (Kont σ)} {s : St σ} (hb : s.resBlocks E t true = false) (hv : (E.resources.res t).peek s.heap = none) :
    Conf.step E ⟨.run env (.resWrite t fn k), Ks, s⟩ = some ⟨.run env (k false), Ks, s⟩ := by
  simp only [Conf.step, hb]
  rw [if_neg (by simp), withMut_peek, hv]

/-- In a used schema a resource is stored under its own type. -/
theorem used_typed {σ : Sig} [LawfulSig σ] {S : Schema σ} (h : S.Used) : S.env.Typed S.heap := by
  obtain ⟨g, l, hg, hl⟩ := h
  have go : ∀ {S S' : Schema σ} {l : List (Use σ × Seen σ)}, Session S l S' → Sane S → S.env.Typed S.heap → S'.env.Typed S'.heap := by
    intro S S' l h
    induction h with
    | nil => exact fun _ h => h
    | @cons S S1 S2 u a l h1 _ ih =>
      intro hS ht
      refine ih (sane_gives hS h1) ?_
      cases h1 with
      | register t v =>
        intro u p hu cell hc
        rw [lock_withResource hS.resources] at hu
        have hc : (S.heap ++ [⟨⟨t, v⟩, false⟩])[p]? = some cell := hc
        split at hu
        · rename_i e
          cases hu
          rw [List.getElem?_concat_length] at hc
          cases hc; exact e.symm
        · rw [List.getElem?_append_left (hS.inHeap u p hu)] at hc
          exact ht u p hu cell hc
      | trigger s p => exact ht
      | tx he hne =>
        obtain ⟨s, he, henv, hheap, _⟩ := transact_some he
        rw [henv, hheap]
        exact eval_typed hS.own he ht
      | update op => exact ht
      | get i => exact ht
      | iter => exact ht
      | read t => exact ht
      | write t f =>
        intro u p hu cell hc
        dsimp only at hu hc
        rw [withMut_peek] at hc
        split at hc
        · rename_i v q _ hq
          by_cases e : q = p
          · subst e
            have := hS.own t u q (by assumption) hu
            subst this
            rw [List.getElem?_set_self (hS.inHeap _ _ hu)] at hc
            cases hc; rfl
          · rw [List.getElem?_set_ne e] at hc
            exact ht u p hu cell hc
        · exact ht u p hu cell hc
  refine go hl ⟨hg.valid, List.Pairwise.nil, List.Pairwise.nil, fun t u p h => ?_, fun t p h => ?_⟩ (fun t p h => ?_)
  · cases h
  · cases h
  · cases h

section
variable {K T I B : Type} {W : Nat → Type} [Ord K] [BEq K] [Identify T K] [Ord B] [BEq I] [Interval I B]

/-- Calling up the next entry of the stream logs nothing. -/
theorem nextFate_quiet {E : Env (PSigOf K T I B (Fated W))} {s : St (PSigOf K T I B (Fated W))} (hl : s.locks = [])
    {fates : Fates} (hf : s.readings E (.other 0) = some fates) :
    ∃ q cell', (E.resources.res (.other 0)).lock = some q ∧ ∀ (k : Option Nat → Prog (PSigOf K T I B (Fated W))) (f : Nat) (Ks ls d),
      Conf.Talk E ⟨.run [f] (k (fates 0)), Ks, { s with heap := s.heap.set q cell' }⟩ ls d → Conf.Talk E ⟨.run [f] (nextFate k), Ks, s⟩ ls d := by
  have hf' : (E.resources.res (PTy.other 0)).peek s.heap = some fates := hf
  obtain ⟨q, hq⟩ := peek_lock hf'
  have hp : ∀ excl, ¬ s.resPoisoned E (.other 0) excl := by
    rintro excl ⟨p, cell, h1, _, h3, h4⟩
    simp only [Res.peek, h1, h3, h4, if_true] at hf'
    cases hf'
  have hb : ∀ excl, s.resBlocks E (.other 0) excl = false := by
    intro excl; simp only [St.resBlocks, hq, St.blocks, hl, List.any_nil]
  refine ⟨q, ⟨⟨PTy.other 0, (fun n => fates (n + 1) : Fates)⟩, false⟩, hq, fun k f Ks ls d h => ?_⟩
  refine .quiet (c' := ⟨.run [f] (.resWrite (PTy.other 0) (fun (s : Fates) => (fun n => s (n + 1), false)) fun _ => k (fates 0)), Ks, s⟩) ?_
    (fun l h => ?_) (.quiet ?_ (fun l h => ?_) h)
  · simp only [nextFate, Conf.step, hb]
    rw [if_neg (by simp)]
    rw [hf']
  · cases h with
    | resRead h => exact hp _ h
  · exact step_resWrite_some (hb _) hf' hq rfl
  · cases h with
    | resWrite h => exact hp _ h

/-- What the triggers of the plugin find when the index is lost: the node, the extractor, and a poisoned tree. -/
structure Bereft (E : Env (PSigOf K T I B (Fated W))) (s : St (PSigOf K T I B (Fated W))) (extract : T → List I) (fates : Fates) (n : T) :
    Prop where
  own : E.OwnCells
  inHeap : InHeap E s.heap
  locks : s.locks = []
  stream : s.readings E (.other 0) = some fates
  extractor : s.readings E .extractor = some extract
  calm : fates 0 = none
  tree : ∀ excl, s.resPoisoned E .treeOfId excl
  target : readTarget s 0 = some n

theorem Bereft.begins {E : Env (PSigOf K T I B (Fated W))} {s : St (PSigOf K T I B (Fated W))} {extract : T → List I} {fates : Fates}
    {n : T} (h : Bereft E s extract fates n) : ∃ s' : St (PSigOf K T I B (Fated W)), s'.frames = s.frames ∧ (∀ excl, s'.resPoisoned E .treeOfId excl) ∧
      s'.resBlocks E .treeOfId false = false ∧ s'.resBlocks E .treeOfId true = false ∧ (E.resources.res .treeOfId).peek s'.heap = none ∧
      ∀ (k : Option (List (NodeInterval K I)) → Option Nat → Prog (PSigOf K T I B (Fated W))) (Ks ls d),
        Conf.Talk E ⟨.run [0] (k (some (nodeIntervals extract n)) none), Ks, s'⟩ ls d → Conf.Talk E ⟨.run [0] (withIntervalsR k), Ks, s⟩ ls d := by
  obtain ⟨q, cell, hq, hn⟩ := nextFate_quiet h.locks h.stream
  obtain ⟨p, c0, h1, _, h3, h4⟩ := h.tree true
  have hpq : p ≠ q := fun e => by
    subst e
    have := h.own _ _ _ h1 hq
    cases this
  have hex : (E.resources.res PTy.extractor).peek (s.heap.set q cell) = some extract := by
    have := h.extractor
    obtain ⟨q', hq'⟩ := peek_lock this
    have hne : q ≠ q' := fun e => by
      subst e
      have := h.own _ _ _ hq' hq
      cases this
    unfold St.readings at this
    unfold Res.peek at this ⊢
    rw [hq'] at this ⊢
    dsimp only at this ⊢
    rw [List.getElem?_set_ne hne]
    exact this
  have htree : ∀ excl, ({ s with heap := s.heap.set q cell } : St (PSigOf K T I B (Fated W))).resPoisoned E .treeOfId excl := fun excl =>
    ⟨p, c0, h1, by simp [St.blocks, h.locks], by show (s.heap.set q cell)[p]? = _; rw [List.getElem?_set_ne (Ne.symm hpq)]; exact h3, h4⟩
  have hfree : ∀ t excl, ({ s with heap := s.heap.set q cell } : St (PSigOf K T I B (Fated W))).resBlocks E t excl = false := by
    intro t excl
    unfold St.resBlocks
    split
    · rfl
    · simp [St.blocks, h.locks]
  refine ⟨{ s with heap := s.heap.set q cell }, rfl, htree, hfree _ _, hfree _ _, ?_, fun k Ks ls d ht => ?_⟩
  · obtain ⟨p', c', h1', _, h3', h4'⟩ := htree true
    unfold Res.peek
    rw [h1']
    dsimp only at h3' ⊢
    rw [h3']
    dsimp only
    rw [h4', if_pos rfl]
  · refine hn _ _ _ _ _ ?_
    rw [h.calm]
    refine .quiet (c' := ⟨.run [0] (.resRead PTy.extractor fun
      | none => k none none
      | some extract => k (some (nodeIntervals extract n)) none), Ks, { s with heap := s.heap.set q cell }⟩) ?_ (fun l hl => ?_)
      (.quiet (c' := ⟨.run [0] (k (some (nodeIntervals extract n)) none), Ks, { s with heap := s.heap.set q cell }⟩) ?_ (fun l hl => ?_) ht)
    · simp only [Conf.step, List.getElem?_cons_zero]
      rw [show readTarget ({ s with heap := s.heap.set q cell } : St (PSigOf K T I B (Fated W))) 0 = some n from h.target]
      rfl
    · cases hl with
      | targetRead e hp =>
        obtain ⟨fr, l, e1, e2, e3⟩ := hp
        cases e
        have := h.target
        dsimp only at e1
        simp only [readTarget, e1, e2, e3] at this
        simp at this
    · simp only [Conf.step]
      rw [hfree, if_neg (by simp), hex]
    · cases hl with
      | resRead hp =>
        obtain ⟨p', c', e1, _, e3, e4⟩ := hp
        unfold Res.peek at hex
        rw [e1] at hex
        dsimp only at e3 hex
        rw [e3] at hex
        dsimp only at hex
        rw [e4, if_pos rfl] at hex
        cases hex

theorem Bereft.save {E : Env (PSigOf K T I B (Fated W))} {s : St (PSigOf K T I B (Fated W))} {extract : T → List I} {fates : Fates}
    {n : T} (h : Bereft E s extract fates n) : ∃ s' : St (PSigOf K T I B (Fated W)), s'.frames = s.frames ∧ ∀ Ks,
      Conf.Talk E ⟨.run [0] onSaveR, Ks, s⟩ [.resource .treeOfId] ⟨.back (.ret (.ok ())), Ks, s'⟩ := by
  obtain ⟨s', h1, h2, _, h4, h5, h6⟩ := h.begins
  refine ⟨s', h1, fun Ks => h6 _ _ _ _ (.line (c' := ⟨.run [0] (.done (.ok ())), Ks, s'⟩) ?_ (.resWrite (h2 true))
    (.quiet rfl (fun l h => by cases h) (.refl _)))⟩
  exact step_resWrite_none h4 h5

theorem Bereft.delete {E : Env (PSigOf K T I B (Fated W))} {s : St (PSigOf K T I B (Fated W))} {extract : T → List I} {fates : Fates}
    {n : T} (h : Bereft E s extract fates n) (fuel : Nat) : ∃ s' : St (PSigOf K T I B (Fated W)), s'.frames = s.frames ∧ ∀ Ks,
      Conf.Talk E ⟨.run [0] (onDeleteR fuel), Ks, s⟩ [.resource .treeOfId] ⟨.back (.ret (.ok ())), Ks, s'⟩ := by
  obtain ⟨s', h1, h2, h3, _, h5, h6⟩ := h.begins
  refine ⟨s', h1, fun Ks => h6 _ _ _ _ (.line (c' := ⟨.run [0] (.done (.ok ())), Ks, s'⟩) ?_ (.resRead (h2 false))
    (.quiet rfl (fun l h => by cases h) (.refl _)))⟩
  simp only [Conf.step]
  rw [h3, if_neg (by simp), h5]

end

end Plotline
