import Verif.Lemmas.Library
import Verif.Props.App

/-! # Property C103: documents in a schema and the repository behind them -/

namespace Plotline

open Std

variable {β : Sig} [LawfulSig β] {g : Graph β.K (lazySig β).T} {r : β.K → Option β.T} {h : List (LibCall β)} {b b' : Library β}

/-- The document under an id by what happened before: as it was put there, with what was found first when it was loaded there since. -/
noncomputable def documentAt (g : Graph β.K (lazySig β).T) (r : β.K → Option β.T) (h : List (LibCall β)) (i : β.K) :
    Option (LazyDocument β.K β.T) :=
  (putLast g h i).map fun p => ⟨p.document_id, p.document.or (firstFound g r h i)⟩

/-- C103: `get` through any guard returns the document that was put under the id last, as it was then; with what the repository found
when it was first loaded since by iterating, if it was put without content. -/
theorem C103_get (hg : g.Reachable) (hl : LibLegal g r h b) (n : Nat) (i : β.K) (y : LibAnswer β)
    (hs : b.step (.app (.guardGet n i)) = some (y, b')) : y = .app (.node (documentAt g r h i)) := by
  have hI := hl.inv hg
  obtain ⟨_, q, a, hq, rfl, rfl⟩ := step_app hs
  have := C78_get hg hI.legal n i q hq
  rw [this, hI.stored]; rfl

/-- C103: `get` through a context returns that, unless the transaction or one around it wrote the id. -/
theorem C103_tx_get (hg : g.Reachable) (hl : LibLegal g r h b) (x c : Nat) (i : β.K) (y : LibAnswer β)
    (hs : b.step (.app (.inTx x (.get c i))) = some (y, b')) :
    ∃ t v, txOf (callsOf x (outerCalls h)) c = some t ∧ y = .app (.node v) ∧
      ∀ v', Sees (documentAt g r h i) (callsOf x (outerCalls h)) i t v' ↔ v' = v := by
  have hI := hl.inv hg
  obtain ⟨_, q, a, hq, rfl, rfl⟩ := step_app hs
  obtain ⟨t, v, h1, rfl, h2⟩ := C78_tx_get hg hI.legal x c i q hq
  have hsc := full_outer r h x
  refine ⟨t, v, by rw [← hsc.txOf]; exact h1, rfl, fun v' => ?_⟩
  rw [← hsc.sees, ← h2 v', hI.stored]; rfl

/-- C103: loading the document under an id by iterating over a guard gives its content if it has any, without asking the repository;
otherwise the repository is asked, for the id the document was put with, and what it answers is given. -/
theorem C103_load (hg : g.Reachable) (hl : LibLegal g r h b) (n : Nat) (i : β.K) (y : LibAnswer β)
    (hs : b.step (.load n i) = some (y, b')) :
    (documentAt g r h i = none ∧ y = .missing ∧ b'.asked = b.asked) ∨
    ∃ l, documentAt g r h i = some l ∧ y = .doc (l.document.or (repoNow r h l.document_id)) ∧
      b'.asked = b.asked ++ if l.document.isSome then [] else [l.document_id] := by
  have hI := hl.inv hg
  have hst : b.app.schema.guard.get i = documentAt g r h i := by
    rw [schema_guard, (hI.legal.gInv hg).stored, hI.stored]; rfl
  simp only [Library.step] at hs
  split at hs
  · cases hs
  · split at hs
    · rename_i hn
      cases hs
      exact .inl ⟨hst ▸ hn, rfl, rfl⟩
    · rename_i l hn
      cases hs
      refine .inr ⟨l, hst ▸ hn, ?_, ?_⟩
      · rw [tryDeref_eq, hI.repo]
      · rw [tryDeref_eq]

theorem firstFound_stays {g : Graph β.K (lazySig β).T} {r : β.K → Option β.T} {h : List (LibCall β)} {i : β.K} {d : β.T}
    (hd : firstFound g r h i = some d) {h' : List (LibCall β)}
    (hp : ∀ s x t, h' = s ++ .app x :: t → ¬ Puts (outerCalls (t ++ h)) i x) : firstFound g r (h' ++ h) i = some d := by
  induction h' with
  | nil => exact hd
  | cons x h' ih =>
    have ih := ih fun s x' t he => hp (x :: s) x' t (by rw [he]; rfl)
    cases x with
    | repo r' => exact ih
    | app x => exact (if_neg (hp [] x h' rfl)).trans ih
    | load n j =>
      simp only [List.cons_append, firstFound]
      split
      · rw [ih]; rfl
      · exact ih
    | loadTarget x j => exact ih
    | loadOwn k => exact ih

theorem outerCalls_append (h' h : List (LibCall β)) : outerCalls (h' ++ h) = outerCalls h' ++ outerCalls h := by
  induction h' with
  | nil => rfl
  | cons x h' ih => cases x <;> simp [outerCalls, ih]

theorem putLast_stays (hg : g.Reachable) {i : β.K} {h' : List (LibCall β)} (hl : LibLegal g r (h' ++ h) b)
    (hp : ∀ s x t, h' = s ++ .app x :: t → ¬ Puts (outerCalls (t ++ h)) i x) : putLast g (h' ++ h) i = putLast g h i := by
  induction h' generalizing b with
  | nil => rfl
  | cons x h' ih =>
    have hnt := (hl.inv hg).noTouch
    cases hl with
    | call hl hs hy =>
      have ih := ih hl fun s x' t he => hp (x :: s) x' t (by rw [he]; rfl)
      cases x with
      | app x =>
        show storedAt (σ := lazySig β) g (x :: outerCalls (h' ++ h)) i = _
        rw [storedAt_unput (hnt x (by simp)) (hp [] x h' rfl)]
        exact ih
      | _ => exact ih

/-- C103: a document that was loaded once by iterating is not asked for again by iterating, through whatever guard, for as long as nothing
is put under its id: the same document is given, whatever the repository has by then. -/
theorem C103_once_partial (hg : g.Reachable) (hl : LibLegal g r h b) (n : Nat) (i j : β.K) (d : β.T) (hij : (j == i) = true)
    (hs : b.step (.load n j) = some (.doc (some d), b')) (h' : List (LibCall β)) (b1 b2 : Library β)
    (hl1 : LibLegal g r (h' ++ .load n j :: h) b1)
    (hp : ∀ s x t, h' = s ++ .app x :: t → ¬ Puts (outerCalls (t ++ .load n j :: h)) i x) (m : Nat) (y : LibAnswer β)
    (hs1 : b1.step (.load m i) = some (y, b2)) : y = .doc (some d) ∧ b2.asked = b1.asked := by
  have hst : documentAt g r h j = documentAt g r h i := by
    have hI := hl.inv hg
    have e : ∀ k, documentAt g r h k = b.app.schema.graph.get k := fun k => by
      rw [(hI.legal.gInv hg).stored, hI.stored]; rfl
    rw [e, e]; exact Graph.get_congr (K := (lazySig β).K) _ hij
  have hd : ∃ p, putLast g h i = some p ∧ p.document.or (firstFound g r (.load n j :: h) i) = some d := by
    rcases C103_load hg hl n j _ hs with ⟨_, h2, _⟩ | ⟨l, h1, h2, _⟩
    · cases h2
    · rw [hst] at h1
      obtain ⟨p, hp, rfl⟩ := Option.map_eq_some_iff.1 h1
      refine ⟨p, hp, ?_⟩
      simp only [firstFound]
      rw [if_pos hij, ← Option.or_assoc]
      simp only [LibAnswer.doc.injEq] at h2
      simp only [hp, Option.bind_some]
      exact h2.symm
  obtain ⟨p, hp1, hd⟩ := hd
  have hput : putLast g (h' ++ .load n j :: h) i = some p := (putLast_stays hg hl1 hp).trans hp1
  have hdoc : p.document.or (firstFound g r (h' ++ .load n j :: h) i) = some d := by
    cases hpd : p.document with
    | some d' => rw [hpd] at hd; exact hd
    | none => rw [hpd] at hd; simp only [Option.none_or] at hd ⊢; exact firstFound_stays hd hp
  rcases C103_load hg hl1 m i y hs1 with ⟨h1, _, _⟩ | ⟨l, h1, h2, h3⟩
  · simp [documentAt, hput] at h1
  · simp only [documentAt, hput, Option.map_some, Option.some.injEq] at h1
    subst h1
    simp only [hdoc] at h2 h3
    exact ⟨h2, by simpa using h3⟩

/-- C103: loading a target in a closure gives the content the target has, or else what the repository answers. -/
theorem C103_target (hg : g.Reachable) (hl : LibLegal g r h b) (x j : Nat) (y : LibAnswer β)
    (hs : b.step (.loadTarget x j) = some (y, b')) :
    ∃ p e l, (targetsInUse (callsOf x (fullCalls r h)))[j]? = some (p, e) ∧ targetVal (callsOf x (fullCalls r h)) p = some l ∧
      y = .doc (l.document.or (repoNow r h l.document_id)) ∧
      b'.asked = b.asked ++ if l.document.isSome then [] else [l.document_id] := by
  have hI := hl.inv hg
  simp only [Library.step] at hs
  split at hs
  · rename_i q a l hq ht
    cases hs
    simp only [App.target, Option.bind_eq_bind, Option.bind_eq_some_iff, Option.pure_def, Option.some.injEq] at ht
    obtain ⟨⟨wo, st⟩, h1, w, h2, ⟨p, e⟩, h3, k, h4, h5⟩ := ht
    simp only at h2 h4
    subst h2
    obtain ⟨_, _, g', hw, _⟩ := (hI.legal.gInv hg).world x w st h1
    have hT := hw.targets
    have hv := hT.cell p k h4
    refine ⟨p, e, l, by rw [← hT.guards]; exact h3, ?_, ?_, ?_⟩
    · obtain ⟨c, hc1, hc2⟩ := hw.use.whole _ (List.mem_of_getElem? h3)
      rw [h4] at hc1
      cases hc1
      rw [hv, hc2, ← h5]; rfl
    · rw [tryDeref_eq, hI.repo]
    · rw [tryDeref_eq]
  · cases hs

theorem full_usable (r : β.K → Option β.T) (h : List (LibCall β)) (n : Nat) (e : Bool) :
    GuardUsable (fullCalls r h) n e ↔ GuardUsable (outerCalls h) n e := by
  induction h with
  | nil => exact Iff.rfl
  | cons x h ih =>
    cases x with
    | app x => cases x <;> simp only [fullCalls, outerCalls, GuardUsable, ih]
    | _ => simp only [fullCalls, outerCalls, GuardUsable, ih]

/-- C103: a document that has no content in the graph is asked for again and again by those who `get` it, though the repository finds it
every time: of what is found nothing remains in the schema. -/
theorem C103_asked_again (hg : g.Reachable) (hl : LibLegal g r h b) (n : Nat) (e : Bool) (hn : GuardUsable (outerCalls h) n e) (i : β.K)
    (p : LazyDocument β.K β.T) (hp : documentAt g r h i = some p) (hu : p.document = none) (m : Nat) :
    ∃ h' b', LibLegal g r (h' ++ h) b' ∧ (∀ x ∈ h', x = .app (.guardGet n i) ∨ ∃ k, x = .loadOwn k) ∧
      b'.asked = b.asked ++ List.replicate m p.document_id ∧ documentAt g r (h' ++ h) i = some p := by
  induction m generalizing h b with
  | zero => exact ⟨[], b, hl, by simp, by simp, hp⟩
  | succ m ih =>
    have hI := hl.inv hg
    obtain ⟨q, a, hq⟩ := (C79_possible hg hI.legal (.guardGet n i)).2 ⟨e, (full_usable r h n e).2 hn⟩
    have hs : b.step (.app (.guardGet n i)) = some (.app q, { b with app := a, own := b.own ++ q.owned }) := by
      simp only [Library.step, AppCall.touches, Bool.false_eq_true, if_false]
      rw [hq]; rfl
    have hq' := C103_get hg hl n i _ hs
    simp only [LibAnswer.app.injEq] at hq'
    have hl1 : LibLegal g r (.app (.guardGet n i) :: h) _ := .call hl hs (by rw [hq']; simp)
    rw [hq', hp] at hl1
    have hs2 := congrArg (fun o => o.map fun l : LazyDocument β.K β.T => l.tryDeref b.repo)
      (List.getElem?_concat_length (l := b.own) (a := p))
    have hl2 : LibLegal g r (.loadOwn b.own.length :: .app (.guardGet n i) :: h)
        { b with
          app := a
          own := (b.own ++ [p]).set b.own.length (p.tryDeref b.repo).2.1
          asked := b.asked ++ (p.tryDeref b.repo).2.2 } := by
      refine .call (y := .doc (p.tryDeref b.repo).1) hl1 ?_ (by simp)
      simp [Library.step, AppAnswer.owned]
    have hd : documentAt g r (.loadOwn b.own.length :: .app (.guardGet n i) :: h) i = some p := by
      rw [← hp]
      simp [documentAt, putLast, outerCalls, firstFound, Puts, storedAt]
    obtain ⟨h', b2, h1, h2, h3, h4⟩ := ih hl2 hn hd
    refine ⟨h' ++ [.loadOwn b.own.length, .app (.guardGet n i)], b2, by simpa using h1, ?_, ?_, by simpa using h4⟩
    · intro x hx
      rcases List.mem_append.1 hx with hx | hx
      · exact h2 x hx
      · simp only [List.mem_cons, List.not_mem_nil, or_false] at hx
        rcases hx with rfl | rfl
        · exact .inr ⟨_, rfl⟩
        · exact .inl rfl
    · rw [h3, tryDeref_eq, hu, List.append_assoc, List.replicate_succ]
      rfl

/-- Two documents, the first not loaded. -/
def shelf : Graph demo.K (lazySig demo).T := Graph.fromIter (T := LazyDocument Nat Doc) [⟨1, none⟩, ⟨2, some ⟨2, 20⟩⟩]

/-- A repository that has everything. -/
def finds : demo.K → Option demo.T := fun i => some ⟨i, 10⟩

/-- C103: false of the code: while nothing is put under an id and the repository always finds the same, it may be asked for the id any
number of times. -/
theorem C103_refuted (m : Nat) : ∃ (h : List (LibCall demo)) (b : Library demo),
    LibLegal shelf finds h b ∧ (∀ x, .app x ∈ h → ∀ h', ¬ Puts (σ := lazySig demo) h' (1 : Nat) x) ∧ (∀ r, .repo r ∉ h) ∧ b.asked = List.replicate m (1 : Nat) := by
  have hl : LibLegal (β := demo) shelf finds [.app (.read 0)] _ := .call .start rfl (by simp)
  have hf : firstFound shelf finds [.app (.read 0)] (1 : Nat) = none := if_neg fun h => h
  obtain ⟨h', b', h1, h2, h3, _⟩ := C103_asked_again (show shelf.Reachable from .fromIter _) hl 0 false (.inl ⟨rfl, rfl⟩) (1 : Nat) ⟨(1 : Nat), none⟩
    (by unfold documentAt; rw [hf]; rfl) rfl m
  refine ⟨_, b', h1, fun x hx h' => ?_, fun r hr => ?_, h3⟩
  · rcases List.mem_append.1 hx with hx | hx
    · rcases h2 _ hx with h4 | ⟨k, h4⟩
      · cases h4; exact fun h => h
      · cases h4
    · simp only [List.mem_cons, LibCall.app.injEq, List.not_mem_nil, or_false] at hx
      subst hx; exact fun h => h
  · rcases List.mem_append.1 hr with hr | hr
    · rcases h2 _ hr with h4 | ⟨k, h4⟩ <;> cases h4
    · simp at hr

/-- What is answered, but for calls that return nothing. -/
def told (xs : List (LibCall demo)) : Option (List (Option (Option Doc)) × List Nat) :=
  ((Library.start shelf finds).calls xs).map fun q => (q.1.filterMap fun
    | .doc d => some (some d)
    | .app (.node n) => some (n.bind (·.document) |> some)
    | .missing => some none
    | .app _ => none, q.2.asked)

-- loaded by `get` twice, and then by iterating: asked for three times, and then no more, although the repository has changed
example : told [.app (.read 0), .app (.guardGet 0 1), .loadOwn 0, .app (.guardGet 0 1), .loadOwn 1, .loadOwn 1, .load 0 1,
    .repo (fun _ => none), .load 0 1, .app (.guardGet 0 1), .loadOwn 2, .load 0 2, .load 0 3] =
    some ([some none, some (some ⟨1, 10⟩), some none, some (some ⟨1, 10⟩), some (some ⟨1, 10⟩), some (some ⟨1, 10⟩),
      some (some ⟨1, 10⟩), some (some ⟨1, 10⟩), some (some ⟨1, 10⟩), some (some ⟨2, 20⟩), none], [1, 1, 1]) := by decide +kernel
-- the target of a transaction is loaded before a clone of it is saved; a `get` sees the content
example : told [.app (.transaction 0), .app (.inTx 0 (.context 0 0)), .app (.inTx 0 (.withTarget 0 ⟨3, none⟩)), .app (.inTx 0 (.handle 0 0)),
    .app (.inTx 0 (.enter 0 false)), .loadTarget 0 0, .app (.inTx 0 (.readTarget 0)), .app (.inTx 0 (.save 0 ⟨3, some ⟨3, 10⟩⟩)),
    .app (.inTx 0 (.leave 0 false)), .app (.inTx 0 (.dropCtx 0)), .app (.inTx 0 (.commit 0)), .app (.read 0), .load 0 3] =
    some ([some none, some (some ⟨3, 10⟩), some (some ⟨3, 10⟩), some (some ⟨3, 10⟩)], [3]) := by decide +kernel

end Plotline
