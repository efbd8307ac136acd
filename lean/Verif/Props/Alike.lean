import Verif.Lemmas.Alike
import Verif.Props.History

/-! # C77: schemas that look the same stay the same, whatever is done with them -/

namespace Plotline

set_option linter.unusedSectionVars false

variable {σ : Sig}

/-- C77: if two schemas have the same nodes, triggers and resource values, then whatever is done with one of them can be done with
the other, every answer on the way is the same, and they are the same in this respect afterwards. How they came to be, in which
cells their resources are, and whether their locks are poisoned makes no difference. -/
theorem C77_indistinguishable [LawfulSig σ] (S S' S1 : Schema σ) (hS : S.Used) (hS' : S'.Used) (ha : Alike S S')
    (l : List (Use σ × Seen σ)) (h : Session S l S1) : ∃ S1', Session S' l S1' ∧ Alike S1 S1' :=
  session_alike h (used_sane hS) (used_sane hS') ha

theorem Alike.symm {S S' : Schema σ} (h : Alike S S') : Alike S' S :=
  ⟨fun i => (h.nodes i).symm, fun s => (h.fires s).symm, fun t => (h.reads t).symm⟩

/-- C77: a course of events is possible on one of them exactly if it is on the other; in particular a transaction that never returns
on one of them does not return on the other. -/
theorem C77_same_courses [LawfulSig σ] (S S' : Schema σ) (hS : S.Used) (hS' : S'.Used) (ha : Alike S S') (l : List (Use σ × Seen σ)) :
    (∃ S1, Session S l S1) ↔ ∃ S1', Session S' l S1' := by
  constructor
  · rintro ⟨S1, h⟩
    obtain ⟨S1', h', _⟩ := C77_indistinguishable S S' S1 hS hS' ha l h
    exact ⟨S1', h'⟩
  · rintro ⟨S1, h⟩
    obtain ⟨S1', h', _⟩ := C77_indistinguishable S' S S1 hS' hS ha.symm l h
    exact ⟨S1', h'⟩

/-- C77: resources of different types can be registered in any order. -/
theorem C77_resource_order [LawfulSig σ] (S : Schema σ) (hS : S.Used) (t u : σ.Ty) (hne : t ≠ u) (v : σ.Val t) (w : σ.Val u) :
    Alike ((S.withResource t v).withResource u w) ((S.withResource u w).withResource t v) := by
  have hs := used_sane hS
  refine ⟨fun i => by rw [guard_graph, guard_graph]; rfl, fun _ => rfl, fun x => ?_⟩
  rw [peek_withResource (sane_withResource hs u w), peek_withResource (sane_withResource hs t v), peek_withResource hs,
    peek_withResource hs]
  by_cases h1 : x = t
  · subst h1; simp [hne]
  · by_cases h2 : x = u
    · subst h2; simp [h1]
    · simp [h1, h2]

/-- C77: registering a resource replaces the one of that type, whatever there was of it, also nothing because it was lost. -/
theorem C77_replaces [LawfulSig σ] (S S' : Schema σ) (hS : S.Used) (hS' : S'.Used) (t : σ.Ty) (v : σ.Val t)
    (hn : ∀ i, S'.guard.get i = S.guard.get i) (hf : ∀ s, S'.env.fire s = S.env.fire s)
    (hr : ∀ u, u ≠ t → (S'.env.resources.res u).peek S'.heap = (S.env.resources.res u).peek S.heap) :
    Alike (S.withResource t v) (S'.withResource t v) := by
  refine ⟨fun i => by have := hn i; rw [guard_graph, guard_graph] at this ⊢; exact this, hf, fun x => ?_⟩
  rw [peek_withResource (used_sane hS), peek_withResource (used_sane hS')]
  by_cases h1 : x = t
  · subst h1; simp
  · simp [h1, hr x h1]

/-- C77: triggers of different schedulers can be registered in any order. -/
theorem C77_trigger_order [LawfulSig σ] (S : Schema σ) (hS : S.Used) (s u : Sched) (hne : s ≠ u) (p q : Prog σ) :
    Alike ((S.withTrigger s p).withTrigger u q) ((S.withTrigger u q).withTrigger s p) := by
  have hs := used_sane hS
  refine ⟨fun i => by rw [guard_graph, guard_graph]; rfl, fun x => ?_, fun _ => rfl⟩
  rw [fire_withTrigger (sane_gives hs (.trigger S u q)), fire_withTrigger (sane_gives hs (.trigger S s p)), fire_withTrigger hs,
    fire_withTrigger hs]
  by_cases h1 : s = x
  · subst h1; simp [Ne.symm hne]
  · by_cases h2 : u = x
    · subst h2; simp [h1]
    · simp [h1, h2]

/-- C77: a trigger and a resource can be registered in either order. -/
theorem C77_trigger_resource (S : Schema σ) (s : Sched) (p : Prog σ) (t : σ.Ty) (v : σ.Val t) :
    Alike ((S.withTrigger s p).withResource t v) ((S.withResource t v).withTrigger s p) :=
  ⟨fun _ => rfl, fun _ => rfl, fun _ => rfl⟩

/-- C77: a transaction that failed or panicked and left the resources as they were might as well not have been made. -/
theorem C77_failed [LawfulSig σ] (S S1 : Schema σ) (fuel : Nat) (pre : List (Operation σ.K σ.T)) (body : Prog σ)
    (out : Out (Except Error σ.V)) (h : S.transact fuel pre body = some (out, S1)) (hout : ∀ v, out ≠ .ret (.ok v))
    (hr : ∀ t, (S1.env.resources.res t).peek S1.heap = (S.env.resources.res t).peek S.heap) : Alike S S1 := by
  obtain ⟨s, _, henv, _, _, hfail⟩ := transact_some h
  exact ⟨fun i => by rw [guard_graph, guard_graph, hfail hout], fun u => by rw [henv], hr⟩

theorem Session.append {S S1 S2 : Schema σ} {l l' : List (Use σ × Seen σ)} (h : Session S l S1) (h' : Session S1 l' S2) :
    Session S (l ++ l') S2 := by
  induction h with
  | nil => exact h'
  | cons h1 _ ih => exact .cons h1 (ih h')

/-- A schema goes on being one in use. -/
theorem Session.used {S S' : Schema σ} (hS : S.Used) {l : List (Use σ × Seen σ)} (h : Session S l S') : S'.Used := by
  obtain ⟨g, l0, hg, h0⟩ := hS
  exact ⟨g, l0 ++ l, hg, h0.append h⟩

theorem used_register {S : Schema σ} (hS : S.Used) (t : σ.Ty) (v : σ.Val t) : (S.withResource t v).Used :=
  Session.used hS (.cons (.register S t v) (.nil _))

/-- The resources of `threeRes` in another order, one of them registered twice. -/
def threeOther : Schema demo :=
  (((demoSchema.withResource 6 (99 : Nat)).withResource 5 (20 : Nat)).withResource 6 (30 : Nat)).withResource 4 (10 : Nat)

theorem demo_used : demoSchema.Used := ⟨_, [], .fromIter _, .nil _⟩

theorem threeRes_used : threeRes.Used := used_register (used_register (used_register demo_used _ _) _ _) _ _

theorem threeOther_used : threeOther.Used :=
  used_register (used_register (used_register (used_register demo_used _ _) _ _) _ _) _ _

example : ((threeRes.env.resources.res 4).lock, (threeRes.env.resources.res 5).lock, (threeRes.env.resources.res 6).lock) =
    (some 0, some 1, some 2) ∧
  ((threeOther.env.resources.res 4).lock, (threeOther.env.resources.res 5).lock, (threeOther.env.resources.res 6).lock) =
    (some 3, some 1, some 2) := by decide +kernel

theorem threeRes_alike : Alike threeRes threeOther := by
  have hs := used_sane demo_used
  refine ⟨fun _ => rfl, fun _ => rfl, fun t => ?_⟩
  unfold threeRes threeOther
  rw [peek_withResource (sane_withResource (sane_withResource (sane_withResource hs _ _) _ _) _ _),
    peek_withResource (sane_withResource (sane_withResource hs _ _) _ _), peek_withResource (sane_withResource hs _ _),
    peek_withResource hs, peek_withResource (sane_withResource (sane_withResource hs _ _) _ _),
    peek_withResource (sane_withResource hs _ _), peek_withResource hs]
  by_cases h4 : t = 4
  · subst h4; rfl
  · by_cases h5 : t = 5
    · subst h5; rfl
    · by_cases h6 : t = 6
      · subst h6; rfl
      · simp [h4, h5, h6]

example : (threeRes.transact 20 [] spoiling).map readThree = some (.ret (.ok ()), some 10, some 21, none) := by
  decide +kernel
example : (threeOther.transact 20 [] spoiling).map readThree = some (.ret (.ok ()), some 10, some 21, none) := by decide +kernel

/-! ## C70 -/

/-- C70, for schemas that need not be alike otherwise: a transaction that ends on one schema ends the same way on any other that has
the same nodes under the ids it looks up, the same values of the resources it asks for, and the same triggers for the operations it
performs. Which other resources and triggers there are, and in what order resources were registered, makes no difference. -/
theorem C70_whatever_else [LawfulSig σ] (S S' S1 : Schema σ) (hS : S.Used) (hS' : S'.Used) (fuel : Nat)
    (pre : List (Operation σ.K σ.T)) (body : Prog σ) (out : Out (Except Error σ.V))
    (hlook : ∀ i, LooksUp S pre body i → S'.guard.get i = S.guard.get i)
    (hres : ∀ t, UsesRes S pre body t → (S'.env.resources.res t).peek S'.heap = (S.env.resources.res t).peek S.heap)
    (hfire : ∀ s, RunsTriggers S pre body s → S'.env.fire s = S.env.fire s)
    (h : S.transact fuel pre body = some (out, S1)) (hne : out ≠ .stuck) :
    ∃ fuel' S1' ops, S'.transact fuel' pre body = some (out, S1') ∧
      S1.guard = S.guard.commit ops ∧ S1'.guard = S'.guard.commit ops ∧
      (∀ s, S1'.env.fire s = S'.env.fire s) ∧
      ∀ t, (S'.env.resources.res t).peek S'.heap = (S.env.resources.res t).peek S.heap →
        (S1'.env.resources.res t).peek S1'.heap = (S1.env.resources.res t).peek S1.heap := by
  obtain ⟨f, S1', ops, h1, h2, h3, h4, h5, h6⟩ := transact_alike_on (used_sane hS) (used_sane hS') hfire hlook hres h hne
  refine ⟨f, S1', ops, h1, ?_, ?_, fun s => by rw [h5], fun t ht => by rw [h4, h5]; exact h6 t ht⟩
  · rw [guard_graph, guard_graph]; exact h2
  · rw [guard_graph, guard_graph]; exact h3

/-- C70: a trigger of a scheduler whose triggers the transaction does not run makes no difference to it. -/
theorem C70_other_trigger [LawfulSig σ] (S S1 : Schema σ) (hS : S.Used) (fuel : Nat) (pre : List (Operation σ.K σ.T)) (body : Prog σ)
    (out : Out (Except Error σ.V)) (s : Sched) (p : Prog σ) (hs : ¬ RunsTriggers S pre body s)
    (h : S.transact fuel pre body = some (out, S1)) (hne : out ≠ .stuck) :
    ∃ fuel' S1', (S.withTrigger s p).transact fuel' pre body = some (out, S1') ∧ S1'.guard = S1.guard ∧
      ∀ t, (S1'.env.resources.res t).peek S1'.heap = (S1.env.resources.res t).peek S1.heap := by
  obtain ⟨f, S1', ops, h1, h2, h3, _, h4⟩ := C70_whatever_else S (S.withTrigger s p) S1 hS
    (Session.used hS (.cons (.trigger _ _ _) (.nil _))) fuel pre body out (fun i _ => by rw [guard_graph, guard_graph]; rfl)
    (fun t _ => rfl) (fun u hu => by
      rw [fire_withTrigger (used_sane hS), if_neg]
      rintro rfl
      exact hs hu) h hne
  refine ⟨f, S1', h1, ?_, fun t => h4 t rfl⟩
  rw [h2, h3, guard_graph, guard_graph]
  rfl

/-- C70: nor does a resource of a type it does not ask for. -/
theorem C70_other_resource [LawfulSig σ] (S S1 : Schema σ) (hS : S.Used) (fuel : Nat) (pre : List (Operation σ.K σ.T)) (body : Prog σ)
    (out : Out (Except Error σ.V)) (t : σ.Ty) (v : σ.Val t) (ht : ¬ UsesRes S pre body t)
    (h : S.transact fuel pre body = some (out, S1)) (hne : out ≠ .stuck) :
    ∃ fuel' S1', (S.withResource t v).transact fuel' pre body = some (out, S1') ∧ S1'.guard = S1.guard ∧
      ∀ u, u ≠ t → (S1'.env.resources.res u).peek S1'.heap = (S1.env.resources.res u).peek S1.heap := by
  have hu : ∀ u, u ≠ t → ((S.withResource t v).env.resources.res u).peek (S.withResource t v).heap =
      (S.env.resources.res u).peek S.heap := fun u hne => by
    rw [peek_withResource (used_sane hS), dif_neg]
    exact hne
  obtain ⟨f, S1', ops, h1, h2, h3, _, h4⟩ := C70_whatever_else S (S.withResource t v) S1 hS
    (used_register hS _ _) fuel pre body out (fun i _ => by rw [guard_graph, guard_graph]; rfl)
    (fun u hu' => hu u (by rintro rfl; exact ht hu')) (fun u _ => rfl) h hne
  refine ⟨f, S1', h1, ?_, fun u hne => h4 u (hu u hne)⟩
  rw [h2, h3, guard_graph, guard_graph]
  rfl

/-- Another value of a resource that `addFour` does not ask for, none of a third one, resources in another order, and a trigger that
it does not run. -/
def fourFive : Schema demo :=
  ((demoSchema.withResource 5 (20 : Nat)).withTrigger .beforeSave .panic).withResource 4 (10 : Nat)

theorem fourFive_used : fourFive.Used :=
  used_register (Session.used (used_register demo_used _ _) (.cons (.trigger _ _ _) (.nil _))) _ _

example : (threeRes.transact 10 [] (addFour (.ok ()))).map (fun r => (r.1, (r.2.env.resources.res 5).peek r.2.heap)) =
    some (.ret (.ok ()), some (30 : Nat)) ∧
  (fourFive.transact 10 [] (addFour (.ok ()))).map (fun r => (r.1, (r.2.env.resources.res 5).peek r.2.heap)) =
    some (.ret (.ok ()), some (30 : Nat)) := by decide +kernel

/-- The theorem applies to the two. -/
example (S1 : Schema demo) (h : threeRes.transact 10 [] (addFour (.ok ())) = some (.ret (.ok ()), S1)) :
    ∃ fuel' S1', fourFive.transact fuel' [] (addFour (.ok ())) = some (.ret (.ok ()), S1') := by
  have ha : threeRes.asks [] (addFour (.ok ())) 10 = [(4, false), (5, true)] := by decide +kernel
  obtain ⟨f, S1', _, h1, _⟩ := C70_whatever_else threeRes fourFive S1 threeRes_used fourFive_used 10 [] _ _ (fun _ _ => rfl)
    (fun t ht => by
      obtain ⟨x, hx⟩ := usesRes_asks (n := 10) (by decide +kernel) ht
      rw [ha] at hx
      simp only [List.mem_cons, Prod.mk.injEq, List.not_mem_nil, or_false] at hx
      rcases hx with ⟨rfl, _⟩ | ⟨rfl, _⟩ <;> decide +kernel)
    (fun s hs => by
      obtain ⟨c, k, env, K, st, hr⟩ := hs
      have hm := mem_trace (n := 10) hr (by decide +kernel)
      have hn : ((Conf.trace threeRes.env 10 ⟨.run [0] (addFour (.ok ())), [], threeRes.begin []⟩).filterMap
        fun c => c.control.triggersOf) = [] := by decide +kernel
      have := List.mem_filterMap (f := fun c => c.control.triggersOf) (b := s) |>.2 ⟨_, hm, rfl⟩
      rw [hn] at this
      cases this) h (by intro h; cases h)
  exact ⟨f, S1', h1⟩

/-- Not alike: another value of one resource. -/
example : ¬ Alike threeRes (threeOther.withResource 5 (21 : Nat)) := by
  intro h
  have := h.reads 5
  revert this
  decide +kernel

end Plotline
