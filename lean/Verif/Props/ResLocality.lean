import Verif.Lemmas.ResLocality
import Verif.Props.Locality
import Verif.Props.Resource
import Verif.Props.Scopes

/-! # Properties C70 and C71, and C34 and C65 with resources: which resources a transaction depends on and which it changes -/

namespace Plotline

open Std

set_option linter.unusedSectionVars false

variable {σ : Sig}

/-! ## C70 -/

/-- C70: a transaction that ends on one schema ends the same way on any other with the same triggers and the same types of
resources, where the ids it looks up and the resources it asks for read the same; it applies the same operations to the graph, and
resources that read the same before read the same after. -/
theorem C70_depends_on_resources_it_uses [LawfulSig σ] (S S' S1 : Schema σ) (hS : Made S) (hS' : Made S') (fuel : Nat)
    (pre : List (Operation σ.K σ.T)) (body : Prog σ) (out : Out (Except Error σ.V)) (henv : S'.env = S.env)
    (hlook : ∀ i, LooksUp S pre body i → S'.guard.get i = S.guard.get i)
    (hres : ∀ t, UsesRes S pre body t → (S'.env.resources.res t).peek S'.heap = (S.env.resources.res t).peek S.heap)
    (h : S.transact fuel pre body = some (out, S1)) (hne : out ≠ .stuck) :
    ∃ fuel' S1' ops, S'.transact fuel' pre body = some (out, S1') ∧
      S1.guard = S.guard.commit ops ∧ S1'.guard = S'.guard.commit ops ∧
      ∀ t, (S'.env.resources.res t).peek S'.heap = (S.env.resources.res t).peek S.heap →
        (S1'.env.resources.res t).peek S1'.heap = (S1.env.resources.res t).peek S1.heap := by
  have e : ∀ S : Schema σ, S.guard = S.graph := fun S => by unfold Schema.guard; split <;> rfl
  obtain ⟨ops, _, hg, he, _, hr⟩ := transact_on_heap h hne
  obtain ⟨fuel', S1', ht, hg', hrel, _, he', _⟩ := hr Lock.Alike cellRel_alike S' henv
    (fun t p ht hl => alike_of_peek hS hS' henv hl (hres t ht)) hlook
  refine ⟨fuel', S1', ops, ht, by rw [e, e, hg], by rw [e, e, hg'], fun t hp => ?_⟩
  rw [he, he']
  exact peek_rel cellRel_alike _ _ _ fun p hl => hrel p (alike_of_peek hS hS' henv hl hp)

/-! ## C71 -/

/-- C71: a resource that reads differently after a transaction was asked for with `with_mut`, by the transaction, by code it calls
or by a trigger. -/
theorem C71_changes_only_resources_it_writes [LawfulSig σ] (S S1 : Schema σ) (hS : Made S) (fuel : Nat)
    (pre : List (Operation σ.K σ.T)) (body : Prog σ) (out : Out (Except Error σ.V))
    (h : S.transact fuel pre body = some (out, S1)) (hne : out ≠ .stuck) (t : σ.Ty)
    (ht : (S1.env.resources.res t).peek S1.heap ≠ (S.env.resources.res t).peek S.heap) : WritesRes S pre body t := by
  obtain ⟨s, _, henv, _⟩ := transact_some h
  refine Classical.byContradiction fun hno => ht ?_
  rw [henv]
  refine peek_congr _ _ _ fun p hl => transact_unwritten h hne p ?_
  rintro ⟨u, hu, hl'⟩
  exact hno (C62_own_cells S hS t u p hl hl' ▸ hu)

/-- C71, for handles taken before the type was registered again: no transaction changes what they read. -/
theorem C71_old_handles (S S1 : Schema σ) (fuel : Nat) (pre : List (Operation σ.K σ.T)) (body : Prog σ)
    (out : Out (Except Error σ.V)) (h : S.transact fuel pre body = some (out, S1)) (hne : out ≠ .stuck) (t : σ.Ty) (r : Res t)
    (hr : ∀ u p, r.lock = some p → (S.env.resources.res u).lock ≠ some p) : r.peek S1.heap = r.peek S.heap := by
  refine peek_congr _ _ _ fun p hl => transact_unwritten h hne p ?_
  rintro ⟨u, _, hl'⟩
  exact hr u p hl hl'

/-! ## C34 -/

/-- C34, what does hold: a transaction that returns `Err` or panics leaves the graph, the triggers, the set of registered resources
and every resource as they were, except the resources that it, code it calls or a trigger asked for with `with_mut`.
Missing from C34: those resources; `C34_refuted` shows that nothing restores them. -/
theorem C34_only_what_it_writes_partial [LawfulSig σ] (S S1 : Schema σ) (hS : Made S) (fuel : Nat)
    (pre : List (Operation σ.K σ.T)) (body : Prog σ) (out : Out (Except Error σ.V))
    (h : S.transact fuel pre body = some (out, S1)) (hfail : (∃ e, out = .ret (.error e)) ∨ out = .panic) :
    S1.guard = S.guard ∧ S1.env = S.env ∧
    ∀ t, ¬ WritesRes S pre body t → (S1.env.resources.res t).peek S1.heap = (S.env.resources.res t).peek S.heap := by
  have hv : ∀ v, out ≠ .ret (.ok v) := by rintro v rfl; rcases hfail with ⟨e, h⟩ | h <;> cases h
  have hne : out ≠ .stuck := by rintro rfl; rcases hfail with ⟨e, h⟩ | h <;> cases h
  obtain ⟨h1, h2⟩ := C34_graph_and_registrations S S1 fuel pre body out h hv
  refine ⟨h1, h2, fun t ht => Classical.byContradiction fun hc => ht ?_⟩
  exact C71_changes_only_resources_it_writes S S1 hS fuel pre body out h hne t hc

/-! Examples: a schema with resources of types 4, 5 and 6; a closure that reads 4, and adds what it finds to 5. -/

def threeRes : Schema demo := ((demoSchema.withResource 4 (10 : Nat)).withResource 5 (20 : Nat)).withResource 6 (30 : Nat)

theorem threeRes_made : Made threeRes := .withResource _ _ <| .withResource _ _ <| .withResource _ _ <| .fromGraph _

def addFour (r : Except Error Unit) : Prog demo :=
  .resRead 4 fun a : Option Nat => .resWrite 5 (fun v : Nat => (v + a.getD 0, false)) fun _ => .done r

example : threeRes.asks [] (addFour (.ok ())) 10 = [(4, false), (5, true)] := by decide +kernel
example : (threeRes.transact 10 [] (addFour (.error .noop))).map (fun r => (r.1, (r.2.env.resources.res 4).peek r.2.heap,
    (r.2.env.resources.res 5).peek r.2.heap, (r.2.env.resources.res 6).peek r.2.heap)) =
    some (.ret (.error .noop), some (10 : Nat), some (30 : Nat), some (30 : Nat)) := by decide +kernel
example : ¬ WritesRes threeRes [] (addFour (.error .noop)) 6 ∧ ¬ WritesRes threeRes [] (addFour (.error .noop)) 4 := by
  have h : threeRes.asks [] (addFour (.error .noop)) 10 = [(4, false), (5, true)] := by decide +kernel
  constructor <;> intro hw
  · have := writesRes_asks (n := 10) (by decide +kernel) hw
    rw [h] at this; exact absurd this (by decide)
  · have := writesRes_asks (n := 10) (by decide +kernel) hw
    rw [h] at this; exact absurd this (by decide)

/-! ## C65, with resources -/

/-- C65: two transactions that write to different ids, neither of which looks up what the other writes or asks for a resource
the other asks for with `with_mut`, return the same whichever goes first, and leave the same schema. -/
theorem C65_disjoint_resources [LawfulSig σ] (S SA SB : Schema σ) (hS : S.graph.Reachable) (hM : Made S)
    (fuelA fuelB : Nat) (preA preB : List (Operation σ.K σ.T)) (A B : Prog σ) (outA outB : Out (Except Error σ.V))
    (hA : S.transact fuelA preA A = some (outA, SA)) (hB : S.transact fuelB preB B = some (outB, SB))
    (hneA : outA ≠ .stuck) (hneB : outB ≠ .stuck)
    (hww : ∀ q, ¬ (Writes S preA A q ∧ Writes S preB B q))
    (hwr : ∀ q, ¬ (Writes S preA A q ∧ LooksUp S preB B q))
    (hrw : ∀ q, ¬ (LooksUp S preA A q ∧ Writes S preB B q))
    (hrA : ∀ t, ¬ (WritesRes S preA A t ∧ UsesRes S preB B t))
    (hrB : ∀ t, ¬ (UsesRes S preA A t ∧ WritesRes S preB B t)) :
    ∃ fuel SAB SBA, SA.transact fuel preB B = some (outB, SAB) ∧ SB.transact fuel preA A = some (outA, SBA) ∧
      (∀ q, SAB.guard.get q = SBA.guard.get q) ∧ SAB.guard.iter = SBA.guard.iter ∧ SAB.heap = SBA.heap ∧
      SAB.poisoned = SBA.poisoned ∧ SAB.env = SBA.env := by
  have e : ∀ S : Schema σ, S.guard = S.graph := fun S => by unfold Schema.guard; split <;> rfl
  have own := C62_own_cells S hM
  have huse : ∀ {pre : List (Operation σ.K σ.T)} {P : Prog σ} {t : σ.Ty}, WritesRes S pre P t → UsesRes S pre P t := by
    rintro pre P t (⟨fn, k, h⟩ | ⟨b, k, h⟩)
    · exact .inr (.inl ⟨fn, k, h⟩)
    · exact .inr (.inr ⟨true, b, k, h⟩)
  obtain ⟨opsA, hopsA, hgA, heA, hpA, hrunA⟩ := transact_on_heap hA hneA
  obtain ⟨opsB, hopsB, hgB, heB, hpB, hrunB⟩ := transact_on_heap hB hneB
  have hsame : ∀ a b : Option (Lock (Dyn σ.Val)), Option.Rel Eq a b → a = b := by
    intro a b h
    cases h with
    | some h => rw [h]
    | none => rfl
  obtain ⟨f1, SAB, h1, hg1, hh1, hk1, he1, hp1⟩ := hrunB Eq cellRel_eq SA heA
    (fun t p ht hl => by
      have : SA.heap[p]? = S.heap[p]? := transact_unwritten hA hneA p (by
        rintro ⟨u, hu, hl'⟩
        exact hrA t ⟨own t u p hl hl' ▸ hu, ht⟩)
      rw [this]; exact rel_refl cellRel_eq _)
    fun i hi => by
      by_cases hc : SA.guard.get i = S.guard.get i
      · exact hc
      · exact (hwr i ⟨C64_changes_only_what_it_writes S SA hS fuelA preA A outA hA i hc, hi⟩).elim
  obtain ⟨f2, SBA, h2, hg2, hh2, hk2, he2, hp2⟩ := hrunA Eq cellRel_eq SB heB
    (fun t p ht hl => by
      have : SB.heap[p]? = S.heap[p]? := transact_unwritten hB hneB p (by
        rintro ⟨u, hu, hl'⟩
        exact hrB t ⟨ht, own t u p hl hl' ▸ hu⟩)
      rw [this]; exact rel_refl cellRel_eq _)
    fun i hi => by
      by_cases hc : SB.guard.get i = S.guard.get i
      · exact hc
      · exact (hrw i ⟨hi, C64_changes_only_what_it_writes S SB hS fuelB preB B outB hB i hc⟩).elim
  have hget : ∀ q, SAB.graph.get q = SBA.graph.get q := by
    intro q
    rw [hg1, hg2, get_commit _ (hgA ▸ valid_commit _ hS.valid _), get_commit _ (hgB ▸ valid_commit _ hS.valid _), hgA, hgB,
      get_commit _ hS.valid, get_commit _ hS.valid]
    by_cases hex : ∃ op ∈ opsA, (op.id == q) = true
    · obtain ⟨op, hm, hid⟩ := hex
      have hno : ∀ o ∈ opsB, (o.id == q) = false := by
        intro o ho
        cases hb : (o.id == q) with
        | false => rfl
        | true => exact (hww q ⟨⟨op, hopsA op hm, hid⟩, ⟨o, hopsB o ho, hb⟩⟩).elim
      rw [applyAll_untouched _ opsB _ hno]
      exact applyAll_local _ _ _ _ (applyAll_untouched _ opsB _ hno).symm
    · have hno : ∀ o ∈ opsA, (o.id == q) = false := by
        intro o ho
        cases hb : (o.id == q) with
        | false => rfl
        | true => exact (hex ⟨o, ho, hb⟩).elim
      rw [applyAll_untouched _ opsA q hno]
      exact applyAll_local _ _ _ _ (applyAll_untouched _ opsA _ hno)
  have hv1 : SAB.graph.Valid := by rw [hg1, hgA]; exact valid_commit _ (valid_commit _ hS.valid _) _
  have hv2 : SBA.graph.Valid := by rw [hg2, hgB]; exact valid_commit _ (valid_commit _ hS.valid _) _
  refine ⟨max f1 f2, SAB, SBA, transact_mono_le _ (Nat.le_max_left ..) h1, transact_mono_le _ (Nat.le_max_right ..) h2,
    by rw [e, e]; exact hget, by rw [e, e]; exact iter_ext hv1 hv2 hget, ?_, ?_, he1.trans he2.symm⟩
  · refine List.ext_getElem? fun q => ?_
    by_cases hq : Written S preA A q
    · have hnB : ¬ Written S preB B q := by
        rintro ⟨t, ht, hl⟩
        obtain ⟨u, hu, hl'⟩ := hq
        exact hrA t ⟨own t u q hl hl' ▸ hu, huse ht⟩
      rw [hk1 q hnB]
      have : S.heap[q]? = SB.heap[q]? := (transact_unwritten hB hneB q hnB).symm
      exact hsame _ _ (hh2 q (by rw [this]; exact rel_refl cellRel_eq _))
    · rw [hk2 q hq]
      have : S.heap[q]? = SA.heap[q]? := (transact_unwritten hA hneA q hq).symm
      exact (hsame _ _ (hh1 q (by rw [this]; exact rel_refl cellRel_eq _))).symm
  · rw [Bool.eq_iff_iff, hp1, hp2, hpA, hpB]
    constructor <;> rintro ((h | h) | h) <;> simp [h]

/-- Reads 4, and panics while it writes 6. -/
def spoilSix : Prog demo :=
  .resRead 4 fun a : Option Nat => .resWrite 6 (fun v : Nat => (v + a.getD 0, true)) fun _ => .done (.ok ())

example : ∀ t, ¬ (WritesRes threeRes [] (addFour (.ok ())) t ∧ UsesRes threeRes [] spoilSix t) := by
  rintro t ⟨hw, hu⟩
  have hw := writesRes_asks (n := 10) (by decide +kernel) hw
  obtain ⟨excl, hu⟩ := usesRes_asks (n := 10) (by decide +kernel) hu
  rw [show threeRes.asks [] (addFour (.ok ())) 10 = [(4, false), (5, true)] by decide +kernel] at hw
  rw [show threeRes.asks [] spoilSix 10 = [(4, false), (6, true)] by decide +kernel] at hu
  have e5 : t = (5 : Nat) := by simpa using hw
  subst e5
  cases excl <;> exact absurd hu (by decide)
/-- The outcome and what the resources read as. -/
def readThree (r : Out (Except Error demo.V) × Schema demo) : Out (Except Error demo.V) × Option Nat × Option Nat × Option Nat :=
  (r.1, (r.2.env.resources.res 4).peek r.2.heap, (r.2.env.resources.res 5).peek r.2.heap, (r.2.env.resources.res 6).peek r.2.heap)

example : ((threeRes.transact 10 [] (addFour (.ok ()))).bind fun r => r.2.transact 10 [] spoilSix).map readThree =
      some (.panic, some 10, some 30, none) := by decide +kernel
example : ((threeRes.transact 10 [] spoilSix).bind fun r => r.2.transact 10 [] (addFour (.ok ()))).map readThree =
      some (.ret (.ok ()), some 10, some 30, none) := by decide +kernel

/-- For C70: with another value in 6, which `addFour` does not ask for. -/
def otherThree : Schema demo := ((demoSchema.withResource 4 (10 : Nat)).withResource 5 (20 : Nat)).withResource 6 (99 : Nat)

example : Made otherThree ∧ otherThree.env = threeRes.env := ⟨.withResource _ _ <| .withResource _ _ <| .withResource _ _ <| .fromGraph _, rfl⟩
example : ∀ t, UsesRes threeRes [] (addFour (.ok ())) t →
    (otherThree.env.resources.res t).peek otherThree.heap = (threeRes.env.resources.res t).peek threeRes.heap := by
  intro t ht
  obtain ⟨excl, hu⟩ := usesRes_asks (n := 10) (by decide +kernel) ht
  rw [show threeRes.asks [] (addFour (.ok ())) 10 = [(4, false), (5, true)] by decide +kernel] at hu
  have : t = (4 : Nat) ∨ t = (5 : Nat) := by
    rcases List.mem_cons.1 hu with h | h
    · cases h; exact .inl rfl
    · cases List.mem_singleton.1 h; exact .inr rfl
  rcases this with rfl | rfl <;> decide +kernel
example : (otherThree.transact 10 [] (addFour (.ok ()))).map readThree = some (.ret (.ok ()), some 10, some 30, some 99) := by
  decide +kernel

end Plotline
