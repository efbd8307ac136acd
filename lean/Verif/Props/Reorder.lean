import Verif.Lemmas.Reorder
import Verif.Lemmas.Triggers
import Verif.Spec.Fixtures

/-! # C122: of the types of resources nothing but their equality matters -/

namespace Plotline

open Std

variable {σ : Sig}

/-- C122: whatever the order of the types of resources (that of `TypeId`s is not specified, and changes from build to build), a schema
does the same: a program gets the same answers from all it does, with the one order and with the other. The order of the nodes
included, when they are gone through. -/
theorem C122_session [LawfulSig σ] (o : OrderOn σ.Ty) (ho : o.Lawful) (ns : List σ.T) (l : List (Use σ × Seen σ)) :
    (∃ S, Session (.fromGraph (σ.graphOf ns)) l S) ↔
      ∃ S', Session (.fromGraph ((σ.reordered o).graphOf ns)) (l.map fun x => (x.1.reorder o, x.2.reorder o)) S' := by
  have hO : OrderFree ⟨σ.ordTy⟩ o := orderFree_lawful ⟨LawfulSig.transTy (σ := σ), LawfulSig.eqTy (σ := σ)⟩ ho
  have hR : SameIds (σ := σ) (U := σ.T) Eq := fun n m h => by rw [h]
  have hn : Pairs Eq ns ns := pairs_refl (fun _ => rfl) ns
  constructor
  · rintro ⟨S, h⟩
    obtain ⟨l', S', h1, h2, h3, -⟩ := session_pairs hR hO h (schemaPairs_start hR hn) (uses_reorder o _)
    have : l' = l.map fun x => (x.1.reorder o, x.2.reorder o) := by
      refine eq_of_parts ?_ ?_
      · rw [h2, List.map_map, List.map_map]; rfl
      · rw [seen_reorder h3, List.map_map, List.map_map]; rfl
    exact ⟨S', this ▸ h1⟩
  · rintro ⟨S', h⟩
    obtain ⟨l2, S, h1, h2, h3, -⟩ := session_pairs_back hR hO (schemaPairs_start hR hn) h (us := l.map Prod.fst)
      (by rw [List.map_map]; have := uses_reorder o (l.map Prod.fst); rw [List.map_map] at this; exact this)
    have : l2 = l := by
      refine eq_of_parts h2 (map_reorder_inj (o := o) ?_)
      rw [← seen_reorder h3, List.map_map, List.map_map]
      rfl
    exact ⟨S, this ▸ h1⟩

/-- C122, one transaction on the schema such a program leaves: it ends in the same way on both sides, and leaves the same nodes in
the same order and resources that read as the same. -/
theorem C122_transact [LawfulSig σ] (o : OrderOn σ.Ty) (ho : o.Lawful) (ns : List σ.T) (l : List (Use σ × Seen σ)) (S : Schema σ)
    (h : Session (.fromGraph (σ.graphOf ns)) l S) (pre : List (Operation σ.K σ.T)) (body : Prog σ) (r : Out (Except Error σ.V))
    (S1 : Schema σ) (fuel : Nat) (ht : S.transact fuel pre body = some (r, S1)) :
    ∃ S' S1', Session (.fromGraph ((σ.reordered o).graphOf ns)) (l.map fun x => (x.1.reorder o, x.2.reorder o)) S' ∧
      S'.transact fuel pre (body.reorder o) = some (r, S1') ∧ S1'.guard.iter = S1.guard.iter ∧
      ∀ t, (S1'.env.resources.res t).peek S1'.heap = (S1.env.resources.res t).peek S1.heap := by
  have hO : OrderFree ⟨σ.ordTy⟩ o := orderFree_lawful ⟨LawfulSig.transTy (σ := σ), LawfulSig.eqTy (σ := σ)⟩ ho
  have hR : SameIds (σ := σ) (U := σ.T) Eq := fun n m h => by rw [h]
  have hn : Pairs Eq ns ns := pairs_refl (fun _ => rfl) ns
  obtain ⟨l', S', h1, h2, h3, h4⟩ := session_pairs hR hO h (schemaPairs_start hR hn) (uses_reorder o _)
  have hl : l' = l.map fun x => (x.1.reorder o, x.2.reorder o) := by
    refine eq_of_parts ?_ ?_
    · rw [h2, List.map_map, List.map_map]; rfl
    · rw [seen_reorder h3, List.map_map, List.map_map]; rfl
  have hop : ∀ op : Operation σ.K σ.T, op.Matches Eq op := fun op => by
    cases op with
    | save n => exact .save rfl
    | delete i => exact .delete i
  have h5 := transact_pairs hR h4 fuel (pairs_refl hop pre) (body.reorder_matches (o := o))
  rw [ht] at h5
  generalize hy : S'.transact fuel pre (body.reorder o) = y at h5
  cases h5 with
  | some _ h6 => exact ⟨S', _, hl ▸ h1, hy, (pairs_eq h6.matches.iter).symm, fun t => (both_eq (h6.matches.reads t)).symm⟩

/-- C122, equality does matter: let an order take two types for the same one. Then registering a resource of the second type takes
the first one away: it reads as absent, where with a lawful order it reads as its value. -/
theorem C122_needed [LawfulSig σ] (o : OrderOn σ.Ty) (t u : σ.Ty) (htu : t ≠ u) (hr : o.ord.compare t t = .eq)
    (he : o.ord.compare u t = .eq) (v : σ.Val t) (w : σ.Val u) (ns : List σ.T) :
    (∃ S, Session (.fromGraph (σ.graphOf ns)) [(.register t v, .nothing), (.register u w, .nothing), (.read t, .value t (some v))] S) ∧
    ∃ S', Session (.fromGraph ((σ.reordered o).graphOf ns))
      [(.register t v, .nothing), (.register u w, .nothing), (.read t, .value t none)] S' := by
  constructor
  · have h0 : Session (.fromGraph (σ.graphOf ns)) [(.register t v, .nothing), (.register u w, .nothing), (.read t, _)] _ :=
      .cons (.register _ t v) (.cons (.register _ u w) (.cons (.read _ t) (.nil _)))
    have h1 : ((((Schema.fromGraph (σ.graphOf ns)).withResource t v).withResource u w).env.resources.res t).lock = some 0 := by
      change BTreeMap.findL t (BTreeMap.insertL u 1 (BTreeMap.insertL t 0 [])) = _
      rw [BTreeMap.findL_insertL (BTreeMap.sorted_insertL .nil), if_neg fun hc => htu (LawfulEqOrd.compare_eq_iff_eq.1 hc),
        BTreeMap.findL_insertL .nil, if_pos (LawfulEqOrd.compare_eq_iff_eq.2 rfl)]
    have h2 : ((((Schema.fromGraph (σ.graphOf ns)).withResource t v).withResource u w).env.resources.res t).peek
        (((Schema.fromGraph (σ.graphOf ns)).withResource t v).withResource u w).heap = some v := by
      unfold Res.peek
      rw [h1]
      simp [Schema.withResource, ResourceSet.withResource, Schema.fromGraph, Dyn.downcast]
    rw [h2] at h0
    exact ⟨_, h0⟩
  · have h0 : Session (σ := σ.reordered o) (.fromGraph ((σ.reordered o).graphOf ns))
        [(.register t v, .nothing), (.register u w, .nothing), (.read t, _)] _ :=
      .cons (Gives.register (σ := σ.reordered o) _ t v) (.cons (Gives.register (σ := σ.reordered o) _ u w)
        (.cons (Gives.read (σ := σ.reordered o) _ t) (.nil _)))
    have h1 : ((Schema.withResource (σ := σ.reordered o) (Schema.withResource (σ := σ.reordered o)
        (.fromGraph ((σ.reordered o).graphOf ns)) t v) u w).env.resources.res t).lock = some 1 := by
      change @BTreeMap.findL _ _ o.ord t (@BTreeMap.insertL _ _ o.ord u 1 [(t, 0)]) = _
      simp only [BTreeMap.insertL, BTreeMap.findL, he, hr]
    have h2 : ((Schema.withResource (σ := σ.reordered o) (Schema.withResource (σ := σ.reordered o)
        (.fromGraph ((σ.reordered o).graphOf ns)) t v) u w).env.resources.res t).peek (Schema.withResource (σ := σ.reordered o)
        (Schema.withResource (σ := σ.reordered o) (.fromGraph ((σ.reordered o).graphOf ns)) t v) u w).heap = none := by
      unfold Res.peek
      rw [h1]
      simp [Schema.withResource, ResourceSet.withResource, Schema.fromGraph, Dyn.downcast, Ne.symm htu]
    rw [h2] at h0
    exact ⟨_, h0⟩

/-- C122 for schedulers, whose `TypeId`s order the map of triggers: however they are numbered, after the same registrations the
triggers run for a scheduler are the same, in the same order. -/
theorem C122_schedulers (ν : Sched → Nat) (hν : ∀ s u, ν s = ν u → s = u) (l : List (Sched × Prog σ)) (s : Sched) :
    ((numbered ν l).get (ν s)).getD [] = ((l.foldl (fun ts x => ts.withTrigger x.1 x.2) TriggerSet.empty).select s).getD [] := by
  rw [numbered_get hν, TriggerSet.select, triggers_numbered, numbered_get fun _ _ => typeId_inj]

/-! ## A concrete case -/

/-- The numbers the other way round. -/
def backwards : OrderOn demo.Ty := ⟨⟨fun a b => compare (α := Nat) b a⟩⟩

theorem backwards_lawful : backwards.Lawful := by
  have h1 : TransCmp (fun a b : Nat => compare b a) :=
    { eq_swap := fun {a b} => OrientedCmp.eq_swap (cmp := compare) (a := b) (b := a)
      isLE_trans := fun {a b c} h1 h2 => TransCmp.isLE_trans (cmp := compare) h2 h1 }
  have h2 : LawfulEqCmp (fun a b : Nat => compare b a) :=
    { compare_self := fun {a} => ReflCmp.compare_self (cmp := compare) (a := a)
      eq_of_compare := fun {a b} h => (LawfulEqCmp.eq_of_compare (cmp := compare) h).symm }
  exact ⟨h1, h2⟩

/-- Adds the one resource to the other one and saves a document with what it found. -/
def adding : Prog demo := .resRead (1 : Nat) fun a => .resWrite (2 : Nat) (fun b => (b + a.getD 0, false)) fun _ =>
  .resRead (2 : Nat) fun c => .save 0 ⟨7, c.getD 0⟩ (.done (.ok ()))

def addingUses : List (Use demo) := [.register (1 : Nat) (10 : Nat), .register (3 : Nat) (30 : Nat), .register (2 : Nat) (20 : Nat), .tx [] adding, .iter]

/-- The maps are not the same, what is done with them is. -/
example : (((Schema.fromGraph (demo.graphOf [])).withResource (1 : Nat) (10 : Nat)).withResource (2 : Nat) (20 : Nat)).env.resources.resources.entries =
    [(1, 0), (2, 1)] := by decide +kernel
example : (Schema.withResource (σ := demo.reordered backwards) (Schema.withResource (σ := demo.reordered backwards)
    (.fromGraph ((demo.reordered backwards).graphOf [])) (1 : Nat) (10 : Nat)) (2 : Nat) (20 : Nat)).env.resources.resources.entries =
    [(2, 1), (1, 0)] := by decide +kernel

theorem adding_session : ∃ S, Session (.fromGraph (demo.graphOf []))
    [(.register (1 : Nat) (10 : Nat), .nothing), (.register (3 : Nat) (30 : Nat), .nothing), (.register (2 : Nat) (20 : Nat), .nothing),
      (.tx [] adding, .out (.ret (.ok ()))), (.read (2 : Nat), .value (2 : Nat) (some (30 : Nat))), (.iter, .nodes [⟨7, 30⟩])] S :=
  ⟨_, .cons (.register _ _ _) (.cons (.register _ _ _) (.cons (.register _ _ _) (.cons (.tx (fuel := 10) (by with_unfolding_all rfl) (by intro h; cases h))
    (.cons (by with_unfolding_all exact .read _ _) (.cons (by with_unfolding_all exact .iter _) (.nil _))))))⟩

example : ∃ S', Session (.fromGraph ((demo.reordered backwards).graphOf []))
    [(.register (1 : Nat) (10 : Nat), .nothing), (.register (3 : Nat) (30 : Nat), .nothing), (.register (2 : Nat) (20 : Nat), .nothing),
      (.tx [] (adding.reorder backwards), .out (.ret (.ok ()))), (.read (2 : Nat), .value (2 : Nat) (some (30 : Nat))), (.iter, .nodes [⟨7, 30⟩])] S' :=
  (C122_session backwards backwards_lawful [] _).1 adding_session

end Plotline
