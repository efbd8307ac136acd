import Verif.Lemmas.Rename
import Verif.Props.Locality
import Verif.Spec.Fixtures

/-! # C120: of ids nothing but their equality matters -/

namespace Plotline

open Std

variable {σ : Sig} {L : Type} [Ord L] [BEq L] [TransOrd L] [LawfulBEqOrd L] {φ : σ.K → L}

/-- C120: replace the ids of all nodes by others, of whatever type and in whatever order, that are equal exactly where the old ones
were. A program using a schema with the new ids, in place of one with the old ones, learns the same from all it does (but for the
order in which nodes are gone through), and leaves the same nodes, triggers and resources. -/
theorem C120_session [LawfulSig σ] (hφ : Faithful φ) (g : Graph σ.K σ.T) (g' : Graph (σ.renamed L φ).K (σ.renamed L φ).T)
    (hg : g.Reachable) (hg' : g'.Reachable) (hn : ∀ i, g'.get (φ i) = g.get i) (l : List (Use σ × Seen σ)) (S1 : Schema σ)
    (h : Session (.fromGraph g) l S1) : ∃ l' S1', Session (.fromGraph g') l' S1' ∧ Echo φ l l' ∧ Renamed φ S1 S1' := by
  obtain ⟨l', S1', h1, h2, h3⟩ := session_rename hφ h (schemaLike_fromGraph ⟨hg.valid, Graph.Reachable.valid (K := L) hg', hn⟩)
  exact ⟨l', S1', h1, h2, h3.renamed⟩

/-- C120, the other way round: what the program with the new ids can do the one with the old ids can do, learning the same. So a
call that never returns with the old ids does not return with the new ones, and conversely. -/
theorem C120_back [LawfulSig σ] (hφ : Faithful φ) (g : Graph σ.K σ.T) (g' : Graph (σ.renamed L φ).K (σ.renamed L φ).T)
    (hg : g.Reachable) (hg' : g'.Reachable) (hn : ∀ i, g'.get (φ i) = g.get i) (us : List (Use σ))
    (l' : List (Use (σ.renamed L φ) × Seen (σ.renamed L φ))) (S1' : Schema (σ.renamed L φ)) (h : Session (.fromGraph g') l' S1')
    (hl : l'.map Prod.fst = us.map (Use.rename φ)) :
    ∃ l S1, Session (.fromGraph g) l S1 ∧ l.map Prod.fst = us ∧ Echo φ l l' ∧ Renamed φ S1 S1' := by
  obtain ⟨l, S1, h1, h2, h3, h4⟩ :=
    session_rename_back hφ (schemaLike_fromGraph ⟨hg.valid, Graph.Reachable.valid (K := L) hg', hn⟩) h hl
  exact ⟨l, S1, h1, h2, h3, h4.renamed⟩

/-- C120: the graph to begin with is the one made of the same nodes, in any order. -/
theorem C120_start [LawfulSig σ] (hφ : Faithful φ) (g : Graph σ.K σ.T) (hg : g.Reachable) (l : List σ.T) (hl : l.Perm g.iter) (i : σ.K) :
    ((σ.renamed L φ).graphOf l).get (φ i) = g.get i := by
  unfold Sig.graphOf
  rw [← (C66_rebuild g hg l hl).2 i, C04_last_wins (K := L) (T := (σ.renamed L φ).T) l (φ i), C04_last_wins l i]
  congr 1
  funext n
  exact hφ i (σ.ident.id n)

/-- C120: nodes are gone through in the order of the new ids, so in the same order as before if the new ids are in the order of the
old ones. -/
theorem C120_in_order [LawfulSig σ] (hφ : ∀ i j, compare (φ i) (φ j) = compare i j) (g : Graph σ.K σ.T)
    (g' : Graph (σ.renamed L φ).K (σ.renamed L φ).T) (hg : g.Reachable) (hg' : g'.Reachable) (hn : ∀ i, g'.get (φ i) = g.get i)
    (l : List (Use σ × Seen σ)) (S1 : Schema σ) (h : Session (.fromGraph g) l S1) :
    ∃ l' S1', Session (.fromGraph g') l' S1' ∧ Echo φ l l' ∧ S1'.guard.iter = S1.guard.iter := by
  have hf : Faithful φ := fun i j => by
    rw [Bool.eq_iff_iff, ← LawfulBEqOrd.compare_eq_iff_beq, ← LawfulBEqOrd.compare_eq_iff_beq, hφ]
  obtain ⟨l', S1', h1, h2, h3⟩ := session_rename hf h (schemaLike_fromGraph ⟨hg.valid, Graph.Reachable.valid (K := L) hg', hn⟩)
  refine ⟨l', S1', h1, h2, ?_⟩
  have h4 := h3.guard
  refine sorted_ext (lt := fun a b : σ.T => compare (id a) (id b) = .lt) ?_ ?_ ?_ (Graph.iter_sorted _ h4.valid) (graphLike_mem h4)
  · intro a ha; rw [ReflCmp.compare_self (cmp := compare)] at ha; cases ha
  · intro a b ha hb; rw [OrientedCmp.gt_of_lt (cmp := compare) ha] at hb; cases hb
  · refine (Graph.iter_sorted (K := L) S1'.guard h4.valid').imp fun {a b} hab => ?_
    rw [← hφ]; exact hab

/-- C120, what is asked of the new ids cannot be left out: if programs learn the same with them, then they are equal exactly where
the old ones are, for any two nodes. -/
theorem C120_needed [LawfulSig σ]
    (h : ∀ (l : List (Use σ × Seen σ)) (S1 : Schema σ), Session (.fromGraph (σ.graphOf [])) l S1 →
      ∃ l' S1', Session (.fromGraph ((σ.renamed L φ).graphOf [])) l' S1' ∧ Echo φ l l') (n m : σ.T) :
    (φ (id m) == φ (id n)) = (id m == id n) := by
  have h0 : Session (.fromGraph (σ.graphOf [])) [(.update (.save n), .nothing), (.get (id m), _)] _ :=
    .cons (.update _ (.save n)) (.cons (.get _ (id m)) (.nil _))
  obtain ⟨l', S1', h1, h2⟩ := h _ _ h0
  have e0 := session_first σ h0
  cases h2 with
  | cons a1 h2 => cases h2 with
    | cons a2 h2 =>
      cases h2
      have e1 := session_first (σ.renamed L φ) (n := n) (i := φ (id m)) h1
      rw [e0, e1] at a2
      have e2 : (if φ (id m) == φ (id n) then some n else none) = if id m == id n then some n else none := by
        generalize (if id m == id n then some n else none) = x at a2
        change Seen.Like φ (.node x) (.node (if φ (id m) == φ (id n) then some n else none)) at a2
        generalize (if φ (id m) == φ (id n) then some n else none) = y at a2
        cases a2
        rfl
      cases h3 : φ (id m) == φ (id n) <;> cases h4 : id m == id n <;> simp [h3, h4] at e2 ⊢

/-- C120 for another order of the same ids: it shows in nothing but the order in which nodes are gone through. -/
theorem C120_other_order [LawfulSig σ] (g : Graph σ.K σ.T) (hg : g.Reachable) (o : Ord σ.K) (ht : @TransOrd σ.K o)
    (hb : @LawfulBEqOrd σ.K _ o) (l : List (Use σ × Seen σ)) (S1 : Schema σ) (h : Session (.fromGraph g) l S1) :
    ∃ l' S1', Session (.fromGraph ((@Sig.renamed σ σ.K o σ.beqK fun i => i).graphOf g.iter)) l' S1' ∧
      @Echo σ σ.K o σ.beqK (fun i => i) l l' ∧ @Renamed σ σ.K o σ.beqK (fun i => i) S1 S1' :=
  @C120_session σ σ.K o σ.beqK ht hb (fun i => i) _ (fun _ _ => rfl) g _ hg (.fromIter _)
    (fun i => @C120_start σ σ.K o σ.beqK ht hb (fun i => i) _ (fun _ _ => rfl) g hg g.iter (.refl _) i) l S1 h

/-! ## A concrete case -/

/-- Numbers replaced by their negatives: the order is turned round. -/
abbrev turned : Sig := demo.renamed Int fun k => -(k : Int)

theorem turned_faithful : Faithful (K := Nat) (L := Int) fun k => -(k : Int) := fun i j => by
  rw [Bool.eq_iff_iff]; simp only [beq_iff_eq]; omega

/-- A transaction that deletes a document, saves another one if a third is there, and looks at what it did. -/
def swapping : Prog demo :=
  .delete 0 1 (.contains 0 2 fun b => if b then .save 0 ⟨7, 70⟩ (.get 0 7 fun n => .done (if n.isSome then .ok () else .error .noop))
    else .done (.error .noop))

def threeDocs : List Doc := [⟨1, 10⟩, ⟨2, 20⟩, ⟨3, 30⟩]

example : ((Schema.fromGraph (demo.graphOf threeDocs)).transact 10 [] swapping).map (fun x => (x.1, x.2.guard.iter)) =
    some (.ret (.ok ()), [⟨2, 20⟩, ⟨3, 30⟩, ⟨7, 70⟩]) := by decide +kernel

/-- With the ids negated the same transaction gives the same, and the nodes are gone through the other way round. -/
example : ((Schema.fromGraph (turned.graphOf threeDocs)).transact 10 [] (swapping.rename _)).map
    (fun x => (x.1, x.2.guard.iter)) = some (.ret (.ok ()), [⟨7, 70⟩, ⟨3, 30⟩, ⟨2, 20⟩]) := by decide +kernel

/-- That equal ids stay equal and different ones different cannot be left out: with all ids made one, what is there to be found is
another matter. -/
example : ((Schema.fromGraph ((demo.renamed Nat fun _ => 0).graphOf threeDocs)).transact 10 [] (swapping.rename _)).map
    (fun x => (x.1, x.2.guard.iter)) = some (.ret (.error .noop), [⟨3, 30⟩]) := by decide +kernel

/-- The theorem applies. -/
example : ∃ l' S1', Session (.fromGraph (turned.graphOf threeDocs)) l' S1' ∧
    l'.map Prod.fst = [Use.tx [] (swapping.rename _), .get (-7), .iter] ∧ S1'.guard.get (-7) = some ⟨7, 70⟩ ∧ S1'.guard.get (-1) = none := by
  have hs : Session (σ := demo) (.fromGraph (demo.graphOf threeDocs)) _ _ :=
    .cons (.tx (fuel := 10) (pre := []) (body := swapping) (o := .ret (.ok ())) (by with_unfolding_all rfl) (by intro h; cases h))
      (.cons (.get _ (7 : Nat)) (.cons (.iter _) (.nil _)))
  obtain ⟨l', S1', h1, h2, h3⟩ := C120_session turned_faithful _ (turned.graphOf threeDocs) (graphOf_reachable demo _) (graphOf_reachable turned _)
    (fun i => C120_start turned_faithful _ (graphOf_reachable demo _) threeDocs (by with_unfolding_all exact .refl _) i) _ _ hs
  refine ⟨l', S1', h1, ?_, ?_, ?_⟩
  · cases h2 with
    | cons _ h2 => cases h2 with
      | cons _ h2 => cases h2 with
        | cons _ h2 => cases h2; rfl
  · exact (h3.nodes 7).trans (by with_unfolding_all rfl)
  · exact (h3.nodes 1).trans (by with_unfolding_all rfl)

end Plotline
