import Verif.Lemmas.PluginOpaque
import Verif.Props.TreeOpaque
import Verif.Props.Plugin

/-! # C124: of intervals nothing but the order of their bounds and their equality matters to the plugin -/

namespace Plotline

variable {K T U I J B C : Type} {W X : Nat → Type} [Ord K] [BEq K] [Identify T K] [Identify U K] [Ord B] [Ord C] [BEq I] [BEq J]
  [Interval I B] [Interval J C] {R : T → U → Prop} {Q : I → J → Prop} {O : ∀ n, W n → X n → Prop}

/-- C124: put other nodes with the same ids in the place of the nodes, and other intervals in the place of those the extractor gives,
so that bounds compare as they did before and intervals are equal when they were. Then a program that does the same on a schema with
the plugin (with its own triggers, transactions and resources, the index among them) learns the same from all it does, and what it is
given stands for what it was given before: nodes for nodes, and an index with the intervals that stand for those of before in the
same places. -/
theorem C124_session (hR : ∀ n m, R n m → (id m : K) = id n) (hQ : SameShape (B := B) (C := C) Q) (merged : Bool) (fuel : Nat)
    (e : T → List I) (e' : U → List J) (he : ∀ n m, R n m → Pairs Q (e n) (e' m)) (ns : List T) (ms : List U) (hn : Pairs R ns ms)
    (l : List (Use (PSigOf K T I B W) × Seen (PSigOf K T I B W))) (S1 : Schema (PSigOf K T I B W))
    (h : Session (install merged fuel e (.fromGraph (.fromIter ns))) l S1) (us : List (Use (PSigOf K U J C X)))
    (hu : Pairs (Use.Matches (σ := PSigOf K T I B W) (U := U) (o := ⟨inferInstance⟩) R (PluginLike K R Q O)) (l.map Prod.fst) us) :
    ∃ l' S1', Session (install merged fuel e' (.fromGraph (.fromIter ms))) l' S1' ∧ l'.map Prod.fst = us ∧
      Pairs (Seen.Matches (σ := PSigOf K T I B W) (U := U) (o := ⟨inferInstance⟩) R (PluginLike (B := B) (C := C) K R Q O)) (l.map Prod.snd) (l'.map Prod.snd) ∧
      Schema.Matches (σ := PSigOf K T I B W) (U := U) (o := ⟨inferInstance⟩) R (PluginLike (B := B) (C := C) K R Q O) S1 S1' := by
  obtain ⟨l', S1', h1, h2, h3, h4⟩ := session_pairs (σ := PSigOf K T I B W) (U := U) (o := ⟨inferInstance⟩) hR (orderFree_self _) h
    (installed_pairs O hR hQ merged fuel he hn) hu
  exact ⟨l', S1', h1, h2, h3, h4.matches⟩

/-- C124, the other way round. So what never returns with the one kind of nodes and intervals does not return with the other. -/
theorem C124_back (hR : ∀ n m, R n m → (id m : K) = id n) (hQ : SameShape (B := B) (C := C) Q) (merged : Bool) (fuel : Nat)
    (e : T → List I) (e' : U → List J) (he : ∀ n m, R n m → Pairs Q (e n) (e' m)) (ns : List T) (ms : List U) (hn : Pairs R ns ms)
    (l' : List (Use (PSigOf K U J C X) × Seen (PSigOf K U J C X))) (S1' : Schema (PSigOf K U J C X))
    (h : Session (install merged fuel e' (.fromGraph (.fromIter ms))) l' S1') (us : List (Use (PSigOf K T I B W)))
    (hu : Pairs (Use.Matches (σ := PSigOf K T I B W) (U := U) (o := ⟨inferInstance⟩) R (PluginLike (B := B) (C := C) K R Q O)) us (l'.map Prod.fst)) :
    ∃ l S1, Session (install merged fuel e (.fromGraph (.fromIter ns))) l S1 ∧ l.map Prod.fst = us ∧
      Pairs (Seen.Matches (σ := PSigOf K T I B W) (U := U) (o := ⟨inferInstance⟩) R (PluginLike (B := B) (C := C) K R Q O)) (l.map Prod.snd) (l'.map Prod.snd) ∧
      Schema.Matches (σ := PSigOf K T I B W) (U := U) (o := ⟨inferInstance⟩) R (PluginLike (B := B) (C := C) K R Q O) S1 S1' := by
  obtain ⟨l, S1, h1, h2, h3, h4⟩ := session_pairs_back (σ := PSigOf K T I B W) (U := U) (o := ⟨inferInstance⟩) hR (orderFree_self _)
    (installed_pairs O hR hQ merged fuel he hn) h hu
  exact ⟨l, S1, h1, h2, h3, h4.matches⟩

/-- C124 for nodes saved and deleted one after another: this is possible with the one kind exactly if it is with the other, and
afterwards the index answers the same queries alike, with intervals that stand for each other in the same order. -/
theorem C124_history (hR : ∀ n m, R n m → (id m : K) = id n) (hQ : SameShape (B := B) (C := C) Q) (merged : Bool) (fuel : Nat)
    (e : T → List I) (e' : U → List J) (he : ∀ n m, R n m → Pairs Q (e n) (e' m)) (ns : List T) (ms : List U) (hn : Pairs R ns ms)
    (ops : List (Operation K T)) (ops' : List (Operation K U)) (ho : Pairs (Operation.Matches R) ops ops') :
    ((∃ S : Schema (PSig K T I B), Did (install merged fuel e (.fromGraph (.fromIter ns))) ops S) ↔
      ∃ S' : Schema (PSig K U J C), Did (install merged fuel e' (.fromGraph (.fromIter ms))) ops' S') ∧
    ∀ S : Schema (PSig K T I B), Did (install merged fuel e (.fromGraph (.fromIter ns))) ops S →
      ∃ S' : Schema (PSig K U J C), Did (install merged fuel e' (.fromGraph (.fromIter ms))) ops' S' ∧
        Pairs R S.guard.iter S'.guard.iter ∧
        Both (fun (t : ITree (NodeInterval K I) B) (t' : ITree (NodeInterval K J) C) => Pairs (NodeInterval.Like Eq Q) t.inorder t'.inorder ∧
          ∀ q p, NodeInterval.Like Eq Q q p → t.intersects q = t'.intersects p ∧ Pairs (NodeInterval.Like Eq Q) (t.forEach q) (t'.forEach p))
          S.index S'.index := by
  have h0 := installed_pairs (W := fun _ => Nat) (X := fun _ => Nat) (fun _ => Eq) hR hQ merged fuel he hn
  refine ⟨⟨fun ⟨S, h⟩ => ?_, fun ⟨S', h⟩ => ?_⟩, fun S h => ?_⟩
  · obtain ⟨S', h1, _⟩ := did_pairs (σ := PSig K T I B) hR h h0 ho
    exact ⟨S', h1⟩
  · obtain ⟨S, h1, _⟩ := did_pairs_back (σ := PSig K T I B) hR h h0 ho
    exact ⟨S, h1⟩
  · obtain ⟨S', h1, h2⟩ := did_pairs (σ := PSig K T I B) hR h h0 ho
    refine ⟨S', h1, h2.matches.iter, ?_⟩
    have h3 := h2.matches.reads PTy.treeOfId
    change Both (TreeLike (NodeInterval.Like Eq Q)) S.index S'.index at h3
    generalize S.index = x at h3
    generalize S'.index = y at h3
    cases h3 with
    | none => exact .none
    | some ht => exact .some ⟨ht.inorder, fun q p hq => ⟨ht.intersects hQ.ofNodes hq, ht.forEach hQ.ofNodes hq⟩⟩

/-! ## A concrete case -/

/-- The spans of `looseSpans`, in hours. -/
def looseHours (x : LooseId) : List Hours := (looseSpans x).map Span.hours

theorem looseHours_like (n m : LooseId) (h : n = m) : Pairs InHours (looseSpans n) (looseHours m) := by
  subst h
  exact .cons ⟨Nat.le_refl _, rfl⟩ .nil

/-- The history of `C51_stale`, with hours: there is the same stale interval. -/
example : ∃ (S' : Schema (PSig LooseId LooseId Hours Int)) (t : ITree (NodeInterval LooseId Hours) Int),
    Did (install true 0 looseHours (.fromGraph (.fromIter []))) [.save ⟨1, 3⟩, .save ⟨1, 8⟩] S' ∧ S'.index = some t ∧
    Pairs (NodeInterval.Like Eq InHours) [⟨⟨1, 3⟩, 3, 3⟩, ⟨⟨1, 8⟩, 8, 8⟩] t.inorder := by
  obtain ⟨S, t, h1, _, h2, h3⟩ := C51_stale
  obtain ⟨S', k1, _, k2⟩ := (C124_history (R := Eq) (fun n m h => by rw [h]) inHours_same true 0 looseSpans looseHours looseHours_like [] []
    .nil [.save ⟨1, 3⟩, .save ⟨1, 8⟩] [.save ⟨1, 3⟩, .save ⟨1, 8⟩] (.cons (.save rfl) (.cons (.save rfl) .nil))).2 S h1
  rw [h2] at k2
  generalize hy : S'.index = y at k2
  cases k2 with
  | some k3 => exact ⟨S', _, k1, hy, h3 ▸ k3.1⟩

end Plotline
