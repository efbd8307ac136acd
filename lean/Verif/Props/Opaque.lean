import Verif.Lemmas.Opaque
import Verif.Spec.Fixtures

/-! # C121: the library does not look into nodes and resources -/

namespace Plotline

variable {σ : Sig} {U : Type} [Identify U σ.K] {W : σ.Ty → Type} {R : σ.T → U → Prop} {Q : ∀ t, σ.Val t → W t → Prop}

/-- C121: put nodes of another type in the place of the nodes, so that each has the id of the one it stands for, and values of other
types in the place of the values of resources, whatever they are. A program that does the same with the others (makes the same calls
when the answers stand for each other, and saves, registers and writes what stands for what it did before) learns the same from all
it does, with nodes and values that stand for those it was given before, place by place where nodes are gone through, and leaves such
nodes, triggers and resources. -/
theorem C121_session (hR : SameIds R) (ns : List σ.T) (ms : List U) (hn : Pairs R ns ms) (l : List (Use σ × Seen σ)) (S1 : Schema σ)
    (h : Session (.fromGraph (σ.graphOf ns)) l S1) (us' : List (Use (σ.withKinds U W))) (hu : Pairs (Use.Matches R Q) (l.map Prod.fst) us') :
    ∃ l' S1', Session (.fromGraph ((σ.withKinds U W).graphOf ms)) l' S1' ∧ l'.map Prod.fst = us' ∧
      Pairs (Seen.Matches R Q) (l.map Prod.snd) (l'.map Prod.snd) ∧ S1.Matches R Q S1' := by
  obtain ⟨l', S1', h1, h2, h3, h4⟩ := session_pairs hR (orderFree_self _) h (schemaPairs_start hR hn) hu
  exact ⟨l', S1', h1, h2, h3, h4.matches⟩

/-- C121, the other way round: what the program with the other nodes can do the first one can do, learning the same. So a call that
never returns with the one kind of node does not return with the other. -/
theorem C121_back (hR : SameIds R) (ns : List σ.T) (ms : List U) (hn : Pairs R ns ms)
    (l' : List (Use (σ.withKinds U W) × Seen (σ.withKinds U W))) (S1' : Schema (σ.withKinds U W))
    (h : Session (.fromGraph ((σ.withKinds U W).graphOf ms)) l' S1') (us : List (Use σ)) (hu : Pairs (Use.Matches R Q) us (l'.map Prod.fst)) :
    ∃ l S1, Session (.fromGraph (σ.graphOf ns)) l S1 ∧ l.map Prod.fst = us ∧
      Pairs (Seen.Matches R Q) (l.map Prod.snd) (l'.map Prod.snd) ∧ S1.Matches R Q S1' := by
  obtain ⟨l, S1, h1, h2, h3, h4⟩ := session_pairs_back hR (orderFree_self _) (schemaPairs_start hR hn) h hu
  exact ⟨l, S1, h1, h2, h3, h4.matches⟩

/-- C121 for a change of what is in the nodes: programs that do the same whatever nodes with the given ids hold learn the same
whatever they hold. `R` says of two nodes that they are the same but for what the program does not look at. -/
theorem C121_content (R : σ.T → σ.T → Prop) (Q : ∀ t, σ.Val t → σ.Val t → Prop)
    (hR : ∀ n m, R n m → (id m : σ.K) = id n) (ns ms : List σ.T) (hn : Pairs R ns ms)
    (body : Prog σ) (hb : body.Matches (U := σ.T) (o := ⟨σ.ordTy⟩) R Q body) (fuel : Nat) :
    (((Schema.fromGraph (σ.graphOf ns)).transact fuel [] body).map Prod.fst) =
      (((Schema.fromGraph (σ.graphOf ms)).transact fuel [] body).map Prod.fst) := by
  have h := transact_pairs (U := σ.T) (o := ⟨σ.ordTy⟩) hR (schemaPairs_start (U := σ.T) hR hn) fuel .nil hb
  exact h.fst

/-- C121, that the ids are kept cannot be left out: if the answers stand for each other whatever is done, then what stands for each
other has equal ids. -/
theorem C121_needed [LawfulSig σ] (R : σ.T → U → Prop) (Q : ∀ t, σ.Val t → W t → Prop)
    (h : ∀ (l : List (Use σ × Seen σ)) (S1 : Schema σ) (us' : List (Use (σ.withKinds U W))),
      Session (.fromGraph (σ.graphOf [])) l S1 → Pairs (Use.Matches R Q) (l.map Prod.fst) us' →
      ∃ l' S1', Session (.fromGraph ((σ.withKinds U W).graphOf [])) l' S1' ∧ l'.map Prod.fst = us' ∧
        Pairs (Seen.Matches R Q) (l.map Prod.snd) (l'.map Prod.snd)) (n : σ.T) (m : U) (hnm : R n m) :
    ((id n : σ.K) == (id m : σ.K)) = true := by
  have hl : LawfulSig (σ.withKinds U W) := ⟨LawfulSig.transK (σ := σ), LawfulSig.beqK (σ := σ), LawfulSig.transTy (σ := σ), LawfulSig.eqTy (σ := σ)⟩
  have h0 : Session (.fromGraph (σ.graphOf [])) [(.update (.save n), .nothing), (.get (id n), _)] _ :=
    .cons (.update _ (.save n)) (.cons (.get _ (id n)) (.nil _))
  obtain ⟨l', S1', h1, h2, h3⟩ := h _ _ [.update (.save m), .get (id n)] h0 (.cons (.update (.save hnm)) (.cons (.get _) .nil))
  have e0 := session_first σ h0
  match l', h2 with
  | [(_, a), (_, b)], h2 =>
    simp only [List.map_cons, List.map_nil, List.cons.injEq, and_true] at h2
    obtain ⟨rfl, rfl⟩ := h2
    have e1 := session_first (σ.withKinds U W) (n := m) (i := (id n : σ.K)) h1
    cases h3 with
    | cons _ h3 => cases h3 with
      | cons a2 _ =>
        rw [e0, e1] at a2
        cases h4 : ((id n : σ.K) == (id m : σ.K)) with
        | true => rfl
        | false =>
          rw [if_pos (BEq.rfl)] at a2
          change Seen.Matches R Q (.node (some n)) (.node (if (id n : σ.K) == (id m : σ.K) then some m else none)) at a2
          rw [h4, if_neg (by intro hc; cases hc)] at a2
          cases a2 with
          | node hb => cases hb

/-! ## A concrete case -/

/-- A document kept together with its length in words. -/
structure Measured where
  doc : Doc
  words : Nat
deriving DecidableEq

instance : Identify Measured demo.K := ⟨fun c => c.doc.key⟩

/-- The counted document is the document. -/
def Measured.Of (n : Doc) (m : Measured) : Prop := m.doc = n

theorem measured_same : SameIds (σ := demo) Measured.Of := by
  rintro n ⟨d, w⟩ h
  cases h
  rfl

/-- Saves a document in the place of the one it finds, and one of its own; the documents are counted to have no words. -/
def moving : Prog demo :=
  .get 0 1 fun n => match n with
    | some d => .delete 0 1 (.save 0 { d with key := 4 } (.save 0 ⟨5, 50⟩ (.done (.ok ()))))
    | none => .done (.error .noop)

def movingMeasured : Prog (demo.withNodes Measured) :=
  .get 0 (1 : Nat) fun n => match n with
    | some d => .delete 0 (1 : Nat) (.save 0 { d with doc := { d.doc with key := 4 } } (.save 0 ⟨⟨5, 50⟩, 0⟩ (.done (.ok ()))))
    | none => .done (.error .noop)

theorem moving_matches : moving.Matches (W := demo.Val) Measured.Of (fun _ => Eq) movingMeasured := by
  refine .get _ _ fun a b hab => ?_
  cases hab with
  | none => exact .done _
  | some h =>
    rename_i n m
    have h : m.doc = n := h
    subst h
    exact .delete _ _ (.save _ rfl (.save _ rfl (.done _)))

def twoDocs : List Doc := [⟨1, 10⟩, ⟨2, 20⟩]
def twoMeasured : List Measured := [⟨⟨1, 10⟩, 77⟩, ⟨⟨2, 20⟩, 88⟩]

theorem two_pairs : Pairs Measured.Of twoDocs twoMeasured := .cons rfl (.cons rfl .nil)

example : ((Schema.fromGraph (demo.graphOf twoDocs)).transact 10 [] moving).map (fun x => (x.1, x.2.guard.iter)) =
    some (.ret (.ok ()), [⟨2, 20⟩, ⟨4, 10⟩, ⟨5, 50⟩]) := by decide +kernel

example : ((Schema.fromGraph ((demo.withNodes Measured).graphOf twoMeasured)).transact 10 [] movingMeasured).map
    (fun x => (x.1, x.2.guard.iter)) = some (.ret (.ok ()), [⟨⟨2, 20⟩, 88⟩, ⟨⟨4, 10⟩, 77⟩, ⟨⟨5, 50⟩, 0⟩]) := by decide +kernel

/-- The theorem applies: what the program with counted documents goes through in the end are the documents the other one goes
through. -/
example : ∃ l' S1', Session (.fromGraph ((demo.withNodes Measured).graphOf twoMeasured)) l' S1' ∧
    l'.map Prod.fst = [.tx [] movingMeasured, .iter] ∧ Pairs Measured.Of [⟨2, 20⟩, ⟨4, 10⟩, ⟨5, 50⟩] S1'.guard.iter := by
  have hs : Session (σ := demo) (.fromGraph (demo.graphOf twoDocs)) _ _ :=
    .cons (.tx (fuel := 10) (pre := []) (body := moving) (o := .ret (.ok ())) (by with_unfolding_all rfl) (by intro h; cases h))
      (.cons (.iter _) (.nil _))
  obtain ⟨l', S1', h1, h2, _, h4⟩ := C121_session (W := demo.Val) (Q := fun _ => Eq) measured_same twoDocs twoMeasured two_pairs _ _ hs [.tx [] movingMeasured, .iter]
    (.cons (.tx .nil moving_matches) (.cons .iter .nil))
  exact ⟨l', S1', h1, h2, by with_unfolding_all exact h4.iter⟩

/-- The ids cannot be left out: nodes that stand for each other with other ids, and the transaction does not find what it moves. -/
example : ((Schema.fromGraph ((demo.withNodes Measured).graphOf [⟨⟨3, 10⟩, 77⟩, ⟨⟨2, 20⟩, 88⟩])).transact 10 [] movingMeasured).map
    (fun x => (x.1, x.2.guard.iter)) = some (.ret (.error .noop), [⟨⟨2, 20⟩, 88⟩, ⟨⟨3, 10⟩, 77⟩]) := by decide +kernel

/-- A transaction that looks at nothing in the nodes gives the same whatever is in them. -/
def blind : Prog demo := .get 0 1 fun n => match n with
  | some d => .save 0 d (.contains 0 2 fun b => .done (if b then .ok () else .error .noop))
  | none => .panic

theorem blind_matches : blind.Matches (U := Doc) (o := ⟨demo.ordTy⟩) (fun (n m : Doc) => m.key = n.key) (fun _ => Eq) blind := by
  refine .get _ _ fun a b hab => ?_
  cases hab with
  | none => exact .panic
  | some h => exact .save _ h (.contains _ _ fun b => .done _)

example : ((Schema.fromGraph (demo.graphOf twoDocs)).transact 10 [] blind).map Prod.fst =
    ((Schema.fromGraph (demo.graphOf [⟨1, 100⟩, ⟨2, 999⟩])).transact 10 [] blind).map Prod.fst :=
  C121_content (σ := demo) (fun n m => m.key = n.key) (fun _ => Eq) (fun _ _ h => h) twoDocs [⟨1, 100⟩, ⟨2, 999⟩] (.cons rfl (.cons rfl .nil)) _ blind_matches 10

/-! Another kind of resource: numbers that are kept together with whether they were ever written. -/

abbrev Marked : demo.Ty → Type := fun _ => Nat × Bool

/-- Reads a resource, adds to it, and saves a document with what it read. -/
def tallying : Prog demo := .resRead (1 : Nat) fun a => .resWrite (1 : Nat) (fun b => (b + 1, false)) fun _ =>
  .save 0 ⟨9, a.getD 0⟩ (.done (.ok ()))

def tallyingMarked : Prog (demo.withKinds Measured Marked) := .resRead (1 : Nat) fun a =>
  .resWrite (1 : Nat) (fun b => ((b.1 + 1, true), false)) fun _ => .save 0 ⟨⟨9, (a.map Prod.fst).getD 0⟩, 0⟩ (.done (.ok ()))

theorem tallying_matches : tallying.Matches Measured.Of (fun _ v (w : Nat × Bool) => w.1 = v) tallyingMarked := by
  refine .resRead _ fun a b hab => .resWrite _ (fun v w h => ⟨by subst h; rfl, rfl⟩) fun _ => .save _ ?_ (.done _)
  cases hab with
  | none => rfl
  | some h => subst h; rfl

example : ∃ l' S1', Session (.fromGraph ((demo.withKinds Measured Marked).graphOf twoMeasured)) l' S1' ∧
    l'.map Prod.fst = [.register (1 : Nat) ((40, false) : Nat × Bool), .tx [] tallyingMarked] ∧
    Pairs Measured.Of [⟨1, 10⟩, ⟨2, 20⟩, ⟨9, 40⟩] S1'.guard.iter ∧
    Both (fun (v : Nat) (w : Nat × Bool) => w.1 = v) (some 41) ((S1'.env.resources.res (1 : Nat)).peek S1'.heap) := by
  have hs : Session (σ := demo) (.fromGraph (demo.graphOf twoDocs)) _ _ :=
    .cons (.register _ (1 : Nat) (40 : Nat)) (.cons (.tx (fuel := 10) (pre := []) (body := tallying) (o := .ret (.ok ()))
      (by with_unfolding_all rfl) (by intro h; cases h)) (.nil _))
  obtain ⟨l', S1', h1, h2, _, h4⟩ := C121_session measured_same twoDocs twoMeasured two_pairs _ _ hs
    [.register (1 : Nat) ((40, false) : Nat × Bool), .tx [] tallyingMarked]
    (.cons (.register _ rfl) (.cons (.tx .nil tallying_matches) .nil))
  exact ⟨l', S1', h1, h2, by with_unfolding_all exact h4.iter, by with_unfolding_all exact h4.reads 1⟩

end Plotline
