import Verif.Lemmas.Opaque
import Verif.Lemmas.BTree
import Verif.Spec.Reorder

/-! Helper lemmas: another order of the types of resources. -/

namespace Plotline

open Std

/-- What is found after registrations: the last one of the type. -/
theorem resourcesAfter_get {Ty : Type} [DecidableEq Ty] {o : OrderOn Ty} (ho : o.Lawful) (l : List (Ty × Nat)) (t : Ty) :
    @BTreeMap.get _ _ o.ord (resourcesAfter o l) t = l.foldl (fun r e => if t = e.1 then some e.2 else r) none := by
  letI := o.ord
  have := ho.trans
  have := ho.eq
  have key : ∀ (l : List (Ty × Nat)) (m : BTreeMap Ty Nat), BTreeMap.Sorted m.entries →
      (l.foldl (fun m e => (m.insert e.1 e.2).1) m).get t = l.foldl (fun r e => if t = e.1 then some e.2 else r) (m.get t) := by
    intro l
    induction l with
    | nil => intro m _; rfl
    | cons e l ih =>
      intro m hm
      rw [List.foldl_cons, List.foldl_cons, ih (m.insert e.1 e.2).1 (BTreeMap.sorted_insertL hm)]
      congr 1
      change BTreeMap.findL t (BTreeMap.insertL e.1 e.2 m.entries) = _
      rw [BTreeMap.findL_insertL hm]
      by_cases h : t = e.1
      · rw [if_pos h, if_pos (LawfulEqOrd.compare_eq_iff_eq.2 h)]
      · rw [if_neg h, if_neg fun hc => h (LawfulEqOrd.compare_eq_iff_eq.1 hc)]
        rfl
  exact key l BTreeMap.empty List.Pairwise.nil

theorem orderFree_lawful {Ty : Type} [DecidableEq Ty] {a b : OrderOn Ty} (ha : a.Lawful) (hb : b.Lawful) : OrderFree a b :=
  fun l t => by rw [resourcesAfter_get ha, resourcesAfter_get hb]

variable {σ : Sig} {o : OrderOn σ.Ty}

theorem both_eq {T : Type} {a b : Option T} (h : Both Eq a b) : a = b := by
  cases h with
  | none => rfl
  | some h => rw [h]

theorem pairs_eq {T : Type} {a b : List T} (h : Pairs Eq a b) : a = b := by
  induction h with
  | nil => rfl
  | cons h _ ih => rw [h, ih]

theorem pairs_refl {T : Type} {R : T → T → Prop} (hR : ∀ a, R a a) : ∀ l : List T, Pairs R l l
  | [] => .nil
  | _ :: l => .cons (hR _) (pairs_refl hR l)

theorem Prog.reorder_matches (p : Prog σ) : p.Matches (U := σ.T) (W := σ.Val) Eq (fun _ => Eq) (p.reorder o) := by
  induction p with
  | done r => exact .done r
  | panic => exact .panic
  | reenter => exact .reenter
  | save c n k ih => exact .save c rfl ih
  | delete c i k ih => exact .delete c i ih
  | get c i k ih => exact .get c i fun a b h => both_eq h ▸ ih a
  | contains c i k ih => exact .contains c i ih
  | tx c body k ihb ih => exact .tx c ihb ih
  | runTriggers c s k ih => exact .runTriggers c s ih
  | withTarget n k ih => exact .withTarget rfl ih
  | targetRead c k ih => exact .targetRead c fun a b h => both_eq h ▸ ih a
  | targetWrite c f k ih => exact .targetWrite c (fun n m h => h ▸ ⟨rfl, rfl⟩) ih
  | resRead t k ih => exact .resRead t fun a b h => both_eq h ▸ ih a
  | resWrite t f k ih => exact .resWrite t (fun v w h => h ▸ ⟨rfl, rfl⟩) ih
  | resScope t excl body k ihb ih => exact .resScope t excl (fun a b h => h ▸ ihb a) ih
  | resAssign t x k ih => exact .resAssign t rfl ih
  | catchUnwind body k ihb ih => exact .catchUnwind ihb ih
  | forget k ih => exact .forget ih

theorem Use.reorder_matches (u : Use σ) : u.Matches (U := σ.T) (W := σ.Val) Eq (fun _ => Eq) (u.reorder o) := by
  have hop : ∀ op : Operation σ.K σ.T, op.Matches Eq op := fun op => by
    cases op with
    | save n => exact .save rfl
    | delete i => exact .delete i
  cases u with
  | register t v => exact .register t rfl
  | trigger s p => exact .trigger s p.reorder_matches
  | tx pre body => exact .tx (pairs_refl hop pre) body.reorder_matches
  | update op => exact .update (hop op)
  | get i => exact .get i
  | iter => exact .iter
  | read t => exact .read t
  | write t f => exact .write t fun v w h => h ▸ ⟨rfl, rfl⟩

theorem uses_reorder (o : OrderOn σ.Ty) : ∀ l : List (Use σ), Pairs (Use.Matches (U := σ.T) (W := σ.Val) Eq (fun _ => Eq)) l (l.map (Use.reorder o))
  | [] => .nil
  | u :: l => .cons u.reorder_matches (uses_reorder o l)

theorem Seen.Matches.reorder {a : Seen σ} {b : Seen (σ.reordered o)} (h : a.Matches (U := σ.T) (W := σ.Val) Eq (fun _ => Eq) b) : b = a.reorder o := by
  cases h with
  | nothing => rfl
  | out r => rfl
  | node h => rw [both_eq h]; rfl
  | nodes h => rw [pairs_eq h]; rfl
  | value t h => rw [both_eq h]; rfl
  | wrote a => rfl

theorem seen_reorder {a : List (Seen σ)} {b : List (Seen (σ.reordered o))} (h : Pairs (Seen.Matches (U := σ.T) (W := σ.Val) Eq (fun _ => Eq)) a b) :
    b = a.map (Seen.reorder o) := by
  induction h with
  | nil => rfl
  | cons h _ ih => rw [h.reorder, ih]; rfl

theorem Seen.reorder_inj {a b : Seen σ} (h : a.reorder o = b.reorder o) : a = b := by
  cases a <;> cases b <;> first | rfl | (cases h; done) | (cases h; rfl)

theorem map_reorder_inj : ∀ {a b : List (Seen σ)}, a.map (Seen.reorder o) = b.map (Seen.reorder o) → a = b
  | [], [], _ => rfl
  | [], _ :: _, h => by cases h
  | _ :: _, [], h => by cases h
  | x :: a, y :: b, h => by
    rw [List.map_cons, List.map_cons, List.cons.injEq] at h
    rw [Seen.reorder_inj h.1, map_reorder_inj h.2]

theorem eq_of_parts {A B : Type} : ∀ {l l' : List (A × B)}, l.map Prod.fst = l'.map Prod.fst → l.map Prod.snd = l'.map Prod.snd → l = l'
  | [], [], _, _ => rfl
  | [], _ :: _, h, _ => by cases h
  | _ :: _, [], h, _ => by cases h
  | (x, x') :: a, (y, y') :: b, h, h' => by
    simp only [List.map_cons, List.cons.injEq] at h h'
    rw [h.1, h'.1, eq_of_parts h.2 h'.2]

theorem numbered_snoc {P : Type} (ν : Sched → Nat) (l : List (Sched × P)) (x : Sched × P) : numbered ν (l ++ [x]) =
    match (numbered ν l).get (ν x.1) with
    | some ts => ((numbered ν l).insert (ν x.1) (ts ++ [x.2])).1
    | none => ((numbered ν l).insert (ν x.1) [x.2]).1 := by
  unfold numbered
  rw [List.foldl_append]
  rfl

theorem numbered_sorted {P : Type} (ν : Sched → Nat) (l : List (Sched × P)) : BTreeMap.Sorted (numbered ν l).entries := by
  suffices h : ∀ r : List (Sched × P), BTreeMap.Sorted (numbered ν r.reverse).entries by
    have := h l.reverse
    rwa [List.reverse_reverse] at this
  intro r
  induction r with
  | nil => exact List.Pairwise.nil
  | cons x r ih =>
    rw [List.reverse_cons, numbered_snoc]
    split
    · exact BTreeMap.sorted_insertL ih
    · exact BTreeMap.sorted_insertL ih

/-- What is found are the triggers registered for the scheduler, in order. -/
theorem numbered_get {P : Type} {ν : Sched → Nat} (hν : ∀ s u, ν s = ν u → s = u) (l : List (Sched × P)) (s : Sched) :
    ((numbered ν l).get (ν s)).getD [] = (l.filter fun x => x.1 = s).map Prod.snd := by
  suffices h : ∀ r : List (Sched × P), ((numbered ν r.reverse).get (ν s)).getD [] = (r.reverse.filter fun x => x.1 = s).map Prod.snd by
    have := h l.reverse
    rwa [List.reverse_reverse] at this
  intro r
  induction r with
  | nil => rfl
  | cons x r ih =>
    have hs := numbered_sorted ν r.reverse
    rw [List.reverse_cons, numbered_snoc, List.filter_append, List.map_append, ← ih]
    by_cases hx : x.1 = s
    · subst hx
      cases hg : (numbered ν r.reverse).get (ν x.1) with
      | some ts =>
        change (BTreeMap.findL (ν x.1) (BTreeMap.insertL (ν x.1) (ts ++ [x.2]) _)).getD [] = _
        rw [BTreeMap.findL_insertL hs, if_pos ReflCmp.compare_self]
        simp
      | none =>
        change (BTreeMap.findL (ν x.1) (BTreeMap.insertL (ν x.1) [x.2] _)).getD [] = _
        rw [BTreeMap.findL_insertL hs, if_pos ReflCmp.compare_self]
        simp
    · have hne : ¬ compare (ν s) (ν x.1) = .eq := fun hc => hx (hν _ _ (LawfulEqOrd.compare_eq_iff_eq.1 hc).symm)
      rw [show ([x].filter fun x => decide (x.1 = s)) = [] by simp [hx], List.map_nil, List.append_nil]
      split
      · rename_i ts _
        change (BTreeMap.findL (ν s) (BTreeMap.insertL (ν x.1) (ts ++ [x.2]) _)).getD [] = _
        rw [BTreeMap.findL_insertL hs, if_neg hne]
        rfl
      · change (BTreeMap.findL (ν s) (BTreeMap.insertL (ν x.1) [x.2] _)).getD [] = _
        rw [BTreeMap.findL_insertL hs, if_neg hne]
        rfl

theorem triggers_numbered (l : List (Sched × Prog σ)) :
    (l.foldl (fun ts x => ts.withTrigger x.1 x.2) TriggerSet.empty).triggers = numbered Sched.typeId l := by
  suffices h : ∀ r : List (Sched × Prog σ),
      (r.reverse.foldl (fun ts x => ts.withTrigger x.1 x.2) TriggerSet.empty).triggers = numbered Sched.typeId r.reverse by
    have := h l.reverse
    rwa [List.reverse_reverse] at this
  intro r
  induction r with
  | nil => rfl
  | cons x r ih =>
    rw [List.reverse_cons, numbered_snoc, List.foldl_append, ← ih, List.foldl_cons, List.foldl_nil]
    unfold TriggerSet.withTrigger
    cases hg : (r.reverse.foldl (fun ts x => ts.withTrigger x.1 x.2) TriggerSet.empty).triggers.get x.1.typeId <;>
      (unfold TriggerSet.withTrigger at hg; rw [hg])

end Plotline
