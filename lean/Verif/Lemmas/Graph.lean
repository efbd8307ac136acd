import Verif.Spec.Graph
import Verif.Lemmas.BTree

/-! Helper lemmas: the graph refines `FMap`. -/

namespace Plotline.Graph

open Std BTreeMap

set_option linter.unusedSectionVars false

variable {K T : Type} [Ord K] [TransOrd K] [Identify T K]

/-- Well-formed graph: strictly ascending keys, every key equal to its node's id. -/
structure Valid (g : Graph K T) : Prop where
  sorted : Sorted g.nodes.entries
  keys : ∀ e ∈ g.nodes.entries, compare e.1 (id e.2) = .eq

theorem valid_empty : Valid (empty : Graph K T) := ⟨List.Pairwise.nil, by simp [empty, BTreeMap.empty]⟩

theorem valid_insertL (g : Graph K T) (n : T) (h : g.Valid) :
    Valid (⟨⟨insertL (id n) n g.nodes.entries⟩⟩ : Graph K T) := by
  refine ⟨sorted_insertL h.sorted, ?_⟩
  intro e he
  rcases mem_insertL he with ⟨h1, h2⟩ | h1
  · rw [h1]; exact OrientedCmp.eq_symm h2
  · exact h.keys e h1

theorem valid_insert (g : Graph K T) (n : T) (h : g.Valid) : (g.insert n).1.Valid := valid_insertL g n h
theorem valid_withNode (g : Graph K T) (n : T) (h : g.Valid) : (g.withNode n).Valid := valid_insertL g n h

theorem valid_remove (g : Graph K T) (k : K) (h : g.Valid) : (g.remove k).1.Valid :=
  ⟨sorted_removeL h.sorted, fun e he => h.keys e (mem_removeL he)⟩

theorem fromIter_foldl (l : List T) (m : BTreeMap K T) :
    (⟨l.foldl (fun m node => (m.insert (id node) node).1) m⟩ : Graph K T) =
      l.foldl (fun g n => (g.insert n).1) ⟨m⟩ := by
  induction l generalizing m with
  | nil => rfl
  | cons a t ih => simp only [List.foldl_cons]; rw [ih]; rfl

theorem fromIter_eq (l : List T) : (fromIter l : Graph K T) = l.foldl (fun g n => (g.insert n).1) empty :=
  fromIter_foldl l _

theorem valid_foldl_insert (l : List T) (g : Graph K T) (h : g.Valid) :
    (l.foldl (fun g n => (g.insert n).1) g).Valid := by
  induction l generalizing g with
  | nil => exact h
  | cons a t ih => exact ih _ (valid_insert g a h)

theorem valid_fromIter (l : List T) : (fromIter l : Graph K T).Valid := by
  rw [fromIter_eq]; exact valid_foldl_insert l _ valid_empty

theorem Reachable.valid {g : Graph K T} (h : Reachable g) : g.Valid := by
  induction h with
  | empty => exact valid_empty
  | fromIter l => exact valid_fromIter l
  | insert g n _ ih => exact valid_insert g n ih
  | withNode g n _ ih => exact valid_withNode g n ih
  | remove g k _ ih => exact valid_remove g k ih

variable [BEq K] [LawfulBEqOrd K]

theorem beq_iff {a b : K} : (a == b) = true ↔ compare a b = .eq := LawfulBEqOrd.compare_eq_iff_beq.symm

theorem get_insert (g : Graph K T) (n : T) (h : g.Valid) (q : K) :
    (g.insert n).1.get q = if q == id n then some n else g.get q := by
  simp only [beq_iff]
  exact findL_insertL h.sorted

theorem get_withNode (g : Graph K T) (n : T) (h : g.Valid) (q : K) :
    (g.withNode n).get q = if q == id n then some n else g.get q := get_insert g n h q

theorem get_remove (g : Graph K T) (k : K) (h : g.Valid) (q : K) :
    (g.remove k).1.get q = if q == k then none else g.get q := by
  simp only [beq_iff]
  exact findL_removeL h.sorted

theorem get_congr (g : Graph K T) {q q' : K} (h : (q == q') = true) : g.get q = g.get q' :=
  findL_congr (beq_iff.1 h) _

theorem contains_eq (g : Graph K T) (q : K) : g.contains q = (g.get q).isSome := rfl

theorem insert_snd (g : Graph K T) (n : T) : (g.insert n).2 = g.get (id n) := rfl
theorem remove_snd (g : Graph K T) (k : K) : (g.remove k).2 = g.get k := rfl

theorem get_some_id (g : Graph K T) (h : g.Valid) {q : K} {n : T} (hg : g.get q = some n) :
    (q == id n) = true := by
  obtain ⟨k, hm, hc⟩ := mem_of_findL hg
  exact beq_iff.2 (TransCmp.eq_trans hc (h.keys _ hm))

theorem mem_iter (g : Graph K T) (h : g.Valid) (n : T) : n ∈ g.iter ↔ g.get (id n) = some n := by
  constructor
  · intro hm
    obtain ⟨e, he, rfl⟩ := List.mem_map.1 hm
    have := findL_of_mem h.sorted (k := e.1) (v := e.2) he
    exact (findL_congr (OrientedCmp.eq_symm (h.keys e he)) _).trans this
  · intro hg
    obtain ⟨k, hm, _⟩ := mem_of_findL hg
    exact List.mem_map.2 ⟨_, hm, rfl⟩

theorem iter_sorted (g : Graph K T) (h : g.Valid) :
    g.iter.Pairwise (fun a b => compare (id a) (id b) = .lt) := by
  refine List.pairwise_map.2 (List.Pairwise.imp_of_mem ?_ h.sorted)
  intro a b ha hb hlt
  exact TransCmp.lt_of_eq_of_lt (OrientedCmp.eq_symm (h.keys a ha))
    (TransCmp.lt_of_lt_of_eq hlt (h.keys b hb))

theorem modifyL_none {V : Type} {k : K} {f : V → V} {l : List (K × V)} (h : findL k l = none) : modifyL k f l = l := by
  induction l with
  | nil => rfl
  | cons e l ih =>
    simp only [findL] at h
    simp only [modifyL]
    split at h <;> simp_all

theorem modifyL_some {V : Type} {k k' : K} {f : V → V} {l : List (K × V)} {v : V} (hk : compare k k' = .eq) (h : findL k l = some v) :
    modifyL k f l = insertL k' (f v) l := by
  induction l with
  | nil => cases h
  | cons e l ih =>
    simp only [findL] at h
    simp only [modifyL, insertL, ← TransCmp.congr_left (cmp := compare) hk]
    split at h <;> simp_all

/-- Changing a node inside is like putting the changed node in its place. -/
theorem touch_eq (g : Graph K T) (h : g.Valid) (i : K) {f : T → T} (hf : ∀ n, id (f n) = id n) :
    g.touch i f = match g.get i with
      | some n => (g.insert (f n)).1
      | none => g := by
  cases hg : g.get i with
  | none => exact congrArg (fun l => (⟨⟨l⟩⟩ : Graph K T)) (modifyL_none hg)
  | some n =>
    refine congrArg (fun l => (⟨⟨l⟩⟩ : Graph K T)) (modifyL_some ?_ hg)
    rw [hf]; exact beq_iff.1 (get_some_id g h hg)

theorem reachable_touch {g : Graph K T} (h : g.Reachable) (i : K) {f : T → T} (hf : ∀ n, id (f n) = id n) : (g.touch i f).Reachable := by
  rw [touch_eq g h.valid i hf]
  split
  · exact .insert _ _ h
  · exact h

theorem get_touch (g : Graph K T) (h : g.Valid) (i : K) {f : T → T} (hf : ∀ n, id (f n) = id n) (q : K) :
    (g.touch i f).get q = if i == q then (g.get q).map f else g.get q := by
  rw [touch_eq g h i hf]
  split
  · rename_i n hn
    rw [get_insert _ _ h, hf]
    have h1 := get_some_id g h hn
    by_cases hq : (i == q) = true
    · rw [if_pos hq, ← get_congr g hq, hn, if_pos]; · rfl
      exact beq_iff.2 (TransCmp.eq_trans (OrientedCmp.eq_symm (beq_iff.1 hq)) (beq_iff.1 h1))
    · rw [if_neg hq, if_neg]
      exact fun h2 => hq (beq_iff.2 (TransCmp.eq_trans (beq_iff.1 h1) (OrientedCmp.eq_symm (beq_iff.1 h2))))
  · rename_i hn
    split
    · rename_i hq; rw [← get_congr g hq, hn]; rfl
    · rfl

theorem get_foldl_insert (l : List T) (g : Graph K T) (h : g.Valid) (q : K) :
    (l.foldl (fun g n => (g.insert n).1) g).get q =
      (l.reverse.find? (fun n => q == id n)).or (g.get q) := by
  induction l generalizing g with
  | nil => simp
  | cons a t ih =>
    rw [List.foldl_cons, ih _ (valid_insert g a h), get_insert g a h]
    simp only [List.reverse_cons, List.find?_append, Option.or_assoc]
    congr 1
    simp only [List.find?_cons, List.find?_nil]
    split <;> simp_all

theorem insertL_comm {V : Type} {k k' : K} {v v' : V} (hne : compare k k' ≠ .eq) (l : List (K × V)) :
    insertL k v (insertL k' v' l) = insertL k' v' (insertL k v l) := by
  have hsw : compare k' k = (compare k k').swap := OrientedCmp.eq_swap
  induction l with
  | nil =>
    simp only [insertL]
    cases h : compare k k' <;> simp_all [insertL]
  | cons a t ih =>
    obtain ⟨x, w⟩ := a
    have a1 : compare k k' = .lt → compare k' x = .lt → compare k x = .lt := TransCmp.lt_trans
    have a2 : compare k k' = .lt → compare k' x = .eq → compare k x = .lt := TransCmp.lt_of_lt_of_eq
    have a3 : compare k' k = .lt → compare k x = .lt → compare k' x = .lt := TransCmp.lt_trans
    have a4 : compare k' k = .lt → compare k x = .eq → compare k' x = .lt := TransCmp.lt_of_lt_of_eq
    have a5 : compare k x = .eq → compare k' x = .eq → compare k k' = .eq := fun h h' =>
      TransCmp.eq_trans h (OrientedCmp.eq_symm h')
    cases h1 : compare k x <;> cases h2 : compare k' x <;> cases h : compare k k' <;>
      simp_all [insertL]

theorem after_valid (h : List (GraphCall K T)) : (Graph.after h).Valid := by
  induction h with
  | nil => exact Graph.valid_empty
  | cons c t ih =>
    cases c with
    | insert n => exact Graph.valid_insert _ n ih
    | withNode n => exact Graph.valid_withNode _ n ih
    | remove k => exact Graph.valid_remove _ k ih

theorem foldl_insert_perm {l l' : List T} (hp : l.Perm l')
    (hd : l.Pairwise (fun a b => (id a == id b) = false)) (m : BTreeMap K T) :
    l.foldl (fun m node => (m.insert (id node) node).1) m = l'.foldl (fun m node => (m.insert (id node) node).1) m := by
  induction hp generalizing m with
  | nil => rfl
  | cons a _ ih => exact ih (List.pairwise_cons.1 hd).2 _
  | swap a b l =>
    have hab := (List.pairwise_cons.1 hd).1 a (by simp)
    simp only [List.foldl_cons, BTreeMap.insert]
    rw [Graph.insertL_comm]
    intro h
    have h := Graph.beq_iff.2 (OrientedCmp.eq_symm h)
    rw [hab] at h; cases h
  | trans h1 _ ih1 ih2 =>
    rw [ih1 hd]
    refine ih2 (h1.pairwise hd ?_) m
    intro a b hab
    rw [BEq.comm]; exact hab

end Plotline.Graph
