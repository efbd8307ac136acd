import Verif.Lemmas.Plugin
import Verif.Props.Interval
import Verif.Props.Transaction

/-! # Property C51: the interval plugin's index

`install merged …` is the plugin installed on a schema. The pinned code is `merged = false` for every node type that is not
its own id type; `merged = true` is the code for a node type that is, and also what the code would be if `install` registered
the tree under the type the triggers ask for. -/

namespace Plotline

open Std Interval

set_option linter.unusedSectionVars false

section
variable {K T I B : Type} [Ord K] [BEq K] [Identify T K] [Ord B] [BEq I] [Interval I B] [TransOrd K] [LawfulBEqOrd K]

/-- The index `on_save` and `on_delete` use, if there is one. -/
def Schema.index (S : Schema (PSig K T I B)) : Option (ITree (NodeInterval K I) B) :=
  (S.env.resources.res .treeOfId).peek S.heap

theorem Inst.index {merged : Bool} {fuel : Nat} {extract : T → List I} {S : Schema (PSig K T I B)}
    {t : ITree (NodeInterval K I) B} (h : Inst merged fuel extract S t) : S.index = if merged then some t else none := by
  unfold Schema.index
  rw [h.env, h.heap]
  exact res_tree merged fuel extract t

theorem applyAll_cons (m : FMap K T) (op : Operation K T) (ops : List (Operation K T)) :
    FMap.applyAll m (op :: ops) = FMap.applyAll (FMap.apply m op) ops := rfl

/-- What stays true along a history. -/
theorem did_inst {merged : Bool} {fuel : Nat} {extract : T → List I} {S S' : Schema (PSig K T I B)}
    {ops : List (Operation K T)} (hd : Did S ops S') (hS : S.graph.Reachable) {t : ITree (NodeInterval K I) B}
    (h : Inst merged fuel extract S t) :
    ∃ t', Inst merged fuel extract S' t' ∧ S'.graph.Reachable ∧ S'.graph.get = FMap.applyAll S.graph.get ops := by
  induction hd generalizing t with
  | nothing S => exact ⟨t, h, hS, rfl⟩
  | save fuel' n hs _ ih =>
    obtain ⟨_, hg, hi⟩ := save_inv h hs
    obtain ⟨t', h1, h2, h3⟩ := ih (by rw [hg]; exact .insert _ _ hS) hi
    refine ⟨t', h1, h2, h3.trans ?_⟩
    rw [applyAll_cons, hg]
    congr 1
    funext q
    exact Graph.get_insert _ n hS.valid q
  | delete fuel' i hs _ ih =>
    rcases delete_inv h hs with ⟨hn, _, rfl⟩ | ⟨n, t1, hn, _, hg, _, hi⟩
    · obtain ⟨t', h1, h2, h3⟩ := ih hS h
      refine ⟨t', h1, h2, h3.trans ?_⟩
      rw [applyAll_cons]
      congr 1
      funext q
      show _ = FMap.del _ _ _
      unfold FMap.del
      split
      · rename_i hq; rw [← hn]; exact (Graph.get_congr _ (by simpa using hq))
      · rfl
    · obtain ⟨t', h1, h2, h3⟩ := ih (by rw [hg]; exact .remove _ _ hS) hi
      refine ⟨t', h1, h2, h3.trans ?_⟩
      rw [applyAll_cons, hg]
      congr 1
      funext q
      exact Graph.get_remove _ i hS.valid q

/-- C51 fails for every node type that is not its own id type: whatever is saved and deleted, the index the plugin uses never
exists, and the one it registered stays empty. The graph changes as without the plugin. -/
theorem C51_inert (fuel : Nat) (extract : T → List I) (g : Graph K T) (hg : g.Reachable) (ops : List (Operation K T)) :
    (∃ S', Did (install false fuel extract (Schema.fromGraph g) : Schema (PSig K T I B)) ops S') ∧
    ∀ S', Did (install false fuel extract (Schema.fromGraph g) : Schema (PSig K T I B)) ops S' →
      S'.index = none ∧ (S'.env.resources.res .treeOfNode).peek S'.heap = some .nil ∧
      S'.guard.get = FMap.applyAll g.get ops := by
  have h0 := inst_install (B := B) false fuel extract g
  constructor
  · have hgr : (install false fuel extract (Schema.fromGraph g) : Schema (PSig K T I B)).graph = g := rfl
    generalize (install false fuel extract (Schema.fromGraph g) : Schema (PSig K T I B)) = S at h0 hgr
    clear hgr hg
    generalize (ITree.nil : ITree (NodeInterval K I) B) = t at h0
    induction ops generalizing S t with
    | nil => exact ⟨S, .nothing S⟩
    | cons op ops ih =>
      cases op with
      | save n =>
        obtain ⟨fuel0, h1⟩ := inst_save h0 n
        have h1 := h1 fuel0 (Nat.le_refl _)
        obtain ⟨S', h2⟩ := ih _ t (save_inv h0 h1).2.2
        exact ⟨S', .save fuel0 n h1 h2⟩
      | delete i =>
        obtain ⟨fuel0, h1⟩ := inst_delete h0 i
        rcases h1 fuel0 (Nat.le_refl _) with ⟨_, h1⟩ | ⟨n, _, ⟨t', _, h1⟩ | ⟨h, _⟩⟩
        · obtain ⟨S', h2⟩ := ih _ t h0
          exact ⟨S', .delete fuel0 i h1 h2⟩
        · obtain ⟨S', h2⟩ := ih { S with graph := (S.graph.remove i).1, heap := pheap false extract t' } t' ⟨h0.env, rfl⟩
          exact ⟨S', .delete fuel0 i h1 h2⟩
        · cases h
  · intro S' hd
    obtain ⟨t', h1, _, h3⟩ := did_inst hd hg h0
    refine ⟨h1.index, ?_, by rw [guard_eq]; exact h3⟩
    rw [h1.env, h1.heap]; rfl

variable [TransOrd B]

/-- C51, what holds if the index exists, for every history of saves: it holds the intervals of all the nodes saved, in some
order, each as often as it was saved.
Missing from C51: see `C51_refuted`, `C51_stale` and `C51_hangs`. -/
theorem C51_saves_partial (fuel : Nat) (extract : T → List I) (g : Graph K T) (ns : List T) (S' : Schema (PSig K T I B))
    (hd : Did (install true fuel extract (Schema.fromGraph g)) (ns.map .save) S') :
    ∃ t, S'.index = some t ∧ t.inorder.Perm (intervalsOf extract ns) := by
  have h0 := inst_install (B := B) true fuel extract g
  have key : ∀ (ns : List T) (S S' : Schema (PSig K T I B)) (t : ITree (NodeInterval K I) B), Inst true fuel extract S t →
      Did S (ns.map .save) S' → ∃ t', Inst true fuel extract S' t' ∧ t'.inorder.Perm (intervalsOf extract ns ++ t.inorder) := by
    intro ns
    induction ns with
    | nil => intro S S' t h hd; cases hd; exact ⟨t, h, .refl _⟩
    | cons n ns ih =>
      intro S S' t h hd
      cases hd with
      | save fuel' _ hs hd =>
        obtain ⟨_, _, hi⟩ := save_inv h hs
        obtain ⟨t', h1, h2⟩ := ih _ _ _ hi hd
        refine ⟨t', h1, h2.trans ?_⟩
        simp only [if_true]
        refine ((inorder_insertEach _ t).append_left _).trans ?_
        rw [← List.append_assoc]
        refine List.Perm.append_right _ ?_
        exact List.perm_append_comm
  obtain ⟨t', h1, h2⟩ := key ns _ _ _ h0 hd
  exact ⟨t', h1.index, by simpa [ITree.inorder] using h2⟩

/-- A deletion loop that returns takes out what it is given, if intervals can be told apart by their low bound. -/
theorem deleteEach_exact [LawfulInterval (NodeInterval K I) B] (fuel : Nat) (is rest : List (NodeInterval K I))
    (es : List (IEvent (NodeInterval K I))) (t t' : ITree (NodeInterval K I) B) (hb : Built es t)
    (hu : ∀ x ∈ t.inorder, ∀ y ∈ t.inorder, compare (lo x) (lo y) = .eq → x = y)
    (hp : t.inorder.Perm (is ++ rest)) (hd : deleteEach fuel is t = some t') : t'.inorder.Perm rest := by
  induction is generalizing es t with
  | nil => cases hd; exact hp
  | cons i is ih =>
    unfold deleteEach at hd
    cases h1 : t.delete fuel i with
    | none => rw [h1] at hd; cases hd
    | some t1 =>
      rw [h1] at hd
      have hi : i ∈ t.inorder := hp.mem_iff.2 (by simp)
      obtain ⟨x, hx, hpx⟩ := C46_removes_partial es t t1 i fuel hb ⟨i, hi, BEq.rfl⟩
        (fun x hx e => by rw [hu x hx i hi e]; exact BEq.rfl) h1
      have hxt : x ∈ t.inorder := hpx.mem_iff.2 (by simp)
      have hxi : x = i := hu x hxt i hi (LawfulInterval.lo_eq x i hx)
      subst hxi
      refine ih _ _ (.delete fuel x hb h1) ?_ (hpx.symm.trans hp).cons_inv hd
      intro a ha b hb'
      exact hu a (hpx.mem_iff.2 (List.mem_cons_of_mem _ ha)) b (hpx.mem_iff.2 (List.mem_cons_of_mem _ hb'))

theorem intervalsOf_perm {extract : T → List I} {a b : List T} (h : a.Perm b) :
    (intervalsOf extract a : List (NodeInterval K I)).Perm (intervalsOf extract b) := h.flatMap_right _

/-- C51, when it holds: if the index exists, the graph was empty at first, no save overwrites a node, and intervals starting at
the same bound are the same interval of the same node, then after every history whose operations return the index holds
exactly the intervals of the nodes in the graph.
Missing from C51: node types that are not their own id type (`C51_refuted`, `C51_inert`), saves that overwrite (`C51_stale`),
deletions that hang (`C51_hangs`), different intervals starting at the same bound (`C46_refuted`). -/
theorem C51_exact_partial [LawfulInterval (NodeInterval K I) B] (fuel : Nat) (extract : T → List I)
    (ops : List (Operation K T)) (S' : Schema (PSig K T I B))
    (hfresh : FreshSaves (fun _ => none) ops)
    (hu : ∀ x ∈ (intervalsOf extract (savedNodes ops) : List (NodeInterval K I)), ∀ y ∈ intervalsOf extract (savedNodes ops),
      compare (lo x) (lo y) = .eq → x = y)
    (hd : Did (install true fuel extract (Schema.fromGraph Graph.empty)) ops S') :
    ∃ t, S'.index = some t ∧ t.inorder.Perm (intervalsOf extract S'.guard.iter) := by
  have h0 := inst_install (B := B) true fuel extract (Graph.empty : Graph K T)
  have key : ∀ (ops : List (Operation K T)) (S S' : Schema (PSig K T I B)) (es : List (IEvent (NodeInterval K I)))
      (t : ITree (NodeInterval K I) B), S.graph.Reachable → Inst true fuel extract S t → Built es t →
      t.inorder.Perm (intervalsOf extract S.graph.iter) → FreshSaves S.graph.get ops →
      (∀ x ∈ t.inorder ++ intervalsOf extract (savedNodes ops), ∀ y ∈ t.inorder ++ intervalsOf extract (savedNodes ops),
        compare (lo x) (lo y) = .eq → x = y) →
      Did S ops S' → ∃ t', Inst true fuel extract S' t' ∧ t'.inorder.Perm (intervalsOf extract S'.graph.iter) := by
    intro ops
    induction ops with
    | nil => intro S S' es t hS h hb hp _ _ hd; cases hd; exact ⟨t, h, hp⟩
    | cons op ops ih =>
      intro S S' es t hS h hb hp hf hu hd
      cases hd with
      | save fuel' n hs hd =>
        obtain ⟨_, hg, hi⟩ := save_inv h hs
        simp only [if_true] at hi
        have hperm := inorder_insertEach (nodeIntervals extract n) t
        refine ih _ _ _ _ (by rw [hg]; exact .insert _ _ hS) hi (insertEach_built hb _) ?_ ?_ ?_ hd
        · rw [hg]
          refine hperm.trans ?_
          refine .trans ?_ (intervalsOf_perm (iter_insert_fresh S.graph hS.valid n hf.1)).symm
          exact hp.append_left _
        · have : (S.graph.insert n).1.get = FMap.put S.graph.get (id n) n := by
            funext q; exact Graph.get_insert _ n hS.valid q
          rw [hg, this]; exact hf.2
        · have hsub : ∀ x, x ∈ (insertEach (nodeIntervals extract n) t).inorder ++ intervalsOf extract (savedNodes ops) →
              x ∈ t.inorder ++ intervalsOf extract (savedNodes (.save n :: ops)) := by
            intro x hx
            rcases List.mem_append.1 hx with hx | hx
            · rcases List.mem_append.1 (hperm.mem_iff.1 hx) with hx | hx
              · exact List.mem_append_right _ (List.mem_append_left _ hx)
              · exact List.mem_append_left _ hx
            · exact List.mem_append_right _ (List.mem_append_right _ hx)
          exact fun x hx y hy => hu x (hsub x hx) y (hsub y hy)
      | delete fuel' i hs hd =>
        rcases delete_inv h hs with ⟨hn, _, hSS⟩ | ⟨n, t1, hn, _, hg, ht1, hi⟩
        · rw [hSS] at hd
          refine ih _ _ _ _ hS h hb hp ?_ hu hd
          have : FMap.del S.graph.get i = S.graph.get := by
            funext q
            unfold FMap.del
            split
            · rename_i hq; rw [← hn]; exact (Graph.get_congr _ (by simpa using hq)).symm
            · rfl
          have hf' : FreshSaves (FMap.del S.graph.get i) ops := hf
          rw [this] at hf'; exact hf'
        · simp only [if_true] at ht1
          have hp1 := hp.trans (intervalsOf_perm (iter_remove S.graph i n hn))
          have hex := deleteEach_exact fuel (nodeIntervals extract n) _ es t t1 hb
            (fun x hx y hy => hu x (List.mem_append_left _ hx) y (List.mem_append_left _ hy)) hp1 ht1
          refine ih _ _ _ _ (by rw [hg]; exact .remove _ _ hS) hi (deleteEach_built hb fuel _ ht1) (by rw [hg]; exact hex) ?_ ?_ hd
          · have : (S.graph.remove i).1.get = FMap.del S.graph.get i := by
              funext q; exact Graph.get_remove _ i hS.valid q
            rw [hg, this]; exact hf
          · have hsub : ∀ x, x ∈ t1.inorder ++ intervalsOf extract (savedNodes ops) →
                x ∈ t.inorder ++ intervalsOf extract (savedNodes (.delete i :: ops)) := by
              intro x hx
              rcases List.mem_append.1 hx with hx | hx
              · exact List.mem_append_left _ (hp1.mem_iff.2 (List.mem_append_right _ (hex.mem_iff.1 hx)))
              · exact List.mem_append_right _ hx
            exact fun x hx y hy => hu x (hsub x hx) y (hsub y hy)
  obtain ⟨t', h1, h2⟩ := key ops _ S' [] .nil (.fromIter []) h0 .empty (.refl _) hfresh
    (by simpa [ITree.inorder] using hu) hd
  exact ⟨t', h1.index, by rw [guard_eq]; exact h2⟩

/-! ### Arbitrary histories -/

theorem put_get (g : Graph K T) (hg : g.Valid) (n : T) : (g.insert n).1.get = FMap.put g.get (id n) n := by
  funext q; exact Graph.get_insert _ n hg q
theorem del_get (g : Graph K T) (hg : g.Valid) (i : K) : (g.remove i).1.get = FMap.del g.get i := by
  funext q; exact Graph.get_remove _ i hg q
theorem del_absent (g : Graph K T) (i : K) (hn : g.get i = none) : FMap.del g.get i = g.get := by
  funext q
  unfold FMap.del
  split
  · rename_i hq; rw [← hn]; exact (Graph.get_congr _ (by simpa using hq)).symm
  · rfl

/-- C51, what the index is after every history whose operations return, if it exists: what the insertions of the intervals of
the saved nodes and the deletions of those of the deleted ones make of the empty tree.
Missing from C51: see `C51_refuted`, `C51_stale` and `C51_hangs`. -/
theorem C51_built_partial (fuel : Nat) (extract : T → List I) (g : Graph K T) (hg : g.Reachable) (ops : List (Operation K T))
    (S' : Schema (PSig K T I B)) (hd : Did (install true fuel extract (Schema.fromGraph g)) ops S') :
    ∃ t, S'.index = some t ∧ Built (indexEvents extract g.get ops) t := by
  have h0 := inst_install (B := B) true fuel extract g
  have key : ∀ (ops : List (Operation K T)) (S S' : Schema (PSig K T I B)) (es : List (IEvent (NodeInterval K I)))
      (t : ITree (NodeInterval K I) B), S.graph.Reachable → Inst true fuel extract S t → Built es t →
      Did S ops S' → ∃ t', Inst true fuel extract S' t' ∧ Built (es ++ indexEvents extract S.graph.get ops) t' := by
    intro ops
    induction ops with
    | nil => intro S S' es t _ h hb hd; cases hd; exact ⟨t, h, by simpa [indexEvents] using hb⟩
    | cons op ops ih =>
      intro S S' es t hS h hb hd
      cases hd with
      | save fuel' n hs hd =>
        obtain ⟨_, hg, hi⟩ := save_inv h hs
        simp only [if_true] at hi
        obtain ⟨t', h1, h2⟩ := ih _ _ _ _ (by rw [hg]; exact .insert _ _ hS) hi (insertEach_built hb _) hd
        refine ⟨t', h1, ?_⟩
        rw [hg, put_get _ hS.valid, List.append_assoc] at h2
        simpa [indexEvents, intervalsOf, nodeIntervals] using h2
      | delete fuel' i hs hd =>
        rcases delete_inv h hs with ⟨hn, _, hSS⟩ | ⟨n, t1, hn, _, hg, ht1, hi⟩
        · rw [hSS] at hd
          obtain ⟨t', h1, h2⟩ := ih _ _ _ _ hS h hb hd
          refine ⟨t', h1, ?_⟩
          rw [indexEvents, hn, del_absent _ _ hn]
          simpa [intervalsOf] using h2
        · simp only [if_true] at ht1
          obtain ⟨t', h1, h2⟩ := ih _ _ _ _ (by rw [hg]; exact .remove _ _ hS) hi (deleteEach_built hb fuel _ ht1) hd
          refine ⟨t', h1, ?_⟩
          rw [hg, del_get _ hS.valid, List.append_assoc] at h2
          rw [indexEvents, hn]
          simpa [intervalsOf, nodeIntervals] using h2
  obtain ⟨t', h1, h2⟩ := key ops _ S' [] .nil hg h0 .empty hd
  exact ⟨t', h1.index, h2⟩

/-- What the events insert are intervals of saved nodes. -/
theorem indexEvents_insert (extract : T → List I) (m : FMap K T) (ops : List (Operation K T)) (x : NodeInterval K I)
    (h : .insert x ∈ indexEvents extract m ops) : x ∈ intervalsOf extract (savedNodes ops) := by
  induction ops generalizing m with
  | nil => cases h
  | cons op ops ih =>
    cases op with
    | save n =>
      rcases List.mem_append.1 h with h | h
      · obtain ⟨y, hy, e⟩ := List.mem_map.1 h
        cases e
        exact List.mem_append_left _ (by simpa [intervalsOf] using hy)
      · exact List.mem_append_right _ (ih _ h)
    | delete i =>
      rcases List.mem_append.1 h with h | h
      · obtain ⟨y, _, e⟩ := List.mem_map.1 h
        cases e
      · exact ih _ h

/-- A deletion loop that returns takes out nothing of other nodes. -/
theorem deleteEach_other (fuel : Nat) (k : K) (is : List (NodeInterval K I)) (his : ∀ i ∈ is, i.nodeId = k)
    (t t' : ITree (NodeInterval K I) B) (hd : deleteEach fuel is t = some t') :
    (t'.inorder.filter fun x => !(x.nodeId == k)).Perm (t.inorder.filter fun x => !(x.nodeId == k)) := by
  induction is generalizing t with
  | nil => cases hd; exact .refl _
  | cons i is ih =>
    unfold deleteEach at hd
    cases h1 : t.delete fuel i with
    | none => rw [h1] at hd; cases hd
    | some t1 =>
      rw [h1] at hd
      refine (ih (fun j hj => his j (List.mem_cons_of_mem _ hj)) t1 hd).trans ?_
      rcases ITree.delete_effect fuel i t t1 h1 with rfl | ⟨x, hx, hp, _⟩
      · exact .refl _
      · have hx : (x.nodeId == i.nodeId && x.interval == i.interval) = true := hx
        have hk : (x.nodeId == k) = true := by rw [← his i (List.mem_cons_self ..)]; exact (Bool.and_eq_true_iff.1 hx).1
        have := hp.filter fun x => !(x.nodeId == k)
        rw [List.filter_cons, hk] at this
        exact this.symm

theorem filter_split {α : Type} (p : α → Bool) (l : List α) : l.Perm (l.filter p ++ l.filter fun x => !p x) :=
  (List.filter_append_perm p l).symm

theorem iter_nodup (g : Graph K T) (hg : g.Valid) : g.iter.Nodup :=
  (g.iter_sorted hg).imp fun h e => by subst e; rw [ReflOrd.compare_self] at h; cases h

theorem iter_remove_filter (g : Graph K T) (hg : g.Valid) (i : K) :
    (g.remove i).1.iter.Perm (g.iter.filter fun m => !((id m : K) == i)) := by
  refine (List.perm_ext_iff_of_nodup (iter_nodup _ (Graph.valid_remove g i hg)) ((iter_nodup g hg).filter _)).2 fun m => ?_
  rw [Graph.mem_iter _ (Graph.valid_remove g i hg), List.mem_filter, Graph.mem_iter g hg, Graph.get_remove g i hg]
  cases (id m : K) == i <;> simp

theorem iter_insert_filter (g : Graph K T) (hg : g.Valid) (n : T) :
    (g.insert n).1.iter.Perm (n :: g.iter.filter fun m => !((id m : K) == id n)) := by
  refine (List.perm_ext_iff_of_nodup (iter_nodup _ (Graph.valid_insert g n hg)) (List.nodup_cons.2 ⟨?_, (iter_nodup g hg).filter _⟩)).2
    fun m => ?_
  · intro h
    have := (List.mem_filter.1 h).2
    rw [Graph.beq_iff.2 ReflOrd.compare_self] at this
    cases this
  · rw [Graph.mem_iter _ (Graph.valid_insert g n hg), List.mem_cons, List.mem_filter, Graph.mem_iter g hg, Graph.get_insert g n hg]
    cases h : (id m : K) == id n with
    | true => simp [eq_comm]
    | false =>
      simp only [Bool.false_eq_true, if_false, Bool.not_false, and_true]
      refine ⟨.inr, fun h' => h'.resolve_left ?_⟩
      rintro rfl
      rw [Graph.beq_iff.2 ReflOrd.compare_self] at h
      cases h

theorem intervalsOf_filter (extract : T → List I) (k : K) (l : List T) :
    (intervalsOf extract (l.filter fun m => !((id m : K) == k)) : List (NodeInterval K I)) =
      (intervalsOf extract l).filter fun x => !(x.nodeId == k) := by
  induction l with
  | nil => rfl
  | cons n l ih =>
    have hf : ∀ b, ((id n : K) == k) = b → (((extract n).map fun i => (⟨id n, i⟩ : NodeInterval K I)).filter fun x => !(x.nodeId == k)) =
        if b then [] else (extract n).map fun i => ⟨id n, i⟩ := by
      intro b hb
      rw [List.filter_map]
      have : ((fun x : NodeInterval K I => !(x.nodeId == k)) ∘ fun i => (⟨id n, i⟩ : NodeInterval K I)) = fun _ => !b := by
        funext i; exact congrArg not hb
      rw [this]
      cases b
      · exact congrArg _ (List.filter_eq_self.2 fun _ _ => rfl)
      · exact congrArg (List.map _) (List.filter_eq_nil_iff.2 (by simp))
    have hc : (intervalsOf extract (n :: l) : List (NodeInterval K I)) = ((extract n).map fun i => ⟨id n, i⟩) ++ intervalsOf extract l := by
      simp [intervalsOf]
    rw [List.filter_cons, hc, List.filter_append, ← ih]
    cases h : (id n : K) == k with
    | true => rw [hf _ h]; simp
    | false => rw [hf _ h]; simp [intervalsOf]

/-- C51, what never fails where the index exists: after every history whose operations return, the index holds the intervals
of the nodes in the graph that were saved since the plugin was installed, all of them as often as the nodes have them,
and besides them only intervals that nodes saved earlier had.
Missing from C51: that there is nothing besides (`C51_stale`), and see `C51_refuted`, `C51_hangs`. -/
theorem C51_complete_partial (fuel : Nat) (extract : T → List I) (g : Graph K T) (hg : g.Reachable)
    (ops : List (Operation K T)) (S' : Schema (PSig K T I B))
    (hd : Did (install true fuel extract (Schema.fromGraph g)) ops S') :
    ∃ t stale, S'.index = some t ∧
      t.inorder.Perm (intervalsOf extract (S'.guard.iter.filter (savedSince ops)) ++ stale) ∧
      ∀ x ∈ stale, x ∈ intervalsOf extract (savedNodes ops) := by
  have h0 := inst_install (B := B) true fuel extract g
  have key : ∀ (ops : List (Operation K T)) (S S' : Schema (PSig K T I B)) (ns : List T)
      (t : ITree (NodeInterval K I) B) (stale : List (NodeInterval K I)), S.graph.Reachable → Inst true fuel extract S t →
      t.inorder.Perm (intervalsOf extract (S.graph.iter.filter fun n => ns.any fun m => (id m : K) == id n) ++ stale) →
      Did S ops S' → ∃ t' stale', Inst true fuel extract S' t' ∧
        t'.inorder.Perm (intervalsOf extract (S'.graph.iter.filter fun n => (ns ++ savedNodes ops).any fun m => (id m : K) == id n) ++
          stale') := by
    intro ops
    induction ops with
    | nil => intro S S' ns t stale _ h hp hd; cases hd; exact ⟨t, stale, h, by simpa [savedNodes] using hp⟩
    | cons op ops ih =>
      intro S S' ns t stale hS h hp hd
      cases hd with
      | save fuel' n hs hd =>
        obtain ⟨_, hg, hi⟩ := save_inv h hs
        simp only [if_true] at hi
        have hgoal : (insertEach (nodeIntervals extract n) t).inorder.Perm
            (intervalsOf extract ((S.graph.insert n).1.iter.filter (fun n' => (ns ++ [n]).any fun m => (id m : K) == id n')) ++
              ((intervalsOf extract (S.graph.iter.filter fun n => ns.any fun m => (id m : K) == id n)).filter
                (fun x => !!(x.nodeId == (id n : K))) ++ stale)) := by
          refine (inorder_insertEach _ t).trans ?_
          have hn : ((ns ++ [n]).any fun m => (id m : K) == id n) = true := by
            simp
          have hflt : (S.graph.iter.filter fun m => !((id m : K) == id n)).filter (fun n' => (ns ++ [n]).any fun m => (id m : K) == id n') =
              (S.graph.iter.filter fun n => ns.any fun m => (id m : K) == id n).filter fun m => !((id m : K) == id n) := by
            rw [List.filter_filter, List.filter_filter]
            refine List.filter_congr fun m _ => ?_
            cases hm : (id m : K) == id n with
            | true => simp
            | false =>
              have : ((id n : K) == id m) = false := by
                cases h' : (id n : K) == id m with
                | false => rfl
                | true => rw [Graph.beq_iff.2 (OrientedCmp.eq_symm (Graph.beq_iff.1 h'))] at hm; cases hm
              simp [this]
          refine .trans ?_ ((intervalsOf_perm ((iter_insert_filter S.graph hS.valid n).filter _)).append_right _).symm
          rw [List.filter_cons, if_pos hn, hflt]
          have hc : ∀ l, (intervalsOf extract (n :: l) : List (NodeInterval K I)) = nodeIntervals extract n ++ intervalsOf extract l := by
            intro l; simp [intervalsOf, nodeIntervals]
          rw [hc, intervalsOf_filter, List.append_assoc, ← List.append_assoc (List.filter _ _)]
          exact List.Perm.append_left _ (hp.trans ((filter_split _ _).append_right _))
        obtain ⟨t', stale', h1, h2⟩ := ih _ _ (ns ++ [n]) _ _ (by rw [hg]; exact .insert _ _ hS) hi (by rw [hg]; exact hgoal) hd
        exact ⟨t', stale', h1, by simpa [savedNodes] using h2⟩
      | delete fuel' i hs hd =>
        rcases delete_inv h hs with ⟨hn, _, hSS⟩ | ⟨n, t1, hn, _, hg, ht1, hi⟩
        · rw [hSS] at hd
          exact ih _ _ _ _ _ hS h hp hd
        · simp only [if_true] at ht1
          have hgoal : t1.inorder.Perm
            (intervalsOf extract ((S.graph.remove i).1.iter.filter (fun n' => ns.any fun m => (id m : K) == id n')) ++
              (stale.filter (fun x => !(x.nodeId == (id n : K))) ++ t1.inorder.filter fun x => !!(x.nodeId == (id n : K)))) := by
            have hid := Graph.get_some_id S.graph hS.valid hn
            have hk : ∀ x : K, (x == i) = (x == id n) := fun x => by
              refine Bool.eq_iff_iff.2 ⟨fun h => ?_, fun h => ?_⟩
              · exact Graph.beq_iff.2 (TransCmp.eq_trans (Graph.beq_iff.1 h) (Graph.beq_iff.1 hid))
              · exact Graph.beq_iff.2 (TransCmp.eq_trans (Graph.beq_iff.1 h) (OrientedCmp.eq_symm (Graph.beq_iff.1 hid)))
            have hp' := iter_remove_filter S.graph hS.valid i
            simp only [hk] at hp'
            refine .trans ?_ ((intervalsOf_perm (hp'.filter _)).append_right _).symm
            have hcomm : (S.graph.iter.filter fun m => !((id m : K) == id n)).filter (fun n' => ns.any fun m => (id m : K) == id n') =
                (S.graph.iter.filter fun n => ns.any fun m => (id m : K) == id n).filter fun m => !((id m : K) == id n) := by
              rw [List.filter_filter, List.filter_filter]
              exact List.filter_congr fun m _ => Bool.and_comm ..
            rw [hcomm, intervalsOf_filter, ← List.append_assoc, ← List.filter_append]
            refine (filter_split (fun x => !(x.nodeId == (id n : K))) t1.inorder).trans (.append_right _ ?_)
            refine (deleteEach_other fuel (id n) (nodeIntervals extract n) ?_ t t1 ht1).trans (hp.filter _)
            intro j hj
            obtain ⟨_, _, rfl⟩ := List.mem_map.1 hj
            rfl
          exact ih _ _ _ _ _ (by rw [hg]; exact .remove _ _ hS) hi (by rw [hg]; exact hgoal) hd
  obtain ⟨t', stale, h1, h2⟩ := key ops _ S' [] .nil [] hg h0 (by simp [intervalsOf, ITree.inorder]) hd
  obtain ⟨t, ht, hb⟩ := C51_built_partial fuel extract g hg ops S' hd
  have e : t' = t := by
    have := h1.index.symm.trans ht
    simpa using this
  subst e
  refine ⟨t', stale, ht, by rw [guard_eq]; exact h2, fun x hx => ?_⟩
  obtain ⟨b, gone, hbag, hperm, _⟩ := hb.bag
  exact indexEvents_insert extract _ ops x
    (hbag.mem x (.inl (hperm.mem_iff.1 (h2.mem_iff.2 (List.mem_append_right _ hx)))))

/-- C51, what a client of the index gets, if intervals are proper: after every history whose operations return, a query is
called on every interval overlapping it of every node in the graph saved since the plugin was installed, and on nothing that
does not overlap it or was not an interval of a node saved at some time.
Missing from C51: that it is called on nothing else (`C51_stale`), and see `C51_refuted`, `C51_hangs`. -/
theorem C51_queries_partial (fuel : Nat) (extract : T → List I) (g : Graph K T) (hg : g.Reachable)
    (ops : List (Operation K T)) (S' : Schema (PSig K T I B)) (hp : ∀ n ∈ savedNodes ops, ∀ i ∈ extract n, Proper i)
    (hd : Did (install true fuel extract (Schema.fromGraph g)) ops S') :
    ∃ t, S'.index = some t ∧ ∀ q, Proper q →
      (∀ n i, S'.guard.get (id n) = some n → savedSince ops n = true → i ∈ extract n → Overlap i q.interval →
        ⟨id n, i⟩ ∈ t.forEach q) ∧
      ∀ x ∈ t.forEach q, Overlap x q ∧ ∃ n ∈ savedNodes ops, x.nodeId = id n ∧ x.interval ∈ extract n := by
  obtain ⟨t, stale, ht, hperm, hstale⟩ := C51_complete_partial fuel extract g hg ops S' hd
  obtain ⟨t', ht', hb⟩ := C51_built_partial fuel extract g hg ops S' hd
  obtain ⟨_, _, hreach, _⟩ := did_inst hd hg (inst_install (B := B) true fuel extract g)
  cases ht.symm.trans ht'
  have hsaved : ∀ x : NodeInterval K I, x ∈ intervalsOf extract (savedNodes ops) →
      ∃ n ∈ savedNodes ops, x.nodeId = id n ∧ x.interval ∈ extract n := by
    intro x hx
    obtain ⟨n, hn, hx⟩ := List.mem_flatMap.1 hx
    obtain ⟨i, hi, rfl⟩ := List.mem_map.1 hx
    exact ⟨n, hn, rfl, hi⟩
  have hes : ProperHistory (indexEvents extract g.get ops : List (IEvent (NodeInterval K I))) := by
    intro x hx
    obtain ⟨n, hn, _, hi⟩ := hsaved x (indexEvents_insert extract _ ops x hx)
    exact hp n hn _ hi
  obtain ⟨b, gone, hbag, hbp, hI⟩ := hb.bag
  have hmem : ∀ x ∈ t.inorder, x ∈ intervalsOf extract (savedNodes ops) := fun x hx =>
    indexEvents_insert extract _ ops x (hbag.mem x (.inl (hbp.mem_iff.1 hx)))
  have hin : ∀ x ∈ t.inorder, Proper x := fun x hx => hes x (hbag.mem x (.inl (hbp.mem_iff.1 hx)))
  refine ⟨t, ht, fun q hq => ?_⟩
  have hfe := forEach_eq t q hI.maxBounds hin hq
  constructor
  · intro n i hn hs hi ho
    have hx : (⟨id n, i⟩ : NodeInterval K I) ∈ t.inorder := by
      refine hperm.mem_iff.2 (List.mem_append_left _ (List.mem_flatMap.2 ⟨n, List.mem_filter.2 ⟨?_, hs⟩, List.mem_map.2 ⟨i, hi, rfl⟩⟩))
      rw [guard_eq] at hn ⊢
      exact (Graph.mem_iter _ hreach.valid n).2 hn
    rw [hfe]
    refine List.mem_filter.2 ⟨List.mem_reverse.2 hx, (intersects_overlap (hin _ hx) hq).2 ?_⟩
    exact ho
  · intro x hx
    rw [hfe] at hx
    obtain ⟨h1, h2⟩ := List.mem_filter.1 hx
    have h1 := List.mem_reverse.1 h1
    exact ⟨(intersects_overlap (hin x h1) hq).1 h2, hsaved x (hmem x h1)⟩

end

/-! ## Concrete cases -/

instance {K I B : Type} [Ord K] [BEq K] [TransOrd K] [LawfulBEqOrd K] [Ord B] [BEq I] [Interval I B] [LawfulInterval I B] :
    LawfulInterval (NodeInterval K I) B where
  rfl {a} := by
    show (a.nodeId == a.nodeId && a.interval == a.interval) = true
    rw [BEq.rfl (a := a.interval), Bool.and_true]
    exact LawfulBEqOrd.compare_eq_iff_beq.1 ReflOrd.compare_self
  symm {a b} h := by
    have h : (a.nodeId == b.nodeId && a.interval == b.interval) = true := h
    show (b.nodeId == a.nodeId && b.interval == a.interval) = true
    rw [Bool.and_eq_true] at h ⊢
    exact ⟨LawfulBEqOrd.compare_eq_iff_beq.1 (OrientedCmp.eq_symm (LawfulBEqOrd.compare_eq_iff_beq.2 h.1)), BEq.symm h.2⟩
  trans {a b c} h h' := by
    have h : (a.nodeId == b.nodeId && a.interval == b.interval) = true := h
    have h' : (b.nodeId == c.nodeId && b.interval == c.interval) = true := h'
    show (a.nodeId == c.nodeId && a.interval == c.interval) = true
    rw [Bool.and_eq_true] at h h' ⊢
    exact ⟨LawfulBEqOrd.compare_eq_iff_beq.1 (TransCmp.eq_trans (LawfulBEqOrd.compare_eq_iff_beq.2 h.1)
      (LawfulBEqOrd.compare_eq_iff_beq.2 h'.1)), BEq.trans h.2 h'.2⟩
  lo_eq a b h := by
    have h : (a.nodeId == b.nodeId && a.interval == b.interval) = true := h
    exact LawfulInterval.lo_eq (B := B) a.interval b.interval (Bool.and_eq_true_iff.1 h).2
  hi_eq a b h := by
    have h : (a.nodeId == b.nodeId && a.interval == b.interval) = true := h
    exact LawfulInterval.hi_eq (B := B) a.interval b.interval (Bool.and_eq_true_iff.1 h).2

/-- A document starts at its body and lasts for two. -/
def docSpans (d : Doc) : List Span := [⟨d.body, d.body + 2⟩]

/-- C51 is false of the pinned code: after saving a document into a schema with the plugin, the document is in the graph, and
has an interval, but there is no index. -/
theorem C51_refuted : ∃ S' : Schema (PSig Nat Doc Span Nat),
    Did (install false 0 docSpans (Schema.fromGraph Graph.empty)) [.save ⟨1, 5⟩] S' ∧
    S'.guard.get 1 = some ⟨1, 5⟩ ∧ (intervalsOf docSpans S'.guard.iter : List (NodeInterval Nat Span)) = [⟨1, 5, 7⟩] ∧
    S'.index = none := by
  obtain ⟨S', h⟩ := (C51_inert (B := Nat) 0 docSpans (Graph.empty : Graph Nat Doc) (.fromIter []) [.save ⟨1, 5⟩]).1
  obtain ⟨h1, _, h2⟩ := (C51_inert (B := Nat) 0 docSpans (Graph.empty : Graph Nat Doc) (.fromIter []) [.save ⟨1, 5⟩]).2 S' h
  refine ⟨S', h, by rw [h2]; rfl, ?_, h1⟩
  cases h with
  | save fuel n hs hd =>
    obtain ⟨_, hg, _⟩ := save_inv (inst_install (B := Nat) false 0 docSpans Graph.empty) hs
    cases hd
    rw [guard_eq, hg]; rfl

instance : Identify LooseId LooseId := ⟨fun x => x⟩

/-- A node that is its own id, equal ones differing in spelling, from which the interval comes. -/
def looseSpans (x : LooseId) : List Span := [⟨x.spelling, x.spelling⟩]

/-- C51 is false even where the index exists: saving over a node leaves the intervals of the old one in the index. -/
theorem C51_stale : ∃ (S' : Schema (PSig LooseId LooseId Span Nat)) (t : ITree (NodeInterval LooseId Span) Nat),
    Did (install true 0 looseSpans (Schema.fromGraph Graph.empty)) [.save ⟨1, 3⟩, .save ⟨1, 8⟩] S' ∧
    S'.guard.iter = [⟨1, 8⟩] ∧ S'.index = some t ∧ t.inorder = [⟨⟨1, 3⟩, 3, 3⟩, ⟨⟨1, 8⟩, 8, 8⟩] := by
  have h0 := inst_install (B := Nat) true 0 looseSpans (Graph.empty : Graph LooseId LooseId)
  obtain ⟨f1, h1⟩ := inst_save h0 ⟨1, 3⟩
  have h1 := h1 f1 (Nat.le_refl _)
  obtain ⟨_, _, i1⟩ := save_inv h0 h1
  obtain ⟨f2, h2⟩ := inst_save i1 ⟨1, 8⟩
  have h2 := h2 f2 (Nat.le_refl _)
  obtain ⟨_, _, i2⟩ := save_inv i1 h2
  refine ⟨_, _, .save f1 _ h1 (.save f2 _ h2 (.nothing _)), ?_, i2.index, ?_⟩
  · rw [guard_eq]; rfl
  · decide

/-- C51, deletions: with three nodes in the index deleting the one saved first never returns. -/
theorem C51_hangs : ∃ (S' : Schema (PSig LooseId LooseId Span Nat)),
    Did (install true 0 looseSpans (Schema.fromGraph Graph.empty)) [.save ⟨1, 5⟩, .save ⟨2, 1⟩, .save ⟨3, 7⟩] S' ∧
    S'.guard.get ⟨1, 5⟩ = some ⟨1, 5⟩ ∧ ∀ fuel r S'', S'.delete fuel ⟨1, 5⟩ ≠ some (.ret r, S'') := by
  have h0 := inst_install (B := Nat) true 0 looseSpans (Graph.empty : Graph LooseId LooseId)
  obtain ⟨f1, h1⟩ := inst_save h0 ⟨1, 5⟩
  have h1 := h1 f1 (Nat.le_refl _)
  obtain ⟨_, _, i1⟩ := save_inv h0 h1
  obtain ⟨f2, h2⟩ := inst_save i1 ⟨2, 1⟩
  have h2 := h2 f2 (Nat.le_refl _)
  obtain ⟨_, _, i2⟩ := save_inv i1 h2
  obtain ⟨f3, h3⟩ := inst_save i2 ⟨3, 7⟩
  have h3 := h3 f3 (Nat.le_refl _)
  obtain ⟨_, _, i3⟩ := save_inv i2 h3
  refine ⟨_, .save f1 _ h1 (.save f2 _ h2 (.save f3 _ h3 (.nothing _))), ?_, ?_⟩
  · rw [guard_eq]; rfl
  · intro fuel r S'' h
    rcases delete_inv i3 h with ⟨hn, _⟩ | ⟨n, t', hn, _, _, ht, _⟩
    · exact absurd hn (by decide)
    · have hn' : n = ⟨1, 5⟩ := by
        have : some n = some ⟨1, 5⟩ := hn.symm.trans rfl
        cases this; rfl
      subst hn'
      have ht : none = some t' := ht
      cases ht

/-- C51, transactions that fail: deleting a node in a transaction that then returns an error leaves the node in the graph and its
interval out of the index (`C34_refuted`); saving one leaves the interval of a node that is not there. -/
theorem C51_aborted : ∃ (S1 S2 S3 : Schema (PSig LooseId LooseId Span Nat)) (t : ITree (NodeInterval LooseId Span) Nat),
    Did (install true 0 looseSpans (Schema.fromGraph Graph.empty)) [.save ⟨1, 5⟩] S1 ∧
    S1.transact 20 [] (.deleteOp 0 ⟨1, 5⟩ fun _ => .done (.error .noop)) = some (.ret (.error .noop), S2) ∧
    S2.guard.iter = [⟨1, 5⟩] ∧ S2.index = some .nil ∧
    S2.transact 20 [] (.saveOp 0 ⟨2, 8⟩ fun _ => .done (.error .noop)) = some (.ret (.error .noop), S3) ∧
    S3.guard.iter = [⟨1, 5⟩] ∧ S3.index = some t ∧ t.inorder = [⟨⟨2, 8⟩, 8, 8⟩] := by
  have h0 := inst_install (B := Nat) true 0 looseSpans (Graph.empty : Graph LooseId LooseId)
  obtain ⟨f1, h1⟩ := inst_save h0 ⟨1, 5⟩
  have h1 := h1 f1 (Nat.le_refl _)
  let S (t : ITree (NodeInterval LooseId Span) Nat) : Schema (PSig LooseId LooseId Span Nat) :=
    { install true 0 looseSpans (Schema.fromGraph Graph.empty) with
      graph := (Graph.empty.insert (⟨1, 5⟩ : LooseId)).1, heap := pheap true looseSpans t }
  refine ⟨_, S .nil, S (.new ⟨⟨2, 8⟩, 8, 8⟩), .new ⟨⟨2, 8⟩, 8, 8⟩, .save f1 _ h1 (.nothing _), ?_, ?_, ?_, ?_, ?_, ?_, ?_⟩
  all_goals with_unfolding_all rfl

/-- The hypotheses of `C51_exact_partial` on a history with two saves and a deletion. -/
example : FreshSaves (fun _ => none) [.save (⟨1, 5⟩ : LooseId), .save ⟨2, 1⟩, .delete ⟨1, 0⟩, .save ⟨1, 9⟩] :=
  ⟨rfl, by decide, by decide, trivial⟩
example : ∀ x ∈ (intervalsOf looseSpans [⟨1, 5⟩, ⟨2, 1⟩, ⟨1, 9⟩] : List (NodeInterval LooseId Span)),
    ∀ y ∈ (intervalsOf looseSpans [⟨1, 5⟩, ⟨2, 1⟩, ⟨1, 9⟩] : List (NodeInterval LooseId Span)),
    compare (lo x) (lo y) = .eq → x = y := by decide
example : ((((install true 0 looseSpans (Schema.fromGraph Graph.empty) : Schema (PSig LooseId LooseId Span Nat)).save 20 ⟨1, 5⟩).bind
      fun r => (r.2.save 20 ⟨2, 1⟩).bind fun r => (r.2.delete 20 ⟨1, 0⟩).bind fun r => r.2.save 20 ⟨1, 9⟩).map
        fun r => ((r.2.guard.iter : List LooseId), r.2.index.map ITree.inorder)) =
    some ([⟨1, 9⟩, ⟨2, 1⟩], some [⟨⟨2, 1⟩, 1, 1⟩, ⟨⟨1, 9⟩, 9, 9⟩]) := by decide +kernel

/-- `C51_complete_partial` and `C51_queries_partial` on a history that overwrites: the old interval is still reported, the one
of the node in the graph is as well, and a deletion takes out the new one only. -/
def overwrite : List (Operation LooseId LooseId) := [.save ⟨1, 5⟩, .save ⟨2, 1⟩, .save ⟨1, 6⟩]
example : savedSince overwrite ⟨1, 7⟩ = true ∧ savedSince overwrite ⟨3, 5⟩ = false ∧
    ((((install true 0 looseSpans (Schema.fromGraph Graph.empty) : Schema (PSig LooseId LooseId Span Nat)).save 20 ⟨1, 5⟩).bind
      fun r => (r.2.save 20 ⟨2, 1⟩).bind fun r => r.2.save 20 ⟨1, 6⟩).map
        fun r => ((r.2.guard.iter : List LooseId), r.2.index.map fun t => t.forEach ⟨⟨0, 0⟩, 2, 9⟩)) =
      some ([⟨1, 6⟩, ⟨2, 1⟩], some [⟨⟨1, 6⟩, 6, 6⟩, ⟨⟨1, 5⟩, 5, 5⟩]) := by decide +kernel
example : (indexEvents looseSpans (fun _ => none) [.save ⟨1, 5⟩, .delete (⟨1, 0⟩ : LooseId), .delete ⟨1, 0⟩]) =
    [.insert (⟨⟨1, 5⟩, 5, 5⟩ : NodeInterval LooseId Span), .delete ⟨⟨1, 5⟩, 5, 5⟩] := by rfl

end Plotline
