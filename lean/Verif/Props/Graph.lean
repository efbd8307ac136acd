import Verif.Lemmas.Proxy
import Verif.Spec.Fixtures

/-! # Properties C01–C07: graph and node proxies -/

namespace Plotline

open Std

set_option linter.unusedSectionVars false

variable {K T E : Type} [Ord K] [TransOrd K] [BEq K] [LawfulBEqOrd K] [Identify T K]

/-! ## C01 -/

/-- C01: after any history of calls, `get` answers by the newest call concerning an equal id. -/
theorem C01_get_last_write (h : List (GraphCall K T)) (q : K) : (Graph.after h).get q = lastWrite h q := by
  induction h with
  | nil => rfl
  | cons c t ih =>
    cases c with
    | insert n => simp only [Graph.after, lastWrite]; rw [Graph.get_insert _ n (Graph.after_valid t), ih]
    | withNode n => simp only [Graph.after, lastWrite]; rw [Graph.get_withNode _ n (Graph.after_valid t), ih]
    | remove k => simp only [Graph.after, lastWrite]; rw [Graph.get_remove _ k (Graph.after_valid t), ih]

/-- C01: `insert` returns what `get` would have returned before. -/
theorem C01_insert_returns_previous (h : List (GraphCall K T)) (n : T) :
    ((Graph.after h).insert n).2 = lastWrite h (id n) := by
  rw [Graph.insert_snd, C01_get_last_write]

/-- C01: `remove` returns what `get` would have returned before. -/
theorem C01_remove_returns_previous (h : List (GraphCall K T)) (k : K) :
    ((Graph.after h).remove k).2 = lastWrite h k := by
  rw [Graph.remove_snd, C01_get_last_write]

/-- C01 from any graph the API can build, call by call. -/
theorem C01_reachable (g : Graph K T) (hg : g.Reachable) (n : T) (k q : K) :
    (g.insert n).1.get q = FMap.put g.get (id n) n q ∧
    (g.withNode n).get q = FMap.put g.get (id n) n q ∧
    (g.remove k).1.get q = FMap.del g.get k q ∧
    (g.insert n).2 = g.get (id n) ∧ (g.remove k).2 = g.get k :=
  ⟨Graph.get_insert g n hg.valid q, Graph.get_withNode g n hg.valid q, Graph.get_remove g k hg.valid q, rfl, rfl⟩

example : (Graph.after [.remove 3, .insert ⟨1, 20⟩, .insert ⟨3, 5⟩, .insert (⟨1, 10⟩ : Doc)]).get 1 = some ⟨1, 20⟩ := by
  decide
/-- Equal but not identical ids share one entry. -/
example : ((Graph.after [.insert (⟨⟨7, 2⟩, 11⟩ : LooseId × Nat), .insert ⟨⟨7, 1⟩, 10⟩]).iter).length = 1 := by decide

/-! ## C02 (graph part) -/

/-- C02 for a graph. -/
theorem C02_graph (g : Graph K T) (q : K) : g.contains q = true ↔ ∃ n, g.get q = some n := by
  rw [Graph.contains_eq]; exact Option.isSome_iff_exists

example : (Graph.after [.insert (⟨1, 10⟩ : Doc)]).contains 1 = true ∧
    (Graph.after [.insert (⟨1, 10⟩ : Doc)]).contains 2 = false := by decide

/-! ## C03 -/

/-- C03: iteration is strictly ascending in id. -/
theorem C03_ascending (g : Graph K T) (hg : g.Reachable) :
    g.iter.Pairwise (fun a b => compare (id a) (id b) = .lt) := Graph.iter_sorted g hg.valid

/-- C03: iteration yields exactly the present nodes … -/
theorem C03_exact (g : Graph K T) (hg : g.Reachable) (n : T) : n ∈ g.iter ↔ ∃ q, g.get q = some n := by
  rw [Graph.mem_iter g hg.valid]
  constructor
  · exact fun h => ⟨_, h⟩
  · rintro ⟨q, h⟩
    rw [← h]; exact (Graph.get_congr g (Graph.get_some_id g hg.valid h)).symm

/-- C03: … each exactly once: two positions never hold equal ids. -/
theorem C03_once (g : Graph K T) (hg : g.Reachable) (i j : Nat) (hi : i < g.iter.length) (hj : j < g.iter.length)
    (h : (id g.iter[i] == id g.iter[j]) = true) : i = j := by
  have hp := List.pairwise_iff_getElem.1 (C03_ascending g hg)
  have he := Graph.beq_iff.1 h
  rcases Nat.lt_trichotomy i j with hlt | heq | hgt
  · have := hp i j hi hj hlt; rw [this] at he; cases he
  · exact heq
  · have := hp j i hj hi hgt
    have he := OrientedCmp.eq_symm he
    rw [this] at he; cases he

example : (Graph.after [.insert (⟨2, 0⟩ : Doc), .insert ⟨1, 0⟩, .remove 3, .insert ⟨3, 0⟩, .insert ⟨2, 9⟩]).iter
    = [⟨1, 0⟩, ⟨2, 0⟩] := by decide

/-! ## C04 -/

/-- C04: the last node with an id wins. -/
theorem C04_last_wins (l : List T) (q : K) :
    (Graph.fromIter l : Graph K T).get q = l.reverse.find? (fun n => q == id n) := by
  rw [Graph.fromIter_eq, Graph.get_foldl_insert l _ Graph.valid_empty]
  simp [Graph.empty, Graph.get, BTreeMap.empty, BTreeMap.get, BTreeMap.findL]

/-- C04: with pairwise distinct ids the order of the iterator is irrelevant (the graphs are the same). -/
theorem C04_order_irrelevant {l l' : List T} (hp : l.Perm l')
    (hd : l.Pairwise (fun a b => (id a == id b) = false)) :
    (Graph.fromIter l : Graph K T) = Graph.fromIter l' := by
  simp only [Graph.fromIter, Graph.foldl_insert_perm hp hd]

example : (Graph.fromIter [(⟨2, 1⟩ : Doc), ⟨1, 1⟩, ⟨2, 5⟩]).get 2 = some ⟨2, 5⟩ := by decide
example : [(⟨2, 1⟩ : Doc), ⟨1, 1⟩].Perm [⟨1, 1⟩, ⟨2, 1⟩] ∧
    [(⟨2, 1⟩ : Doc), ⟨1, 1⟩].Pairwise (fun a b => (id a == id b) = false) :=
  ⟨List.Perm.swap _ _ _, by decide⟩

/-! ## C06 -/

/-- C06: the first dereference of a fresh proxy (after any clones and virtuality checks) fixes the answer of every
later dereference, through any further calls and clones and whatever the source has become. -/
theorem C06_first_answer_frozen [Identify E K] (edges : T → List E) (k : K)
    (before later : List (Source K T × NodeProxy.Call)) (s₀ s : Source K T)
    (hb : ∀ c ∈ before, c.2 = .clone ∨ c.2 = .isVirtual) :
    (((NodeProxy.new k).after edges (before ++ (s₀, .deref) :: later)).tryDeref s).1 = s₀.get k := by
  have : ((NodeProxy.new k).after edges (before ++ (s₀, .deref) :: later)).value = some (s₀.get k) := by
    rw [NodeProxy.after, List.foldl_append]
    rw [show List.foldl _ (NodeProxy.new k) before = NodeProxy.new k from NodeProxy.after_unset edges k before hb]
    exact NodeProxy.after_set edges _ _ rfl later
  simp only [NodeProxy.tryDeref, this]

/-- C06: looking at the successors is such a first dereference too. -/
theorem C06_successors_freeze [Identify E K] (edges : T → List E) (k : K)
    (before later : List (Source K T × NodeProxy.Call)) (s₀ s : Source K T)
    (hb : ∀ c ∈ before, c.2 = .clone ∨ c.2 = .isVirtual) :
    (((NodeProxy.new k).after edges (before ++ (s₀, .successors) :: later)).tryDeref s).1 = s₀.get k := by
  have : ((NodeProxy.new k).after edges (before ++ (s₀, .successors) :: later)).value = some (s₀.get k) := by
    rw [NodeProxy.after, List.foldl_append]
    rw [show List.foldl _ (NodeProxy.new k) before = NodeProxy.new k from NodeProxy.after_unset edges k before hb]
    refine NodeProxy.after_set edges _ _ ?_ later
    simp only [NodeProxy.step, NodeProxy.successors, NodeProxy.tryDeref, NodeProxy.new]
    cases s₀.get k <;> rfl
  simp only [NodeProxy.tryDeref, this]

/-- C06: a proxy never dereferenced answers from the source as it is at that moment. -/
theorem C06_fresh_reads_source [Identify E K] (edges : T → List E) (k : K)
    (before : List (Source K T × NodeProxy.Call)) (s : Source K T)
    (hb : ∀ c ∈ before, c.2 = .clone ∨ c.2 = .isVirtual) :
    (((NodeProxy.new k).after edges before).tryDeref s).1 = s.get k := by
  rw [NodeProxy.after_unset edges k before hb]; rfl

/-- C06: `is_virtual` always reports the source as it is now. -/
theorem C06_is_virtual_current [Identify E K] (edges : T → List E) (k : K)
    (h : List (Source K T × NodeProxy.Call)) (s : Source K T) :
    ((NodeProxy.new k : NodeProxy K T).after edges h).isVirtual s = !s.contains k := by
  rw [NodeProxy.isVirtual, NodeProxy.after_id]; rfl

/-- The two can disagree: a proxy dereferenced while its id was absent stays empty after the id appears. -/
example : let s₀ : Source Nat Doc := ⟨fun _ => none, fun _ => false⟩
    let s : Source Nat Doc := ⟨fun q => if q = 1 then some ⟨1, 5⟩ else none, fun q => q == 1⟩
    let p := (NodeProxy.new 1).after (fun d : Doc => [d.body]) [(s₀, .deref)]
    (p.tryDeref s).1 = none ∧ p.isVirtual s = false := by decide

/-! ## C05 -/

/-- C05: over a graph (which cannot change while the proxy borrows it), however often the proxy was used or cloned,
it is virtual exactly if it dereferences to nothing, exactly if the graph has no such node, and otherwise
dereferences to that node. -/
theorem C05_proxy_truthful [Identify E K] (edges : T → List E) (g : Graph K T) (k : K)
    (h : List NodeProxy.Call) :
    let p := (NodeProxy.new k).after edges (h.map fun c => (g.source, c))
    (p.tryDeref g.source).1 = g.get k ∧ (p.isVirtual g.source = true ↔ g.get k = none) := by
  intro p
  have hv : p.value = none ∨ p.value = some (g.get k) := by
    have : ∀ (p : NodeProxy K T), p.id = k → (p.value = none ∨ p.value = some (g.get k)) →
        ((p.after edges (h.map fun c => (g.source, c))).value = none ∨
         (p.after edges (h.map fun c => (g.source, c))).value = some (g.get k)) := by
      induction h with
      | nil => exact fun p _ h => h
      | cons c t ih =>
        intro p hid hp
        refine ih (p.step edges g.source c) ((NodeProxy.step_id edges p g.source c).trans hid) ?_
        rcases hp with hp | hp
        · cases c <;> simp only [NodeProxy.step, NodeProxy.clone, NodeProxy.successors, NodeProxy.tryDeref, hp]
          · right; simp [Graph.source, hid]
          · simp
          · simp
          · right
            simp only [Graph.source, hid]
            cases g.get k <;> rfl
        · exact .inr (NodeProxy.step_set edges p _ hp _ c)
    exact this (NodeProxy.new k) rfl (.inl rfl)
  have hid : p.id = k := NodeProxy.after_id edges _ _
  refine ⟨?_, ?_⟩
  · rcases hv with hv | hv
    · simp only [NodeProxy.tryDeref, hv, hid]; rfl
    · simp only [NodeProxy.tryDeref, hv]
  · simp only [NodeProxy.isVirtual, hid, Graph.source, Graph.contains_eq]
    cases g.get k <;> simp

example : let g := Graph.after [.insert (⟨1, 2⟩ : Doc)]
    let p := (NodeProxy.new 1).after (fun d : Doc => [d.body]) [(g.source, .successors), (g.source, .clone)]
    (p.tryDeref g.source).1 = some ⟨1, 2⟩ ∧ p.isVirtual g.source = false := by decide

/-! ## C07 -/

/-- The edge relation of a source: `a` is stored and one of its edges has id `b`. -/
def EdgeRel [Identify E K] (get : K → Option T) (edges : T → List E) (a b : K) : Prop :=
  ∃ node, get a = some node ∧ ∃ e ∈ edges node, id e = b

/-- A path of `n` edges. -/
inductive Path [Identify E K] (get : K → Option T) (edges : T → List E) : Nat → K → K → Prop where
  | refl (a : K) : Path get edges 0 a a
  | step {n : Nat} {a b c : K} : EdgeRel get edges a b → Path get edges n b c → Path get edges (n + 1) a c

/-- C07: the successors of a (not yet dereferenced) proxy are exactly the edges of the stored node, in order, and
a virtual node has none. -/
theorem C07_successors [Identify E K] (edges : T → List E) (src : Source K T) (k : K) :
    (((NodeProxy.new k).successors edges src).1.map (·.id)) =
      match src.get k with
      | none => []
      | some node => (edges node).map id := by
  simp only [NodeProxy.successors, NodeProxy.tryDeref, NodeProxy.new]
  cases src.get k <;> simp

/-- C07: after any calls on the proxy, its successors are those of the node it dereferences to, in order, each a new proxy for
the id of the edge; there are none if it dereferences to nothing. -/
theorem C07_after_calls [Identify E K] (edges : T → List E) (k : K) (h : List (Source K T × NodeProxy.Call)) (src : Source K T) :
    (((NodeProxy.new k).after edges h).successors edges src).1 =
      match (((NodeProxy.new k).after edges h).tryDeref src).1 with
      | none => []
      | some node => (edges node).map fun e => NodeProxy.new (id e) := by
  generalize (NodeProxy.new k).after edges h = p
  simp only [NodeProxy.successors]
  obtain ⟨a, b⟩ := p.tryDeref src
  cases a <;> rfl

example : let old := (Graph.fromIter [(⟨1, 2⟩ : Doc)]).source
    let new := (Graph.fromIter [(⟨1, 5⟩ : Doc)]).source
    let p := (NodeProxy.new (1 : Nat)).after (fun d : Doc => [d.body]) [(old, .deref)]
    ((p.successors (fun d : Doc => [d.body]) new).1.map (·.id)) = [2] := by decide

/-- C07: following successors for `n` steps reaches exactly the ids at the end of paths of `n` edges. -/
theorem C07_walk [Identify E K] (edges : T → List E) (src : Source K T) (n : Nat) (a c : K) :
    (∃ p ∈ (NodeProxy.new a).walk edges src n, p.id = c) ↔ Path src.get edges n a c := by
  induction n generalizing a with
  | zero =>
    simp only [NodeProxy.walk, List.mem_singleton, exists_eq_left]
    constructor
    · rintro rfl; exact .refl _
    · intro h; cases h; rfl
  | succ n ih =>
    simp only [NodeProxy.walk, List.mem_flatMap]
    constructor
    · rintro ⟨p, ⟨q, hq, hp⟩, rfl⟩
      simp only [NodeProxy.successors, NodeProxy.tryDeref, NodeProxy.new] at hq
      split at hq
      · cases hq
      · rename_i node _ heq
        simp only [Prod.mk.injEq] at heq
        obtain ⟨e, he, rfl⟩ := List.mem_map.1 hq
        exact .step ⟨node, heq.1, e, he, rfl⟩ ((ih (id e)).1 ⟨p, hp, rfl⟩)
    · intro h
      cases h with
      | step he hp =>
        rename_i b
        obtain ⟨node, hn, e, he, rfl⟩ := he
        obtain ⟨p, hp', rfl⟩ := (ih _).2 hp
        refine ⟨p, ⟨NodeProxy.new (id e), ?_, hp'⟩, rfl⟩
        simp only [NodeProxy.successors, NodeProxy.tryDeref, NodeProxy.new, hn]
        exact List.mem_map.2 ⟨e, he, rfl⟩

example : let g := Graph.fromIter [(⟨1, 2⟩ : Doc), ⟨2, 1⟩]
    (((NodeProxy.new 1).walk (fun d : Doc => [d.body]) g.source 3).map (·.id)) = [2] := by decide

end Plotline
