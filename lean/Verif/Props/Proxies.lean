import Verif.Lemmas.Proxies
import Verif.Props.Transaction

/-!
# C82, C83: proxies kept as values, and shared by threads
-/

namespace Plotline

open Std

variable {K T : Type}

section
variable {sources : Nat → Source K T} {h : ProxyHistory K T} {w : Proxies K T}

/-! ## C82 -/

/-- C82: calls are possible exactly on proxies that were made. -/
theorem C82_possible (hl : ProxyLegal sources h w) (p : Nat) : (∃ r w', w.step (.deref p) = some (r, w')) ↔ p < proxiesMade h := by
  have hI := hl.inv
  constructor
  · rintro ⟨r, w', hs⟩
    rw [← hI.made]
    simp only [Proxies.step] at hs
    split at hs
    · cases hs
    · rename_i hp; exact (List.getElem?_eq_some_iff.1 hp).1
  · intro hp
    obtain ⟨s, x, hx⟩ := hI.get hp
    simp [Proxies.step, hx]

/-- C82: `try_deref` of a proxy that was looked at before, or whose original was before it was cloned, answers the same as then; the
first one answers what the source it is over says by now about the id it has by now. -/
theorem C82_deref (hl : ProxyLegal sources h w) {p : Nat} {r : ProxyAnswer K T} {w' : Proxies K T}
    (hs : w.step (.deref p) = some (r, w')) :
    ∃ v, r = .node v ∧ (∀ u, Looked h p u → u = v) ∧
      ((∀ u, ¬ Looked h p u) → ∃ s i, proxySource h p = some s ∧ proxyId h p = some i ∧ v = (sourceNow sources h s).get i) := by
  have hI := hl.inv
  simp only [Proxies.step] at hs
  split at hs
  · cases hs
  · rename_i s x hp
    simp only [Option.some.injEq, Prod.mk.injEq] at hs
    obtain ⟨a, b, c⟩ := hI.proxy p s x hp
    refine ⟨_, hs.1.symm, fun u hu => ?_, fun hn => ⟨s, x.id, a, b, ?_⟩⟩
    · simp only [NodeProxy.tryDeref, (c u).2 hu]
    · have : x.value = none := by
        cases hv : x.value with
        | none => rfl
        | some v => exact absurd ((c v).1 hv) (hn v)
      simp only [NodeProxy.tryDeref, this, hI.now]

/-- C82: all looks at one proxy, and at its original before it was cloned, were answered the same. -/
theorem C82_agree (hl : ProxyLegal sources h w) {p : Nat} {u v : Option T} (hu : Looked h p u) (hv : Looked h p v) : u = v := by
  have hI := hl.inv
  obtain ⟨s, x, hx⟩ := hI.get (hI.looked p u hu)
  obtain ⟨_, _, c⟩ := hI.proxy p s x hx
  have h1 := (c u).2 hu
  rw [(c v).2 hv] at h1
  cases h1; rfl

/-- C82: `id` answers the id assigned last. -/
theorem C82_id (hl : ProxyLegal sources h w) {p : Nat} {r : ProxyAnswer K T} {w' : Proxies K T} (hs : w.step (.id p) = some (r, w')) :
    ∃ i, proxyId h p = some i ∧ r = .id i := by
  simp only [Proxies.step] at hs
  split at hs
  · cases hs
  · rename_i s x hp
    cases hs
    exact ⟨x.id, (hl.inv.proxy p s x hp).2.1, rfl⟩

/-- C82: `is_virtual` tells about that id, and the source assigned last as it is by now, whatever was looked at before. -/
theorem C82_is_virtual (hl : ProxyLegal sources h w) {p : Nat} {r : ProxyAnswer K T} {w' : Proxies K T}
    (hs : w.step (.isVirtual p) = some (r, w')) :
    ∃ s i, proxySource h p = some s ∧ proxyId h p = some i ∧ r = .bool (!(sourceNow sources h s).contains i) := by
  have hI := hl.inv
  simp only [Proxies.step] at hs
  split at hs
  · cases hs
  · rename_i s x hp
    cases hs
    obtain ⟨a, b, _⟩ := hI.proxy p s x hp
    exact ⟨s, x.id, a, b, by rw [← hI.now]; rfl⟩

/-- C82: `successors` makes the calls `try_deref` and, if there is a node, `new` for each of its edges, in order, over the source of
the proxy. -/
theorem C82_successors {E : Type} [Identify E K] (edges : T → List E) {p s : Nat} {x : NodeProxy K T} (hp : w.proxies[p]? = some (s, x)) :
    ∃ v w', w.step (.deref p) = some (.node v, w') ∧ w'.proxies[p]? = some (s, (x.successors edges (w.sources s)).2) ∧
      (x.successors edges (w.sources s)).1 =
        match v with
        | none => []
        | some n => (edges n).map fun e => NodeProxy.new (id e) := by
  refine ⟨(x.tryDeref (w.sources s)).1, { w with proxies := w.proxies.set p (s, (x.tryDeref (w.sources s)).2) },
    by simp only [Proxies.step, hp], ?_, ?_⟩
  · rw [List.getElem?_set_self (List.getElem?_eq_some_iff.1 hp).1]
    simp only [NodeProxy.successors]
    generalize x.tryDeref (w.sources s) = z
    obtain ⟨_ | _, _⟩ := z <;> rfl
  · simp only [NodeProxy.successors]
    generalize x.tryDeref (w.sources s) = z
    obtain ⟨_ | _, _⟩ := z <;> rfl

/-- A source gives only nodes with the id it was asked for. -/
def Source.Honest [BEq K] [Identify T K] (src : Source K T) : Prop := ∀ i n, src.get i = some n → (i == id n) = true

variable [BEq K] [Identify T K]

/-- The property claimed of proxies: the node a proxy gives has the id the proxy says it has. -/
def GivesOwnId (h : ProxyHistory K T) (p : Nat) (v : Option T) : Prop :=
  ∀ n i, v = some n → proxyId h p = some i → (i == id n) = true

theorem sourceNow_honest (h0 : ∀ s, (sources s).Honest) (hh : ∀ s now r, (.source s now, r) ∈ h → now.Honest) (s : Nat) :
    (sourceNow sources h s).Honest := by
  induction h with
  | nil => exact h0 s
  | cons x h ih =>
    have ih := ih fun s now r hm => hh s now r (by simp [hm])
    obtain ⟨x, r⟩ := x
    cases x <;> simp only [sourceNow] <;> try exact ih
    rename_i s' now
    split
    · exact hh s' now r (by simp)
    · exact ih

/-- C82 for proxies whose id was not assigned (and that of their original neither), over sources that give nodes with the ids asked for,
as graphs do: the node a proxy gives has the id of the proxy. -/
theorem C82_own_id_partial (hl : ProxyLegal sources h w) (h0 : ∀ s, (sources s).Honest)
    (hh : ∀ s now r, (.source s now, r) ∈ h → now.Honest) {p : Nat} (hk : IdKept h p) {v : Option T} {w' : Proxies K T}
    (hs : w.step (.deref p) = some (.node v, w')) : GivesOwnId h p v := by
  have key : ∀ {h : ProxyHistory K T} {w : Proxies K T}, ProxyLegal sources h w → (∀ s now r, (.source s now, r) ∈ h → now.Honest) →
      ∀ p u, IdKept h p → Looked h p u → GivesOwnId h p u := by
    intro h w hl hh
    induction hl with
    | start => intro p u _ hu; cases hu
    | @call h w w' x r hl hs ih =>
      have hh' : ∀ s now r, (.source s now, r) ∈ h → now.Honest := fun s now r hm => hh s now r (by simp [hm])
      have ih := ih hh'
      intro p u hk hu
      -- the part of the claim about the history before
      have old : p ≠ proxiesMade h → (∀ i, x ≠ .setId p i) → proxyId ((x, r) :: h) p = proxyId h p := by
        intro h1 h2
        cases x <;> simp only [proxyId] <;> try rfl
        · rw [if_neg h1]
        · rw [if_neg h1]
        · rename_i q i
          split
          · rename_i he; subst he; exact absurd rfl (h2 i)
          · rfl
      have hI := hl.inv
      cases hu with
      | @deref _ _ _ =>
        have hk' : IdKept h p := by cases hk with | later hk _ => exact hk
        have hp : p ≠ proxiesMade h := Nat.ne_of_lt ((C82_possible hl p).1 ⟨_, _, hs⟩)
        intro n i hn hi
        rw [old hp (by simp)] at hi
        obtain ⟨v, e1, e2, e3⟩ := C82_deref hl hs
        cases e1
        by_cases hlook : ∃ u', Looked h p u'
        · obtain ⟨u', hu'⟩ := hlook
          rw [← e2 u' hu'] at hn
          exact ih p u' hk' hu' n i hn hi
        · obtain ⟨s, i', _, e5, e6⟩ := e3 fun u' hu' => hlook ⟨u', hu'⟩
          rw [hi] at e5
          cases e5
          rw [hn] at e6
          exact sourceNow_honest h0 hh' s _ _ e6.symm
      | @clone _ q _ _ hu =>
        have hk' : IdKept h q := by
          generalize hp : proxiesMade h = p at hk
          cases hk with
          | clone hk => exact hk
          | later hk _ =>
            have := hI.looked q u hu
            exfalso
            have : ∀ {h : ProxyHistory K T} {p}, IdKept h p → p < proxiesMade h := by
              intro h p hk
              induction hk with
              | new => simp [proxiesMade]
              | clone _ _ => simp [proxiesMade]
              | @later h p x _ _ ih => obtain ⟨x, r⟩ := x; cases x <;> simp only [proxiesMade] <;> omega
            have := this hk
            omega
        intro n i hn hi
        simp only [proxyId, if_true] at hi
        exact ih q u hk' hu n i hn hi
      | later hu =>
        have hp : p ≠ proxiesMade h := hu.made_of hI
        have hk' : IdKept h p ∧ ∀ i, x ≠ .setId p i := by
          cases hk with
          | new => exact absurd rfl hp
          | clone _ => exact absurd rfl hp
          | later hk h2 => exact ⟨hk, h2⟩
        intro n i hn hi
        rw [old hp hk'.2] at hi
        exact ih p u hk'.1 hu n i hn hi
  have hl' := ProxyLegal.call hl hs
  have hk' : IdKept ((.deref p, .node v) :: h) p := .later hk (by simp)
  exact key hl' (by simpa using hh) p v hk' .deref

end

/-- Graphs are such sources. -/
theorem Graph.source_honest [Ord K] [TransOrd K] [BEq K] [LawfulBEqOrd K] [Identify T K] (g : Graph K T) (hg : g.Reachable) :
    g.source.Honest := fun _ _ hn => Graph.get_some_id g hg.valid hn

/-- A proxy for 1, looked at, cloned, and given the id 2. -/
def proxyDemo : ProxyHistory Nat Doc :=
  [(.setId 0 2, .none), (.clone 0, .none), (.deref 0, .node (some ⟨1, 10⟩)), (.new 0 1, .none)]

theorem proxyDemo_legal : ProxyLegal (fun _ => demoGraph.source) proxyDemo
    ⟨fun _ => demoGraph.source, [(0, ⟨2, some (some ⟨1, 10⟩)⟩), (0, ⟨1, some (some ⟨1, 10⟩)⟩)]⟩ :=
  .call (.call (.call (.call .start rfl) rfl) rfl) rfl

/-- C82: false of the code in general. The fields of a proxy are public: one whose id is assigned after it was looked at gives the node of
its old id, and says with `is_virtual` whether there is one of the new id. -/
theorem C82_refuted : ¬ ∀ (g : Graph Nat Doc), g.Reachable → ∀ (h : ProxyHistory Nat Doc) (w w' : Proxies Nat Doc) (p : Nat) (v : Option Doc),
    ProxyLegal (fun _ => g.source) h w → (∀ x ∈ h, ∀ s now, x.1 ≠ .source s now) → w.step (.deref p) = some (.node v, w') →
    GivesOwnId h p v := by
  intro hall
  have := hall demoGraph (.fromIter _) proxyDemo _ _ 0 (some ⟨1, 10⟩) proxyDemo_legal (by simp [proxyDemo]) rfl ⟨1, 10⟩ 2 rfl rfl
  exact absurd this (by decide)

/-- The clone kept its id. -/
example : IdKept proxyDemo 1 := .later (.clone (.later .new (by simp))) (by simp)

/-- A proxy over a source that changes after the first look. -/
example : let later : Source Nat Doc := (Graph.fromIter [(⟨1, 11⟩ : Doc)]).source
    ∃ w w', ProxyLegal (fun _ => demoGraph.source)
      [(.source 0 later, .none), (.deref 0, .node (some ⟨1, 10⟩)), (.new 0 1, .none), (.new 0 1, .none)] w ∧
      w.step (.deref 0) = some (.node (some ⟨1, 10⟩), w') ∧ ∃ w'', w'.step (.deref 1) = some (.node (some ⟨1, 11⟩), w'') :=
  ⟨_, _, .call (.call (.call (.call .start rfl) rfl) rfl) rfl, rfl, _, rfl⟩

/-! ## C83 -/

section
variable (v0 : Option (Option T)) (sched : List (Nat × Option (Option T)))

/-- C83: all calls of `try_deref` on a shared proxy that return, return the same. -/
theorem C83_agreement (c d : InitCall T) (hc : c ∈ (initAfter v0 sched).calls) (hd : d ∈ (initAfter v0 sched).calls) (u v : Option T)
    (hu : c.result = some u) (hv : d.result = some v) : u = v := by
  have hI := initInv v0 sched
  have h1 := hI.results c hc u hu
  rw [hI.results d hd v hv] at h1
  cases h1; rfl

/-- The answers are among those the schedule has. -/
theorem answers_sched : ∀ v ∈ (initAfter v0 sched).answers, ∃ t, (t, some v) ∈ sched := by
  have key : ∀ (sched : List (Nat × Option (Option T))) (s : InitState T),
      ∀ v ∈ (s.run sched).answers, v ∈ s.answers ∨ ∃ t, (t, some v) ∈ sched := by
    intro sched
    induction sched with
    | nil => intro s v hv; exact .inl hv
    | cons e l ih =>
      intro s v hv
      rcases ih (s.step e.1 e.2) v hv with h | ⟨t, h⟩
      · have : v ∈ s.answers ∨ e.2 = some v := by
          unfold InitState.step at h
          split at h
          · exact .inl h
          · split at h <;> exact .inl h
          · split at h
            · exact .inl h
            · split at h <;> exact .inl h
          · split at h
            · exact .inl h
            · rename_i u he
              rcases List.mem_append.1 h with h | h
              · exact .inl h
              · rw [List.mem_singleton] at h; subst h; exact .inr he
          · exact .inl h
        rcases this with h | h
        · exact .inl h
        · exact .inr ⟨e.1, by rw [← h]; simp⟩
      · exact .inr ⟨t, by simp [h]⟩
  intro v hv
  rcases key sched _ v hv with h | h
  · cases h
  · exact h

/-- C83: the source answers at most once, whatever the threads do, and not at all if the proxy was looked at before; what the calls
return is that answer, or the one from before. -/
theorem C83_once : (initAfter v0 sched).answers.length ≤ 1 ∧ (v0 ≠ none → (initAfter v0 sched).answers = []) ∧
    ∀ c ∈ (initAfter v0 sched).calls, ∀ v, c.result = some v → v0 = some v ∨ (initAfter v0 sched).answers = [v] := by
  have hI := initInv v0 sched
  have hno : (∀ t v, (initAfter v0 sched).pcs t ≠ .store v) ∨ ∃ t v, (initAfter v0 sched).pcs t = .store v := by
    by_cases h : ∃ t v, (initAfter v0 sched).pcs t = .store v
    · exact .inr h
    · exact .inl fun t v ht => h ⟨t, v, ht⟩
  refine ⟨?_, fun h => ?_, fun c hc v hv => ?_⟩
  · rcases hno with h | ⟨t, v, h⟩
    · rw [hI.asked h]
      split
      · simp
      · cases (initAfter v0 sched).value <;> simp
    · rw [hI.stored t v h]; simp
  · cases hv : v0 with
    | none => exact absurd hv h
    | some v => rw [← hv]; exact (hI.kept v hv).2
  · have hval := hI.results c hc v hv
    rcases hno with h | ⟨t, u, h⟩
    · have := hI.asked h
      rw [hval] at this
      cases hv0 : v0 with
      | none => rw [← hv0]; rw [hv0] at this; right; rw [hv0]; simpa using this
      | some u =>
        have := (hI.kept u hv0).1
        rw [hval] at this
        cases this
        exact .inl rfl
    · have := (hI.busy t (.inr ⟨u, h⟩)).2
      rw [hval] at this; cases this

/-- C83: over a graph all calls that return, return the node of the graph. -/
theorem C83_graph [Ord K] (g : Graph K T) (i : K) (hs : ∀ e ∈ sched, ∀ v, e.2 = some v → v = g.get i) :
    ∀ c ∈ (initAfter none sched).calls, ∀ v, c.result = some v → v = g.get i := by
  intro c hc v hv
  rcases (C83_once none sched).2.2 c hc v hv with h | h
  · cases h
  · obtain ⟨t, ht⟩ := answers_sched none sched v (by rw [h]; simp)
    exact hs _ ht v rfl

/-- C83: a thread waits only for another one that asks the source or is about to store its answer. -/
theorem C83_waits (t : Nat) (a : Option (Option T)) (hw : ((initAfter v0 sched).step t a).pcs t = (initAfter v0 sched).pcs t) :
    ∃ t', t' ≠ t ∧ ((initAfter v0 sched).pcs t' = .source ∨ ∃ v, (initAfter v0 sched).pcs t' = .store v) := by
  have hI := initInv v0 sched
  generalize initAfter v0 sched = s at hI hw
  unfold InitState.step at hw
  split at hw
  · rename_i h; simp [InitState.pc, h] at hw
  · rename_i h; split at hw <;> simp [InitState.ret, InitState.pc, h] at hw
  · rename_i h
    split at hw
    · simp [InitState.ret, InitState.pc, h] at hw
    · split at hw
      · simp [InitState.pc, h] at hw
      · rename_i hc
        cases hcl : s.claimed with
        | none => exact absurd hcl hc
        | some t' =>
          refine ⟨t', fun he => ?_, hI.holder t' hcl⟩
          subst he
          rcases hI.holder t' hcl with h' | ⟨v, h'⟩ <;> rw [h] at h' <;> cases h'
  · rename_i h; split at hw <;> simp [InitState.ret, InitState.pc, h] at hw
  · rename_i h; simp [InitState.ret, InitState.pc, h] at hw

/-- From `s` to `s'` the call of thread `t` was finished, and no other. -/
def Done (t : Nat) (s s' : InitState T) : Prop := s'.pcs t = .idle ∧ ∃ r, s'.calls = s.calls ++ [⟨t, r⟩]

/-- C83: a thread in a call, while no other thread asks the source, is done after at most four steps, in whatever way the source
answers, and has made one call. -/
theorem C83_done (t : Nat) (hin : (initAfter v0 sched).pcs t ≠ .idle)
    (hno : ∀ t', t' ≠ t → (initAfter v0 sched).pcs t' ≠ .source ∧ ∀ v, (initAfter v0 sched).pcs t' ≠ .store v)
    (a b c d : Option (Option T)) :
    ∃ n ≤ 4, Done t (initAfter v0 sched) ((initAfter v0 sched).run ([(t, a), (t, b), (t, c), (t, d)].take n)) := by
  have hI := initInv v0 sched
  generalize initAfter v0 sched = s at hI hin hno
  have hfree : s.pcs t = .source ∨ (∃ v, s.pcs t = .store v) ∨ s.claimed = none := by
    cases hcl : s.claimed with
    | none => exact .inr (.inr rfl)
    | some t' =>
      have := hI.holder t' hcl
      by_cases he : t' = t
      · subst he
        rcases this with h | h
        · exact .inl h
        · exact .inr (.inl h)
      · rcases this with h | ⟨v, h⟩
        · exact absurd h (hno t' he).1
        · exact absurd h ((hno t' he).2 v)
  have fin : ∀ (s s' s'' : InitState T), s'.calls = s.calls → Done t s' s'' → Done t s s'' := by
    intro s s' s'' he hd
    rwa [Done, he] at hd
  -- from `store`, from `source`, from `claim`
  have st : ∀ (s : InitState T) (a : Option (Option T)) v, s.pcs t = .store v → Done t s (s.step t a) := by
    intro s a v h; simp [InitState.step, h, InitState.ret, InitState.pc, Done]
  have so : ∀ (s : InitState T) (a : Option (Option T)), s.pcs t = .source →
      Done t s (s.step t a) ∨ (s.step t a).calls = s.calls ∧ ∃ v, (s.step t a).pcs t = .store v := by
    intro s a h
    cases a with
    | none => simp [InitState.step, h, InitState.ret, InitState.pc, Done]
    | some v => exact .inr ⟨by simp [InitState.step, h, InitState.pc], v, by simp [InitState.step, h, InitState.pc]⟩
  have cl : ∀ (s : InitState T) (a : Option (Option T)), s.pcs t = .claim → s.claimed = none →
      Done t s (s.step t a) ∨ (s.step t a).calls = s.calls ∧ (s.step t a).pcs t = .source := by
    intro s a h hc
    cases hv : s.value <;> simp [InitState.step, h, hc, hv, InitState.ret, InitState.pc, Done]
  have ge : ∀ (s : InitState T) (a : Option (Option T)), s.pcs t = .get → s.claimed = none →
      Done t s (s.step t a) ∨ (s.step t a).calls = s.calls ∧ (s.step t a).pcs t = .claim ∧ (s.step t a).claimed = none := by
    intro s a h hc
    cases hv : s.value <;> simp [InitState.step, h, hc, hv, InitState.ret, InitState.pc, Done]
  have from2 : ∀ (s : InitState T) (a b : Option (Option T)), s.pcs t = .source →
      ∃ n ≤ 2, Done t s (s.run ([(t, a), (t, b)].take n)) := by
    intro s a b h
    rcases so s a h with h | ⟨he, v, h⟩
    · exact ⟨1, by omega, h⟩
    · exact ⟨2, by omega, fin _ _ _ he (st _ b v h)⟩
  have from3 : ∀ (s : InitState T) (a b c : Option (Option T)), s.pcs t = .claim → s.claimed = none →
      ∃ n ≤ 3, Done t s (s.run ([(t, a), (t, b), (t, c)].take n)) := by
    intro s a b c h hc
    rcases cl s a h hc with h | ⟨he, h⟩
    · exact ⟨1, by omega, h⟩
    · obtain ⟨n, hn, h⟩ := from2 _ b c h
      exact ⟨n + 1, by omega, fin _ _ _ he h⟩
  have take3 : ∀ {α : Type} (x y z u : α) (n : Nat), n ≤ 3 → [x, y, z, u].take n = [x, y, z].take n := by
    intro α x y z u n hn
    match n, hn with
    | 0, _ => rfl
    | 1, _ => rfl
    | 2, _ => rfl
    | 3, _ => rfl
  have take2 : ∀ {α : Type} (x y z u : α) (n : Nat), n ≤ 2 → [x, y, z, u].take n = [x, y].take n := by
    intro α x y z u n hn
    match n, hn with
    | 0, _ => rfl
    | 1, _ => rfl
    | 2, _ => rfl
  cases hp : s.pcs t with
  | idle => exact absurd hp hin
  | get =>
    have hc : s.claimed = none := by rcases hfree with h | ⟨v, h⟩ | h <;> first | exact h | (rw [hp] at h; cases h)
    rcases ge s a hp hc with h | ⟨he, h, hc⟩
    · exact ⟨1, by omega, h⟩
    · obtain ⟨n, hn, h⟩ := from3 _ b c d h hc
      exact ⟨n + 1, by omega, fin _ _ _ he h⟩
  | claim =>
    have hc : s.claimed = none := by rcases hfree with h | ⟨v, h⟩ | h <;> first | exact h | (rw [hp] at h; cases h)
    obtain ⟨n, hn, h⟩ := from3 s a b c hp hc
    exact ⟨n, by omega, by rw [take3 _ _ _ _ n hn]; exact h⟩
  | source =>
    obtain ⟨n, hn, h⟩ := from2 s a b hp
    exact ⟨n, by omega, by rw [take2 _ _ _ _ n hn]; exact h⟩
  | store v => exact ⟨1, by omega, st s a v hp⟩

/-- C83: a call panics only if the source did when this call asked it, and then nothing is kept: the next call asks again. -/
theorem C83_panic (t : Nat) (a : Option (Option T)) (c : InitCall T)
    (hc : ((initAfter v0 sched).step t a).calls = (initAfter v0 sched).calls ++ [c]) (hr : c.result = none) :
    (initAfter v0 sched).pcs t = .source ∧ a = none ∧ ((initAfter v0 sched).step t a).value = none ∧
      ((initAfter v0 sched).step t a).claimed = none := by
  have hI := initInv v0 sched
  generalize initAfter v0 sched = s at hI hc
  unfold InitState.step at hc
  split at hc
  · simp [InitState.pc] at hc
  · split at hc
    · simp [InitState.ret] at hc; subst hc; cases hr
    · simp [InitState.pc] at hc
  · split at hc
    · simp [InitState.ret] at hc; subst hc; cases hr
    · split at hc <;> simp [InitState.pc] at hc
  · rename_i h
    split at hc
    · refine ⟨h, rfl, ?_, ?_⟩
      · simp only [InitState.step, h, InitState.ret, InitState.pc]
        exact (hI.busy t (.inl h)).2
      · simp only [InitState.step, h]
    · simp [InitState.pc] at hc
  · simp [InitState.ret] at hc; subst hc; cases hr

end

/-- Two threads at once: the second waits for the first and gets its answer, without asking. -/
example : (initAfter none [(1, none), (2, none), (1, none), (2, none), (1, none), (2, none), (1, some (some 5)), (2, none), (1, none),
    (2, none)] : InitState Nat).calls = [⟨1, some (some 5)⟩, ⟨2, some (some 5)⟩] := rfl

/-- The source panics for the first; the second asks again. -/
example : (initAfter none [(1, none), (2, none), (1, none), (2, none), (1, none), (2, none), (1, none), (2, none), (2, some none), (2, none)] :
    InitState Nat).calls = [⟨1, none⟩, ⟨2, some none⟩] := rfl

end Plotline
