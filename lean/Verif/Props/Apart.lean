import Verif.Props.Private
import Verif.Spec.Apart

/-! # Property C97: components that keep to themselves, in any order -/

namespace Plotline

open Std

variable {σ : Sig} {ι : Type} {owner : σ.Ty → Option ι} {N : σ.Ty → Prop}

/-! ## One use of a schema -/

theorem transact_det {S S1 S2 : Schema σ} {f1 f2 : Nat} {pre : List (Operation σ.K σ.T)} {body : Prog σ} {o1 o2 : Out (Except Error σ.V)}
    (h1 : S.transact f1 pre body = some (o1, S1)) (h2 : S.transact f2 pre body = some (o2, S2)) : o1 = o2 ∧ S1 = S2 := by
  obtain ⟨s, he, _⟩ := transact_some h1
  obtain ⟨s', he', _⟩ := transact_some h2
  have e := eval_det S.env he he'
  have : some (o1, S1) = some (o2, S2) := by
    rw [← h1, ← h2]
    unfold Schema.transact
    rw [he, he', e]
  cases this
  exact ⟨rfl, rfl⟩

/-- A use that comes to an end does so in one way only. -/
theorem gives_det {S S1 S2 : Schema σ} {u : Use σ} {a b : Seen σ} (h1 : Gives S u a S1) (h2 : Gives S u b S2) : a = b ∧ S1 = S2 := by
  cases h1
  case tx _ h1 =>
    cases h2 with
    | tx h2 _ =>
      obtain ⟨rfl, rfl⟩ := transact_det h1 h2
      exact ⟨rfl, rfl⟩
  all_goals (cases h2; exact ⟨rfl, rfl⟩)

/-- Schemas that differ in component `i` only, on the same graph. -/
structure Near (owner : σ.Ty → Option ι) (N : σ.Ty → Prop) (i : ι) (S S' : Schema σ) : Prop where
  beside : Beside (OwnedBy owner i) N S S'
  graph : S'.graph = S.graph

theorem Near.symm {i : ι} {S S' : Schema σ} (h : Near owner N i S S') : Near owner N i S' S := ⟨h.beside.symm, h.graph.symm⟩

/-- A use that has nothing to do with the component. -/
theorem Near.keep [LawfulSig σ] {i : ι} {S S' S1 : Schema σ} (h : Near owner N i S S') (hS : Sane S) (hS' : Sane S') {u : Use σ}
    (hu : u.Avoids (OwnedBy owner i)) {a : Seen σ} (hg : Gives S u a S1) : ∃ S1', Gives S' u a S1' ∧ Near owner N i S1 S1' := by
  obtain ⟨S1', h1, h2, h3⟩ := gives_keep hS hS' h.beside h.graph hu hg
  exact ⟨S1', h1, h2, h3⟩

/-- A use by the component. -/
theorem Near.extra [LawfulSig σ] {i : ι} {S S' S1' : Schema σ} (h : Near owner N i S S') (hS' : Sane S') {u : Use σ}
    (hu : u.Private (OwnedBy owner i) N) {a : Seen σ} (hg : Gives S' u a S1') : Near owner N i S S1' :=
  have ⟨h1, h2⟩ := gives_extra hS' h.beside h.graph hu hg
  ⟨h1, h2⟩

/-- The same use, by the component, of both. -/
theorem Near.both [LawfulSig σ] {i : ι} {S S' S1 S1' : Schema σ} (h : Near owner N i S S') (hS : Sane S) (hS' : Sane S') {u : Use σ}
    (hu : u.Private (OwnedBy owner i) N) {a a' : Seen σ} (hg : Gives S u a S1) (hg' : Gives S' u a' S1') : Near owner N i S1 S1' :=
  ((h.extra hS' hu hg').symm.extra hS hu hg).symm

theorem Near.runs {i : ι} {S : Schema σ} (h : Near owner N i S S) (hS : Sane S) {u : Use σ}
    (hu : u.Private (OwnedBy owner i) N) : ∃ a S1, Gives S u a S1 := private_runs hS h.beside hu

/-- A schema all of whose triggers are of the rest of the program or of components. -/
def Tidy (owner : σ.Ty → Option ι) (N : σ.Ty → Prop) (S : Schema σ) : Prop := ∀ i, Near owner N i S S

theorem Tidy.gives [LawfulSig σ] {S S1 : Schema σ} (h : Tidy owner N S) (hS : Sane S) {u : Use σ} (hu : u.Settled owner N)
    {a : Seen σ} (hg : Gives S u a S1) : Tidy owner N S1 := by
  intro i
  have keep : u.Avoids (OwnedBy owner i) → Near owner N i S1 S1 := fun hi => by
    obtain ⟨S2, h1, h2⟩ := (h i).keep hS hS hi hg
    obtain ⟨_, rfl⟩ := gives_det hg h1
    exact h2
  rcases hu with hu | ⟨j, hp, ho⟩
  · exact keep (hu i)
  · by_cases e : i = j
    · subst e
      exact (h i).both hS hS hp hg hg
    · exact keep (ho i e)

/-- Two schemas that differ in the order of the triggers of two components only. -/
structure Swapped (owner : σ.Ty → Option ι) (N : σ.Ty → Prop) (i j : ι) (S S' : Schema σ) : Prop where
  left : Near owner N i S S'
  right : Near owner N j S S'

theorem Swapped.gives [LawfulSig σ] {i j : ι} (hne : i ≠ j) {S S' S1 : Schema σ} (h : Swapped owner N i j S S') (hS : Sane S)
    (hS' : Sane S') {u : Use σ} (hu : u.Settled owner N) {a : Seen σ} (hg : Gives S u a S1) :
    ∃ S1', Gives S' u a S1' ∧ Swapped owner N i j S1 S1' := by
  have both : u.Avoids (OwnedBy owner i) → u.Avoids (OwnedBy owner j) → ∃ S1', Gives S' u a S1' ∧ Swapped owner N i j S1 S1' := by
    intro hi hj
    obtain ⟨S1', h1, h2⟩ := h.left.keep hS hS' hi hg
    obtain ⟨S2', h3, h4⟩ := h.right.keep hS hS' hj hg
    obtain ⟨_, rfl⟩ := gives_det h1 h3
    exact ⟨S1', h1, h2, h4⟩
  rcases hu with hu | ⟨k, hp, ho⟩
  · exact both (hu i) (hu j)
  · by_cases ei : i = k
    · subst ei
      obtain ⟨S1', h1, h2⟩ := h.right.keep hS hS' (ho j (Ne.symm hne)) hg
      exact ⟨S1', h1, h.left.both hS hS' hp hg h1, h2⟩
    · by_cases ej : j = k
      · subst ej
        obtain ⟨S1', h1, h2⟩ := h.left.keep hS hS' (ho i hne) hg
        exact ⟨S1', h1, h2, h.right.both hS hS' hp hg h1⟩
      · exact both (ho i ei) (ho j ej)

theorem Swapped.session [LawfulSig σ] {i j : ι} (hne : i ≠ j) {S S1 : Schema σ} {l : List (Use σ × Seen σ)} (h : Session S l S1)
    (hl : ∀ x ∈ l, x.1.Settled owner N) {S' : Schema σ} (hw : Swapped owner N i j S S') (hS : Sane S) (hS' : Sane S') :
    ∃ S1', Session S' l S1' ∧ Swapped owner N i j S1 S1' := by
  induction h generalizing S' with
  | nil S => exact ⟨S', .nil _, hw⟩
  | cons hg _ ih =>
    obtain ⟨S2', h1, h2⟩ := hw.gives hne hS hS' (hl _ List.mem_cons_self) hg
    obtain ⟨S1', h3, h4⟩ := ih (fun x hx => hl x (List.mem_cons_of_mem _ hx)) h2 (sane_gives hS hg) (sane_gives hS' h1)
    exact ⟨S1', .cons h1 h3, h4⟩

/-- Two neighbours change places. -/
theorem swap_pair [LawfulSig σ] {i j : ι} (hne : i ≠ j) {S S1 S2 : Schema σ} (ht : Tidy owner N S) (hS : Sane S) {x y : Use σ}
    (hx : x.PrivateTo owner N i) (hy : y.PrivateTo owner N j) {a b : Seen σ} (h1 : Gives S x a S1) (h2 : Gives S1 y b S2) :
    ∃ S1' S2', Gives S y b S1' ∧ Gives S1' x a S2' ∧ Swapped owner N i j S2 S2' := by
  have hS1 := sane_gives hS h1
  -- without `x`
  have n1 : Near owner N i S1 S := ((ht i).extra hS hx.1 h1).symm
  obtain ⟨S1', g1, n2⟩ := n1.keep hS1 hS (hy.2 i hne) h2
  have hS1' := sane_gives hS g1
  -- without `y`
  have n3 : Near owner N j S S1' := (ht j).extra hS hy.1 g1
  obtain ⟨S2', g2, n4⟩ := n3.keep hS hS1' (hx.2 j (Ne.symm hne)) h1
  exact ⟨S1', S2', g1, g2, n2.extra hS1' hx.1 g2, (n4.symm.extra hS1 hy.1 h2).symm⟩

/-- Where the nodes are the same, and all resources. -/
theorem Swapped.same {i j : ι} (hne : i ≠ j) {S S' : Schema σ} (h : Swapped owner N i j S S') :
    S'.graph = S.graph ∧ ∀ t, (S'.env.resources.res t).peek S'.heap = (S.env.resources.res t).peek S.heap := by
  refine ⟨h.left.graph, fun t => ?_⟩
  by_cases ht : OwnedBy owner i t
  · exact h.right.beside.reads t (fun e => hne (Option.some.inj (ht.symm.trans e)))
  · exact h.left.beside.reads t ht

theorem Session.split {S S2 : Schema σ} {l l' : List (Use σ × Seen σ)} (h : Session S (l ++ l') S2) :
    ∃ S1, Session S l S1 ∧ Session S1 l' S2 := by
  induction l generalizing S with
  | nil => exact ⟨S, .nil _, h⟩
  | cons x l ih =>
    cases h with
    | cons hg h =>
      obtain ⟨S1, h1, h2⟩ := ih h
      exact ⟨S1, .cons hg h1, h2⟩

theorem Tidy.session [LawfulSig σ] {S S1 : Schema σ} {l : List (Use σ × Seen σ)} (h : Session S l S1)
    (hl : ∀ x ∈ l, x.1.Settled owner N) (ht : Tidy owner N S) (hS : Sane S) : Tidy owner N S1 := by
  induction h with
  | nil => exact ht
  | cons hg _ ih => exact ih (fun x hx => hl x (List.mem_cons_of_mem _ hx)) (ht.gives hS (hl _ List.mem_cons_self) hg) (sane_gives hS hg)

theorem Reordered.mem {α : Type} {use : α → Use σ} {l l' : List α} (h : Reordered owner N use l l') {x : α} : x ∈ l' ↔ x ∈ l := by
  induction h with
  | same => exact .rfl
  | swap =>
    simp only [List.mem_append, List.mem_cons]
    exact or_congr_right (or_left_comm)
  | trans _ _ ih1 ih2 => exact ih2.trans ih1

theorem tidy_start {S : Schema σ} (ht : ∀ s, ∀ p ∈ S.env.fire s, ∀ i, p.Avoids (OwnedBy owner i))
    (ha : ∀ t, N t → (S.env.resources.res t).peek S.heap = none) : Tidy owner N S :=
  fun i => ⟨.refl (fun s p hp => ht s p hp i) (fun t _ hn => ha t hn), rfl⟩

/-- C97: whenever neighbouring uses in a course are by different components, they can change places, and this again and again:
every use gives the same answer as before, and in the end the graph is the same and so are all resources, those of the components
too. -/
theorem C97_any_order [LawfulSig σ] (S S1 : Schema σ) (hS : S.Used)
    (ht : ∀ s, ∀ p ∈ S.env.fire s, ∀ i, p.Avoids (OwnedBy owner i)) (ha : ∀ t, N t → (S.env.resources.res t).peek S.heap = none)
    (l l' : List (Use σ × Seen σ)) (hl : ∀ x ∈ l, x.1.Settled owner N) (hr : Reordered owner N (·.1) l l') (h : Session S l S1) :
    ∃ S1', Session S l' S1' ∧ S1'.graph = S1.graph ∧
      ∀ t, (S1'.env.resources.res t).peek S1'.heap = (S1.env.resources.res t).peek S1.heap := by
  induction hr generalizing S1 with
  | same l => exact ⟨S1, h, rfl, fun _ => rfl⟩
  | @swap i j hne l1 l2 x y hx hy =>
    obtain ⟨Sa, h1, h2⟩ := h.split
    cases h2 with
    | cons g1 h2 =>
    cases h2 with
    | cons g2 h3 =>
    have hl1 : ∀ z ∈ l1, z.1.Settled owner N := fun z hz => hl z (List.mem_append_left _ hz)
    have hl2 : ∀ z ∈ l2, z.1.Settled owner N := fun z hz =>
      hl z (List.mem_append_right _ (List.mem_cons_of_mem _ (List.mem_cons_of_mem _ hz)))
    have sa := sane_session h1 (used_sane hS)
    obtain ⟨Sb, Sc, g3, g4, hw⟩ := swap_pair hne (Tidy.session h1 hl1 (tidy_start ht ha) (used_sane hS)) sa hx hy g1 g2
    obtain ⟨S1', h4, h5⟩ := Swapped.session hne h3 hl2 hw (sane_gives (sane_gives sa g1) g2) (sane_gives (sane_gives sa g3) g4)
    exact ⟨S1', h1.append (.cons g3 (.cons g4 h4)), h5.same hne⟩
  | trans r1 _ ih1 ih2 =>
    obtain ⟨S2, h2, e1, e2⟩ := ih1 S1 hl h
    obtain ⟨S3, h3, e3, e4⟩ := ih2 S2 (fun x hx => hl x (r1.mem.1 hx)) h2
    exact ⟨S3, h3, e3.trans e1, fun t => (e4 t).trans (e2 t)⟩

theorem Reordered.cons {α : Type} {use : α → Use σ} {l l' : List α} (x : α) (h : Reordered owner N use l l') :
    Reordered owner N use (x :: l) (x :: l') := by
  induction h with
  | same l => exact .same _
  | swap hne l1 l2 hx hy => exact .swap hne (x :: l1) l2 hx hy
  | trans _ _ ih1 ih2 => exact .trans ih1 ih2

theorem Reordered.past {α : Type} {use : α → Use σ} {i j : ι} (hne : i ≠ j) {x : α} (hx : (use x).PrivateTo owner N i)
    {l2 : List α} (h2 : ∀ y ∈ l2, (use y).PrivateTo owner N j) (l : List α) :
    Reordered owner N use (x :: (l2 ++ l)) (l2 ++ x :: l) := by
  induction l2 with
  | nil => exact .same _
  | cons y l2 ih =>
    exact .trans (.swap hne [] (l2 ++ l) hx (h2 y List.mem_cons_self)) (.cons y (ih fun z hz => h2 z (List.mem_cons_of_mem _ hz)))

theorem Reordered.blocks {α : Type} {use : α → Use σ} {i j : ι} (hne : i ≠ j) {l1 l2 : List α}
    (h1 : ∀ x ∈ l1, (use x).PrivateTo owner N i) (h2 : ∀ y ∈ l2, (use y).PrivateTo owner N j) (l : List α) :
    Reordered owner N use (l1 ++ (l2 ++ l)) (l2 ++ (l1 ++ l)) := by
  induction l1 with
  | nil => exact .same _
  | cons x l1 ih =>
    exact .trans (.cons x (ih fun z hz => h1 z (List.mem_cons_of_mem _ hz))) (.past hne (h1 x List.mem_cons_self) h2 _)

/-- C97: of two components, such as plugins, either can be set up first. All that follows goes the same course with the same
answers, and ends with the same graph and resources. -/
theorem C97_setup [LawfulSig σ] (S S1 : Schema σ) (hS : S.Used)
    (ht : ∀ s, ∀ p ∈ S.env.fire s, ∀ i, p.Avoids (OwnedBy owner i)) (ha : ∀ t, N t → (S.env.resources.res t).peek S.heap = none)
    (i j : ι) (hne : i ≠ j) (l1 l2 l : List (Use σ × Seen σ)) (h1 : ∀ x ∈ l1, x.1.PrivateTo owner N i)
    (h2 : ∀ x ∈ l2, x.1.PrivateTo owner N j) (hl : ∀ x ∈ l, x.1.Settled owner N) (h : Session S (l1 ++ (l2 ++ l)) S1) :
    ∃ S1', Session S (l2 ++ (l1 ++ l)) S1' ∧ S1'.graph = S1.graph ∧
      ∀ t, (S1'.env.resources.res t).peek S1'.heap = (S1.env.resources.res t).peek S1.heap := by
  refine C97_any_order S S1 hS ht ha _ _ (fun x hx => ?_) (.blocks hne h1 h2 l) h
  rcases List.mem_append.1 hx with hx | hx
  · exact .inr ⟨i, h1 x hx⟩
  · rcases List.mem_append.1 hx with hx | hx
    · exact .inr ⟨j, h2 x hx⟩
    · exact hl x hx

/-! ## The interval plugin -/

section
variable {K T I B : Type} [Ord K] [BEq K] [Identify T K] [Ord B] [BEq I] [Interval I B]

theorem installing_apart {owner : PTy → Option ι} {i : ι} (hi : ∀ t, owner t = some i ↔ OfPlugin t) (fuel : Nat)
    (extract : T → List I) : ∀ u ∈ installing fuel extract, Use.PrivateTo (σ := PSig K T I B) owner NotMade i u := by
  have e : OwnedBy (σ := PSig K T I B) owner i = OfPlugin := funext fun t => propext (hi t)
  have off : ∀ j, j ≠ i → ∀ t, OfPlugin t → ¬ OwnedBy (σ := PSig K T I B) owner j t := fun j hj t ht h =>
    hj (Option.some.inj (h.symm.trans ((hi t).2 ht)))
  intro u hu
  refine ⟨by rw [e]; exact installing_private fuel extract u hu, fun j hj => ?_⟩
  simp only [installing, List.mem_cons, List.not_mem_nil, or_false] at hu
  rcases hu with rfl | rfl | rfl | rfl
  · exact off j hj _ (.inl rfl)
  · exact off j hj _ (.inr (.inl rfl))
  · intro a
    cases a with
    | none => trivial
    | some n =>
      refine ⟨off j hj _ (.inl rfl), fun x => ?_⟩
      cases x with
      | none => trivial
      | some f => exact ⟨off j hj _ (.inr (.inr rfl)), fun _ => trivial⟩
  · intro a
    cases a with
    | none => trivial
    | some n =>
      refine ⟨off j hj _ (.inl rfl), fun x => ?_⟩
      cases x with
      | none => trivial
      | some f =>
        refine ⟨off j hj _ (.inr (.inr rfl)), fun x => ?_⟩
        cases x with
        | none => trivial
        | some t =>
          simp only
          split
          · trivial
          · exact ⟨off j hj _ (.inr (.inr rfl)), fun _ => trivial⟩

/-- C97: the interval plugin, as it is for node types that are not their own id types, can be installed before or after another
component is set up. -/
theorem C97_plugin [TransOrd K] [LawfulBEqOrd K] {owner : PTy → Option ι} {i j : ι} (hi : ∀ t, owner t = some i ↔ OfPlugin t)
    (hne : i ≠ j) (fuel : Nat) (extract : T → List I) (S S1 : Schema (PSig K T I B)) (hS : S.Used)
    (ht : ∀ s, ∀ p ∈ S.env.fire s, ∀ i, p.Avoids (OwnedBy owner i)) (ha : (S.env.resources.res .treeOfId).peek S.heap = none)
    (l2 l : List (Use (PSig K T I B) × Seen (PSig K T I B))) (h2 : ∀ x ∈ l2, x.1.PrivateTo owner NotMade j)
    (hl : ∀ x ∈ l, x.1.Settled owner NotMade) (h : Session (install false fuel extract S) (l2 ++ l) S1) :
    ∃ S2 S1', Session S l2 S2 ∧ Session (install false fuel extract S2) l S1' ∧ S1'.graph = S1.graph ∧
      ∀ t, (S1'.env.resources.res t).peek S1'.heap = (S1.env.resources.res t).peek S1.heap := by
  obtain ⟨l0, hl0, h0⟩ := (installing_gives fuel extract S (install false fuel extract S)).2 rfl
  obtain ⟨S1', h', e1, e2⟩ := C97_setup S S1 hS ht (fun t hn => by cases hn; exact ha) i j hne l0 l2 l
    (fun x hx => installing_apart hi fuel extract x.1 (by rw [← hl0]; exact List.mem_map_of_mem hx)) h2 hl (h0.append h)
  obtain ⟨S2, h3, h4⟩ := h'.split
  obtain ⟨S3, h5, h6⟩ := h4.split
  cases (installing_gives fuel extract S2 S3).1 ⟨l0, hl0, h5⟩
  exact ⟨S2, S1', h3, h6, e1, e2⟩

end

/-! ## Examples -/

/-- Resource types 8 and 9 belong to two components. -/
def ownerOf (t : Nat) : Option Bool := if t = 8 then some false else if t = 9 then some true else none

theorem ownerOf_types (b : Bool) (t : Nat) (h : OwnedBy (σ := demo) ownerOf b t) : t = if b then 9 else 8 := by
  unfold OwnedBy ownerOf at h
  split at h
  · cases h; assumption
  · split at h
    · cases h; assumption
    · cases h

/-- Setting up a component that counts the saves. -/
def counting (t : Nat) : List (Use demo × Seen demo) :=
  [(.register t (0 : Nat), .nothing), (.trigger .afterSave (.resWrite t (fun n => (n + 1, false)) fun _ => .done (.ok ())), .nothing)]

theorem counting_apart (b : Bool) : ∀ x ∈ counting (if b then 9 else 8), x.1.PrivateTo ownerOf (fun _ => False) b := by
  have own : OwnedBy (σ := demo) ownerOf b (if b then 9 else 8) := by cases b <;> rfl
  have off : ∀ j, j ≠ b → ¬ OwnedBy (σ := demo) ownerOf j (if b then 9 else 8) := fun j hj h =>
    hj (Option.some.inj (h.symm.trans own))
  intro x hx
  simp only [counting, List.mem_cons, List.not_mem_nil, or_false] at hx
  rcases hx with rfl | rfl
  · exact ⟨⟨own, fun h => h⟩, fun j hj => off j hj⟩
  · exact ⟨.write own (fun _ => rfl) fun _ => .done _, fun j hj => ⟨off j hj, fun _ => trivial⟩⟩

/-- The rest of the program saves a document. -/
def savingUse : Use demo × Seen demo := (.tx [] (saveBody ⟨3, 30⟩), .out (.ret (.ok ())))

theorem saveBody_avoids (H : Nat → Prop) (n : Doc) : (saveBody (σ := demo) n).Avoids H := by
  intro r
  cases r with
  | error e => trivial
  | ok u =>
    intro a
    cases a with
    | none => intro r; cases r <;> trivial
    | some n => intro r; cases r <;> trivial

/-- With the components set up in one order there is such a course, which ends with both counts at one; so there is in the other. -/
example : ∃ S1, Session demoSchema (counting 9 ++ (counting 8 ++ [savingUse])) S1 ∧
    (S1.env.resources.res 8).peek S1.heap = some (1 : Nat) ∧ (S1.env.resources.res 9).peek S1.heap = some (1 : Nat) := by
  have h : ∃ S1, Session demoSchema (counting 8 ++ (counting 9 ++ [savingUse])) S1 ∧
      (S1.env.resources.res 8).peek S1.heap = some (1 : Nat) ∧ (S1.env.resources.res 9).peek S1.heap = some (1 : Nat) := by
    refine ⟨_, .cons (.register ..) (.cons (.trigger ..) (.cons (.register ..) (.cons (.trigger ..)
      (.cons (.tx (fuel := 20) (by with_unfolding_all rfl) (fun h => by cases h)) (.nil _))))), ?_, ?_⟩ <;> with_unfolding_all rfl
  obtain ⟨S1, h1, e1, e2⟩ := h
  obtain ⟨S1', h2, _, e3⟩ := C97_setup (σ := demo) (owner := ownerOf) (N := fun _ => False) demoSchema S1 demo_used
    (fun s p hp => by cases hp) (fun _ h => h.elim) false true (fun h => by cases h) (counting 8) (counting 9) [savingUse]
    (counting_apart false) (counting_apart true)
    (fun x hx => by cases List.mem_singleton.1 hx; exact .inl fun _ => saveBody_avoids _ ⟨3, 30⟩) h1
  exact ⟨S1', h2, (e3 8).trans e1, (e3 9).trans e2⟩

/-- Triggers that share a resource notice their order. -/
example : ∀ p q : Prog demo, p = .resWrite 4 (fun n => (n + 1, false)) (fun _ => .done (.ok ())) →
    q = .resWrite 4 (fun n => (2 * n, false)) (fun _ => .done (.ok ())) →
    (((plainSchema.withTrigger .afterSave p).withTrigger .afterSave q).transact 20 [] (saveBody ⟨3, 30⟩)).map readCount ≠
      (((plainSchema.withTrigger .afterSave q).withTrigger .afterSave p).transact 20 [] (saveBody ⟨3, 30⟩)).map readCount := by
  rintro _ _ rfl rfl
  decide +kernel

end Plotline
