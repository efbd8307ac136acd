import Verif.Spec.PathOrder
import Verif.Props.Extension
import Verif.Props.Changes

/-!
# C52 and C119: the order of a listing is that of paths

The model orders paths as lists of names; `PathBuf` has `.` and `..` before all other names.
-/

namespace Plotline

open Std

theorem pathBefore_iff : ∀ (p q : FilePath), (∀ n ∈ p, componentKind n = 3) → (∀ n ∈ q, componentKind n = 3) →
    (PathBefore p q ↔ compare p q = .lt) := by
  intro p
  induction p with
  | nil =>
    intro q _ _
    cases q with
    | nil => exact ⟨fun h => (by cases h), fun h => (by cases h)⟩
    | cons b q => exact ⟨fun _ => List.compare_nil_cons, fun _ => .nil⟩
  | cons a p ih =>
    intro q hp hq
    cases q with
    | nil => exact ⟨fun h => (by cases h), fun h => (by rw [List.compare_cons_nil] at h; cases h)⟩
    | cons b q =>
      rw [List.compare_cons_cons]
      have ih := ih q (fun n hn => hp n (by simp [hn])) (fun n hn => hq n (by simp [hn]))
      have ha := hp a (by simp)
      have hb := hq b (by simp)
      constructor
      · intro h
        cases h with
        | kind h => omega
        | name _ _ h => rw [h]; rfl
        | same h => rw [ReflOrd.compare_self]; exact ih.1 h
      · intro h
        cases hc : compare a b with
        | lt => exact .name ha hb hc
        | eq => rw [hc] at h; obtain rfl := LawfulEqOrd.eq_of_compare hc; exact .same (ih.2 h)
        | gt => rw [hc] at h; cases h

theorem componentKind_name {n : Name} (h0 : n ≠ []) (h1 : n.head? ≠ some '.') : componentKind n = 3 := by
  unfold componentKind
  rw [if_neg h0, if_neg (head_ne_dot h1), if_neg (head_ne_dotdot h1)]

/-- C52: the listing is in the order of `PathBuf`, for any context and extension. -/
theorem C52_path_order (fuel : Nat) (r : LocalRepo) (re : Re) (hre : Alts (writtenExt r.extension) re) (ignored : FilePath → Bool) (fs : Fs)
    (walked : List FilePath) (hw : Walk ignored r.context fs walked) (i : Option FilePath) :
    ∃ ran, plot fuel r fs walked i .list = some ran ∧ ran.stdout.Pairwise PathBefore := by
  obtain ⟨ran, h1, _, h3, h4⟩ := C72_list fuel r re hre ignored fs walked hw i
  refine ⟨ran, h1, ?_⟩
  have hk : ∀ x ∈ ran.stdout, ∀ n ∈ x, componentKind n = 3 := by
    intro x hx n hn
    rcases (h4 x).1 hx with ⟨dir, m, s, hv, _, hs, rfl⟩ | ⟨rfl, _⟩
    · have hnames := hv.2.2.1
      rcases List.mem_append.1 hn with h | h
      · have := hnames n (by simp [h]); exact componentKind_name this.1 this.2
      · obtain rfl := List.mem_singleton.1 h
        have hm := hnames m (by simp)
        rcases hs with ⟨_, rfl⟩ | ⟨e, _, rfl⟩
        · exact componentKind_name hm.1 hm.2
        · have := visible_stem hm.2; exact componentKind_name this.1 this.2
    · cases hn
  exact h3.imp_of_mem fun {a b} ha hb h => (pathBefore_iff a b (hk a ha) (hk b hb)).2 h

/-- C119: also while the file system changes. -/
theorem C119_path_order (fuel : Nat) (r : LocalRepo) (he : PlainExt r.extension) (hctx : r.context.getLast? ≠ some ('.' :: r.extension))
    {W : Changing} {t t' : Nat} (hf : ∀ s, t ≤ s → s ≤ t' → (W.fs s).Closed) {walked : List FilePath} (h : W.Walks r.context t t' walked)
    (fs : Fs) (i : Option FilePath) : ∃ ran, plot fuel r fs walked i .list = some ran ∧ ran.stdout.Pairwise PathBefore := by
  obtain ⟨ran, h1, _, h3, _, h4⟩ := C119_list fuel r he hctx hf h fs i
  refine ⟨ran, h1, ?_⟩
  have hk : ∀ x ∈ ran.stdout, ∀ n ∈ x, componentKind n = 3 := by
    intro x hx n hn
    obtain ⟨rel, hg, dir, stem, rfl, rfl⟩ := h4 x hx
    have hname : ∀ d n rest, dir ++ [stem ++ '.' :: r.extension] = d ++ n :: rest → n ≠ [] ∧ n.head? ≠ some '.' := by
      intro d n rest e
      obtain ⟨h5, ⟨s, x, h6, h7, ⟨q, _, _, h8⟩, _⟩, _⟩ := hg.2 d n rest e
      obtain ⟨_, k, e', hk, _⟩ := (hf s h6 h7).2.1 _ (at_mem h8)
      obtain ⟨_, e'⟩ := List.append_inj' e' rfl
      simp at e'
      exact ⟨(e' ▸ hk).1, h5⟩
    rcases List.mem_append.1 hn with hd | hd
    · obtain ⟨d, rest, e⟩ := List.append_of_mem hd
      have := hname d n (rest ++ [stem ++ '.' :: r.extension]) (by rw [e]; simp)
      exact componentKind_name this.1 this.2
    · obtain rfl := List.mem_singleton.1 hd
      have := visible_stem (hname dir (n ++ '.' :: r.extension) [] rfl).2
      exact componentKind_name this.1 this.2
  exact h3.imp_of_mem fun {a b} ha hb h => (pathBefore_iff a b (hk a ha) (hk b hb)).2 h

/-- The orders differ, but not on what is listed. -/
example : PathBefore [dotdot] ["+".toList] ∧ compare ["+".toList] [dotdot] = .lt ∧
    PathBefore ["b".toList] ["x".toList, "a".toList] ∧ ¬ PathBefore ["x".toList, "a".toList] ["b".toList] := by
  refine ⟨.kind (by decide), by decide, .name (by decide) (by decide) (by decide), fun h => ?_⟩
  rw [pathBefore_iff _ _ (by decide) (by decide)] at h
  exact absurd h (by decide)

end Plotline
