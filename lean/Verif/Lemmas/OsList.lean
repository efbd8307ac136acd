import Verif.Lemmas.OsText
import Verif.Lemmas.Cli

/-! # Listing names that are not text -/

namespace Plotline

open Std

/-! ## Plain extensions -/

theorem lossy_ascii (x y : Name) (d : Char) (hd : d.toNat < 0x80) : lossy (x ++ d :: y) = lossy x ++ lossy (d :: y) := by
  simp [lossy, chunks_ascii x y d hd]

theorem bytesOf_ascii {d : Char} (hd : d.toNat < 0x80) (s : List Char) : bytesOf (d :: s) = d :: bytesOf s := by
  rw [bytesOf_cons, charBytes_ascii hd]; rfl

/-- The text put for bytes ends with a text exactly if the bytes do. -/
theorem lossy_ends {e : List Char} (he : '�' ∉ e) (b : Name) :
    (∃ s, lossy b = s ++ '.' :: e) ↔ ∃ x, b = x ++ '.' :: bytesOf e := by
  constructor
  · rintro ⟨s, h⟩
    obtain ⟨l1, l2, h1, _, h2⟩ := List.map_eq_append_iff.1 h
    have key : ∀ (l : List Chunk) (t : List Char), '�' ∉ t →
        (l.map fun | .char c => c | .bad _ => replacement) = t → l.flatMap Chunk.bytes = bytesOf t := by
      intro l
      induction l with
      | nil => rintro t _ rfl; rfl
      | cons x l ih =>
        rintro t ht rfl
        cases x with
        | bad b => exact absurd (List.mem_cons_self ..) ht
        | char c =>
          simp only [List.map_cons, List.flatMap_cons]
          rw [bytesOf_cons, ih _ (fun h => ht (List.mem_cons_of_mem _ h)) rfl]; rfl
    have h3 := key l2 _ (by simp only [List.mem_cons, not_or]; exact ⟨by decide, he⟩) h2
    refine ⟨l1.flatMap Chunk.bytes, ?_⟩
    rw [← chunks_bytes b, h1, List.flatMap_append, h3, bytesOf_ascii (by decide)]
  · rintro ⟨x, rfl⟩
    refine ⟨lossy x, ?_⟩
    rw [lossy_ascii _ _ _ (by decide), ← bytesOf_ascii (by decide), lossy_bytesOf]

theorem mem_bytesOf {s : List Char} {d : Char} (hd : d.toNat < 0x80) : d ∈ bytesOf s ↔ d ∈ s := by
  induction s with
  | nil => exact Iff.rfl
  | cons c s ih =>
    rw [bytesOf_cons, List.mem_append, mem_charBytes hd, ih, List.mem_cons]
    exact or_congr eq_comm Iff.rfl

theorem bytesOf_eq_nil {s : List Char} : bytesOf s = [] ↔ s = [] :=
  ⟨fun h => bytesOf_injective (t := []) h, by rintro rfl; rfl⟩

theorem special_ascii : ∀ c ∈ special, c.toNat < 0x80 := by decide

theorem PlainExt.inBytes {ext : List Char} (h : PlainExt ext) : PlainExt (bytesOf ext) := by
  refine ⟨fun h' => h.1 (bytesOf_eq_nil.1 h'), fun c hc hs => ?_⟩
  exact h.2 c ((mem_bytesOf (special_ascii c hs)).1 hc) hs

theorem isMatch_plain {ext : Name} (he : PlainExt ext) (n : Name) {re : Re} (hre : extPattern ext = .ok re) :
    re.isMatch n = true ↔ ∃ s, n = s ++ '.' :: ext := by
  rw [isMatch_dotted he.dotted n hre]
  constructor
  · rintro ⟨s, m, h, hm⟩
    rw [looks_plain he.dot] at hm
    subst hm
    exact ⟨s, h⟩
  · rintro ⟨s, h⟩
    exact ⟨s, _, h, looks_refl _⟩

theorem osMatches_plain {ext : List Char} (he : PlainExt ext) (hr : '�' ∉ ext) (p : FilePath) :
    osMatches ext p = matchesExt (bytesOf ext) p := by
  have h1 := extPattern_dotted he.dotted.2
  have h2 := extPattern_dotted he.inBytes.dotted.2
  rw [Bool.eq_iff_iff]
  unfold osMatches matchesExt
  rw [h1, h2]
  dsimp only
  rw [isMatch_plain he _ h1, isMatch_plain he.inBytes _ h2, lossy_ends hr]

theorem osPlot_plain {ext : List Char} (he : PlainExt ext) (hr : '�' ∉ ext) (fuel : Nat) (context : FilePath) (fs : Fs)
    (walked : List FilePath) (i : Option FilePath) (c : Subcommand) :
    osPlot fuel context ext fs walked i c = plot fuel (osRepo context ext) fs walked i c := by
  have h1 := extPattern_dotted he.dotted.2
  have h2 := extPattern_dotted he.inBytes.dotted.2
  unfold osPlot plot
  rw [show (osRepo context ext).extension = bytesOf ext from rfl, h1, h2]
  dsimp only
  congr 2
  unfold osSchema LocalRepo.schema osAll LocalRepo.all osRepo
  dsimp only
  rw [List.filter_congr fun p _ => osMatches_plain he hr p]

/-! ## Any pattern -/

/-- The ids listed, in order. -/
theorem osList_stdout (context : FilePath) (ext : List Char) (walked : List FilePath) :
    Ascending ((osSchema context ext walked).guard.iter.map fun node => node.id) ∧
    ∀ i, i ∈ (osSchema context ext walked).guard.iter.map (fun node => node.id) ↔
      ∃ p ∈ walked, osMatches ext p = true ∧ withExtension p [] = context ++ i := by
  have hv : (Graph.fromIter (osAll context ext walked) : Graph FilePath (LazyDocument FilePath Document)).Valid := Graph.valid_fromIter _
  have hg : (osSchema context ext walked).guard = Graph.fromIter (osAll context ext walked) := guard_eq _
  rw [hg]
  refine ⟨List.pairwise_map.2 (Graph.iter_sorted _ hv), fun i => ?_⟩
  refine (ids_fromIter _ i).trans ?_
  unfold osAll
  simp only [List.map_map, List.mem_map, List.mem_filterMap, List.mem_filter]
  constructor
  · rintro ⟨a, ⟨p, ⟨h1, h2⟩, h3⟩, rfl⟩
    exact ⟨p, h1, h2, (isPrefixOf?_some _ _ _).1 h3⟩
  · rintro ⟨p, h1, h2, h3⟩
    exact ⟨i, ⟨p, ⟨h1, h2⟩, (isPrefixOf?_some _ _ _).2 h3⟩, rfl⟩

theorem osPlot_ok {ext : List Char} {re : Re} (h : extPattern ext = .ok re) (fuel : Nat) (context : FilePath) (fs : Fs) (walked : List FilePath)
    (i : Option FilePath) (c : Subcommand) : osPlot fuel context ext fs walked i c = execute fuel fs (osSchema context ext walked) i c := by
  unfold osPlot; rw [h]

end Plotline
