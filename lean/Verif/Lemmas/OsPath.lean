import Verif.Lemmas.OsLines
import Verif.Lemmas.OsArgs

/-! # Names that are text, in bytes -/

namespace Plotline

open Std

theorem bytesOf_eq {s t : List Char} : bytesOf s = bytesOf t ↔ s = t := ⟨fun h => bytesOf_injective h, fun h => by rw [h]⟩

theorem bytesOf_eq_dotdot {n : Name} : bytesOf n = dotdot ↔ n = dotdot := bytesOf_eq (t := dotdot)

theorem bytesOf_eq_dot {n : Name} : bytesOf n = dot ↔ n = dot := bytesOf_eq (t := dot)

theorem pathBytes_eq {p q : FilePath} : pathBytes p = pathBytes q ↔ p = q := by
  constructor
  · intro h
    induction p generalizing q with
    | nil => cases q with | nil => rfl | cons => cases h
    | cons n p ih =>
      cases q with
      | nil => cases h
      | cons m q =>
        obtain ⟨h1, h2⟩ := List.cons.inj h
        rw [bytesOf_injective h1, ih h2]
  · intro h; rw [h]

theorem pathBytes_nil {p : FilePath} : pathBytes p = [] ↔ p = [] := pathBytes_eq (q := [])

theorem pathBytes_append (p q : FilePath) : pathBytes (p ++ q) = pathBytes p ++ pathBytes q := List.map_append

theorem rsplitDot_text (n : Name) : rsplitDot (bytesOf n) = (rsplitDot n).map fun x => (bytesOf x.1, bytesOf x.2) := by
  have hd : '.'.toNat < 0x80 := by decide
  cases h : rsplitDot n with
  | none => exact rsplitDot_none.2 fun h' => rsplitDot_none.1 h ((mem_bytesOf hd).1 h')
  | some x =>
    obtain ⟨b, a⟩ := x
    obtain ⟨rfl, h2⟩ := rsplitDot_some h
    rw [bytesOf_append, bytesOf_ascii hd]
    exact rsplitDot_append _ _ fun h' => h2 ((mem_bytesOf hd).1 h')

theorem extensionOf_text (n : Name) : extensionOf (bytesOf n) = (extensionOf n).map bytesOf := by
  simp only [extensionOf, bytesOf_eq_dotdot, rsplitDot_text]
  split
  · rfl
  cases rsplitDot n with
  | none => rfl
  | some x =>
    simp only [Option.map_some, bytesOf_eq_nil]
    split <;> rfl

theorem fileStem_text (n : Name) : fileStem (bytesOf n) = bytesOf (fileStem n) := by
  simp only [fileStem, bytesOf_eq_dotdot, rsplitDot_text]
  split
  · rfl
  cases rsplitDot n with
  | none => rfl
  | some x =>
    simp only [Option.map_some, bytesOf_eq_nil]
    split <;> rfl

theorem setExt_text (n ext : Name) : setExt (bytesOf n) (bytesOf ext) = bytesOf (setExt n ext) := by
  simp only [setExt, bytesOf_eq_dotdot, fileStem_text, bytesOf_eq_nil]
  split
  · rfl
  split
  · rw [List.append_nil, List.append_nil]
  · rw [bytesOf_append, bytesOf_ascii (by decide)]

theorem withExt_text (n ext : Name) : withExt (bytesOf n) (bytesOf ext) = bytesOf (withExt n ext) := by
  simp only [withExt, bytesOf_eq_dotdot, bytesOf_eq_nil, bytesOf_eq_dot, extensionOf_text]
  split
  · rfl
  split
  · rfl
  cases h : extensionOf n with
  | none => exact setExt_text n ext
  | some e =>
    simp only [Option.map_some]
    obtain ⟨b, rfl⟩ : ∃ b, n = b ++ '.' :: e := by
      unfold extensionOf at h
      split at h
      · cases h
      split at h
      · cases h
      · rename_i b a hr
        split at h
        · cases h
        · cases h; exact ⟨b, (rsplitDot_some hr).1⟩
    have ht : ∀ (x e : Name), (x ++ '.' :: e).take ((x ++ '.' :: e).length - e.length) = x ++ ['.'] := by
      intro x e
      rw [show x ++ '.' :: e = (x ++ ['.']) ++ e by simp]
      exact List.take_left' (by simp; omega)
    rw [ht, bytesOf_append, bytesOf_ascii (by decide), ht, ← setExt_text, bytesOf_append, bytesOf_ascii (by decide)]
    rfl

theorem withExtension_text (p : FilePath) (ext : Name) :
    withExtension (pathBytes p) (bytesOf ext) = pathBytes (withExtension p ext) := by
  rcases List.eq_nil_or_concat p with rfl | ⟨q, n, rfl⟩
  · rfl
  · rw [List.concat_eq_append, withExtension_snoc, pathBytes_append, pathBytes_append]
    show withExtension (pathBytes q ++ [bytesOf n]) _ = _
    rw [withExtension_snoc, withExt_text]; rfl

theorem head?_pathBytes (p : FilePath) : (pathBytes p).head? = p.head?.map bytesOf := by cases p <;> rfl

theorem joinPath_text (p q : FilePath) : joinPath (pathBytes p) (pathBytes q) = pathBytes (joinPath p q) := by
  cases q with
  | nil => simp [joinPath, pathBytes]
  | cons n q =>
    simp only [joinPath, head?_pathBytes, List.head?_cons, Option.map_some, Option.some.injEq, bytesOf_eq_nil, bytesOf_eq_dot, ne_eq,
      pathBytes_nil]
    split
    · rfl
    split
    · rw [pathBytes_append]; rfl
    · rw [pathBytes_append]

theorem splitSlash_text (s : List Char) : splitSlash (bytesOf s) = pathBytes (splitSlash s) := by
  have hs : '/'.toNat < 0x80 := by decide
  have key : ∀ (x y : Name), '/' ∉ x → splitSlash (x ++ y) = match splitSlash y with | [] => [x] | n :: p => (x ++ n) :: p := by
    intro x y hx
    induction x with
    | nil =>
      cases h : splitSlash y with
      | nil =>
        exfalso
        cases y with
        | nil => cases h
        | cons c y =>
          simp only [splitSlash] at h
          split at h
          · cases h
          · split at h <;> cases h
      | cons n p => simp [h]
    | cons c x ih =>
      have hc : c ≠ '/' := fun h => hx (by simp [h])
      rw [List.cons_append, splitSlash, if_neg hc, ih fun h => hx (by simp [h])]
      cases splitSlash y <;> rfl
  induction s with
  | nil => rfl
  | cons c s ih =>
    by_cases hc : c = '/'
    · subst hc
      rw [bytesOf_ascii hs]
      simp only [splitSlash, if_true, ih]
      rfl
    · rw [bytesOf_cons, key _ _ fun h => hc ((mem_charBytes hs).1 h), ih]
      simp only [splitSlash, if_neg hc]
      cases splitSlash s with
      | nil =>
        show [charBytes c] = [bytesOf [c]]
        rw [bytesOf_one]
      | cons n p => rfl

theorem parsePath_text (s : List Char) : parsePath (bytesOf s) = pathBytes (parsePath s) := by
  have hf : ∀ p : FilePath, (pathBytes p).filter (fun n => n ≠ [] ∧ n ≠ dot) = pathBytes (p.filter fun n => n ≠ [] ∧ n ≠ dot) := by
    intro p
    unfold pathBytes
    rw [List.filter_map]
    congr 1
    refine List.filter_congr fun n _ => ?_
    simp only [Function.comp, ne_eq, bytesOf_eq_nil, bytesOf_eq_dot]
  unfold parsePath
  rw [splitSlash_text]
  cases splitSlash s with
  | nil => rfl
  | cons n p =>
    show (if bytesOf n = [] then (if bytesOf s = [] then [] else [] :: (pathBytes p).filter _) else bytesOf n :: (pathBytes p).filter _) = _
    rw [hf]
    simp only [bytesOf_eq_nil]
    split
    · split <;> rfl
    · rfl

theorem entryName_text (p : FilePath) : entryName (pathBytes p) = bytesOf (entryName p) := by
  rcases List.eq_nil_or_concat p with rfl | ⟨q, n, rfl⟩
  · rfl
  · rw [List.concat_eq_append]
    have h1 : (pathBytes (q ++ [n])).getLast? = some (bytesOf n) := by
      rw [pathBytes_append]; exact List.getLast?_concat
    unfold entryName
    rw [h1, List.getLast?_concat]
    simp only [bytesOf_eq_dotdot, show pathBytes (q ++ [n]) = [[]] ↔ q ++ [n] = [[]] from pathBytes_eq (q := [[]])]
    split
    · exact writePath_text _
    · rfl

theorem osMatches_text (ext : List Char) (p : FilePath) : osMatches ext (pathBytes p) = matchesExt ext p := by
  unfold osMatches matchesExt
  rw [entryName_text, lossy_bytesOf]
  cases extPattern ext <;> rfl

theorem isPrefixOf?_text (p q : FilePath) : (pathBytes p).isPrefixOf? (pathBytes q) = (p.isPrefixOf? q).map pathBytes := by
  induction p generalizing q with
  | nil => rfl
  | cons n p ih =>
    cases q with
    | nil => rfl
    | cons m q =>
      show (if bytesOf n == bytesOf m then (pathBytes p).isPrefixOf? (pathBytes q) else none) = Option.map _ (if n == m then p.isPrefixOf? q else none)
      simp only [beq_iff_eq, bytesOf_eq, ih]
      split <;> rfl

/-! ## The order -/

theorem charLt {a b : Char} : compare a b = .lt ↔ a.toNat < b.toNat := by
  show compareOfLessAndEq a b = .lt ↔ _
  unfold compareOfLessAndEq
  split
  · rename_i h; exact ⟨fun _ => h, fun _ => rfl⟩
  · rename_i h
    split
    · rename_i h'; subst h'; exact ⟨fun h => (by cases h), fun h => absurd h (Nat.lt_irrefl _)⟩
    · exact ⟨fun h => (by cases h), fun h' => absurd h' h⟩

theorem charEq {a b : Char} : compare a b = .eq ↔ a = b := LawfulEqCmp.compare_eq_iff_eq

theorem cons_lt {α : Type} [Ord α] [LawfulEqOrd α] {a b : α} {s t : List α} :
    compare (a :: s) (b :: t) = .lt ↔ compare a b = .lt ∨ a = b ∧ compare s t = .lt := by
  show List.compareLex compare (a :: s) (b :: t) = .lt ↔ _
  unfold List.compareLex
  cases h : compare a b with
  | lt => simp
  | eq =>
    have : a = b := LawfulEqCmp.compare_eq_iff_eq.1 h
    simp only [reduceCtorEq, this, true_and, false_or]
    exact Iff.rfl
  | gt =>
    have : a ≠ b := fun e => by
      subst e
      rw [ReflOrd.compare_self] at h; cases h
    simp [this]

theorem charBytes_lt {c d : Char} (h : c.toNat < d.toNat) (s t : Name) : compare (charBytes c ++ s) (charBytes d ++ t) = .lt := by
  have e : ∀ {a b : Char}, a = b ↔ a.toNat = b.toNat := Char.toNat_inj.symm
  have hd := char_valid d
  rcases charBytes_cases c with ⟨c1, c2⟩ | ⟨c1, c2, x, y, c3, c4, c5⟩ | ⟨c1, c2, x, y, z, c3, c4, c5, c6⟩ | ⟨c1, x, y, z, w, c3, c4, c5, c6, c7⟩ <;>
  rcases charBytes_cases d with ⟨d1, d2⟩ | ⟨d1, d2, x', y', d3, d4, d5⟩ | ⟨d1, d2, x', y', z', d3, d4, d5, d6⟩ |
    ⟨d1, x', y', z', w', d3, d4, d5, d6, d7⟩ <;>
  simp only [*, List.cons_append, List.nil_append, cons_lt, charLt] <;> first | omega | exact .inl h | simp

theorem bytesOf_lt {s t : List Char} (h : compare s t = .lt) : compare (bytesOf s) (bytesOf t) = .lt := by
  induction s generalizing t with
  | nil =>
    cases t with
    | nil => cases h
    | cons d t =>
      rw [bytesOf_cons]
      obtain ⟨a, l, hl⟩ : ∃ a l, charBytes d = a :: l := by
        cases hc : charBytes d with
        | nil => exact absurd hc (charBytes_ne_nil d)
        | cons a l => exact ⟨a, l, rfl⟩
      rw [hl]; rfl
  | cons c s ih =>
    cases t with
    | nil => cases h
    | cons d t =>
      rw [bytesOf_cons, bytesOf_cons]
      rcases cons_lt.1 h with h' | ⟨rfl, h'⟩
      · exact charBytes_lt (charLt.1 h') _ _
      · have : ∀ x : Name, compare (x ++ bytesOf s) (x ++ bytesOf t) = .lt := by
          intro x
          induction x with
          | nil => exact ih h'
          | cons a x ihx => exact cons_lt.2 (.inr ⟨rfl, ihx⟩)
        exact this _

theorem pathBytes_lt {p q : FilePath} (h : compare p q = .lt) : compare (pathBytes p) (pathBytes q) = .lt := by
  induction p generalizing q with
  | nil => cases q with | nil => cases h | cons => rfl
  | cons n p ih =>
    cases q with
    | nil => cases h
    | cons m q =>
      show compare (bytesOf n :: pathBytes p) (bytesOf m :: pathBytes q) = .lt
      rcases cons_lt.1 h with h' | ⟨rfl, h'⟩
      · exact cons_lt.2 (.inl (bytesOf_lt h'))
      · exact cons_lt.2 (.inr ⟨rfl, ih h'⟩)

theorem Ascending.inBytes {ids : List FilePath} (h : Ascending ids) : Ascending (ids.map pathBytes) :=
  List.pairwise_map.2 (h.imp pathBytes_lt)

/-! ## File systems -/

theorem at_text (fs : Fs) (p : FilePath) : fs.inBytes.at (pathBytes p) = (fs.at p).map FsNode.inBytes := by
  unfold Fs.at Fs.inBytes
  dsimp only
  rw [List.find?_map, Option.map_map, Option.map_map]
  have : ((fun e : List Name × FsNode => decide (e.1 = pathBytes p)) ∘ fun e : List Name × FsNode => (pathBytes e.1, e.2.inBytes)) =
      fun e : List Name × FsNode => decide (e.1 = p) := by
    funext e
    simp only [Function.comp, pathBytes_eq]
  rw [this]
  rfl

theorem pass_text (fs : Fs) (jump jump' : List Name → FilePath → Option (List Name))
    (hj : ∀ h p, jump' (pathBytes h) (pathBytes p) = (jump h p).map pathBytes) (here : List Name) (p : FilePath) :
    fs.inBytes.pass jump' (pathBytes here) (pathBytes p) = (fs.pass jump here p).map pathBytes := by
  induction p generalizing here with
  | nil => rfl
  | cons n p ih =>
    have hsnoc : pathBytes here ++ [bytesOf n] = pathBytes (here ++ [n]) := by rw [pathBytes_append]; rfl
    have hdrop : (pathBytes here).dropLast = pathBytes here.dropLast := by unfold pathBytes; rw [List.map_dropLast]
    show fs.inBytes.pass jump' (pathBytes here) (bytesOf n :: pathBytes p) = _
    simp only [Fs.pass, bytesOf_eq_nil, bytesOf_eq_dot, bytesOf_eq_dotdot, hsnoc, hdrop, at_text]
    split
    · exact ih []
    split
    · exact ih here
    split
    · exact ih here.dropLast
    cases fs.at (here ++ [n]) with
    | none => rfl
    | some x =>
      cases x with
      | dir => exact ih _
      | link target =>
        show jump' (pathBytes here) (pathBytes target ++ pathBytes p) = _
        rw [← pathBytes_append, hj]
      | file b =>
        show (if pathBytes p = [] then _ else _) = _
        simp only [pathBytes_nil]
        split <;> rfl
      | sealed =>
        show (if pathBytes p = [] then _ else _) = _
        simp only [pathBytes_nil]
        split <;> rfl

theorem follow_text (fs : Fs) (k : Nat) (here : List Name) (p : FilePath) :
    fs.inBytes.follow k (pathBytes here) (pathBytes p) = (fs.follow k here p).map pathBytes := by
  induction k generalizing here p with
  | zero => exact pass_text fs _ _ (fun _ _ => rfl) here p
  | succ k ih => exact pass_text fs _ _ ih here p

theorem read_text (fs : Fs) (p : FilePath) : fs.inBytes.read (pathBytes p) = fs.read p := by
  unfold Fs.read
  rw [show fs.inBytes.cwd = pathBytes fs.cwd from rfl, follow_text]
  cases fs.follow maxLinks fs.cwd p with
  | none => rfl
  | some q =>
    simp only [Option.map_some, at_text]
    cases fs.at q with
    | none => rfl
    | some x => cases x <;> rfl

theorem findById_text (context : FilePath) (ext : List Char) (fs : Fs) (i : FilePath) :
    (osRepo (pathBytes context) ext).findById fs.inBytes (pathBytes i) =
      ((⟨context, ext⟩ : LocalRepo).findById fs i).map fun d => ⟨pathBytes d.path, d.bytes⟩ := by
  unfold LocalRepo.findById osRepo
  simp only [joinPath_text, withExtension_text, read_text, Option.map_map]
  rfl

/-! ## Listing -/

theorem listed_text (context : FilePath) (ext : List Char) (walked : List FilePath) :
    ((osSchema (pathBytes context) ext (walked.map pathBytes)).guard.iter.map fun node => node.id) =
      (((⟨context, ext⟩ : LocalRepo).schema walked).guard.iter.map fun node => node.id : List FilePath).map pathBytes := by
  obtain ⟨h1, h2⟩ := osList_stdout (pathBytes context) ext (walked.map pathBytes)
  obtain ⟨h3, h4⟩ := list_stdout ⟨context, ext⟩ walked
  refine h1.ext h3.inBytes fun x => ?_
  have step : ∀ p : FilePath, withExtension (pathBytes p) [] = pathBytes (withExtension p []) := fun p => withExtension_text p []
  rw [h2, List.mem_map]
  constructor
  · rintro ⟨p, hp, hm, he⟩
    obtain ⟨q, hq, rfl⟩ := List.mem_map.1 hp
    rw [osMatches_text] at hm
    have h5 := (isPrefixOf?_some _ _ _).2 he
    rw [step, isPrefixOf?_text] at h5
    obtain ⟨i, h6, rfl⟩ := Option.map_eq_some_iff.1 h5
    exact ⟨i, (h4 i).2 ((mem_all _ _ i).2 ⟨q, hq, hm, (isPrefixOf?_some _ _ _).1 h6⟩), rfl⟩
  · rintro ⟨i, hi, rfl⟩
    obtain ⟨q, hq, hm, he⟩ := (mem_all _ _ i).1 ((h4 i).1 hi)
    exact ⟨pathBytes q, List.mem_map.2 ⟨q, hq, rfl⟩, by rw [osMatches_text]; exact hm, by rw [step, he, pathBytes_append]⟩

end Plotline
