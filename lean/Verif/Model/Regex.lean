/-!
# The regular expressions `plotline-cli/src/repository.rs:57` compiles

`LocalDocumentRepository::all` puts the extension the user gave into a regular expression, unescaped. This is the part of the
`regex` crate it takes to say what that does: parsing of literals, escapes, `.`, `^`, `$`, bracketed classes, groups (`(` and `(?:`),
alternatives and the repetitions `*`, `+`, `?`, `{n}`, `{n,}`, `{n,m}` (greedy or not), and searching. A pattern with another `(?`, an
escape for a character by its number, for a Unicode class or for a word boundary, a class within a class or an operation on classes, or
with what may be white space in a counted repetition, is `unmodelled` and nothing is claimed about it. The limits of the crate on the
size and nesting of patterns are left out.
-/

namespace Plotline

/-- A regular expression. -/
inductive Re where
  | empty
  | char (c : Char)
  /-- `.`: any character but a line feed. -/
  | any
  /-- A bracketed class: a character in one of the ranges, or in none of them. -/
  | set (neg : Bool) (ranges : List (Char × Char))
  /-- `^` and `$` without the multi-line flag: the start and the end of the text. -/
  | start
  | stop
  | seq (a b : Re)
  | alt (a b : Re)
  | star (a : Re)
deriving DecidableEq, Repr

/-- What `Regex::new` makes of a pattern. -/
inductive Pattern where
  | ok (r : Re)
  | invalid
  | unmodelled
deriving DecidableEq, Repr

/-- What `\` and a character stand for. -/
inductive Escape where
  | char (c : Char)
  | start
  | stop
  | invalid
  | unmodelled
deriving DecidableEq, Repr

/-- `\` and the character. Letters and digits that mean nothing are errors, and so is what is not ASCII; what is neither stands for
itself. -/
def readEscape (c : Char) : Escape :=
  if c ∈ ['x', 'u', 'U', 'p', 'P', 'd', 'D', 's', 'S', 'w', 'W', 'b', 'B', '<', '>'] then .unmodelled
  else match c with
    | 'a' => .char '\x07'
    | 'f' => .char '\x0c'
    | 't' => .char '\t'
    | 'n' => .char '\n'
    | 'r' => .char '\r'
    | 'v' => .char '\x0b'
    | 'A' => .start
    | 'z' => .stop
    | c => if c.isAlphanum ∨ '\x80' ≤ c then .invalid else .char c

/-- An open group: its alternatives so far, the parts of the current one (last first), and whether the last part was just
repeated, so that a `?` would only make that repetition lazy. -/
structure Group where
  alts : Option Re
  parts : List Re
  repeated : Bool

/-- The parts one after the other. -/
def Re.concat : List Re → Re
  | [] => .empty
  | last :: before => before.foldl (fun r a => .seq a r) last

/-- A group read to its end, or to the next `|`. -/
def Group.close (g : Group) : Re :=
  match g.alts with
  | none => Re.concat g.parts
  | some a => .alt a (Re.concat g.parts)

/-- One more part. -/
def Group.push (g : Group) (r : Re) : Group := ⟨g.alts, r :: g.parts, false⟩

/-- A repetition: of the last part, if there is one. -/
def Group.repeat (g : Group) (f : Re → Re) : Option Group :=
  match g.parts with
  | [] => none
  | r :: parts => some ⟨g.alts, f r :: parts, true⟩

/-! ### Classes -/

/-- What is read of a class: whether it is negated, its ranges (last first), and the pattern after it. -/
inductive ClassRead where
  | ok (neg : Bool) (ranges : List (Char × Char)) (rest : List Char)
  | invalid
  | unmodelled

/-- A character that was read and does not start a range is one of its own. -/
def settle : Option Char → List (Char × Char) → List (Char × Char)
  | none, l => l
  | some c, l => (c, c) :: l

/-- The members of a class up to the `]`. `p` is the character just read, if a range may start with it. -/
def classMembers (neg : Bool) : List (Char × Char) → Option Char → List Char → ClassRead
  | _, _, [] => .invalid
  | l, p, ']' :: s => .ok neg (settle p l) s
  | _, _, '[' :: _ => .unmodelled
  | _, _, '-' :: '-' :: _ => .unmodelled
  | l, p, '-' :: ']' :: s => .ok neg (('-', '-') :: settle p l) s
  | l, none, '-' :: s => classMembers neg (('-', '-') :: l) none s
  | l, some c, '-' :: '\\' :: e :: s =>
    match readEscape e with
    | .char d => if c ≤ d then classMembers neg ((c, d) :: l) none s else .invalid
    | .unmodelled => .unmodelled
    | _ => .invalid
  | _, some _, ['-', '\\'] => .invalid
  | l, some c, '-' :: d :: s => if c ≤ d then classMembers neg ((c, d) :: l) none s else .invalid
  | _, some _, ['-'] => .invalid
  | l, p, '\\' :: e :: s =>
    match readEscape e with
    | .char c => classMembers neg (settle p l) (some c) s
    | .unmodelled => .unmodelled
    | _ => .invalid
  | _, _, ['\\'] => .invalid
  | l, p, c :: s =>
    if (c = '&' ∨ c = '~') ∧ s.head? = some c then .unmodelled else classMembers neg (settle p l) (some c) s

/-- The start of a class, where `-` and then `]` stand for themselves. -/
def classOpen (neg : Bool) : List (Char × Char) → List Char → ClassRead
  | l, '-' :: s => classOpen neg (('-', '-') :: l) s
  | [], ']' :: s => classMembers neg [(']', ']')] none s
  | l, s => classMembers neg l none s

/-- A class, after its `[`. -/
def readClass : List Char → ClassRead
  | '^' :: s => classOpen true [] s
  | s => classOpen false [] s

/-! ### Counted repetitions -/

/-- What is read of a counted repetition: the least and the greatest number, and the pattern after it. -/
inductive CountRead where
  | ok (least : Nat) (most : Option Nat) (rest : List Char)
  | invalid
  | unmodelled

/-- The number with these digits. -/
def numberOf (ds : List Char) : Nat := ds.foldl (fun n d => 10 * n + (d.toNat - '0'.toNat)) 0

/-- Whether the pattern goes on with what may be white space. -/
def maybeSpace (s : List Char) : Bool :=
  match s with
  | [] => false
  | c :: _ => c ≤ ' ' || '\x7f' ≤ c

/-- A counted repetition cannot be read on. -/
def badCount (s : List Char) : CountRead := if maybeSpace s then .unmodelled else .invalid

/-- A counted repetition, after its `{`. Numbers are of 32 bits. -/
def readRepeat (s : List Char) : CountRead :=
  let n := s.takeWhile Char.isDigit
  let s := s.dropWhile Char.isDigit
  match s with
  | '}' :: rest => if n ≠ [] ∧ numberOf n < 2 ^ 32 then .ok (numberOf n) (some (numberOf n)) rest else .invalid
  | ',' :: s =>
    match s with
    | '}' :: rest => if n ≠ [] ∧ numberOf n < 2 ^ 32 then .ok (numberOf n) none rest else .invalid
    | s =>
      let m := s.takeWhile Char.isDigit
      match s.dropWhile Char.isDigit with
      | '}' :: rest =>
        if n ≠ [] ∧ m ≠ [] ∧ numberOf n ≤ numberOf m ∧ numberOf m < 2 ^ 32 then .ok (numberOf n) (some (numberOf m)) rest
        else .invalid
      | s => badCount s
  | s => badCount s

/-- So many times. -/
def Re.power (r : Re) : Nat → Re
  | 0 => .empty
  | n + 1 => .seq r (r.power n)

/-- At most so many times. -/
def Re.upTo (r : Re) : Nat → Re
  | 0 => .empty
  | n + 1 => .alt (.seq r (r.upTo n)) .empty

/-- At least and at most so many times. -/
def Re.times (r : Re) (least : Nat) : Option Nat → Re
  | none => .seq (r.power least) (.star r)
  | some most => .seq (r.power least) (r.upTo (most - least))

/-! ### Patterns -/

/-- The members of a class are read from the front of the pattern. -/
theorem classMembers_shorter (neg : Bool) (l : List (Char × Char)) (p : Option Char) (s : List Char) {neg' : Bool}
    {l' : List (Char × Char)} {rest : List Char} (h : classMembers neg l p s = .ok neg' l' rest) : rest.length < s.length := by
  fun_induction classMembers neg l p s <;> simp_all <;> omega

theorem classOpen_shorter (neg : Bool) (l : List (Char × Char)) (s : List Char) {neg' : Bool}
    {l' : List (Char × Char)} {rest : List Char} (h : classOpen neg l s = .ok neg' l' rest) : rest.length < s.length := by
  fun_induction classOpen neg l s with
  | case1 l s ih => have := ih h; simp; omega
  | case2 s => have := classMembers_shorter _ _ _ _ h; simp; omega
  | case3 => exact classMembers_shorter _ _ _ _ h

theorem readClass_shorter {s : List Char} {neg : Bool} {l : List (Char × Char)} {rest : List Char} (h : readClass s = .ok neg l rest) :
    rest.length < s.length := by
  unfold readClass at h
  split at h
  · have := classOpen_shorter _ _ _ h; simp; omega
  · exact classOpen_shorter _ _ _ h

/-- So is a counted repetition. -/
theorem readRepeat_shorter {s : List Char} {n : Nat} {m : Option Nat} {rest : List Char} (h : readRepeat s = .ok n m rest) :
    rest.length < s.length := by
  have drop : ∀ (s t : List Char), s.dropWhile Char.isDigit = t → t.length ≤ s.length := by
    rintro s _ rfl; exact (List.dropWhile_sublist _).length_le
  have bad : ∀ t, badCount t ≠ .ok n m rest := by intro t; unfold badCount; split <;> simp
  unfold readRepeat at h
  simp only at h
  split at h
  · rename_i _ r h1
    have := drop _ _ h1
    split at h
    · cases h; simp at this; omega
    · cases h
  · rename_i _ t h1
    have := drop _ _ h1
    split at h
    · split at h
      · cases h; simp at this; omega
      · cases h
    · split at h
      · rename_i _ r h2
        have := drop _ _ h2
        split at h
        · cases h; simp at *; omega
        · cases h
      · exact absurd h (bad _)
  · exact absurd h (bad _)

/-- Reads a pattern with the groups around the current one in `outer`, innermost first. -/
def parseFrom : Group → List Group → List Char → Pattern
  | g, [], [] => .ok g.close
  | _, _ :: _, [] => .invalid
  | g, outer, '\\' :: e :: s =>
    match readEscape e with
    | .char c => parseFrom (g.push (.char c)) outer s
    | .start => parseFrom (g.push .start) outer s
    | .stop => parseFrom (g.push .stop) outer s
    | .invalid => .invalid
    | .unmodelled => .unmodelled
  | _, _, ['\\'] => .invalid
  | g, outer, '(' :: '?' :: ':' :: s => parseFrom ⟨none, [], false⟩ (g :: outer) s
  | _, _, '(' :: '?' :: _ => .unmodelled
  | g, outer, '(' :: s => parseFrom ⟨none, [], false⟩ (g :: outer) s
  | _, [], ')' :: _ => .invalid
  | g, up :: outer, ')' :: s => parseFrom (up.push g.close) outer s
  | g, outer, '|' :: s => parseFrom ⟨some g.close, [], false⟩ outer s
  | g, outer, '[' :: s =>
    match _h : readClass s with
    | .invalid => .invalid
    | .unmodelled => .unmodelled
    | .ok neg l rest => parseFrom (g.push (.set neg l.reverse)) outer rest
  | g, outer, '{' :: s =>
    match g.parts with
    | [] => .invalid
    | r :: parts =>
      match _h : readRepeat s with
      | .invalid => .invalid
      | .unmodelled => .unmodelled
      | .ok least most rest => parseFrom ⟨g.alts, r.times least most :: parts, true⟩ outer rest
  | g, outer, '.' :: s => parseFrom (g.push .any) outer s
  | g, outer, '^' :: s => parseFrom (g.push .start) outer s
  | g, outer, '$' :: s => parseFrom (g.push .stop) outer s
  | g, outer, '*' :: s =>
    match g.repeat .star with
    | none => .invalid
    | some g => parseFrom g outer s
  | g, outer, '+' :: s =>
    match g.repeat fun r => .seq r (.star r) with
    | none => .invalid
    | some g => parseFrom g outer s
  | g, outer, '?' :: s =>
    if g.repeated then parseFrom { g with repeated := false } outer s
    else match g.repeat fun r => .alt r .empty with
      | none => .invalid
      | some g => parseFrom g outer s
  | g, outer, c :: s => parseFrom (g.push (.char c)) outer s
termination_by _ _ s => s.length
decreasing_by
  all_goals first
    | (have := readClass_shorter ‹_›; simp; omega)
    | (have := readRepeat_shorter ‹_›; simp; omega)
    | (simp; omega)
    | simp

/-- `Regex::new`. -/
def Regex.parse (s : List Char) : Pattern := parseFrom ⟨none, [], false⟩ [] s

/-- What `f` leaves of a text after any number of rounds, each of which reads something, at most `n` of them. -/
def rounds (f : List Char → List (List Char)) : Nat → List Char → List (List Char)
  | 0, s => [s]
  | n + 1, s => s :: ((f s).filter fun t => t.length < s.length).flatMap (rounds f n)

/-- What may be left of a text `s` when the expression has read from its front; `len` is the length of the whole text. -/
def Re.leaves (len : Nat) : Re → List Char → List (List Char)
  | .empty, s => [s]
  | .char c, s =>
    match s with
    | [] => []
    | d :: t => if d = c then [t] else []
  | .any, s =>
    match s with
    | [] => []
    | d :: t => if d = '\n' then [] else [t]
  | .set neg l, s =>
    match s with
    | [] => []
    | d :: t => if (l.any fun q => q.1 ≤ d && d ≤ q.2) = neg then [] else [t]
  | .start, s => if s.length = len then [s] else []
  | .stop, s => if s = [] then [s] else []
  | .seq a b, s => (a.leaves len s).flatMap (b.leaves len)
  | .alt a b, s => a.leaves len s ++ b.leaves len s
  | .star a, s => rounds (a.leaves len) s.length s

/-- The ends of a text, longest first. -/
def tails : List Char → List (List Char)
  | [] => [[]]
  | c :: s => (c :: s) :: tails s

/-- `Regex::is_match`: it matches somewhere in the text. -/
def Re.isMatch (r : Re) (s : List Char) : Bool := (tails s).any fun t => !(r.leaves s.length t).isEmpty

end Plotline
