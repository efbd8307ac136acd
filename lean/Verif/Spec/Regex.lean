import Verif.Model.Regex

/-! # What a regular expression matches, by positions in the text -/

namespace Plotline

/-- The character is in one of the ranges. -/
def InRanges (l : List (Char × Char)) (c : Char) : Prop := ∃ a b, (a, b) ∈ l ∧ a ≤ c ∧ c ≤ b

/-- The expression reads `text` from position `i` to position `j`. -/
inductive Re.Reads (text : List Char) : Re → Nat → Nat → Prop
  | empty (i : Nat) : i ≤ text.length → Reads text .empty i i
  | char (c : Char) (i : Nat) : text[i]? = some c → Reads text (.char c) i (i + 1)
  | any (c : Char) (i : Nat) : text[i]? = some c → c ≠ '\n' → Reads text .any i (i + 1)
  | inside (l : List (Char × Char)) (c : Char) (i : Nat) : text[i]? = some c → InRanges l c → Reads text (.set false l) i (i + 1)
  | outside (l : List (Char × Char)) (c : Char) (i : Nat) : text[i]? = some c → ¬ InRanges l c → Reads text (.set true l) i (i + 1)
  | start : Reads text .start 0 0
  | stop : Reads text .stop text.length text.length
  | seq {a b : Re} {i j k : Nat} : Reads text a i j → Reads text b j k → Reads text (.seq a b) i k
  | left {a : Re} (b : Re) {i j : Nat} : Reads text a i j → Reads text (.alt a b) i j
  | right (a : Re) {b : Re} {i j : Nat} : Reads text b i j → Reads text (.alt a b) i j
  | none (a : Re) (i : Nat) : i ≤ text.length → Reads text (.star a) i i
  | more {a : Re} {i j k : Nat} : Reads text a i j → Reads text (.star a) j k → Reads text (.star a) i k

/-- The expression matches somewhere in the text. -/
def Re.Finds (r : Re) (text : List Char) : Prop := ∃ i j, r.Reads text i j

/-- The expression reads the text so many times, one after the other. -/
inductive Re.Repeats (text : List Char) (r : Re) : (times from_ to : Nat) → Prop
  | none (i : Nat) : i ≤ text.length → Repeats text r 0 i i
  | more {n i j k : Nat} : r.Reads text i j → Repeats text r n j k → Repeats text r (n + 1) i k

/-! ## How expressions are written -/

/-- Characters that do not stand for themselves. -/
def specialChars : List Char := ['\\', '.', '+', '*', '?', '(', ')', '|', '[', '{', '^', '$']

/-- An ASCII letter or digit. -/
def LetterOrDigit (c : Char) : Prop := ('0' ≤ c ∧ c ≤ '9') ∨ ('A' ≤ c ∧ c ≤ 'Z') ∨ ('a' ≤ c ∧ c ≤ 'z')

/-- `\` and the first character stand for the second. -/
inductive Escaped : Char → Char → Prop
  | itself (c : Char) : c ≤ '\x7f' → ¬ LetterOrDigit c → c ≠ '<' → c ≠ '>' → Escaped c c
  | bell : Escaped 'a' '\x07'
  | tab : Escaped 't' '\x09'
  | lineFeed : Escaped 'n' '\x0a'
  | verticalTab : Escaped 'v' '\x0b'
  | formFeed : Escaped 'f' '\x0c'
  | carriageReturn : Escaped 'r' '\x0d'

/-- A character as written in a class where what follows is `s`. -/
inductive Single : List Char → Char → List Char → Prop
  | plain (c : Char) (s : List Char) : c ∉ ['\\', '[', ']', '-'] → (c = '&' ∨ c = '~' → s.head? ≠ some c) → Single [c] c s
  | escaped {e c : Char} (s : List Char) : Escaped e c → Single ['\\', e] c s

/-- The last character of a range. -/
inductive Bound : List Char → Char → Prop
  | plain (c : Char) : c ∉ ['\\', ']', '-'] → Bound [c] c
  | escaped {e c : Char} : Escaped e c → Bound ['\\', e] c

/-- The members of a class: characters and ranges, and `-` where it makes no range. -/
inductive Members : List Char → List (Char × Char) → Prop
  | none : Members [] []
  | dash {s : List Char} {l : List (Char × Char)} : s.head? ≠ some '-' → Members s l → Members ('-' :: s) (('-', '-') :: l)
  | one {p s : List Char} {c : Char} {l : List (Char × Char)} : Single p c s → (s.head? = some '-' → s = ['-']) → Members s l →
      Members (p ++ s) ((c, c) :: l)
  | range {p q s : List Char} {c d : Char} {l : List (Char × Char)} : Single p c ['-'] → Bound q d → c ≤ d → Members s l →
      Members (p ++ '-' :: q ++ s) ((c, d) :: l)

/-- What is between the brackets of a class, after the `^`: first any number of `-`, or a `]`, which stand for themselves. -/
inductive Class : List Char → List (Char × Char) → Prop
  | dashes {s : List Char} {l : List (Char × Char)} (n : Nat) : s.head? ≠ some '-' → Members s l → (n = 0 → s ≠ []) →
      Class (List.replicate n '-' ++ s) (List.replicate n ('-', '-') ++ l)
  | bracket {s : List Char} {l : List (Char × Char)} : Members s l → Class (']' :: s) ((']', ']') :: l)

/-- Decimal digits. -/
def Decimal (s : List Char) : Prop := s ≠ [] ∧ ∀ c ∈ s, '0' ≤ c ∧ c ≤ '9'

/-- The number they make. -/
def decimal : List Char → Nat
  | [] => 0
  | c :: s => (c.toNat - 48) * 10 ^ s.length + decimal s

/-- How often: so many times, at least so many times, or between so many and so many times. -/
inductive Count : List Char → Nat → Option Nat → Prop
  | exactly {s : List Char} : Decimal s → decimal s < 2 ^ 32 → Count s (decimal s) (some (decimal s))
  | atLeast {s : List Char} : Decimal s → decimal s < 2 ^ 32 → Count (s ++ [',']) (decimal s) none
  | between {s t : List Char} : Decimal s → Decimal t → decimal s ≤ decimal t → decimal t < 2 ^ 32 →
      Count (s ++ ',' :: t) (decimal s) (some (decimal t))

mutual

/-- Alternatives separated by `|`, at least one. -/
inductive Alts : List Char → Re → Prop
  | one {s : List Char} {r : Re} : Pieces s r → Alts s r
  | or {s t : List Char} {a b : Re} : Alts s a → Pieces t b → Alts (s ++ '|' :: t) (.alt a b)

/-- Any number of pieces one after the other. -/
inductive Pieces : List Char → Re → Prop
  | none : Pieces [] .empty
  | last {s : List Char} {r : Re} {greedy : Bool} : Piece s r greedy → Pieces s r
  | more {s t : List Char} {a b : Re} {greedy : Bool} : Piece s a greedy → Pieces t b → t ≠ [] → Pieces (s ++ t) (.seq a b)

/-- An atom with any number of repetitions; whether the last of them is greedy, so that a `?` after it would make it lazy. That
makes no difference to what the expression finds. -/
inductive Piece : List Char → Re → Bool → Prop
  | atom {s : List Char} {r : Re} : Atom s r → Piece s r false
  | star {s : List Char} {r : Re} {greedy : Bool} : Piece s r greedy → Piece (s ++ ['*']) (.star r) true
  | plus {s : List Char} {r : Re} {greedy : Bool} : Piece s r greedy → Piece (s ++ ['+']) (.seq r (.star r)) true
  | optional {s : List Char} {r : Re} : Piece s r false → Piece (s ++ ['?']) (.alt r .empty) true
  | counted {s t : List Char} {r : Re} {greedy : Bool} {least : Nat} {most : Option Nat} : Piece s r greedy → Count t least most →
      Piece (s ++ '{' :: t ++ ['}']) (r.times least most) true
  | lazy {s : List Char} {r : Re} : Piece s r true → Piece (s ++ ['?']) r false

/-- What can be repeated. -/
inductive Atom : List Char → Re → Prop
  | literal (c : Char) : c ∉ specialChars → Atom [c] (.char c)
  | escaped {e c : Char} : Escaped e c → Atom ['\\', e] (.char c)
  | startText : Atom ['\\', 'A'] .start
  | stopText : Atom ['\\', 'z'] .stop
  | any : Atom ['.'] .any
  | start : Atom ['^'] .start
  | stop : Atom ['$'] .stop
  | set {s : List Char} {l : List (Char × Char)} : Class s l → s.head? ≠ some '^' → Atom ('[' :: s ++ [']']) (.set false l)
  | negated {s : List Char} {l : List (Char × Char)} : Class s l → Atom ('[' :: '^' :: s ++ [']']) (.set true l)
  | group {s : List Char} {r : Re} : Alts s r → Atom ('(' :: s ++ [')']) r
  | plainGroup {s : List Char} {r : Re} : Alts s r → Atom ('(' :: '?' :: ':' :: s ++ [')']) r

end

/-- The pattern the tool makes of an extension: `\.EXT$`. -/
def writtenExt (ext : List Char) : List Char := '\\' :: '.' :: ext ++ ['$']

/-- A part of an extension: a character that stands for itself, or a class that lists characters one by one. -/
inductive ExtPart where
  | char (c : Char)
  | oneOf (cs : List Char)

/-- How it is written. -/
def ExtPart.text : ExtPart → List Char
  | .char c => [c]
  | .oneOf cs => '[' :: cs ++ [']']

/-- The characters are none that mean something else. -/
def ExtPart.Simple : ExtPart → Prop
  | .char c => c ∉ specialChars
  | .oneOf cs => cs ≠ [] ∧ ∀ c ∈ cs, c ∉ ['\\', '[', ']', '-', '^', '&', '~']

/-- What the part stands for. -/
def ExtPart.Fits : ExtPart → Char → Prop
  | .char c, d => d = c
  | .oneOf cs, d => d ∈ cs

/-- What the parts stand for, one after the other. -/
inductive FitsAll : List ExtPart → List Char → Prop
  | nil : FitsAll [] []
  | cons {p : ExtPart} {c : Char} {ps : List ExtPart} {m : List Char} : p.Fits c → FitsAll ps m → FitsAll (p :: ps) (c :: m)

/-- Alternatives, with `|` between them. -/
def withBars : List (List Char) → List Char
  | [] => []
  | [e] => e
  | e :: es => e ++ '|' :: withBars es

/-- The pattern has something the model leaves out: a class in a class, an operation on classes, white space in a counted repetition
(or what may be), a group with flags or a name, or an escape for a number, a Unicode class or a word boundary. -/
def BeyondModel (s : List Char) : Prop :=
  (∃ a b, s = a ++ '[' :: b ∧ ('[' ∈ b ∨ ∃ c x y, (c = '&' ∨ c = '-' ∨ c = '~') ∧ b = x ++ c :: c :: y)) ∨
  (∃ a b, s = a ++ '{' :: b ∧ ∃ c ∈ b, c ≤ ' ' ∨ '\x7f' ≤ c) ∨
  (∃ a b, s = a ++ '(' :: '?' :: b ∧ b.head? ≠ some ':') ∨
  ∃ a c b, s = a ++ '\\' :: c :: b ∧ c ∈ ['x', 'u', 'U', 'p', 'P', 'd', 'D', 's', 'S', 'w', 'W', 'b', 'B', '<', '>']

end Plotline
