import Verif.Model.OsNames
import Verif.Spec.Listing
import Verif.Spec.Args

/-! # What is expected of names that are not text -/

namespace Plotline

/-- These are bytes. -/
def AreBytes (b : Name) : Prop := ∀ c ∈ b, c.toNat < 256

/-- The bytes begin the bytes of some character. -/
def Begins (b : Name) : Prop := ∃ c, b <+: bytesOf [c]

/-- Of bytes that do not begin with a character, those that are given up as one: the first, and all that follow it as long as there
might have been a character. -/
structure GivenUp (bad rest : Name) : Prop where
  none : ∀ c, ¬ bytesOf [c] <+: bad ++ rest
  any : bad ≠ []
  begins : 1 < bad.length → Begins bad
  most : ∀ b, rest.head? = some b → ¬ Begins (bad ++ [b])

/-- The text put for bytes: `�` for what is none. -/
inductive Lossy : Name → List Char → Prop
  | nil : Lossy [] []
  | char (c : Char) {b : Name} {s : List Char} : Lossy b s → Lossy (bytesOf [c] ++ b) (c :: s)
  | bad {x b : Name} {s : List Char} : GivenUp x b → Lossy b s → Lossy (x ++ b) ('�' :: s)

/-- The value of a hexadecimal digit, in capitals. -/
def upperOf (c : Char) : Option Nat := "0123456789ABCDEF".toList.findIdx? (· = c)

/-- What is between the quotes of a string literal in which bytes that are no text are written by their number, and the bytes it
stands for. -/
inductive OsLiteral : List Char → Name → Prop
  | nil : OsLiteral [] []
  | char {c : Char} {w : List Char} {b : Name} : c ≠ '"' → c ≠ '\\' → c ≠ '\n' → OsLiteral w b → OsLiteral (c :: w) (bytesOf [c] ++ b)
  | escape {e w : List Char} {c : Char} {b : Name} : Literal ('\\' :: e) [c] → OsLiteral w b → OsLiteral ('\\' :: e ++ w) (bytesOf [c] ++ b)
  | byte {x y : Char} {h l : Nat} {w : List Char} {b : Name} : upperOf x = some h → upperOf y = some l → OsLiteral w b →
      OsLiteral ('\\' :: 'x' :: x :: y :: w) (Char.ofNat (16 * h + l) :: b)

/-- The text is one line for each id, in this order: a literal that stands for a way of writing the id. -/
inductive OsLines : List Char → List FilePath → Prop
  | nil : OsLines [] []
  | line {w s : List Char} {b : Name} {p : FilePath} {ids : List FilePath} :
      OsLiteral w b → '\n' ∉ w → Spells b p → OsLines s ids → OsLines ('"' :: w ++ '"' :: '\n' :: s) (p :: ids)

/-- Names are bytes, without separator. -/
def Fs.Unix (fs : Fs) : Prop := ∀ e ∈ fs.nodes, ∀ n ∈ e.1, AreBytes n ∧ '/' ∉ n

/-- The bytes are text. -/
def IsText (b : Name) : Prop := ∃ s, b = bytesOf s

/-- If there is a value, it is text. -/
def TextIfAny (w : Option Word) : Prop := ∀ b, w = some b → IsText b

/-- The command lines that run something, and what: as `Line`, and every extension given, the id and the content are text. -/
inductive OsLine : List Word → Invocation → Prop where
  | mk {o1 o2 o3 : Options} {w1 w2 w3 : List Word} {n : Word} {a : Action} {id content : Option Word} :
      Items (fun _ => False) False o1 [] w1 → Items Reserved False o2 id.toList w2 → Calls a n →
      Items (fun _ => False) True o3 content.toList w3 → (a ≠ .save → content = none) →
      TextIfAny o1.extension → TextIfAny o2.extension → TextIfAny o3.extension → TextIfAny id → TextIfAny content →
      OsLine (w1 ++ "doc".toList :: (w2 ++ n :: w3))
        ⟨⟨innermost o1.context o2.context o3.context, innermost o1.extension o2.extension o3.extension⟩, id, a, content⟩

/-- The same, of names and links in text. -/
def FsNode.inBytes : FsNode → FsNode
  | .file b => .file b
  | .dir => .dir
  | .link target => .link (pathBytes target)
  | .sealed => .sealed

/-- The words of a command line in text, as they are. -/
def Options.inBytes (s : Options) : Options := ⟨s.context.map bytesOf, s.extension.map bytesOf⟩

/-- What a command line in text asks for, as it is. -/
def Invocation.inBytes (v : Invocation) : Invocation := ⟨v.options.inBytes, v.id.map bytesOf, v.action, v.content.map bytesOf⟩

/-- A document with a path in text, as it is. -/
def LazyDocument.inBytes (l : LazyDocument FilePath Document) : LazyDocument FilePath Document :=
  ⟨pathBytes l.document_id, l.document.map fun d => ⟨pathBytes d.path, d.bytes⟩⟩

/-- A file system of names that are text, as it is. -/
def Fs.inBytes (fs : Fs) : Fs := ⟨fs.nodes.map fun e => (pathBytes e.1, e.2.inBytes), pathBytes fs.cwd⟩

/-- Two runs end in the same way, what the first says in text being what the second says in bytes. -/
inductive SameEnd : Option Process → Option Process → Prop
  | unknown : SameEnd none none
  | usage : SameEnd (some .usage) (some .usage)
  | ran {a b : Ran} : b.result = a.result → b.stdout = a.stdout.map pathBytes →
      (∀ q, b.schema.guard.get (pathBytes q) = (a.schema.guard.get q).map LazyDocument.inBytes) →
      b.fs = a.fs.inBytes → SameEnd (some (.ran a)) (some (.ran b))

end Plotline
