import Verif.Model.Listing
import Verif.Spec.Cli

/-! # How the text of a listing is read -/

namespace Plotline

/-- The value of a hexadecimal digit. -/
def digitOf (c : Char) : Option Nat := "0123456789abcdef".toList.findIdx? (· = c)

/-- A hexadecimal number and its value. -/
inductive Hex : List Char → Nat → Prop
  | one {c : Char} {d : Nat} : digitOf c = some d → Hex [c] d
  | more {s : List Char} {n : Nat} {c : Char} {d : Nat} : Hex s n → digitOf c = some d → Hex (s ++ [c]) (16 * n + d)

/-- What is between the quotes of a string literal of Rust, on one line, and the string it stands for. -/
inductive Literal : List Char → List Char → Prop
  | nil : Literal [] []
  | char {c : Char} {s t : List Char} : c ≠ '"' → c ≠ '\\' → c ≠ '\n' → Literal s t → Literal (c :: s) (c :: t)
  | nul {s t : List Char} : Literal s t → Literal ('\\' :: '0' :: s) ('\x00' :: t)
  | tab {s t : List Char} : Literal s t → Literal ('\\' :: 't' :: s) ('\t' :: t)
  | ret {s t : List Char} : Literal s t → Literal ('\\' :: 'r' :: s) ('\r' :: t)
  | line {s t : List Char} : Literal s t → Literal ('\\' :: 'n' :: s) ('\n' :: t)
  | quote {s t : List Char} : Literal s t → Literal ('\\' :: '\'' :: s) ('\'' :: t)
  | quotes {s t : List Char} : Literal s t → Literal ('\\' :: '"' :: s) ('"' :: t)
  | backslash {s t : List Char} : Literal s t → Literal ('\\' :: '\\' :: s) ('\\' :: t)
  | unicode {s t h : List Char} {c : Char} : Hex h c.toNat → Literal s t → Literal ('\\' :: 'u' :: '{' :: h ++ '}' :: s) (c :: t)

/-- The text is one line for each id, in this order: a string literal that stands for a way of writing the id. -/
inductive Lines : List Char → List FilePath → Prop
  | nil : Lines [] []
  | line {w t s : List Char} {p : FilePath} {ids : List FilePath} :
      Literal w t → '\n' ∉ w → Spells t p → Lines s ids → Lines ('"' :: w ++ '"' :: '\n' :: s) (p :: ids)

/-- Names have no separator. -/
def Fs.Named (fs : Fs) : Prop := ∀ e ∈ fs.nodes, ∀ n ∈ e.1, '/' ∉ n

end Plotline
