import Verif.Model.Cli

/-!
# The text `plot doc list` prints (plotline-cli/src/document.rs:95-101)

`writeln!(stdout, "{:?}", node.id())` for each node: `Debug` of a path is that of its text, between quotes, one character after the other
by `char::escape_debug`. Which characters that leaves alone is a table of Unicode, and for `'` depends on the version of std; it is a
parameter here. Names are UTF-8 here; the escapes of other bytes are in `Model/OsNames`.
-/

namespace Plotline

/-- A digit of `{:x}`. -/
def hexDigit (n : Nat) : Char := if n < 10 then Char.ofNat (48 + n) else Char.ofNat (87 + n)

/-- `{:x}` -/
def toHex (n : Nat) : List Char := if n < 16 then [hexDigit n] else toHex (n / 16) ++ [hexDigit (n % 16)]
termination_by n

/-- `char::escape_debug`, where `plain` tells which characters are printable and do not extend others. -/
def escapeChar (plain : Char → Bool) (c : Char) : List Char :=
  if c = '\x00' then ['\\', '0']
  else if c = '\t' then ['\\', 't']
  else if c = '\r' then ['\\', 'r']
  else if c = '\n' then ['\\', 'n']
  else if c = '"' ∨ c = '\\' then ['\\', c]
  else if plain c then [c]
  else if c = '\'' then ['\\', c]
  else '\\' :: 'u' :: '{' :: toHex c.toNat ++ ['}']

/-- `{:?}` of a path. -/
def debugPath (plain : Char → Bool) (p : FilePath) : List Char := '"' :: (writePath p).flatMap (escapeChar plain) ++ ['"']

/-- What is written to the output for these ids. -/
def listText (plain : Char → Bool) (ids : List FilePath) : List Char := ids.flatMap fun p => debugPath plain p ++ ['\n']

/-- What a run of the tool writes to the output. -/
def Ran.text (plain : Char → Bool) (r : Ran) : List Char := listText plain r.stdout

end Plotline
