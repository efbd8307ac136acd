import Verif.Model.Args
import Verif.Model.Listing

/-!
# Names that are not text (plotline-cli/src/repository.rs, document.rs, main.rs)

On Unix a name is any sequence of bytes without `/`, and so are the words of a command line. Here a byte is given as the character of
its number: a `Name` is taken for the bytes its characters (all below 256) stand for. `std::path`, the file system, `find_by_id` and the
reading of options look at bytes, and only for `.`, `/`, `-`, `=` and names in ASCII, so they are as they are in `Model/Cli` and
`Model/Args`. What is done to text is here: matching the pattern (`to_string_lossy`, repository.rs:61), `Debug` of paths
(document.rs:100), and values that are to be a `String` (main.rs:51, document.rs:39, 58).
-/

namespace Plotline

/-- A byte, as the character of its number. -/
def byteChar (b : UInt8) : Char := Char.ofNat b.toNat

/-- The bytes of a text (UTF-8). -/
def bytesOf (s : List Char) : Name := s.flatMap fun c => (String.utf8EncodeChar c).map byteChar

/-- The bytes of a path that is text. -/
def pathBytes (p : FilePath) : FilePath := p.map bytesOf

/-- What bytes are made of: characters and what is none (std `Utf8Chunk`, one character at a time). -/
inductive Chunk where
  | char (c : Char)
  | bad (bytes : Name)
deriving DecidableEq, Repr

def within (lo hi : Nat) (c : Char) : Bool := lo ≤ c.toNat && c.toNat ≤ hi

/-- A byte after the second of a character, or the second of one of two bytes (std `TAG_CONT_U8`). -/
def follows : Char → Bool := within 0x80 0xBF

/-- A second byte after this first one of three or four. -/
def second (a : Char) : Char → Bool :=
  if a.toNat = 0xE0 then within 0xA0 0xBF
  else if a.toNat = 0xED then within 0x80 0x9F
  else if a.toNat = 0xF0 then within 0x90 0xBF
  else if a.toNat = 0xF4 then within 0x80 0x8F
  else follows

/-- The bits a byte after the first contributes. -/
def bits (c : Char) : Nat := c.toNat - 0x80

/-- The first chunk and the bytes after it (std `Utf8Chunks::next`): as many bytes as may begin a character are taken, and if they
are no character they are a bad chunk. -/
def firstChunk (a : Char) (t : Name) : Chunk × Name :=
  if a.toNat < 0x80 then (.char a, t)
  else if within 0xC2 0xDF a then
    match t with
    | b :: t1 => if follows b then (.char (Char.ofNat ((a.toNat - 0xC0) * 64 + bits b)), t1) else (.bad [a], t)
    | [] => (.bad [a], [])
  else if within 0xE0 0xEF a then
    match t with
    | b :: t1 =>
      if second a b then
        match t1 with
        | c :: t2 =>
          if follows c then (.char (Char.ofNat ((a.toNat - 0xE0) * 4096 + bits b * 64 + bits c)), t2) else (.bad [a, b], t1)
        | [] => (.bad [a, b], [])
      else (.bad [a], t)
    | [] => (.bad [a], [])
  else if within 0xF0 0xF4 a then
    match t with
    | b :: t1 =>
      if second a b then
        match t1 with
        | c :: t2 =>
          if follows c then
            match t2 with
            | d :: t3 =>
              if follows d then
                (.char (Char.ofNat ((a.toNat - 0xF0) * 262144 + bits b * 4096 + bits c * 64 + bits d)), t3)
              else (.bad [a, b, c], t2)
            | [] => (.bad [a, b, c], [])
          else (.bad [a, b], t1)
        | [] => (.bad [a, b], [])
      else (.bad [a], t)
    | [] => (.bad [a], [])
  else (.bad [a], t)

/-- At most so many chunks. -/
def chunksUpTo : Nat → Name → List Chunk
  | 0, _ => []
  | _, [] => []
  | k + 1, a :: t => (firstChunk a t).1 :: chunksUpTo k (firstChunk a t).2

/-- The chunks of bytes. -/
def chunks (b : Name) : List Chunk := chunksUpTo b.length b

/-- The character put for what is none. -/
def replacement : Char := '�'

/-- `OsStr::to_string_lossy`. -/
def lossy (b : Name) : List Char := (chunks b).map fun
  | .char c => c
  | .bad _ => replacement

/-- `OsStr::to_str`. -/
def asText (b : Name) : Option (List Char) := (chunks b).mapM fun
  | .char c => some c
  | .bad _ => none

/-! ## The repository -/

/-- `regex.is_match(&entry.file_name().to_string_lossy())` (repository.rs:61). -/
def osMatches (ext : List Char) (p : FilePath) : Bool :=
  match extPattern ext with
  | .ok r => r.isMatch (lossy (entryName p))
  | _ => false

/-- `LocalDocumentRepository` (repository.rs:13-18), as `find_by_id` uses it: paths of bytes, an extension that is text. -/
def osRepo (context : FilePath) (ext : List Char) : LocalRepo := ⟨context, bytesOf ext⟩

/-- `all` (repository.rs:43-86). -/
def osAll (context : FilePath) (ext : List Char) (walked : List FilePath) : List (LazyDocument FilePath Document) :=
  ((walked.filter (osMatches ext)).filterMap fun p => context.isPrefixOf? (withExtension p [])).map LazyDocument.build

/-- The schema `main` starts with (main.rs:70-71). -/
def osSchema (context : FilePath) (ext : List Char) (walked : List FilePath) : Schema CliSig :=
  Schema.fromGraph (Graph.fromIter (osAll context ext walked))

/-- `main` (main.rs:55-81) after its arguments are read. -/
def osPlot (fuel : Nat) (context : FilePath) (ext : List Char) (fs : Fs) (walked : List FilePath) (i : Option FilePath)
    (c : Subcommand) : Option Ran :=
  match extPattern ext with
  | .ok _ => execute fuel fs (osSchema context ext walked) i c
  | .invalid => some ⟨.panic, [], Schema.fromGraph Graph.empty, fs⟩
  | .unmodelled => none

/-! ## The text of a listing -/

/-- A digit of `{:X}`. -/
def upperDigit (n : Nat) : Char := if n < 10 then Char.ofNat (48 + n) else Char.ofNat (55 + n)

/-- `\x{:02X}` -/
def escapeByte (b : Char) : List Char := ['\\', 'x', upperDigit (b.toNat / 16), upperDigit (b.toNat % 16)]

/-- `Debug` of one chunk (std `Utf8Chunks::debug`). -/
def escapeChunk (plain : Char → Bool) : Chunk → List Char
  | .char c => escapeChar plain c
  | .bad bytes => bytes.flatMap escapeByte

/-- `{:?}` of a path. -/
def osDebug (plain : Char → Bool) (p : FilePath) : List Char := '"' :: (chunks (writePath p)).flatMap (escapeChunk plain) ++ ['"']

/-- What is written to the output for these ids. -/
def osListText (plain : Char → Bool) (ids : List FilePath) : List Char := ids.flatMap fun p => osDebug plain p ++ ['\n']

/-! ## The arguments -/

/-- The values read so far that are to be a `String` are (main.rs:51, document.rs:39, 58); those given to commands around were seen to
before. -/
def Reading.textual (r : Reading) : Bool :=
  r.here.extension.all (fun w => (asText w).isSome) && r.id.all (fun w => (asText w).isSome) &&
    r.content.all (fun w => (asText w).isSome)

/-- The words from here on. Values that are no text are complained about. -/
def Reading.osWords (r : Reading) : List Word → Option Invocation
  | [] => if r.textual then r.done else none
  | w :: ws => if r.textual then (r.word w).bind fun r => r.osWords ws else none

/-- `Cli::parse()` (main.rs:56). -/
def osArgs (ws : List Word) : Option Invocation := ({} : Reading).osWords ws

/-- The whole of `main` (main.rs:55-81). -/
def osPlotline (fuel : Nat) (here : FilePath) (fs : Fs) (walk : FilePath → List FilePath) (ws : List Word) : Option Process :=
  match osArgs ws with
  | none => some .usage
  | some v =>
    let context := (v.options.context.map parsePath).getD here
    let command := match v.action with
      | .delete => .delete
      | .list => .list
      | .save => .save (v.content.map fun b => utf8 ((asText b).getD []))
    (osPlot fuel context (((v.options.extension.bind asText)).getD "md".toList) fs (walk context) (v.id.map parsePath) command).map .ran

end Plotline
