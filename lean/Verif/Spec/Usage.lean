import Verif.Spec.Shell
import Verif.Spec.Args
import Verif.Model.Usage

/-! # Command lines that ask for help -/

namespace Plotline

/-- The words that ask for help or the version, the latter of the tool only. -/
inductive AsksWord : Level → Word → Prop where
  | help {l : Level} : AsksWord l "--help".toList
  | h {l : Level} (w : Word) : AsksWord l ('-' :: 'h' :: w)
  | version : AsksWord .tool "--version".toList
  | v (w : Word) : AsksWord .tool ('-' :: 'V' :: w)

/-- How many words that are not options a command takes: `doc` an id, `save` the content. -/
def Takings : Level → Nat
  | .doc => 1
  | .action .save => 1
  | _ => 0

/-- The words that mean something else: in `doc` the names of its subcommands. -/
def ReservedAt (l : Level) (w : Word) : Prop := l = .doc ∧ Reserved w

/-- What nobody looks at before a subcommand: an option with any value in a word of its own, given before or not; and in `doc` an option
without a value. -/
inductive Unread : Level → List Word → Prop where
  | none {l : Level} : Unread l []
  | short {l : Level} {v : Word} (o : Opt) : NoOption v → ¬ ReservedAt l v → Unread l [['-', shortOf o], v]
  | long {l : Level} {v : Word} (o : Opt) : NoOption v → ¬ ReservedAt l v → Unread l ['-' :: '-' :: longOf o, v]
  | bareShort (o : Opt) : Unread .doc [['-', shortOf o]]
  | bareLong (o : Opt) : Unread .doc ['-' :: '-' :: longOf o]

/-- What may come after `help`: the names of subcommands. -/
inductive Topic : Level → List Word → Prop where
  | nil {l : Level} : Topic l []
  | tool : Topic .tool ["help".toList]
  | help : Topic .doc ["help".toList]
  | doc {ws : List Word} : Topic .doc ws → Topic .tool ("doc".toList :: ws)
  | action {a : Action} {n : Word} : Calls a n → Topic .doc [n]

/-- The subcommands by their names. -/
inductive SubOf : Level → Word → Level → Prop where
  | doc : SubOf .tool "doc".toList .doc
  | action {a : Action} {n : Word} : Calls a n → SubOf .doc n (.action a)

/-- The command lines, from a command on, that ask for help before there is anything to complain about. -/
inductive ShowsHelp : Level → List Word → Prop where
  /-- A flag after options and arguments that are in order. -/
  | flag {l : Level} {o : Options} {ps w1 rest : List Word} {f : Word} : Items (ReservedAt l) False o ps w1 → ps.length ≤ Takings l →
      AsksWord l f → ShowsHelp l (w1 ++ f :: rest)
  /-- The subcommand `help`. -/
  | help {l : Level} {o : Options} {ps w1 us rest : List Word} : l = .tool ∨ l = .doc → Items (ReservedAt l) False o ps w1 →
      ps.length ≤ Takings l → Unread l us → Topic l rest → ShowsHelp l (w1 ++ (us ++ "help".toList :: rest))
  /-- A subcommand that is asked for help. -/
  | sub {l l' : Level} {o : Options} {ps w1 us rest : List Word} {n : Word} : Items (ReservedAt l) False o ps w1 →
      ps.length ≤ Takings l → Unread l us → SubOf l n l' → ShowsHelp l' rest → ShowsHelp l (w1 ++ (us ++ n :: rest))

/-- The process ends in this way, once there is fuel enough. -/
def ProcEnds (here : Option FilePath) (fs : Fs) (walk : FilePath → List FilePath) (plain : Char → Bool) (room : Option Nat) (ws : List Word)
    (x : Finish) : Prop :=
  ∃ fuel0, ∀ fuel, fuel0 ≤ fuel → process fuel here fs walk plain room ws = some x

end Plotline
