import Verif.Model.Cli

/-!
# Directories without permissions (plotline-cli/src/repository.rs:23-86)

`Model/Cli` takes all directories to be open. Here each may be listed or not (the permission to read) and searched or not (the permission
to execute); files without the permission are `sealed`. What is in a directory that is not searched cannot be reached, whatever follows
its name in a path.

Simplification: a path that starts from the root is only followed if the working directory may be searched.
-/

namespace Plotline

/-- Which directories, given by the names that lead to them from the root, may be listed and searched. -/
structure Mode where
  lists : List Name → Bool
  searches : List Name → Bool

/-- `Fs.pass` with permissions. -/
def Fs.passBy (fs : Fs) (m : Mode) (jump : List Name → FilePath → Option (List Name)) :
    (here : List Name) → FilePath → Option (List Name)
  | here, [] => some here
  | here, n :: p =>
    if m.searches here = false then none
    else if n = [] then fs.passBy m jump [] p
    else if n = dot then fs.passBy m jump here p
    else if n = dotdot then fs.passBy m jump here.dropLast p
    else match fs.at (here ++ [n]) with
      | none => none
      | some .dir => fs.passBy m jump (here ++ [n]) p
      | some (.link target) => jump here (target ++ p)
      | some _ => if p = [] then some (here ++ [n]) else none

/-- `Fs.follow` with permissions. -/
def Fs.followBy (fs : Fs) (m : Mode) : (links : Nat) → (here : List Name) → FilePath → Option (List Name)
  | 0 => fs.passBy m fun _ _ => none
  | k + 1 => fs.passBy m (fs.followBy m k)

/-- `std::fs::read`. -/
def Fs.readBy (fs : Fs) (m : Mode) (p : FilePath) : Option Bytes :=
  match fs.followBy m maxLinks fs.cwd p with
  | none => none
  | some q =>
    match fs.at q with
    | some (.file bytes) => some bytes
    | _ => none

/-- `find_by_id` (repository.rs:23-38). -/
def LocalRepo.findByIdBy (r : LocalRepo) (m : Mode) (fs : Fs) (i : FilePath) : Option Document :=
  let path := withExtension (joinPath r.context i) r.extension
  (fs.readBy m path).map fun bytes => ⟨path, bytes⟩

end Plotline
