import Verif.Spec.FileLog
import Verif.Browser.Fs

/-
Specification: what a log of calls on the whole browser file system says about one file. It speaks only of the calls and what they
returned.
-/

namespace Radix.Spec

open Radix.Browser (Call Seen Out Name Cmd Ans Plain Ev)

/-- File names are plain, and calls on files are those of the API. -/
def CmdOk : Cmd → Prop
  | .openFile _ f _ => Plain f
  | .fileExists _ f _ => Plain f
  | .deleteFile _ f _ => Plain f
  | .sync _ f => Plain f
  | .call _ f c => Plain f ∧ c ≠ .reopen
  | _ => True

/-- The directory `d` is not deleted. -/
def KeepsDir (d : Name) (c : Cmd) : Prop := ∀ evs, c ≠ .deleteDir d evs

/-- Neither the file `f` in `d` nor the directory `d` is deleted. -/
def Keeps (d f : Name) (c : Cmd) : Prop := KeepsDir d c ∧ ∀ evs, c ≠ .deleteFile d f evs

/-- The part of a log that is about the file `f` in the directory `d`, as a log of calls on that file alone. A successful `open_file` is
`reopen` if the file was not open (it is not after the page was loaded). Calls on the file that found it not open are left out, as is all
that was not answered. -/
def fileLog (d f : Name) : Bool → List (Cmd × Ans) → List (Call × Seen)
  | _, [] => []
  | _, (.load, _) :: es => fileLog d f false es
  | isOpen, (.openFile d' f' _, .unit (.ok ())) :: es =>
    if d' = d ∧ f' = f then (if isOpen then [] else [(.reopen, .opened)]) ++ fileLog d f true es else fileLog d f isOpen es
  | isOpen, (.call d' f' c, .file s) :: es =>
    if d' = d ∧ f' = f ∧ isOpen then (c, s) :: fileLog d f isOpen es else fileLog d f isOpen es
  | isOpen, _ :: es => fileLog d f isOpen es

/-- A call takes the contents of the file `f` in `d` from `v` to `v'` and its result fits. Calls on a file do to that file what `Explains` says.
Deleting the file leaves nothing; if it does not return `Ok` it has done that, or nothing. No other call changes the contents. -/
def FsExplains (d f : Name) (v : Contents) : Cmd → Ans → Contents → Prop
  | .call d' f' c, .file s, v' => if d' = d ∧ f' = f then Explains v c s v' else v' = v
  | .deleteFile d' f' _, a, v' => if d' = d ∧ f' = f then v' = nothing ∨ (∀ b, a ≠ .bool (.ok b)) ∧ v' = v else v' = v
  | _, _, v' => v' = v

/-- There are contents of the file between the calls of the log, from `v` to `v'`, that explain what was seen. -/
def FsPossible (d f : Name) (v : Contents) : List (Cmd × Ans) → Contents → Prop
  | [], v' => v' = v
  | e :: es, v' => ∃ u, FsExplains d f v e.1 e.2 u ∧ FsPossible d f u es v'

end Radix.Spec
