import Verif.Spec.Fs
import Verif.Browser.Vfs

/-
Specification: what calls of SQLite do to the contents of one file, and when their answers make sense. It speaks only of the calls and what they returned.
-/

namespace Radix.Spec

open Radix.Browser (Name VCmd VAns Cmd Plain Ev)

/-- File names are plain, and other calls on files are those of the API. -/
def VCmdOk : VCmd → Prop
  | .other c => CmdOk c
  | .open _ f _ => Plain f
  | .delete _ f _ => Plain f
  | .exists _ f _ => Plain f
  | .read _ f _ _ _ => Plain f
  | .write _ f _ _ _ => Plain f
  | .fileSize _ f => Plain f
  | .truncate _ f _ _ => Plain f
  | .sync _ f => Plain f

/-- The directory `d` is not deleted. -/
def VKeepsDir (d : Name) (c : VCmd) : Prop := ∀ evs, c ≠ .other (.deleteDir d evs)

/-- A call takes the contents of the file `f` in `d` from `v` to `v'`, and its answer fits. Calls on other files change nothing.

A write that is told to have written all bytes has changed the contents as asked; it is never told to have written some. A write or a truncation that returns an error, or during which the page is closed, has done what was asked, or
nothing (a truncation: at some offsets). A read gives bytes of the contents, not more than the buffer takes. Deleting leaves nothing; if it returns an error, or the page is closed during it, it has done that, or nothing. A file that is told not to exist has no bytes. -/
def VExplains (d f : Name) (v : Contents) : VCmd → VAns → Contents → Prop
  | .other c, .other a, v' => FsExplains d f v c a v'
  | .delete d' f' _, a, v' => if d' = d ∧ f' = f then v' = nothing ∨ (a = .ioerr ∨ a = .gone) ∧ v' = v else v' = v
  | .exists d' f' _, .bool r, v' => v' = v ∧ (d' = d ∧ f' = f ∧ r = false → v = nothing)
  | .read d' f' start n _, .bytes bs, v' => v' = v ∧ bs.length ≤ n ∧ (d' = d ∧ f' = f → Shows v start bs)
  | .write d' f' start buf _, a, v' =>
    if d' = d ∧ f' = f then a = .num buf.length ∧ v' = overwrite v start buf ∨ (a = .ioerr ∨ a = .gone) ∧ (v' = v ∨ v' = overwrite v start buf) else v' = v
  | .truncate d' f' size _, a, v' =>
    if d' = d ∧ f' = f then
      (∀ p, p < size → v' p = v p) ∧ (a = .unit ∧ (∀ p, size ≤ p → v' p = 0) ∨ (a = .ioerr ∨ a = .gone) ∧ ∀ p, size ≤ p → v' p = 0 ∨ v' p = v p)
    else v' = v
  | _, _, v' => v' = v

/-- There are contents of the file between the calls of the log, from `v` to `v'`, that explain what was seen. -/
def VPossible (d f : Name) (v : Contents) : List (VCmd × VAns) → Contents → Prop
  | [], v' => v' = v
  | e :: es, v' => ∃ u, VExplains d f v e.1 e.2 u ∧ VPossible d f u es v'

/-- How far the writes on the file `f` in `d` can reach. -/
def vreach (d f : Name) : Nat → List VCmd → Nat
  | n, [] => n
  | n, .write d' f' start buf _ :: cs => vreach d f (if d' = d ∧ f' = f then max n (start + buf.length) else n) cs
  | n, .other (.call d' f' c) :: cs => vreach d f (if d' = d ∧ f' = f then reach n [c] else n) cs
  | n, _ :: cs => vreach d f n cs

/-- No operation of the browser fails and the page is not closed. -/
def AllOk (evs : List Ev) : Prop := ∀ e ∈ evs, e = .ok

/-- Calls of SQLite in the directory `d` as it may make them, if the files of the list are open: files are opened before they are used and not used after they were deleted. No operation of the browser fails. -/
def Sound (d : Name) : List Name → List VCmd → Prop
  | _, [] => True
  | o, .open d' f evs :: cs => (d' = d ∧ Plain f ∧ AllOk evs) ∧ Sound d (f :: o) cs
  | o, .delete d' f evs :: cs => (d' = d ∧ Plain f ∧ AllOk evs) ∧ Sound d (o.filter (· ≠ f)) cs
  | o, .exists d' f evs :: cs => (d' = d ∧ Plain f ∧ AllOk evs) ∧ Sound d o cs
  | o, .read d' f start n evs :: cs => (d' = d ∧ Plain f ∧ AllOk evs ∧ f ∈ o ∧ start + n < 2 ^ 64) ∧ Sound d o cs
  | o, .write d' f _ _ evs :: cs => (d' = d ∧ Plain f ∧ AllOk evs ∧ f ∈ o) ∧ Sound d o cs
  | o, .fileSize d' f :: cs => (d' = d ∧ Plain f ∧ f ∈ o) ∧ Sound d o cs
  | o, .truncate d' f _ evs :: cs => (d' = d ∧ Plain f ∧ AllOk evs ∧ f ∈ o) ∧ Sound d o cs
  | o, .sync d' f :: cs => (d' = d ∧ Plain f ∧ f ∈ o) ∧ Sound d o cs
  | _, .other _ :: _ => False

/-- The answer of a call that did what was asked. -/
def Served : VCmd → VAns → Prop
  | .open _ _ _, a => a = .unit
  | .delete _ _ _, a => a = .unit
  | .exists _ _ _, a => ∃ b, a = .bool b
  | .read _ _ _ n _, a => ∃ bs, a = .bytes bs ∧ bs.length ≤ n
  | .write _ _ _ buf _, a => a = .num buf.length
  | .fileSize _ _, a => ∃ n, a = .num n
  | .truncate _ _ _ _, a => a = .unit
  | .sync _ _, a => a = .unit
  | .other _, _ => True

/-- The contents of the file `f` in `d` after calls that all did what was asked. -/
def vafter (d f : Name) (v : Contents) : List VCmd → Contents
  | [] => v
  | .write d' f' start buf _ :: cs => vafter d f (if d' = d ∧ f' = f then overwrite v start buf else v) cs
  | .truncate d' f' size _ :: cs => vafter d f (if d' = d ∧ f' = f then fun p => if p < size then v p else 0 else v) cs
  | .delete d' f' _ :: cs => vafter d f (if d' = d ∧ f' = f then nothing else v) cs
  | _ :: cs => vafter d f v cs

end Radix.Spec
