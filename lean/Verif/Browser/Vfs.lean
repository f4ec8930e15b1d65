import Verif.Browser.Fs

/-
The file system that SQLite uses (browser/src/vfs.rs): `DatabaseFile` and `impl Vfs for SyncDir`, on top of the whole browser file system.

Simplified: a `DatabaseFile` is the names of its directory and file; paths are names (`to_string_lossy` of a path that is UTF-8 is the path). The crate `sqlite_vfs`, which
calls these functions, is not modelled.
-/

namespace Radix.Browser

/-- Calls of SQLite, each with what happens to its cache operations, and other calls of the program (loading the page in particular). For browser/src/vfs.rs 20-85. -/
inductive VCmd where
  | other (c : Cmd)
  | open (d f : Name) (evs : List Ev)
  | delete (d f : Name) (evs : List Ev)
  | exists (d f : Name) (evs : List Ev)
  | read (d f : Name) (start n : Nat) (evs : List Ev)
  | write (d f : Name) (start : Nat) (buf : Bytes) (evs : List Ev)
  | fileSize (d f : Name)
  | truncate (d f : Name) (size : Nat) (evs : List Ev)
  | sync (d f : Name)
  deriving DecidableEq

/-- What SQLite sees. `bytes bs`: a read that returned `Ok` of the number of bytes that it put at the front of the buffer, which are `bs`. `ioerr` is `SQLITE_IOERR`. `gone`: the page was closed during the call. For browser/src/vfs.rs 20-85. -/
inductive VAns where
  | other (a : Ans)
  | unit
  | bool (b : Bool)
  | num (n : Nat)
  | bytes (bs : Bytes)
  | ioerr
  | panic
  | gone
  deriving DecidableEq

/-- `map_err(anyhow_to_vfs)` and `Ok` of a function of the result (browser/src/vfs.rs 58-60). A panic of the thread of the file system drops the sender, so that the call returns an error. -/
def VAns.ofOut {α : Type} (g : α → VAns) : Out α → VAns
  | .ok a => g a
  | .err => .ioerr
  | .panic => .ioerr
  | .crash => .gone

/-- The result of a call that returns nothing or a truth value, or an answer of no thread. For browser/src/vfs.rs 48-85. -/
def VAns.ofAns (g : Unit → VAns) (h : Bool → VAns) : Ans → VAns
  | .unit r => .ofOut g r
  | .bool r => .ofOut h r
  | _ => .ioerr

/-- The result of a call on a file. For browser/src/vfs.rs 20-56. -/
def VAns.ofFile (g : Unit → VAns) (h : Bytes → VAns) (n : Nat → VAns) : Ans → VAns
  | .file (.done r) => .ofOut g r
  | .file (.bytes r) => .ofOut h r
  | .file (.num k) => n k
  | _ => .ioerr

/-- The calls of the file system that a call of SQLite makes (browser/src/vfs.rs 20-85). `read` calls `length` (line 23) and, if that has returned a number, `read` (line 27). -/
def VCmd.cmds (s : Fs) : VCmd → List Cmd
  | .other c => [c]
  | .open d f evs => [.openFile d f evs]
  | .delete d f evs => [.deleteFile d f evs]
  | .exists d f evs => [.fileExists d f evs]
  | .read d f start n evs => .call d f .length ::
    match (s.step (.call d f .length)).1 with
    | .file (.num len) => if start + n < 2 ^ 64 then [.call d f (.read start (min len (start + n)) evs)] else []
    | _ => []
  | .write d f start buf evs => [.call d f (.write start buf evs)]
  | .fileSize d f => [.call d f .length]
  | .truncate d f size evs => [.call d f (.truncate size evs)]
  | .sync d f => [.sync d f]

/-- `DatabaseFile::read` (browser/src/vfs.rs 21-32). If `start + n` overflows: a panic (line 24; without overflow checks the sum wraps around, which is not modelled). -/
def vread (s : Fs) (d f : Name) (start n : Nat) (evs : List Ev) : VAns :=
  match s.step (.call d f .length) with
  | (.file (.num len), s) =>
    if start + n < 2 ^ 64 then
      let stop := min len (start + n)
      let data := (s.step (.call d f (.read start stop evs))).1
      .ofFile (fun _ => .ioerr) (fun data => if stop - start ≤ data.length ∧ stop - start ≤ n then .bytes (data.take (stop - start)) else .panic) (fun _ => .ioerr) data
    else .panic
  | _ => .ioerr

/-- What a call returns: `open` (browser/src/vfs.rs 65-70), `delete` (72-77; whether there was a file is not told), `exists` (79-84), `read` (21-32), `write` (34-41: the number of bytes), `file_size` (43-46),
`truncate` (48-51), `sync` (53-55). -/
def VCmd.ans (s : Fs) : VCmd → VAns
  | .other c => .other (s.step c).1
  | .open d f evs => .ofAns (fun _ => .unit) (fun _ => .ioerr) (s.step (.openFile d f evs)).1
  | .delete d f evs => .ofAns (fun _ => .ioerr) (fun _ => .unit) (s.step (.deleteFile d f evs)).1
  | .exists d f evs => .ofAns (fun _ => .ioerr) .bool (s.step (.fileExists d f evs)).1
  | .read d f start n evs => vread s d f start n evs
  | .write d f start buf evs => .ofFile (fun _ => .num buf.length) (fun _ => .ioerr) (fun _ => .ioerr) (s.step (.call d f (.write start buf evs))).1
  | .fileSize d f => .ofFile (fun _ => .ioerr) (fun _ => .ioerr) .num (s.step (.call d f .length)).1
  | .truncate d f size evs => .ofFile (fun _ => .unit) (fun _ => .ioerr) (fun _ => .ioerr) (s.step (.call d f (.truncate size evs))).1
  | .sync d f => .ofAns (fun _ => .unit) (fun _ => .ioerr) (s.step (.sync d f)).1

/-- The state after a call of SQLite (browser/src/vfs.rs 20-85): that after the calls it makes. -/
def vstep (s : Fs) (c : VCmd) : VAns × Fs := (c.ans s, s.run (c.cmds s))

/-- What is seen of a history of calls (browser/src/vfs.rs 20-85). -/
def vlog : Fs → List VCmd → List (VCmd × VAns)
  | _, [] => []
  | s, c :: cs => (c, (vstep s c).1) :: vlog (vstep s c).2 cs

/-- The state after a history of calls (browser/src/vfs.rs 20-85). -/
def vrun : Fs → List VCmd → Fs
  | s, [] => s
  | s, c :: cs => vrun (vstep s c).2 cs

end Radix.Browser
