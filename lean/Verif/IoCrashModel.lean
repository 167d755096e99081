import Verif.IoModel

/-!
# `save` stopped half-way

`save` (io.py:83-116) computes the whole dictionary, then calls `np.savez_compressed`, which opens the file with mode `w` (this truncates it), writes the
members of the archive one after the other and finally the directory of the archive.  Trusted: a file without the directory cannot be read by `np.load`; when an
exception (an interrupt, a full disk) arrives while a member is written, the archive is closed with the members before it (numpy closes the archive in a
`finally`; `ZipFile.__del__` does the same); a half-written member counts as missing, because reading it raises.
-/

namespace Io

open Agg

/-- A file of the file system: a readable archive, or one without directory. -/
inductive File where
  | zip (d : Dict)
  | torn

/-- Where `save` stops. -/
inductive Stop where
  /-- Before the file is opened. -/
  | before
  /-- The process dies after the file is opened and before the directory is complete. -/
  | killed
  /-- An exception after `k` members (all but the last one if `k` is too large). -/
  | raised (k : Nat)
  | done
  deriving DecidableEq

/-- One call of `save`. -/
structure Call where
  path : Key
  packed : Bool
  mod : String
  name : String
  cls : Cls
  inst : Inst Arr
  stop : Stop

/-- The file system, latest writes first. -/
abbrev Disk := List (Key × File)

/-- The members of the archive, in the order written (io.py:99-116); `none`: an exception before the file is opened. -/
def Call.members (e : Call) : Option Dict :=
  (flatten e.packed e.cls [] e.inst).bind fun d => savez (put (put d moduleKey (.str e.mod)) classKey (.str e.name))

/-- The file system after the call. -/
def Call.run (fs : Disk) (e : Call) : Disk :=
  match e.members with
  | none => fs
  | some d =>
    match e.stop with
    | .before => fs
    | .killed => (npzPath e.path, .torn) :: fs
    | .raised k => (npzPath e.path, .zip (d.dropLast.take k)) :: fs
    | .done => (npzPath e.path, .zip d) :: fs

/-- `load(path)` (io.py:164-197). -/
def loadDisk (fs : Disk) (reg : String → String → Option Cls) (path : Key) : Option Loaded :=
  (fs.lookup path).bind fun f =>
    match f with
    | .torn => none
    | .zip d => load [(path, d)] reg path

end Io
