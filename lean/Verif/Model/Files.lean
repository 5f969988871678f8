import Mathlib.Data.Set.Insert
import Mathlib.Logic.Function.Basic
import Verif.Model.Sampler

/-!
# Model of the state files: `save_state`, `load_state` and their names

Three parts: the names (`pathlib`), the writing of one file as a sequence of system calls on a file system that can lose
power, and the attribute dictionary that is saved and loaded.
-/

namespace Poco.Files

/-! ### names -/

/-- A `pathlib` path: the directory it lies in, and its final component.  Simplification: the directory is opaque. -/
structure FilePath where
  dir : List Char
  name : List Char
deriving DecidableEq

/-- The part of a string after its last `c` (all of it if there is none). -/
def afterLast (c : Char) (s : List Char) : List Char := (s.reverse.takeWhile (· ≠ c)).reverse

/-- The part of a string before its last `c` (the empty string if there is none). -/
def beforeLast (c : Char) (s : List Char) : List Char := (s.reverse.dropWhile (· ≠ c)).tail.reverse

/-- `PurePath.suffix` is not empty (pathlib, Python ≤ 3.13): there is a dot which is neither the first nor the last
character, and it is the last dot. -/
def hasSuffix (name : List Char) : Bool :=
  decide ('.' ∈ name) && decide (afterLast '.' name ≠ []) && decide (beforeLast '.' name ≠ [])

/-- `PurePath.with_suffix` (pathlib); simplification: names are not empty, so that it does not raise. -/
def FilePath.withSuffix (p : FilePath) (suffix : List Char) : FilePath :=
  { p with name := if hasSuffix p.name then beforeLast '.' p.name ++ suffix else p.name ++ suffix }

/-- sampler.py:1033 the temporary file. -/
def tempPath (p : FilePath) : FilePath := p.withSuffix ".temp".toList

/-- sampler.py:446, 495, 521 the f-strings; `t` is written in decimal. -/
def stateFile (label : List Char) : SaveName → List Char
  | .iter t => label ++ '_' :: (Nat.toDigits 10 t ++ ".state".toList)
  | .final => label ++ '_' :: ("final".toList ++ ".state".toList)

/-- sampler.py:446, 495, 521 `Path(self.output_dir) / f'…'`.  A label may contain slashes: what is before the last one goes
to the directory.  `join` is how `pathlib` joins and normalises directories. -/
def statePath (join : List Char → List Char → List Char) (outputDir label : List Char) (n : SaveName) : FilePath :=
  ⟨join outputDir (beforeLast '/' (stateFile label n)), afterLast '/' (stateFile label n)⟩

/-! ### the file system -/

/-- A file system.  `dir` and `data` are what running processes see; `maybe` and `disk` are what is known about the disk:
after a loss of power the entry of a name is one of `maybe` (the values it had since the directory was last written out),
and the content of a file is the one in `disk`, or arbitrary if `disk` has none.  Files are numbered (inodes). -/
structure FS where
  dir : FilePath → Option ℕ
  maybe : FilePath → Set (Option ℕ)
  data : ℕ → List UInt8
  disk : ℕ → Option (List UInt8)
  next : ℕ

/-- `open(p, 'wb')`: an existing file is emptied, otherwise a new one is created. -/
def FS.openWrite (fs : FS) (p : FilePath) : FS × ℕ :=
  match fs.dir p with
  | some i => ({ fs with data := Function.update fs.data i [], disk := Function.update fs.disk i none }, i)
  | none =>
    ({ dir := Function.update fs.dir p (some fs.next)
       maybe := Function.update fs.maybe p (insert (some fs.next) (fs.maybe p))
       data := Function.update fs.data fs.next []
       disk := Function.update fs.disk fs.next none
       next := fs.next + 1 }, fs.next)

/-- `write`: the bytes are appended; until the next `fsync` nothing is known about the content on the disk. -/
def FS.write (fs : FS) (i : ℕ) (bs : List UInt8) : FS :=
  if bs = [] then fs
  else { fs with data := Function.update fs.data i (fs.data i ++ bs), disk := Function.update fs.disk i none }

/-- `fsync`: the content is on the disk (the directory entry need not be). -/
def FS.fsync (fs : FS) (i : ℕ) : FS := { fs with disk := Function.update fs.disk i (some (fs.data i)) }

/-- `rename(p, q)`: atomic for running processes; on the disk both entries may still be the old ones. -/
def FS.rename (fs : FS) (p q : FilePath) : Option FS :=
  match fs.dir p with
  | none => none
  | some i =>
    if p = q then some fs
    else some { fs with
      dir := Function.update (Function.update fs.dir p none) q (some i)
      maybe := Function.update (Function.update fs.maybe p (insert none (fs.maybe p))) q (insert (some i) (fs.maybe q)) }

/-- What a process that opens `p` for reading gets. -/
def FS.read (fs : FS) (p : FilePath) : Option (List UInt8) := (fs.dir p).map fs.data

/-- What may be found at `p` after a loss of power. -/
def FS.AfterPowerLoss (fs : FS) (p : FilePath) (r : Option (List UInt8)) : Prop :=
  ∃ v ∈ fs.maybe p, match v with
    | none => r = none
    | some i => ∃ b, r = some b ∧ ∀ c, fs.disk i = some c → b = c

/-! ### `save_state` -/

/-- The calls `save_state` makes. -/
inductive Op where
  | mkdir
  | openTemp
  | dump
  | flush
  | fsync
  | close
  | rename
deriving DecidableEq

/-- sampler.py:1032-1049 `save_state`, in order. -/
def saveProg : List Op :=
  [.mkdir,      -- sampler.py:1032
   .openTemp,   -- sampler.py:1034
   .dump,       -- sampler.py:1045
   .flush,      -- sampler.py:1046
   .fsync,      -- sampler.py:1047
   .close,      -- sampler.py:1034, the end of the `with` block
   .rename]     -- sampler.py:1049

/-- One call of `save_state`: the path and the bytes `dill` makes of the state. -/
structure Job where
  path : FilePath
  content : List UInt8

/-- A process: the calls of `save_state` still to come, the one it is in with the operations left, the open file, and the
bytes in Python's buffer. -/
structure Proc where
  todo : List Job
  cur : Option (Job × List Op)
  handle : Option ℕ
  buf : List UInt8

/-- One operation.  `mkdir` does not touch files. -/
def exec (j : Job) (fs : FS) (handle : Option ℕ) (buf : List UInt8) : Op → Option (FS × Option ℕ × List UInt8)
  | .mkdir => some (fs, handle, buf)
  | .openTemp => some ((fs.openWrite (tempPath j.path)).1, some (fs.openWrite (tempPath j.path)).2, [])
  | .dump => some (fs, handle, buf ++ j.content)
  | .flush => handle.map fun i => (fs.write i buf, some i, [])
  | .fsync => handle.map fun i => (fs.fsync i, some i, buf)
  | .close => handle.map fun i => (fs.write i buf, none, [])
  | .rename => (fs.rename (tempPath j.path) j.path).map fun fs => (fs, handle, buf)

/-- One step of one process. -/
inductive ProcStep : FS → Proc → FS → Proc → Prop
  /-- `save_state` is called -/
  | start {fs : FS} {j : Job} {js : List Job} {h : Option ℕ} {b : List UInt8} :
      ProcStep fs ⟨j :: js, none, h, b⟩ fs ⟨js, some (j, saveProg), h, b⟩
  /-- an operation -/
  | op {fs fs' : FS} {js : List Job} {j : Job} {o : Op} {os : List Op} {h h' : Option ℕ} {b b' : List UInt8} :
      exec j fs h b o = some (fs', h', b') → ProcStep fs ⟨js, some (j, o :: os), h, b⟩ fs' ⟨js, some (j, os), h', b'⟩
  /-- Python's buffer is full: some of it is written -/
  | leak {fs : FS} {js : List Job} {c : Option (Job × List Op)} {i : ℕ} {b : List UInt8} (n : ℕ) :
      ProcStep fs ⟨js, c, some i, b⟩ (fs.write i (b.take n)) ⟨js, c, some i, b.drop n⟩
  /-- `save_state` raises (in `mkdir`, in `dump` after `n` bytes, disk full …); an open file is closed, which may write some
  of the buffer -/
  | abort {fs : FS} {js : List Job} {j : Job} {os : List Op} {h : Option ℕ} {b : List UInt8} (n m : ℕ) :
      ProcStep fs ⟨js, some (j, os), h, b⟩
        (match h with | some i => fs.write i ((b ++ j.content.take n).take m) | none => fs) ⟨js, none, none, []⟩
  /-- `save_state` returns -/
  | finish {fs : FS} {js : List Job} {j : Job} {h : Option ℕ} {b : List UInt8} :
      ProcStep fs ⟨js, some (j, []), h, b⟩ fs ⟨js, none, h, b⟩

/-- Several processes on one file system; every interleaving of their steps is an execution.  Crash points: a process that
dies is one that takes no further step. -/
inductive Reachable {ι : Type} [DecidableEq ι] (fs₀ : FS) (jobs : ι → List Job) : FS → (ι → Proc) → Prop
  | init : Reachable fs₀ jobs fs₀ fun a => ⟨jobs a, none, none, []⟩
  | step {fs fs' : FS} {ps : ι → Proc} (a : ι) {p' : Proc} :
      Reachable fs₀ jobs fs ps → ProcStep fs (ps a) fs' p' → Reachable fs₀ jobs fs' (Function.update ps a p')

/-! ### the attribute dictionary -/

/-- An attribute dictionary `__dict__`. -/
abbrev Dict (V : Type) := String → Option V

/-- `del d[k]` for a key that is there. -/
def Dict.erase {V : Type} (d : Dict V) (k : String) : Dict V := Function.update d k none

/-- sampler.py:1037-1043, the `try` block: `KeyError`s in it are caught. -/
def dropPool {V : Type} (isNone : V → Bool) (d : Dict V) : Dict V :=
  match d "pool" with
  | none => d
  | some v => if isNone v then d else (d.erase "pool").erase "distribute"

/-- sampler.py:1035-1043: the dictionary that is written; `KeyError` if there is no progress bar attribute. -/
def savedDict {V : Type} (isNone : V → Bool) (d : Dict V) : Except PyErr (Dict V) :=
  match d "pbar" with
  | none => .error .keyError
  | some _ => .ok (dropPool isNone (d.erase "pbar"))

/-- sampler.py:1061: the loaded entries win. -/
def loadedDict {V : Type} (self state : Dict V) : Dict V := fun k => (state k).or (self k)

end Poco.Files
