import Verif.Py

/-!
# Checkpoints

Models `lambeq/training/checkpoint.py` (whole file).

Simplifications. A dict is the list of its items in insertion order. `pickle.dump` and `pickle.load` are
parameters (`Pickle`). The file system maps paths to contents; `dirs` says for which paths `open` in write mode finds
the directory. Writing a file is a sequence of observable states: the truncation by `open(path, 'wb+')`, then
every prefix of the pickled bytes; a crash may leave the file system in any of them.
-/

namespace Lambeq
namespace Train

/-- A Python dict: its items in insertion order. -/
abbrev Dict (V : Type) := List (String × V)

/-- `d[k] = v`: an existing key keeps its position. -/
def Dict.set {V : Type} (d : Dict V) (k : String) (v : V) : Dict V :=
  if d.any (fun p => p.1 == k) then d.map (fun p => if p.1 == k then (k, v) else p) else d ++ [(k, v)]

/-- `d.get(k)` -/
def Dict.get? {V : Type} (d : Dict V) (k : String) : Option V := (d.find? (fun p => p.1 == k)).map (·.2)

/-- The operations of a `Checkpoint` on its entries; `none` of `CkptOp.get` etc. are in `run`. -/
inductive CkptOp (V : Type)
  | set (k : String) (v : V)
  | addMany (vs : Dict V)

/-- checkpoint.py:49-60, 83-93 -/
def CkptOp.apply {V : Type} (e : Dict V) : CkptOp V → Dict V
  | .set k v => e.set k v
  | .addMany vs => vs.foldl (fun e p => e.set p.1 p.2) e

/-- checkpoint.py:62-78 -/
def ckptGet {V : Type} (e : Dict V) (k : String) : Except PyErr V :=
  if e.any (fun p => p.1 == k) then
    match e.get? k with
    | some v => .ok v
    | none => .error .keyError
  else .error .keyError

/-- checkpoint.py:45-47 -/
def ckptLen {V : Type} (e : Dict V) : Nat := e.length

/-- `pickle`: what `dump` writes and `load` reads. -/
structure Pickle (V : Type) where
  dump : Dict V → List UInt8
  load : List UInt8 → Option (Dict V)

/-- File contents by path; `none` if the file does not exist. -/
abbrev Files := String → Option (List UInt8)

/-- Replace the contents of one file. -/
def Files.write (fs : Files) (path : String) (c : List UInt8) : Files := fun p => if p = path then some c else fs p

/-- What can go wrong when loading. -/
inductive FileErr | fileNotFound | unpickling
  deriving DecidableEq, Repr

/-- checkpoint.py:95-117 -/
def fromFile {V : Type} (P : Pickle V) (fs : Files) (path : String) : Except FileErr (Dict V) :=
  match fs path with
  | none => .error .fileNotFound
  | some c => match P.load c with
    | some e => .ok e
    | none => .error .unpickling

/-- checkpoint.py:119-135: the file system and the entries afterwards. -/
def toFile {V : Type} (P : Pickle V) (dirs : String → Bool) (fs : Files) (path : String) (e : Dict V) :
    Except FileErr (Files × Dict V) :=
  if dirs path then .ok (fs.write path (P.dump e), []) else .error .fileNotFound

/-- The file system states a crash during checkpoint.py:129-130 may leave: not yet opened, or opened with the first
`n` bytes written. -/
def crashStates {V : Type} (P : Pickle V) (fs : Files) (path : String) (e : Dict V) : List Files :=
  fs :: (List.range ((P.dump e).length + 1)).map (fun n => fs.write path ((P.dump e).take n))

end Train
end Lambeq
