import Mathlib.Logic.Function.Basic
import Mathlib.Data.List.Basic

/-!
# The cache of parser models (C92)

Models `ModelDownloader` (text2diagram/model_based_reader/model_downloader.py:51-273) and `ModelBasedReader._prepare_model_artifacts` (text2diagram/model_based_reader/base.py:101-127) for a model
name, with crashes at any write.

Simplifications: the answers of the server are a parameter of each session. SHA-256 and the unpacking of an archive are functions given from outside. Bytes are characters. The model
directory is a map from paths to contents; files are written one character at a time, so that the crash points of a coarser writing are among those
of the model. Extraction into the temporary directory does not touch the model directory. Messages and progress bars are left out. A failure of a write (full disk) is a crash.
-/

namespace Lambeq
namespace Store

/-- Answers to the three requests; `none` where `requests.get` raises. -/
structure Server where
  version : Option (List Char)
  checksum : Option (List Char)
  archive : Option (Nat × List Char)

/-- SHA-256 and the unpacking of archives (`none`: `tarfile.TarError`). -/
structure Env where
  sha : List Char → List Char
  untar : List Char → Option (List (String × List Char))

/-- The model directory; `none` if there is none. -/
abbrev Disk := Option (String → Option (List Char))

/-- model_downloader.py:36 -/
def versionFile : String := "version.txt"

/-- `str.strip` -/
def strip (s : List Char) : List Char := ((s.dropWhile Char.isWhitespace).reverse.dropWhile Char.isWhitespace).reverse

/-- `s.split(' ')[0]` -/
def firstField (s : List Char) : List Char := s.takeWhile (· != ' ')

inductive Write
  | mkdir
  | create (f : String)
  | put (f : String) (c : Char)

def Write.run : Write → Disk → Disk
  | .mkdir, none => some (fun _ => none)
  | .mkdir, some d => some d
  | .create f, some d => some (Function.update d f (some []))
  | .put f c, some d => some (Function.update d f (some ((d f).getD [] ++ [c])))
  | _, none => none

def runs (ws : List Write) (d : Disk) : Disk := ws.foldl (fun d w => w.run d) d

/-- Opening a file for writing and writing it. -/
def writeFile (f : String) (s : List Char) : List Write := .create f :: s.map (.put f)

/-- model_downloader.py:212-214: `copytree` with `dirs_exist_ok=True`. -/
def copyTree (files : List (String × List Char)) : List Write := .mkdir :: files.flatMap (fun p => writeFile p.1 p.2)

/-- Exceptions: `ModelDownloaderError`, or that of `requests.get` for the archive. -/
inductive Err | downloader | requests
  deriving DecidableEq

/-- model_downloader.py:77-85, 219-233: `remote_version` -/
def remoteVersion (s : Server) : Option (List Char) := s.version.map strip

/-- model_downloader.py:122-131 -/
def localVersion : Disk → Option (List Char)
  | none => none
  | some d => (d versionFile).map strip

/-- model_downloader.py:111-120 -/
def isStale (s : Server) (d : Disk) : Bool := match remoteVersion s with
  | none => false
  | some v => decide (some v ≠ localVersion d)

/-- model_downloader.py:133-217: the writes of a download without a crash. -/
def download (env : Env) (s : Server) : Except Err (List Write) :=
  match remoteVersion s with
  | none => .error .downloader
  | some v => match s.checksum with
    | none => .error .downloader
    | some sum => match s.archive with
      | none => .error .requests
      | some (status, body) =>
        if status ≠ 200 then .error .downloader
        else if env.sha body ≠ firstField sum then .error .downloader
        else match env.untar body with
          | none => .error .downloader
          | some files => .ok (copyTree files ++ writeFile versionFile v)

/-- How a session ends: the reader goes on to load the model, or an exception. -/
inductive Outcome
  | loads
  | raises (e : Err)
  deriving DecidableEq

/-- base.py:101-127: the writes of a session and its end. -/
def session (env : Env) (s : Server) (force : Bool) (d : Disk) : List Write × Outcome :=
  if force || d.isNone || isStale s d then
    match download env s with
    | .ok ws => (ws, .loads)
    | .error .requests => ([], .raises .requests)
    | .error .downloader => if d.isSome && (localVersion d).isSome then ([], .loads) else ([], .raises .downloader)
  else ([], .loads)

/-- The directory after a session, which ends after `k` writes if it crashes. -/
def after (env : Env) (s : Server) (force : Bool) (crash : Option Nat) (d : Disk) : Disk :=
  match crash with
  | none => runs (session env s force d).1 d
  | some k => runs ((session env s force d).1.take k) d

/-- A history of sessions: the server, `force_download`, the crash. -/
def history (env : Env) (h : List (Server × Bool × Option Nat)) (d : Disk) : Disk := h.foldl (fun d x => after env x.1 x.2.1 x.2.2 d) d

/-! ## Specification -/

/-- All files of a release are there. -/
def Complete (files : List (String × List Char)) : Disk → Prop
  | none => False
  | some d => ∀ p ∈ files, d p.1 = some p.2

/-- The server has the release `v` with these files: its version answers are this version or fail, and whatever passes the checksum unpacks to these files. -/
def Publishes (env : Env) (v : List Char) (files : List (String × List Char)) (s : Server) : Prop :=
  (∀ r, s.version = some r → strip r = v) ∧ ∀ status body fs, s.archive = some (status, body) → env.untar body = some fs → fs = files

/-- The server answers, with the archive of these files. -/
def Serves (env : Env) (v : List Char) (files : List (String × List Char)) (s : Server) : Prop :=
  (∃ r, s.version = some r ∧ strip r = v) ∧ ∃ sum body, s.checksum = some sum ∧ s.archive = some (200, body) ∧ env.sha body = firstField sum ∧ env.untar body = some files

end Store
end Lambeq
