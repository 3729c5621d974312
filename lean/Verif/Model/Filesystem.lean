import Mathlib.Data.List.Basic

/-!
# Names of files

Models the functions for paths of `include/aleph/utilities/Filesystem.hh`.  Paths do not contain null characters.  Functions that query the file system are not modelled.
-/

namespace Aleph.Filesystem

/-- `basename` of the system (POSIX), for a path that is not empty: slashes at the end are removed, and everything up to the last slash is removed; the result for a path that consists of slashes is
a slash. -/
def systemBasename (path : List Char) : List Char :=
  let path := path.reverse.dropWhile (· == '/')
  if path.isEmpty then ['/'] else (path.takeWhile (· != '/')).reverse

/-- `basename`, `Filesystem.hh:130-161`. -/
def basename (path : List Char) : List Char := if path.isEmpty then [] else systemBasename path

/-- The condition in `stem` and `extension`, `Filesystem.hh:176, 199`. -/
def undivided (filename : List Char) : Bool := !filename.contains '.' || filename == ['.'] || filename == ['.', '.']

/-- `find_last_of( '.' )`, for a string that contains a dot. -/
def lastDot (filename : List Char) : ℕ := filename.length - 1 - filename.reverse.idxOf '.'

/-- `stem`, `Filesystem.hh:172-181`. -/
def stem (path : List Char) : List Char :=
  let filename := basename path
  if undivided filename then filename else filename.take (lastDot filename)

/-- `extension`, `Filesystem.hh:195-204`. -/
def extension (path : List Char) : List Char :=
  let filename := basename path
  if undivided filename then [] else filename.drop (lastDot filename)

/-- `tempDirectory`, `Filesystem.hh:212-251`, on a POSIX system; `env` are the environment variables, `P_tmpdir` and `_PATH_TMP` the macros of the system. -/
def tempDirectory (env : String → Option (List Char)) (P_tmpdir PATH_TMP : Option (List Char)) : List Char :=
  match env "TMPDIR" with
  | some d => d
  | none =>
    match env "TMP" with
    | some d => d
    | none =>
      match env "TEMP" with
      | some d => d
      | none =>
        match env "TEMPDIR" with
        | some d => d
        | none =>
          match P_tmpdir with
          | some d => d
          | none =>
            match PATH_TMP with
            | some d => d
            | none => []

end Aleph.Filesystem
