import Mathlib.Data.List.Infix
import Verif.Model.Py

/-!
# Names of checkpoint files (`qadence/ml_tools/callbacks/saveload.py`)

File names are lists of characters. Simplifications: digits are ASCII digits, the name of the device contains no
characters which are special in regular expressions.
-/

namespace Qadence

/-- A file name. -/
abbrev FName := List Char

/-- `f"{iteration:03n}"` (qadence/ml_tools/callbacks/saveload.py:84) in a locale without grouping of digits. -/
def pad3 (n : Nat) : FName := List.replicate (3 - (Nat.toDigits 10 n).length) '0' ++ Nat.toDigits 10 n

/-- The iteration of a checkpoint: a number, or the string "best" used by `SaveBestCheckpoint`. -/
inductive CkptIter
  | num (n : Nat)
  | best
  deriving DecidableEq, Repr

/-- `iteration_substring` (qadence/ml_tools/callbacks/saveload.py:84). -/
def CkptIter.str : CkptIter → FName
  | .num n => pad3 n
  | .best => "best".toList

/-- The names of the files written by `write_checkpoint` (qadence/ml_tools/callbacks/saveload.py:85-96): `kind` is "model" or "opt", `cls` the name of the class. -/
def ckptName (kind cls : FName) (it : CkptIter) (device : FName) : FName :=
  kind ++ '_' :: (cls ++ '_' :: ("ckpt".toList ++ '_' :: (it.str ++ '_' :: ("device".toList ++ '_' ::
    (device ++ '.' :: "pt".toList)))))

/-- If `name` ends with `suf`: the part before it. -/
def stripSuffix (suf name : FName) : Option FName :=
  if suf <:+ name then some (name.take (name.length - suf.length)) else none

/-- If the string ends with `_` and at least one digit: the number. -/
def trailingIndex (s : FName) : Option Nat :=
  let ds := s.reverse.takeWhile Char.isDigit
  match s.reverse.dropWhile Char.isDigit with
  | '_' :: _ => if ds = [] then none else some (Nat.ofDigitChars 10 ds.reverse 0)
  | _ => none

/-- `re.compile(f".*_(\d+)_device_{device}.pt$").search(f)` (qadence/ml_tools/callbacks/saveload.py:26, 31) for names ending
with ".pt". -/
def matchIndex (device f : FName) : Option Nat :=
  (stripSuffix ('_' :: ("device".toList ++ '_' :: (device ++ '.' :: "pt".toList))) f).bind trailingIndex

/-- `re.compile(".*_(\d+).pt$").search(f)` (qadence/ml_tools/callbacks/saveload.py:27, 30) for names ending with ".pt". -/
def legacyIndex (f : FName) : Option Nat := (stripSuffix ".pt".toList f).bind trailingIndex

/-- The index of a file in the loop (qadence/ml_tools/callbacks/saveload.py:30-37). -/
def fileIndex (device f : FName) : Option Nat :=
  match legacyIndex f with
  | some i => some i
  | none => matchIndex device f

/-- The loop (qadence/ml_tools/callbacks/saveload.py:28-40). -/
def latestLoop (device : FName) : List FName → Int × Option FName → Int × Option FName
  | [], s => s
  | f :: fs, s =>
    latestLoop device fs (match fileIndex device f with
      | some i => if (i : Int) > s.1 then (i, some f) else s
      | none => s)

/-- `[f for f in os.listdir(folder) if f.endswith(".pt") and type in f]` (qadence/ml_tools/callbacks/saveload.py:19). -/
def candidates (files : List FName) (kind : FName) : List FName :=
  files.filter fun f => ".pt".toList <:+ f ∧ kind <:+: f

/-- `get_latest_checkpoint_name` (qadence/ml_tools/callbacks/saveload.py:17-41); `none` is the empty path. -/
def latestCheckpoint (files : List FName) (kind device : FName) : Option FName :=
  let fs := candidates files kind
  match fs with
  | [f] => some f
  | _ => (latestLoop (device.takeWhile (· ≠ ':')) fs (-1, none)).2

end Qadence
