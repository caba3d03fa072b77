/-!
# Python values shared by the models

Exceptions are values; dictionaries are insertion-ordered association lists.
-/

namespace Qadence

/-- Python exceptions that the modelled code raises. -/
inductive PyErr
  | valueError
  | typeError
  | assertionError
  | keyError
  | indexError
  | attributeError
  | notImplementedError
  | runtimeError
  | unboundLocalError
  | zeroDivisionError
  deriving DecidableEq, Repr

/-- A Python `dict` (insertion ordered), as an association list. -/
abbrev PyDict (κ : Type _) (ν : Type _) := List (κ × ν)

namespace PyDict

variable {κ : Type _} {ν : Type _} [DecidableEq κ]

/-- `d.get(k)`. -/
def get? : PyDict κ ν → κ → Option ν
  | [], _ => none
  | (k', v) :: d, k => if k' = k then some v else get? d k

/-- `d[k] = v`: overwrite in place, or append at the end. -/
def set : PyDict κ ν → κ → ν → PyDict κ ν
  | [], k, v => [(k, v)]
  | (k', v') :: d, k, v => if k' = k then (k', v) :: d else (k', v') :: set d k v

/-- `{k: v for k, v in items}`: later items overwrite earlier ones. -/
def ofItems (items : List (κ × ν)) : PyDict κ ν :=
  items.foldl (fun d kv => set d kv.1 kv.2) []

/-- `{**d, **e}` or `d | e`. -/
def merge (d e : PyDict κ ν) : PyDict κ ν :=
  e.foldl (fun d kv => set d kv.1 kv.2) d

/-- `list(d.keys())`. -/
def keys (d : PyDict κ ν) : List κ := d.map Prod.fst

/-- `list(d.values())`. -/
def values (d : PyDict κ ν) : List ν := d.map Prod.snd

/-- A genuine Python dictionary has no repeated key. -/
def WF (d : PyDict κ ν) : Prop := (d.map Prod.fst).Nodup

instance (d : PyDict κ ν) : Decidable (WF d) := inferInstanceAs (Decidable (List.Nodup _))

end PyDict

end Qadence
