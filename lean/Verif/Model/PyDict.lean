/-
Python dictionaries (insertion ordered) and `sorted`, used by every module of the model.
These model the Python language, not a file of /repo; Python's semantics is part of the trusted base.
-/
import Mathlib.Data.List.Sort
import Mathlib.Data.Prod.Lex
import Mathlib.Order.Lattice

namespace FIAT

/-- A Python `dict`: an association list in insertion order.  `Dict.WF` says keys are distinct. -/
abbrev Dict (κ α : Type*) := List (κ × α)

namespace Dict
variable {κ α β : Type*}

/-- `d.keys()` in iteration order. -/
def keys (d : Dict κ α) : List κ := d.map Prod.fst

/-- Every Python dict has distinct keys. -/
def WF (d : Dict κ α) : Prop := d.keys.Nodup

variable [DecidableEq κ]

/-- `d[k]`; `none` is `KeyError`. -/
def get? : Dict κ α → κ → Option α
  | [], _ => none
  | (k', v) :: d, k => if k' = k then some v else get? d k

/-- `d[k] = v`: overwrite in place or append. -/
def put : Dict κ α → κ → α → Dict κ α
  | [], k, v => [(k, v)]
  | (k', v') :: d, k, v => if k' = k then (k', v) :: d else (k', v') :: put d k v

/-- `d.setdefault(k, []).append(x)`; also `defaultdict(list)[k] += [x]`. -/
def appendAt (d : Dict κ (List α)) (k : κ) (xs : List α) : Dict κ (List α) :=
  d.put k ((d.get? k).getD [] ++ xs)

end Dict

/-- Python `sorted(l)` for a totally ordered element type. -/
def pySorted {α : Type*} [LinearOrder α] (l : List α) : List α := l.insertionSort (· ≤ ·)

/-- `sorted(d.items())` for a dictionary: since the keys are distinct, tuples are ordered by key. -/
def sortedItems {κ α : Type*} [LinearOrder κ] (d : Dict κ α) : List (κ × α) :=
  d.insertionSort (fun a b => a.1 ≤ b.1)

end FIAT
