import Mathlib.Data.List.Basic
import Mathlib.Data.List.Dedup

/-! # Python dictionaries

Insertion-ordered association lists.  Only built through `set`, so keys stay distinct.
-/

namespace Verif

/-- A Python `dict`: entries in insertion order. -/
abbrev Dict (α β : Type*) := List (α × β)

namespace Dict
variable {α β : Type*} [DecidableEq α]

/-- `d.keys()`. -/
def keys (d : Dict α β) : List α := d.map Prod.fst
/-- `d.values()`. -/
def values (d : Dict α β) : List β := d.map Prod.snd

/-- `d.get(k)`. -/
def get? : Dict α β → α → Option β
  | [], _ => none
  | (a, b) :: d, k => if a = k then some b else get? d k

/-- `d[k] = v`: an existing key keeps its position. -/
def set : Dict α β → α → β → Dict α β
  | [], k, v => [(k, v)]
  | (a, b) :: d, k, v => if a = k then (a, v) :: d else (a, b) :: set d k v

/-- `d.update(e)`; also `{**d, **e}`. -/
def update (d e : Dict α β) : Dict α β := e.foldl (fun d p => set d p.1 p.2) d

/-- `dict(items)`. -/
def ofList (l : List (α × β)) : Dict α β := l.foldl (fun d p => set d p.1 p.2) []

end Dict
end Verif
