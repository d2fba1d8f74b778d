/-!
Python dictionaries as association lists in insertion order (CPython ≥ 3.7 semantics).
-/

namespace Toffee

/-- A Python `dict`: entries in insertion order.  Keys of a dictionary built with `set`/`del` are
pairwise distinct (`Dict.Nodup`). -/
abbrev Dict (κ ν : Type) := List (κ × ν)

namespace Dict
variable {κ ν : Type} [DecidableEq κ]

/-- `list(d.keys())`. -/
def keys {κ ν : Type} (d : Dict κ ν) : List κ := d.map Prod.fst

/-- `d.get(k)`. -/
def get? : Dict κ ν → κ → Option ν
  | [], _ => none
  | (k', v) :: d, k => if k' = k then some v else get? d k

/-- `k in d`. -/
def has (d : Dict κ ν) (k : κ) : Bool := (get? d k).isSome

/-- `d[k] = v`: replaces in place, or appends at the end. -/
def set : Dict κ ν → κ → ν → Dict κ ν
  | [], k, v => [(k, v)]
  | (k', v') :: d, k, v => if k' = k then (k', v) :: d else (k', v') :: set d k v

/-- `del d[k]` (no effect when absent; callers check membership first). -/
def del : Dict κ ν → κ → Dict κ ν
  | [], _ => []
  | (k', v') :: d, k => if k' = k then d else (k', v') :: del d k

/-- In-place update of the value stored under `k`. -/
def modify : Dict κ ν → κ → (ν → ν) → Dict κ ν
  | [], _, _ => []
  | (k', v') :: d, k, f => if k' = k then (k', f v') :: d else (k', v') :: modify d k f

end Dict
end Toffee
