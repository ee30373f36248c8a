import Verif.Model.Graph

/-!
# CPython's `list(set(xs))` for lists of non-negative integers

Used by graph.py 25. The set is an open addressing hash table (`Objects/setobject.c` of CPython 3.7
and later, not part of /repo); a non-negative integer (below 2^61 - 1) is its own
hash. No element is ever removed, so there are no dummy entries.
-/

namespace OM

/-- Slots of the table; the number of slots is a power of two. -/
abbrev PyTable := List (Option Nat)

/-- The slots examined in one round: `i` and, if they exist, the nine following ones. -/
def pyRound (size i : Nat) : List Nat :=
  if i + 9 ≤ size - 1 then (List.range 10).map (i + ·) else [i]

/-- `set_add_entry`: the slot where key `k` is, or is to be put. The first number bounds the number
of rounds (`pyPut_spec`: `k` plus the number of slots is enough). -/
def pyProbe (t : PyTable) (k : Nat) : Nat → Nat → Nat → Option Nat
  | 0, _, _ => none
  | fuel + 1, i, perturb =>
    match (pyRound t.length i).find? (fun j => t[j]? == some none || t[j]? == some (some k)) with
    | some j => some j
    | none => pyProbe t k fuel ((i * 5 + 1 + perturb / 32) % t.length) (perturb / 32)

/-- Store `k` (no change if it is there). -/
def pyPut (t : PyTable) (k : Nat) : PyTable :=
  match pyProbe t k (k + t.length) (k % t.length) k with
  | some j => t.set j (some k)
  | none => t

/-- Number of occupied slots. -/
def pyFill (t : PyTable) : Nat := (t.filterMap id).length

/-- `newsize = 8; while newsize <= minused: newsize <<= 1`. -/
def pyNewSize (minused : Nat) : Nat → Nat → Nat
  | 0, size => size
  | fuel + 1, size => if minused < size then size else pyNewSize minused fuel (2 * size)

/-- The number of slots after a resize with `c` keys: `used > 50000 ? used * 2 : used * 4` is the argument
of `set_table_resize`. -/
def pyGrown (c : Nat) : Nat := pyNewSize (c * if 50000 < c then 2 else 4) (c * 4) 8

/-- `set_table_resize`: reinsert all keys, in table order, into a bigger table. -/
def pyResize (t : PyTable) : PyTable :=
  (t.filterMap id).foldl pyPut (List.replicate (pyGrown (pyFill t)) none)

/-- `set.add`. -/
def pyAdd (t : PyTable) (k : Nat) : PyTable :=
  let t' := pyPut t k
  if (t'.length - 1) * 3 ≤ pyFill t' * 5 then pyResize t' else t'

/-- `list(set(xs))`. -/
def pySetList (xs : List Nat) : List Nat := (xs.foldl pyAdd (List.replicate 8 none)).filterMap id

end OM
