/-!
# Finite maps

`HashMap` / `BTreeMap` / a storage table as an association list. Enumeration order is the list
order; theorems that claim order independence quantify over permutations.
-/
namespace Verif

/-- A map given by its entries in some enumeration order. -/
abbrev AMap (κ α : Type) := List (κ × α)

namespace AMap
variable {κ α : Type} [DecidableEq κ]

/-- `map.get(&k)`. -/
def get? (m : AMap κ α) (k : κ) : Option α :=
  match m with
  | [] => none
  | (k', v) :: m => if k' = k then some v else get? m k

/-- `map.insert(k, v)`: replace the value in place, otherwise add an entry. -/
def insert (m : AMap κ α) (k : κ) (v : α) : AMap κ α :=
  match m with
  | [] => [(k, v)]
  | (k', v') :: m => if k' = k then (k, v) :: m else (k', v') :: insert m k v

/-- `map.remove(&k)`. -/
def erase (m : AMap κ α) (k : κ) : AMap κ α := m.filter (fun e => decide (e.1 ≠ k))

/-- `map.contains_key(&k)`. -/
def has (m : AMap κ α) (k : κ) : Bool := (m.get? k).isSome

/-- The keys in enumeration order. -/
def keys (m : AMap κ α) : List κ := m.map Prod.fst

end AMap
end Verif
