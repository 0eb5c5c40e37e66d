/-!
# Model of `arolla/util/lru_cache.h` (class `LruCache`)

The linked list `entries_` is a `List`; the hash table `index_` is the list of the keys it
holds, and dereferencing an index entry finds the list element with that key.  Dereferencing a
dangling index entry, popping from an empty list and an underflow of `used_capacity_` are
undefined or wrong in C++ and give `none` here.

Simplification: `size_t` weights are natural numbers (no overflow of the sum of all weights).
-/

namespace Verif.Lru

/-- `struct Entry` — lru_cache.h:101-109. -/
structure Entry (K V : Type) where
  key : K
  value : V
  weight : Nat

/-- The data members of `LruCache` — lru_cache.h:145-154. -/
structure Cache (K V : Type) where
  capacity : Nat
  used : Nat
  entries : List (Entry K V)
  index : List K

variable {K V : Type} [DecidableEq K]

/-- Constructor — lru_cache.h:42-45. -/
def Cache.empty (capacity : Nat) : Cache K V :=
  { capacity := capacity, used := 0, entries := [], index := [] }

/-- Dereference of the list iterator stored in `index_` for `key`. -/
def findEntry (key : K) (es : List (Entry K V)) : Option (Entry K V) :=
  es.find? (fun e => e.key = key)

/-- Removes the list node with the given key (first half of `std::list::splice`). -/
def unlink (key : K) (es : List (Entry K V)) : List (Entry K V) :=
  es.eraseP (fun e => e.key = key)

/-- `LookupOrNull` — lru_cache.h:55-62.  Outer `none`: undefined behaviour. -/
def Cache.lookup (c : Cache K V) (key : K) : Option (Cache K V × Option V) :=
  if key ∈ c.index then
    match findEntry key c.entries with
    | none => none
    | some e => some ({ c with entries := e :: unlink key c.entries }, some e.value)
  else
    some (c, none)

/-- The eviction loop of `Put` — lru_cache.h:83-87.  `fuel` bounds the number of loop tests;
running out of it gives `none` (it never does, see `evict_spec`). -/
def Cache.evictLoop : Nat → Cache K V → Option (Cache K V)
  | 0, _ => none
  | fuel + 1, c =>
    if c.used > c.capacity ∧ c.entries.length > 1 then
      match c.entries.getLast? with
      | none => none
      | some back =>
        if c.used < back.weight then none
        else
          Cache.evictLoop fuel
            { c with
              index := c.index.erase back.key
              used := c.used - back.weight
              entries := c.entries.dropLast }
    else
      some c

/-- The eviction loop with enough fuel. -/
def Cache.evict (c : Cache K V) : Option (Cache K V) := c.evictLoop (c.entries.length + 1)

/-- `Put` — lru_cache.h:69-90.  Returns the cache and the value the returned pointer refers to. -/
def Cache.put (c : Cache K V) (key : K) (value : V) (weight : Nat) :
    Option (Cache K V × V) := do
  let used := c.used + weight
  let c ←
    if key ∈ c.index then
      match findEntry key c.entries with
      | none => none
      | some e =>
        if used < e.weight then none
        else
          some
            { c with
              used := used - e.weight
              entries := { key := e.key, value := value, weight := weight } ::
                unlink key c.entries }
    else
      some
        { c with
          used := used
          entries := { key := key, value := value, weight := weight } :: c.entries
          index := key :: c.index }
  let c ← c.evict
  match c.entries.head? with
  | none => none
  | some e => some (c, e.value)

/-- `Clear` — lru_cache.h:93-97. -/
def Cache.clear (c : Cache K V) : Cache K V :=
  { c with entries := [], index := [], used := 0 }

/-- One call of the public API. -/
inductive Op (K V : Type) where
  | put (key : K) (value : V) (weight : Nat)
  | lookup (key : K)
  | clear

/-- Runs one call; the second component is what the caller observes
(`some v`: pointer to `v`; `none`: nullptr or no result). -/
def Cache.step (c : Cache K V) : Op K V → Option (Cache K V × Option V)
  | .put k v w => (c.put k v w).map (fun r => (r.1, some r.2))
  | .lookup k => c.lookup k
  | .clear => some (c.clear, none)

/-- Runs a history of calls and collects what the caller observes. -/
def Cache.run (c : Cache K V) : List (Op K V) → Option (Cache K V × List (Option V))
  | [] => some (c, [])
  | op :: ops => do
    let (c, o) ← c.step op
    let (c, os) ← c.run ops
    some (c, o :: os)

end Verif.Lru
