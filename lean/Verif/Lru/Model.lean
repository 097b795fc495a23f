/-
C16: the LRU cache template, include/common/lru_cache.hpp (used for the baikaldb plan and table caches).

The cache is an unordered_map from keys to nodes plus an intrusive doubly linked list of the same nodes, all under one
mutex.  Modelled: the list, oldest node first, of (key, value); the map always holds the same nodes except inside `add`,
where the node being added is in the map but not in the list, which is why `evict` counts one more than the list has.
Not modelled: hit counters, memory management.
-/
namespace BaikalDB.Lru

variable {K V : Type} [DecidableEq K]

abbrev Cache (K V : Type) := List (K × V)

/-- node->RemoveFromList() of the node with key k, if there is one. -/
def unlink (k : K) (c : Cache K V) : Cache K V := c.filter (fun x => x.1 ≠ k)

/-- lru_cache.hpp L74-79: while (map.size() >= threshold && !list.empty()) remove the head.  `T` is _len_threshold. -/
def evict (T : Int) : Cache K V → Cache K V
  | [] => []
  | x :: r => if ((x :: r).length + 1 : Int) ≥ T then evict T r else x :: r

/-- lru_cache.hpp L64-84. -/
def add (T : Int) (k : K) (v : V) (c : Cache K V) : Cache K V := evict T (unlink k c) ++ [(k, v)]

/-- lru_cache.hpp L41-47, the key is cached. -/
def check (k : K) (c : Cache K V) : Bool := (c.find? (fun x => x.1 = k)).isSome

/-- lru_cache.hpp L50-62: the value, and the cache with the node moved to the end. -/
def find (k : K) (c : Cache K V) : Option V × Cache K V :=
  match c.find? (fun x => x.1 = k) with
  | some x => (some x.2, unlink k c ++ [x])
  | none => (none, c)

/-- lru_cache.hpp L87-97. -/
def del (k : K) (c : Cache K V) : Cache K V := unlink k c

inductive Op (K V : Type) where
  | add (k : K) (v : V)
  | find (k : K)
  | del (k : K)
  | clear

/-- `clear` is lru_cache.hpp L100-113. -/
def step (T : Int) (c : Cache K V) : Op K V → Cache K V
  | .add k v => add T k v c
  | .find k => (find k c).2
  | .del k => del k c
  | .clear => []

def run (T : Int) (c : Cache K V) (h : List (Op K V)) : Cache K V := h.foldl (step T) c

end BaikalDB.Lru
