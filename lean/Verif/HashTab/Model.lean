import Verif.Base
/-!
The hash tables and sets of the compiler library: `ravicomp/src/hash_table.c` and
`ravicomp/src/set.c`.

The two files hold the same code; an entry of a set has no `data`, so a set is a table whose data
is `Unit`.  Line numbers below are those of `hash_table.c`, then of `set.c`.

Pointers to keys are values of a type `K`, the two magic pointers `NULL` and `deleted_key` are the
entries `free` and `deleted`.  The hash function and the key comparison are the ones the creator of
the table passed (`hash_table.c` 108-119).  Allocation is assumed to succeed; the array of entries
is a function from addresses, of which `size` count.
-/
namespace Verif.HashTab

/-- `hash_sizes`, hash_table.c 54-88, set.c 53-87: `max_entries`, `size`, `rehash`. -/
def hashSizes : List (Nat × Nat × Nat) := [
  (2, 5, 3), (4, 7, 5), (8, 13, 11), (16, 19, 17), (32, 43, 41), (64, 73, 71), (128, 151, 149),
  (256, 283, 281), (512, 571, 569), (1024, 1153, 1151), (2048, 2269, 2267), (4096, 4519, 4517),
  (8192, 9013, 9011), (16384, 18043, 18041), (32768, 36109, 36107), (65536, 72091, 72089),
  (131072, 144409, 144407), (262144, 288361, 288359), (524288, 576883, 576881),
  (1048576, 1153459, 1153457), (2097152, 2307163, 2307161), (4194304, 4613893, 4613891),
  (8388608, 9227641, 9227639), (16777216, 18455029, 18455027), (33554432, 36911011, 36911009),
  (67108864, 73819861, 73819859), (134217728, 147639589, 147639587),
  (268435456, 295279081, 295279079), (536870912, 590559793, 590559791),
  (1073741824, 1181116273, 1181116271), (2147483648, 2362232233, 2362232231)]

/-- `HashEntry` / `SetEntry` (hash_table.h 37-41, set.h 34-37), with the tests `entry_is_free`,
`entry_is_deleted`, `entry_is_present` (hash_table.c 90-106, set.c 89-105) turned into
constructors.  `hash` and `data` of an entry that is not present are never read, and left out. -/
inductive Entry (K V : Type) where
  | free
  | deleted
  | present (hash : Nat) (key : K) (data : V)

/-- `HashTable` / `Set` (hash_table.h 43-53, set.h 39-49) -/
structure HT (K V : Type) where
  tab : Nat → Entry K V
  sizeIndex : Nat
  size : Nat
  rehash : Nat
  maxEntries : Nat
  entries : Nat
  deleted : Nat

variable {K V : Type}

/-- one entry of the array changes -/
def HT.put (t : HT K V) (a : Nat) (e : Entry K V) : HT K V :=
  { t with tab := fun b => if b = a then e else t.tab b }

/-- A table of size class `i` with all entries zeroed by `calloc`; `none` past the end of
`hash_sizes`. -/
def fresh (i : Nat) : Option (HT K V) :=
  (hashSizes[i]?).map fun c =>
    { tab := fun _ => .free, sizeIndex := i, size := c.2.1, rehash := c.2.2, maxEntries := c.1,
      entries := 0, deleted := 0 }

/-- `raviX_hash_table_create` 108-133, `raviX_set_create` 107-131 -/
def create : HT K V :=
  { tab := fun _ => .free, sizeIndex := 0, size := 5, rehash := 3, maxEntries := 2, entries := 0,
    deleted := 0 }

/-- the step of a probe: `double_hash = 1 + hash % ht->rehash;
hash_address = (hash_address + double_hash) % ht->size` in `uint32_t` (199-201, 310-312; set.c
201-203, 305-307) -/
def nextAddr (t : HT K V) (hash a : Nat) : Nat := (a + (1 + hash % t.rehash)) % 2 ^ 32 % t.size

/-- `entry->hash == hash && key_equals_function(key, entry->key)` for an entry that is present
(193-194, 301-303; set.c 195-196, 297-299) -/
def Entry.is (eq : K → K → Bool) (hash : Nat) (key : K) : Entry K V → Bool
  | .present h k _ => h == hash && eq key k
  | _ => false

/-- the `do … while` of `raviX_hash_table_search_pre_hashed` 186-202 (set.c 188-204); the address
of the entry found.  Fuel stands for the loop going on for ever. -/
def searchLoop (eq : K → K → Bool) (t : HT K V) (hash : Nat) (key : K) (start : Nat) :
    Nat → Nat → Res (Option Nat)
  | 0, _ => .ub
  | fuel + 1, a =>
    match t.tab a with
    | .free => .ok none
    | e =>
      if e.is eq hash key then .ok (some a)
      else
        let a' := nextAddr t hash a
        if a' ≠ start then searchLoop eq t hash key start fuel a' else .ok none

/-- `raviX_hash_table_search_pre_hashed` 179-205, `raviX_set_search_pre_hashed` 183-207 -/
def searchPre (eq : K → K → Bool) (t : HT K V) (hash : Nat) (key : K) : Res (Option Nat) :=
  searchLoop eq t hash key (hash % t.size) t.size (hash % t.size)

/-- `for (; entry != ht->table + ht->size; entry++) if (entry_is_present(entry)) return entry;`
(hash_table.c 380-384, set.c 371-375) with `n` entries to go -/
def nextFrom (t : HT K V) : Nat → Nat → Option Nat
  | 0, _ => none
  | n + 1, a => match t.tab a with
    | .present _ _ _ => some a
    | _ => nextFrom t n (a + 1)

/-- `raviX_hash_table_next_entry` 372-387, `raviX_set_next_entry` 364-378 -/
def nextEntry (t : HT K V) (e : Option Nat) : Option Nat :=
  let a := match e with
    | none => 0
    | some a => a + 1
  nextFrom t (t.size - a) a

/-- The entries `hash_table_foreach` / `set_foreach` (hash_table.h 88-91, set.h 77-80) visits after
entry `e`, in order; at most `fuel` of them. -/
def foreachFrom (t : HT K V) : Nat → Option Nat → List Nat
  | 0, _ => []
  | fuel + 1, e => match nextEntry t e with
    | none => []
    | some a => a :: foreachFrom t fuel (some a)

/-- the entries a `foreach` over the table visits -/
def foreach (t : HT K V) : List Nat := foreachFrom t t.size none

/-- the search loop of `raviX_hash_table_insert_pre_hashed` 278-313 (set.c 276-308): either the
entry to replace, or the first entry that can be used, if there is any -/
def insertLoop (eq : K → K → Bool) (t : HT K V) (hash : Nat) (key : K) (start : Nat) :
    Nat → Nat → Option Nat → Res (Option Nat × Option Nat)
  | 0, _, _ => .ub
  | fuel + 1, a, avail =>
    let avail := match t.tab a with
      | .present _ _ _ => avail
      | _ => match avail with
        | none => some a
        | some b => some b
    match t.tab a with
    | .free => .ok (none, avail)
    | e =>
      if e.is eq hash key then .ok (some a, avail)
      else
        let a' := nextAddr t hash a
        if a' ≠ start then insertLoop eq t hash key start fuel a' avail else .ok (none, avail)

/-- `if (available_entry) { if (entry_is_deleted(..)) ht->deleted_entries--; …; ht->entries++ }`
315-323 (set.c 310-317) -/
def fill (t : HT K V) (hash : Nat) (key : K) (data : V) (a : Nat) : HT K V :=
  let d := match t.tab a with
    | .deleted => t.deleted - 1
    | _ => t.deleted
  { t.put a (.present hash key data) with entries := t.entries + 1, deleted := d }

/-- `raviX_hash_table_insert_pre_hashed` 263-329 (set.c 264-323) from the line after the check for a
resize on: the table and the entry returned (`none`: `NULL`) -/
def insertCore (eq : K → K → Bool) (t : HT K V) (hash : Nat) (key : K) (data : V) :
    Res (HT K V × Option Nat) :=
  match insertLoop eq t hash key (hash % t.size) t.size (hash % t.size) none with
  | .ok (some a, _) => .ok (t.put a (.present hash key data), some a)
  | .ok (none, some a) => .ok (fill t hash key data a, some a)
  | .ok (none, none) => .ok (t, none)
  | .err m => .err m
  | .ub => .ub

/-- the loop of `hash_table_rehash` 228-231 (set.c 230-231) over the entries of the old table;
`ins` is `insert_pre_hashed` -/
def rehashLoop (ins : HT K V → Nat → K → V → Res (HT K V × Option Nat)) (old : HT K V) :
    HT K V → List Nat → Res (HT K V)
  | t, [] => .ok t
  | t, a :: l => match old.tab a with
    | .present h k v => match ins t h k v with
      | .ok (t', _) => rehashLoop ins old t' l
      | .err m => .err m
      | .ub => .ub
    | _ => rehashLoop ins old t l

/-- `hash_table_rehash` 207-234, `set_rehash` 209-234 -/
def rehashTo (ins : HT K V → Nat → K → V → Res (HT K V × Option Nat)) (t : HT K V) (i : Nat) :
    Res (HT K V) :=
  match fresh i with
  | none => .ok t
  | some t' => rehashLoop ins t t' (foreach t)

/-- `raviX_hash_table_insert_pre_hashed` 263-329, `raviX_set_add_pre_hashed` 264-323.  It and
`rehash` call each other; `d` bounds how deep they may do so, and running out of it counts as
undefined.  (`insert_ok` shows that two levels are enough.) -/
def insertPre (eq : K → K → Bool) : Nat → HT K V → Nat → K → V → Res (HT K V × Option Nat)
  | 0, _, _, _, _ => .ub
  | d + 1, t, hash, key, data =>
    if t.entries ≥ t.maxEntries then
      match rehashTo (insertPre eq d) t (t.sizeIndex + 1) with
      | .ok t' => insertCore eq t' hash key data
      | .err m => .err m
      | .ub => .ub
    else if t.deleted + t.entries ≥ t.maxEntries then
      match rehashTo (insertPre eq d) t t.sizeIndex with
      | .ok t' => insertCore eq t' hash key data
      | .err m => .err m
      | .ub => .ub
    else insertCore eq t hash key data

/-- `raviX_hash_table_search` 165-171, `raviX_set_search` 171-176 -/
def search (eq : K → K → Bool) (hashf : K → Nat) (t : HT K V) (key : K) : Res (Option Nat) :=
  searchPre eq t (hashf key) key

/-- `raviX_hash_table_insert` 242-255, `raviX_set_add` 243-255 -/
def insert (eq : K → K → Bool) (hashf : K → Nat) (t : HT K V) (key : K) (data : V) :
    Res (HT K V × Option Nat) :=
  insertPre eq 2 t (hashf key) key data

/-- `raviX_hash_table_remove_entry` 355-364, `raviX_set_remove_entry` 347-355 -/
def removeEntry (t : HT K V) : Option Nat → HT K V
  | none => t
  | some a => { t.put a .deleted with entries := t.entries - 1, deleted := t.deleted + 1 }

/-- `raviX_hash_table_remove` 339-347, `raviX_set_remove` 332-339 -/
def remove (eq : K → K → Bool) (hashf : K → Nat) (t : HT K V) (key : K) : Res (HT K V) :=
  match search eq hashf t key with
  | .ok e => .ok (removeEntry t e)
  | .err m => .err m
  | .ub => .ub

/-- `raviX_set_contains` 157-164 -/
def contains (eq : K → K → Bool) (hashf : K → Nat) (t : HT K V) (key : K) : Res Bool :=
  match search eq hashf t key with
  | .ok e => .ok e.isSome
  | .err m => .err m
  | .ub => .ub

/-- A user's loop `foreach (t, entry) if (p (entry)) remove_entry (t, entry)`, which the comments
at hash_table.c 352-354 and set.c 344-345 allow; at most `fuel` turns. -/
def purgeFrom (p : K → V → Bool) : Nat → HT K V → Option Nat → HT K V
  | 0, t, _ => t
  | fuel + 1, t, e => match nextEntry t e with
    | none => t
    | some a => match t.tab a with
      | .present _ k v =>
        purgeFrom p fuel (if p k v then removeEntry t (some a) else t) (some a)
      | _ => t

/-- the loop above over the whole table -/
def purge (p : K → V → Bool) (t : HT K V) : HT K V := purgeFrom p t.size t none

/-- What a user can do to a table. -/
inductive Op (K V : Type) where
  | insert (k : K) (v : V)
  | remove (k : K)
  | purge (p : K → V → Bool)

/-- one call -/
def step (eq : K → K → Bool) (hashf : K → Nat) (t : HT K V) : Op K V → Res (HT K V)
  | .insert k v => match insert eq hashf t k v with
    | .ok (t', _) => .ok t'
    | .err m => .err m
    | .ub => .ub
  | .remove k => remove eq hashf t k
  | .purge p => .ok (purge p t)

/-- a history of calls -/
def run (eq : K → K → Bool) (hashf : K → Nat) : HT K V → List (Op K V) → Res (HT K V)
  | t, [] => .ok t
  | t, o :: l => match step eq hashf t o with
    | .ok t' => run eq hashf t' l
    | .err m => .err m
    | .ub => .ub

/-- the key and the data a search finds (`entry->key`, `entry->data`) -/
def get (eq : K → K → Bool) (hashf : K → Nat) (t : HT K V) (key : K) : Res (Option (K × V)) :=
  match search eq hashf t key with
  | .ok none => .ok none
  | .ok (some a) => match t.tab a with
    | .present _ k v => .ok (some (k, v))
    | _ => .ub
  | .err m => .err m
  | .ub => .ub

/-- the keys and data a `foreach` visits, in order -/
def contents (t : HT K V) : List (K × V) :=
  (foreach t).filterMap fun a => match t.tab a with
    | .present _ k v => some (k, v)
    | _ => none

end Verif.HashTab
