/-!
# Model of the block cache: `bfffs-core/src/cache/lru.rs`

`K` is `cache::Key`; `V` stands for the boxed `Cacheable`s, `sz` for
`Cacheable::cache_space` (taken to be a function of the value).  The `HashMap`
is an association list.  `none` results are panics (assertions, `unwrap`s and
indexing with a missing key).
-/

namespace Verif.Cache

variable {K V : Type} [DecidableEq K]

/-! ## The hash map -/

abbrev HMap (K E : Type) := List (K × E)

def HMap.get {E : Type} (m : HMap K E) (k : K) : Option E :=
  match m with
  | [] => none
  | (k', e) :: m => if k' = k then some e else HMap.get m k

/-- `HashMap::remove` -/
def HMap.erase {E : Type} (m : HMap K E) (k : K) : HMap K E := m.filter (fun p => p.1 ≠ k)

/-- `HashMap::insert` -/
def HMap.put {E : Type} (m : HMap K E) (k : K) (e : E) : HMap K E := (k, e) :: HMap.erase m k

/-- `*HashMap::get_mut(k).unwrap() = f(..)`; `none` if the key is missing. -/
def HMap.modify {E : Type} (m : HMap K E) (k : K) (f : E → E) : Option (HMap K E) :=
  match HMap.get m k with
  | some e => some (HMap.put m k (f e))
  | none => none

/-! ## The cache -/

/-- `LruEntry`, lru.rs:11-18. -/
structure Entry (K V : Type) where
  buf : V
  lru : Option K
  mru : Option K
  deriving DecidableEq, Repr

/-- `LruCache`, lru.rs:28-39. -/
structure Lru (K V : Type) where
  capacity : Nat
  lru : Option K
  mru : Option K
  size : Nat
  store : HMap K (Entry K V)
  deriving DecidableEq, Repr

/-- `with_capacity`, lru.rs:155-158. -/
def withCapacity (cap : Nat) : Lru K V := ⟨cap, none, none, 0, []⟩

/-- `drop_cache`, lru.rs:46-51. -/
def dropCache (c : Lru K V) : Lru K V := { c with store := [], lru := none, mru := none, size := 0 }

/-- `if let Some(k) = k { store.get_mut(k).unwrap().f }` -/
def modifyOpt (m : HMap K (Entry K V)) (k : Option K) (f : Entry K V → Entry K V) :
    Option (HMap K (Entry K V)) :=
  match k with
  | some k => HMap.modify m k f
  | none => some m

/-- The `else` branches of lru.rs:78-81, 138-139 and 144-145: when the entry
`k` has no neighbour `nb` on one side it must be the end `cur` of the list, and
`new` becomes that end.  The debug assertion is modelled as a panic. -/
def relinkEnd (nb cur new : Option K) (k : K) : Option (Option K) :=
  match nb with
  | some _ => some cur
  | none => if cur = some k then some new else none

/-- `remove`, lru.rs:132-149. -/
def remove (sz : V → Nat) (c : Lru K V) (k : K) : Option (Lru K V × Option V) :=
  match HMap.get c.store k with
  | none => some (c, none)
  | some v => do
    let store := HMap.erase c.store k
    let size := c.size - sz v.buf
    -- the more recently used neighbour (135-140)
    let store ← modifyOpt store v.mru (fun e => { e with lru := v.lru })
    let mru ← relinkEnd v.mru c.mru v.lru k
    -- the less recently used neighbour (141-146)
    let store ← modifyOpt store v.lru (fun e => { e with mru := v.mru })
    let lru ← relinkEnd v.lru c.lru v.mru k
    some ({ c with store := store, size := size, mru := mru, lru := lru }, some v.buf)

/-- `expire`, lru.rs:53-60. -/
def expire (sz : V → Nat) (c : Lru K V) : Option (Lru K V) :=
  match c.lru with
  | none => none
  | some k => (remove sz c k).map (·.1)

/-- The `while` loop of lru.rs:100-102.  Each round removes one entry, so the
number of entries bounds the rounds; with none left `expire` panics. -/
def evict (sz : V → Nat) (space : Nat) : Nat → Lru K V → Option (Lru K V)
  | 0, c => if c.size + space > c.capacity then none else some c
  | n + 1, c =>
    if c.size + space > c.capacity then
      match expire sz c with
      | none => none
      | some c => evict sz space n c
    else some c

/-- `get`, lru.rs:62-89. -/
def get (c : Lru K V) (k : K) : Option (Lru K V × Option V) :=
  if c.mru = some k then
    match HMap.get c.store k with
    | none => none
    | some e => some (c, some e.buf)
  else
    match HMap.get c.store k with
    | none => some (c, none)
    | some v => do
      let store := HMap.put c.store k { v with mru := none, lru := c.mru }
      -- line 76 unwraps `v_mru`
      let vm ← v.mru
      let store ← HMap.modify store vm (fun e => { e with lru := v.lru })
      let store ← modifyOpt store v.lru (fun e => { e with mru := v.mru })
      let lru ← relinkEnd v.lru c.lru v.mru k
      let store ← modifyOpt store c.mru (fun e => { e with mru := some k })
      some ({ c with store := store, lru := lru, mru := some k }, some v.buf)

/-- `get_ref`, lru.rs:91-95. -/
def getRef (c : Lru K V) (k : K) : Option V := (HMap.get c.store k).map (·.buf)

variable [DecidableEq V]

/-- `insert`, lru.rs:97-130. -/
def insert (sz : V → Nat) (c : Lru K V) (k : K) (buf : V) : Option (Lru K V) :=
  let space := sz buf
  if space ≤ c.capacity then
    match evict sz space c.store.length c with
    | none => none
    | some c =>
      match HMap.get c.store k with
      | some old => if old.buf = buf then some c else none
      | none =>
        let store := HMap.put c.store k ⟨buf, c.mru, none⟩
        let size := c.size + space
        match c.mru with
        | some m =>
          match HMap.get store m with
          | some v =>
            -- debug_assert at 121
            if v.mru = none then
              some { c with
                store := HMap.put store m { v with mru := some k }
                size := size
                mru := some k
                lru := c.lru.or (some k) }
            else none
          | none => some { c with
              store := store, size := size, mru := some k, lru := c.lru.or (some k) }
        | none => some { c with
            store := store, size := size, mru := some k, lru := c.lru.or (some k) }
  else none

end Verif.Cache
