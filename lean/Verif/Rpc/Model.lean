import Verif.Forest.PropModel

/-!
# Requests to the daemon, and the client library

bfffs-core/src/rpc.rs (the messages), bfffs/src/bin/bfffsd/main.rs (`Bfffsd`, the server) and
bfffs/src/lib.rs (`Bfffs`, the client library).  The file systems are those of `Verif.Forest`; the
disks of the pool are a state of any type `P` with the operations of `Sys`.

Not modelled: the encoding of the messages, except for its size; one request is answered before the
next is read, as `handle_client` (bfffsd/main.rs:119-147) does for each connection.
-/

namespace Verif.Rpc

open Verif (OMap)
open Verif.Forest
open Verif.Property (Str Prp PName Source)

/-- The errors a response may carry: those of the file system names, `EPERM`, and whatever the kernel
said to mount(2) or unmount(2). -/
inductive Err where
  | core (e : Errno)
  | eperm
  | sys
  deriving DecidableEq, Repr

/-- `bfffs_core::Result` -/
inductive Ans (α : Type) where
  | ok (a : α)
  | err (e : Err)
  deriving DecidableEq, Repr

/-- rpc.rs:37-42 `fs::DsInfo` -/
structure DsInfo where
  name : Str
  props : List (Prp × Source)
  offset : Nat
  deriving DecidableEq, Repr

/-- rpc.rs:190-196 `pool::PoolStatus`, as far as the client looks into it: the path and the UUID of each
leaf, in each mirror, in each cluster. -/
abbrev Status := List (List (List (Str × Nat)))

/-- rpc.rs:284-300 `Request` -/
inductive Request where
  | dropCache
  | fsCreate (name : Str) (props : List Prp)
  | fsDestroy (name : Str)
  | fsList (name : Str) (props : List PName) (offset : Option Nat)
  | fsMount (name : Str)
  | fsSet (name : Str) (props : List Prp)
  | fsStat (name : Str) (props : List PName)
  | fsUnmount (name : Str) (force : Bool)
  | poolClean (pool : Str)
  | poolFault (pool : Str) (device : Nat)
  | poolAttach (pool : Str) (mirror : Nat) (leaf : Str)
  | poolList (pool : Option Str) (offset : Option Nat)
  | poolStatus (pool : Str)
  deriving DecidableEq, Repr

/-- rpc.rs:302-317 `Response` -/
inductive Response where
  | dropCache (r : Ans Unit)
  | fsCreate (r : Ans Nat)
  | fsDestroy (r : Ans Unit)
  | fsList (r : Ans (List DsInfo))
  | fsMount (r : Ans Unit)
  | fsSet (r : Ans Unit)
  | fsStat (r : Ans DsInfo)
  | fsUnmount (r : Ans Unit)
  | poolClean (r : Ans Unit)
  | poolFault (r : Ans Unit)
  | poolAttach (r : Ans Unit)
  | poolList (r : Ans (List (Str × Nat)))
  | poolStatus (r : Ans Status)
  deriving DecidableEq, Repr

/-- What the model does not compute: the environment of the file systems, the user the daemon runs as,
and what happens to the pool's disks and caches. -/
structure Sys (D P : Type) where
  env : Env D
  owner : Nat
  dropCache : P → P
  clean : P → P
  fault : Nat → P → P × Ans Unit
  attach : Nat → Str → P → P × Ans Unit
  status : P → Status

/-- What differs from one request to the next and is not the daemon's doing: whether mount(2) or
unmount(2) succeeds, and in which order the futures that set the properties of a new file system
finish. -/
structure Oracle where
  sysOk : Bool
  order : List Prp → List Prp

/-- The daemon's state. -/
structure Srv (D P : Type) where
  db : Db D
  dev : P

variable {D P : Type}

/-- The result of a controller call as an answer; `none` is a panic. -/
def ofRes {α : Type} : Res α → Option (Ans α)
  | .ok a => some (.ok a)
  | .err e => some (.err (.core e))
  | .panic => none

/-- bfffsd/main.rs:309-320, 373-381: the properties asked for, of one dataset. -/
def propsOf (e : Env D) (db : Db D) (name : Str) : List PName → Db D × Res (List (Prp × Source))
  | [] => (db, .ok [])
  | n :: ns =>
    match getProp e db name n with
    | (db, .ok v) =>
      match propsOf e db name ns with
      | (db, .ok vs) => (db, .ok (v :: vs))
      | (db, .err x) => (db, .err x)
      | (db, .panic) => (db, .panic)
    | (db, .err x) => (db, .err x)
    | (db, .panic) => (db, .panic)

/-- controller.rs:294-299: the name of a child with its parent's before it. -/
def childName (parent n : Str) : Str := if n = [] then parent else parent ++ '/' :: n

/-- bfffsd/main.rs:303-330: the entries of one page.  The lookups run side by side and their results
are taken in order; here they also run in order. -/
def infos (e : Env D) (db : Db D) (parent : Str) (props : List PName) :
    List (Str × Nat × Nat) → Db D × Res (List DsInfo)
  | [] => (db, .ok [])
  | (n, _, offs) :: rest =>
    match propsOf e db (childName parent n) props with
    | (db, .ok vs) =>
      match infos e db parent props rest with
      | (db, .ok l) => (db, .ok (⟨childName parent n, vs, offs⟩ :: l))
      | (db, .err x) => (db, .err x)
      | (db, .panic) => (db, .panic)
    | (db, .err x) => (db, .err x)
    | (db, .panic) => (db, .panic)

/-- bfffsd/main.rs:295 `CHUNKQTY` -/
def chunkQty : Nat := 64

/-- bfffsd/main.rs:293-336: one page of a listing. -/
def serveList (e : Env D) (db : Db D) (name : Str) (props : List PName) (offs : Option Nat) :
    Db D × Res (List DsInfo) :=
  match listFs e db name (offs.getD 0) with
  | .ok l => infos e db name props (l.take chunkQty)
  | .err x => (db, .err x)
  | .panic => (db, .panic)

/-- bfffsd/main.rs:372-391: one dataset. -/
def serveStat (e : Env D) (db : Db D) (name : Str) (props : List PName) : Db D × Res DsInfo :=
  match propsOf e db name props with
  | (db, .ok vs) => (db, .ok ⟨name, vs, 0⟩)
  | (db, .err x) => (db, .err x)
  | (db, .panic) => (db, .panic)

/-- bfffsd/main.rs:503-508 `Bfffsd::set`, and 272-279: properties are set one after the other, up to
the first error. -/
def setAll (e : Env D) (db : Db D) (name : Str) : List Prp → Db D × Res Unit
  | [] => (db, .ok ())
  | v :: vs =>
    match setProp e db name v with
    | (db, .ok _) => setAll e db name vs
    | r => r

/-- bfffsd/main.rs:264-284: create a file system, then set its properties. -/
def serveCreate (e : Env D) (db : Db D) (name : Str) (props : List Prp) : Db D × Res Nat :=
  match createFs e db name with
  | (db, .ok id) =>
    match setAll e db name props with
    | (db, .ok _) => (db, .ok id)
    | (db, .err x) => (db, .err x)
    | (db, .panic) => (db, .panic)
  | r => r

/-- bfffsd/main.rs:221-248 `Bfffsd::mount`.  When the FUSE session cannot be mounted, the only
reference to the new `Fs` is dropped. -/
def serveMount (e : Env D) (db : Db D) (sysOk : Bool) (name : Str) : Db D × Option (Ans Unit) :=
  match getProp e db name .mountpoint with
  | (db, .ok _) =>
    match newFs e db name with
    | (db, .ok id) => if sysOk then (db, some (.ok ())) else (dropFs db id, some (.err .sys))
    | (db, .err x) => (db, some (.err (.core x)))
    | (db, .panic) => (db, none)
  | (db, .err x) => (db, some (.err (.core x)))
  | (db, .panic) => (db, none)

/-- controller.rs:437-464 `unmount` -/
def serveUnmount (e : Env D) (db : Db D) (sysOk : Bool) (name : Str) : Db D × Option (Ans Unit) :=
  match resolve e db name with
  | .ok (_, _, some id) =>
    match getPropLocked db name id .mountpoint with
    | (db, .ok _) =>
      if sysOk then ({ db with mounted := db.mounted.remove id }, some (.ok ()))
      else (db, some (.err .sys))
    | (db, .err x) => (db, some (.err (.core x)))
    | (db, .panic) => (db, none)
  | .ok (_, _, none) => (db, some (.err (.core .enoent)))
  | .err x => (db, some (.err (.core x)))
  | .panic => (db, none)

/-- bfffsd/main.rs:250-494 `process_rpc`: the new state and the response; `none` is a panic of the
task that serves the connection. -/
def process (y : Sys D P) (s : Srv D P) (o : Oracle) (uid : Nat) : Request → Srv D P × Option Response
  | .dropCache =>
    if uid ≠ y.owner then (s, some (.fsMount (.err .eperm)))
    else ({ s with dev := y.dropCache s.dev }, some (.dropCache (.ok ())))
  | .fsCreate name props =>
    if uid ≠ y.owner then (s, some (.fsMount (.err .eperm)))
    else
      let r := serveCreate y.env s.db name (o.order props)
      ({ s with db := r.1 }, (ofRes r.2).map .fsCreate)
  | .fsDestroy name =>
    if uid ≠ y.owner then (s, some (.fsMount (.err .eperm)))
    else
      let r := destroyFs y.env s.db name
      ({ s with db := r.1 }, (ofRes r.2).map .fsDestroy)
  | .fsList name props offs =>
    let r := serveList y.env s.db name props offs
    ({ s with db := r.1 }, (ofRes r.2).map .fsList)
  | .fsMount name =>
    if uid ≠ y.owner then (s, some (.fsMount (.err .eperm)))
    else
      let r := serveMount y.env s.db o.sysOk name
      ({ s with db := r.1 }, r.2.map .fsMount)
  | .fsSet name props =>
    if uid ≠ y.owner then (s, some (.fsSet (.err .eperm)))
    else
      let r := setAll y.env s.db name props
      ({ s with db := r.1 }, (ofRes r.2).map .fsSet)
  | .fsStat name props =>
    let r := serveStat y.env s.db name props
    ({ s with db := r.1 }, (ofRes r.2).map .fsStat)
  | .fsUnmount name _ =>
    if uid ≠ y.owner then (s, some (.fsUnmount (.err .eperm)))
    else
      let r := serveUnmount y.env s.db o.sysOk name
      ({ s with db := r.1 }, r.2.map .fsUnmount)
  | .poolClean pool =>
    if uid ≠ y.owner then (s, some (.poolClean (.err .eperm)))
    else if pool = y.env.pool then
      ({ s with dev := y.clean s.dev }, some (.poolClean (.ok ())))
    else (s, some (.poolClean (.err (.core .enoent))))
  | .poolFault pool device =>
    if uid ≠ y.owner then (s, some (.poolClean (.err .eperm)))
    else if pool = y.env.pool then
      let r := y.fault device s.dev
      ({ s with dev := r.1 }, some (.poolFault r.2))
    else (s, some (.poolFault (.err (.core .enoent))))
  | .poolAttach pool mirror leaf =>
    if uid ≠ y.owner then (s, some (.poolAttach (.err .eperm)))
    else if pool = y.env.pool then
      let r := y.attach mirror leaf s.dev
      ({ s with dev := r.1 }, some (.poolAttach r.2))
    else (s, some (.poolAttach (.err (.core .enoent))))
  | .poolList pool _ =>
    if pool = none ∨ pool = some y.env.pool then (s, some (.poolList (.ok [(y.env.pool, 0)])))
    else (s, some (.poolList (.err (.core .enoent))))
  | .poolStatus pool =>
    if pool = y.env.pool then (s, some (.poolStatus (.ok (y.status s.dev))))
    else (s, some (.poolStatus (.err (.core .enoent))))

/-! ### The client library -/

/-- bfffs/src/lib.rs:23-35 `Error`, and a panic of the client. -/
inductive CErr where
  | noDevice
  | noResponse
  | tooLarge
  | other (e : Err)
  | panic
  deriving DecidableEq, Repr

inductive CRes (α : Type) where
  | ok (a : α)
  | err (e : CErr)
  deriving DecidableEq, Repr

/-- The connection: the requests go to the daemon `y` from user `uid`; `size` is the length of an
encoded response. -/
structure Conn (D P : Type) where
  sys : Sys D P
  uid : Nat
  oracle : Oracle
  size : Response → Nat

/-- lib.rs:347, bfffsd/main.rs:120 `BUFSIZ` -/
def bufSiz : Nat := 4096

/-- lib.rs:346-366 `call`.  A panic of the server closes the connection. -/
def call (c : Conn D P) (s : Srv D P) (req : Request) : Srv D P × CRes Response :=
  match process c.sys s c.oracle c.uid req with
  | (s, none) => (s, .err .noResponse)
  | (s, some resp) => if c.size resp ≥ bufSiz then (s, .err .tooLarge) else (s, .ok resp)

/-- `?` and `map_err(Error::from)` on the result of a call whose response was taken apart; `none` is a
response of another type, a panic (rpc.rs:319-410 `into_…`). -/
def finish {α : Type} (into : Response → Option (Ans α)) :
    Srv D P × CRes Response → Srv D P × CRes α
  | (s, .err x) => (s, .err x)
  | (s, .ok resp) =>
    match into resp with
    | some (.ok a) => (s, .ok a)
    | some (.err x) => (s, .err (.other x))
    | none => (s, .err .panic)

/-- rpc.rs:320-325 -/
def intoDropCache : Response → Option (Ans Unit)
  | .dropCache r => some r
  | _ => none

/-- rpc.rs:327-332 -/
def intoFsCreate : Response → Option (Ans Nat)
  | .fsCreate r => some r
  | _ => none

/-- rpc.rs:334-339 -/
def intoFsDestroy : Response → Option (Ans Unit)
  | .fsDestroy r => some r
  | _ => none

/-- rpc.rs:341-346 -/
def intoFsList : Response → Option (Ans (List DsInfo))
  | .fsList r => some r
  | _ => none

/-- rpc.rs:348-353 -/
def intoFsMount : Response → Option (Ans Unit)
  | .fsMount r => some r
  | _ => none

/-- rpc.rs:355-360 -/
def intoFsSet : Response → Option (Ans Unit)
  | .fsSet r => some r
  | _ => none

/-- rpc.rs:362-367 -/
def intoFsStat : Response → Option (Ans DsInfo)
  | .fsStat r => some r
  | _ => none

/-- rpc.rs:369-374 -/
def intoPoolClean : Response → Option (Ans Unit)
  | .poolClean r => some r
  | _ => none

/-- rpc.rs:376-381 -/
def intoPoolFault : Response → Option (Ans Unit)
  | .poolFault r => some r
  | _ => none

/-- rpc.rs:383-388 -/
def intoPoolAttach : Response → Option (Ans Unit)
  | .poolAttach r => some r
  | _ => none

/-- rpc.rs:390-395 -/
def intoPoolList : Response → Option (Ans (List (Str × Nat)))
  | .poolList r => some r
  | _ => none

/-- rpc.rs:397-402 -/
def intoPoolStatus : Response → Option (Ans Status)
  | .poolStatus r => some r
  | _ => none

/-- rpc.rs:404-409 -/
def intoFsUnmount : Response → Option (Ans Unit)
  | .fsUnmount r => some r
  | _ => none

/-- lib.rs:91-97 -/
def dropCache (c : Conn D P) (s : Srv D P) : Srv D P × CRes Unit :=
  finish intoDropCache (call c s .dropCache)

/-- lib.rs:105-112 -/
def fsCreate (c : Conn D P) (s : Srv D P) (name : Str) (props : List Prp) : Srv D P × CRes Nat :=
  finish intoFsCreate (call c s (.fsCreate name props))

/-- lib.rs:119-122 -/
def fsDestroy (c : Conn D P) (s : Srv D P) (name : Str) : Srv D P × CRes Unit :=
  finish intoFsDestroy (call c s (.fsDestroy name))

/-- lib.rs:219-222 -/
def fsMount (c : Conn D P) (s : Srv D P) (name : Str) : Srv D P × CRes Unit :=
  finish intoFsMount (call c s (.fsMount name))

/-- lib.rs:230-237 -/
def fsSet (c : Conn D P) (s : Srv D P) (name : Str) (props : List Prp) : Srv D P × CRes Unit :=
  finish intoFsSet (call c s (.fsSet name props))

/-- lib.rs:245-248 -/
def fsUnmount (c : Conn D P) (s : Srv D P) (name : Str) (force : Bool) : Srv D P × CRes Unit :=
  finish intoFsUnmount (call c s (.fsUnmount name force))

/-- lib.rs:257-260 -/
def poolClean (c : Conn D P) (s : Srv D P) (pool : Str) : Srv D P × CRes Unit :=
  finish intoPoolClean (call c s (.poolClean pool))

/-- lib.rs:334-343 -/
def poolStatus (c : Conn D P) (s : Srv D P) (pool : Str) : Srv D P × CRes Status :=
  finish intoPoolStatus (call c s (.poolStatus pool))

/-- lib.rs:315-332 `pool_list`, all of it -/
def poolList (c : Conn D P) (s : Srv D P) (pool : Option Str) : Srv D P × CRes (List (Str × Nat)) :=
  finish intoPoolList (call c s (.poolList pool none))

/-- lib.rs:46-49 `Device` -/
inductive Device where
  | path (p : Str)
  | uuid (u : Nat)
  deriving DecidableEq, Repr

/-- lib.rs:52-63 `Device::into_uuid` -/
def intoUuid (path : Str) (st : Status) : Option Nat :=
  st.findSome? fun cl => cl.findSome? fun m => m.findSome? fun leaf =>
    if leaf.1 = path then some leaf.2 else none

/-- lib.rs:270-277, 291-298: the UUID of a device. -/
def deviceUuid (c : Conn D P) (s : Srv D P) (pool : Str) : Device → Srv D P × CRes Nat
  | .uuid u => (s, .ok u)
  | .path p =>
    match poolStatus c s pool with
    | (s, .ok st) =>
      match intoUuid p st with
      | some u => (s, .ok u)
      | none => (s, .err .noDevice)
    | (s, .err x) => (s, .err x)

/-- lib.rs:266-280 `pool_fault` -/
def poolFault (c : Conn D P) (s : Srv D P) (pool : Str) (d : Device) : Srv D P × CRes Unit :=
  match deviceUuid c s pool d with
  | (s, .ok u) => finish intoPoolFault (call c s (.poolFault pool u))
  | (s, .err x) => (s, .err x)

/-- lib.rs:282-304 `pool_attach` -/
def poolAttach (c : Conn D P) (s : Srv D P) (pool : Str) (d : Device) (leaf : Str) :
    Srv D P × CRes Unit :=
  match deviceUuid c s pool d with
  | (s, .ok u) => finish intoPoolAttach (call c s (.poolAttach pool u leaf))
  | (s, .err x) => (s, .err x)

/-! ### Listing recursively -/

/-- lib.rs:146-153 the `State` of the stream of children. -/
structure LState where
  offs : Option Nat
  datasets : List (Nat × Str)
  results : List DsInfo
  depth : Nat
  deriving DecidableEq, Repr

/-- What polling the stream gives: an entry, the end, or an error. -/
inductive Polled where
  | item (x : DsInfo) (st : LState)
  | done
  | err (e : CErr)
  deriving DecidableEq, Repr

/-- lib.rs:199-208: hand out the first of the results. -/
def emit (st : LState) (x : DsInfo) (rest : List DsInfo) : Polled :=
  .item x
    { st with
      results := rest
      datasets := if st.depth > 1 then st.datasets ++ [(st.depth - 1, x.name)] else st.datasets
      offs := some x.offset }

/-- lib.rs:178-198: ask for a page of the first dataset, until there is a page that is not empty. -/
def fetch (c : Conn D P) (props : List PName) :
    List (Nat × Str) → Option Nat → Srv D P → Srv D P × Polled
  | [], _, s => (s, .done)
  | (depth, name) :: rest, offs, s =>
    match finish intoFsList (call c s (.fsList name props offs)) with
    | (s, .err x) => (s, .err x)
    | (s, .ok []) => fetch c props rest none s
    | (s, .ok (x :: xs)) =>
      (s, emit { offs := offs, datasets := (depth, name) :: rest, results := [], depth := depth } x xs)

/-- lib.rs:174-211: one step of `try_unfold`. -/
def poll (c : Conn D P) (props : List PName) (st : LState) (s : Srv D P) : Srv D P × Polled :=
  match st.results with
  | [] => fetch c props st.datasets st.offs s
  | x :: xs => (s, emit st x xs)

/-- How a stream that was polled some number of times ended. -/
inductive End where
  | more
  | done
  | err (e : CErr)
  deriving DecidableEq, Repr

/-- Poll the stream of children at most `n` times. -/
def drain (c : Conn D P) (props : List PName) :
    Nat → LState → Srv D P → Srv D P × List DsInfo × End
  | 0, _, s => (s, [], .more)
  | n + 1, st, s =>
    match poll c props st s with
    | (s, .done) => (s, [], .done)
    | (s, .err x) => (s, [], .err x)
    | (s, .item x st) =>
      let r := drain c props n st s
      (r.1, x :: r.2.1, r.2.2)

/-- lib.rs:139-213 `fs_list`, polled at most `n` times: the dataset itself, then its children.  Its
users stop at the first error. -/
def fsList (c : Conn D P) (s : Srv D P) (name : Str) (props : List PName) (offs : Option Nat)
    (depth : Nat) : Nat → Srv D P × List DsInfo × End
  | 0 => (s, [], .more)
  | n + 1 =>
    match finish intoFsStat (call c s (.fsStat name props)) with
    | (s, .err x) => (s, [], .err x)
    | (s, .ok x) =>
      let st : LState :=
        { offs := offs
          datasets := if depth > 0 then [(depth, name)] else []
          results := []
          depth := depth - 1 }
      let r := drain c props n st s
      (r.1, x :: r.2.1, r.2.2)

end Verif.Rpc
