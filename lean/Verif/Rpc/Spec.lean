import Verif.Rpc.Model
import Verif.Forest.Spec

/-!
# What a user expects of a listing and of requests

Stated with the client's map from paths to file systems (`Verif.Forest.Client`), which knows nothing of
pages, offsets or messages.
-/

namespace Verif.Rpc

open Verif.Forest
open Verif.Property (Str Prp PName Source)

variable {D P : Type}

/-- The values are the answers to the properties asked for, one by one. -/
inductive Answers (e : Env D) (k : Client D) (p : Path) : List PName → List (Prp × Source) → Prop where
  | nil : Answers e k p [] []
  | cons {n v ns vs} : PropAnswer e k p n (.ok v) → Answers e k p ns vs →
      Answers e k p (n :: ns) (v :: vs)

/-- An entry of a listing tells the truth about some file system. -/
def Sound (e : Env D) (k : Client D) (props : List PName) (x : DsInfo) : Prop :=
  ∃ q, k.fs q ≠ none ∧ x.name = full e q ∧ Answers e k q props x.props

/-- A complete listing of the file system at `p` and those at most `depth` levels below it: it comes
first, each is there exactly once and nothing else is, none comes before one that is higher up,
and all entries tell the truth. -/
structure Complete (e : Env D) (k : Client D) (p : Path) (depth : Nat) (props : List PName)
    (items : List DsInfo) : Prop where
  first : items.head?.map DsInfo.name = some (full e p)
  once : (items.map DsInfo.name).Nodup
  all : ∀ s, s ∈ items.map DsInfo.name ↔
    ∃ q, q.length ≤ depth ∧ k.fs (p ++ q) ≠ none ∧ s = full e (p ++ q)
  order : items.Pairwise fun a b => ∀ q r, k.fs q ≠ none → k.fs r ≠ none →
    a.name = full e q → b.name = full e r → q.length ≤ r.length
  sound : ∀ x ∈ items, Sound e k props x

/-- Some response about file systems that are there is too large for the client's buffer. -/
def Oversized (c : Conn D P) (k : Client D) (props : List PName) : Prop :=
  (∃ x, Sound c.sys.env k props x ∧ 4096 ≤ c.size (.fsStat (.ok x))) ∨
  (∃ l : List DsInfo, l.length ≤ 64 ∧ (∀ x ∈ l, Sound c.sys.env k props x) ∧
    4096 ≤ c.size (.fsList (.ok l)))

/-! ### Who may do what -/

/-- The requests that only ask for something. -/
def Asks : Request → Prop
  | .fsList _ _ _ | .fsStat _ _ | .poolList _ _ | .poolStatus _ => True
  | _ => False

/-- The error a response carries, whatever it answers. -/
def Response.error : Response → Option Err
  | .dropCache (.err x) | .fsCreate (.err x) | .fsDestroy (.err x) | .fsList (.err x)
  | .fsMount (.err x) | .fsSet (.err x) | .fsStat (.err x) | .fsUnmount (.err x)
  | .poolClean (.err x) | .poolFault (.err x) | .poolAttach (.err x) | .poolList (.err x)
  | .poolStatus (.err x) => some x
  | _ => none

/-- Two databases hold the same file systems, with the same contents and mounted alike.  They may
differ in what has been read into memory. -/
structure Same (a b : Db D) : Prop where
  forest : b.forest = a.forest
  mounted : b.mounted = a.mounted
  contents : ∀ id, (openFs b id).2 = (openFs a id).2

end Verif.Rpc
