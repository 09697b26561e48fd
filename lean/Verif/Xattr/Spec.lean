/-!
# What extended attributes look like to programs

A file has a map from attribute names, as the kernel writes them
(`user.something`), to values.  Programs ask for a value or for the list of
names with the size of their buffer; size 0 asks how much would be needed.
-/

namespace Verif.Xattr.Spec

abbrev Bytes := List UInt8

abbrev Map := Bytes → Option Bytes

inductive Op where
  /-- `create`: fail if it exists; `replace`: fail if it does not -/
  | set (name value : Bytes) (create replace : Bool)
  | get (name : Bytes) (size : Nat)
  | list (size : Nat)
  | remove (name : Bytes)

inductive Errno where
  | ERANGE
  | ENOATTR
  | EEXIST
  deriving DecidableEq

inductive Reply where
  | done
  | data (b : Bytes)
  | size (n : Nat)
  | error (e : Errno)

/-- The names in a list, each followed by a zero byte. -/
def listing (l : List Bytes) : Bytes := l.flatMap fun n => n ++ [0]

/-- These are the names of the attributes, in some order. -/
def IsNames (m : Map) (l : List Bytes) : Prop := l.Nodup ∧ ∀ n, n ∈ l ↔ m n ≠ none

/-- What may be answered, and what the attributes are afterwards. -/
inductive Allowed (m : Map) : Op → Reply → Map → Prop where
  | set {n v c r} : (c = true → m n = none) → (r = true → m n ≠ none) →
      Allowed m (.set n v c r) .done (fun x => if x = n then some v else m x)
  | setExists {n v r} : m n ≠ none → Allowed m (.set n v true r) (.error .EEXIST) m
  | setMissing {n v c} : m n = none → Allowed m (.set n v c true) (.error .ENOATTR) m
  | getMissing {n s} : m n = none → Allowed m (.get n s) (.error .ENOATTR) m
  | getSize {n v} : m n = some v → Allowed m (.get n 0) (.size v.length) m
  | get {n v s} : m n = some v → 0 < s → v.length ≤ s → Allowed m (.get n s) (.data v) m
  | getShort {n v s} : m n = some v → 0 < s → s < v.length →
      Allowed m (.get n s) (.error .ERANGE) m
  | listSize {l} : IsNames m l → Allowed m (.list 0) (.size (listing l).length) m
  | list {l s} : IsNames m l → 0 < s → (listing l).length ≤ s →
      Allowed m (.list s) (.data (listing l)) m
  | listShort {l s} : IsNames m l → 0 < s → s < (listing l).length →
      Allowed m (.list s) (.error .ERANGE) m
  | remove {n} : m n ≠ none → Allowed m (.remove n) .done (fun x => if x = n then none else m x)
  | removeMissing {n} : m n = none → Allowed m (.remove n) (.error .ENOATTR) m

/-- A history of requests and replies. -/
inductive History : Map → List (Op × Reply) → Map → Prop where
  | nil (m : Map) : History m [] m
  | cons {m m' m'' : Map} {op : Op} {r : Reply} {l : List (Op × Reply)} :
      Allowed m op r m' → History m' l m'' → History m ((op, r) :: l) m''

/-- What a program makes of a list: the names before each zero byte. -/
def parse : Bytes → List Bytes := go []
where
  go (acc : Bytes) : Bytes → List Bytes
    | [] => []
    | 0 :: l => acc :: go [] l
    | x :: l => go (acc ++ [x]) l

end Verif.Xattr.Spec
