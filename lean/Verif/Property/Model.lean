/-!
# Dataset properties

bfffs-core/src/property.rs.  Strings are lists of characters.
-/

namespace Verif.Property

abbrev Str := List Char

/-- property.rs:23-53 `Property` -/
inductive Prp where
  | atime (b : Bool)
  | baseMountpoint (s : Str)
  | mountpoint (s : Str)
  | name (s : Str)
  | recordSize (exp : UInt8)
  deriving DecidableEq, Repr

/-- property.rs:199-205 `PropertyName` -/
inductive PName where
  | atime
  | baseMountpoint
  | mountpoint
  | name
  | recordSize
  deriving DecidableEq, Repr

/-- property.rs:257-267 `PropertySource` -/
inductive Source where
  | none
  | default
  | set (i : UInt8)
  deriving DecidableEq, Repr

/-- property.rs:56-67 `default_value`; `none` for the two `unimplemented!`. -/
def defaultValue : PName → Option Prp
  | .atime => some (.atime true)
  | .baseMountpoint => some (.baseMountpoint [])
  | .mountpoint => none
  | .name => none
  | .recordSize => some (.recordSize 17)

/-- property.rs:69-75 `Property::inheritable` -/
def Prp.inheritable : Prp → Prp
  | .mountpoint mp => .baseMountpoint mp
  | p => p

/-- property.rs:82-90 `Property::name` -/
def Prp.pname : Prp → PName
  | .atime _ => .atime
  | .baseMountpoint _ => .baseMountpoint
  | .mountpoint _ => .mountpoint
  | .name _ => .name
  | .recordSize _ => .recordSize

/-- The decimal digits of a number, as `fmt::Display` of the integer types prints them. -/
def digits (n : Nat) : Str :=
  if h : n < 10 then [Char.ofNat (48 + n)]
  else digits (n / 10) ++ [Char.ofNat (48 + n % 10)]
  termination_by n
  decreasing_by omega

/-- property.rs:115-128 `Display for Property`.  `1 << i` is computed in `i32`: `none` is the overflow
panic for a shift of 32 or more (and 31 would print a negative number; no such record size can be
set, see `RecordSize` below). -/
def Prp.display : Prp → Option Str
  | .atime true => some ['o', 'n']
  | .atime false => some ['o', 'f', 'f']
  | .baseMountpoint s => some s
  | .mountpoint s => some s
  | .name s => some s
  | .recordSize i => if i.toNat < 31 then some (digits (1 <<< i.toNat)) else none

/-- property.rs:130-140 `ParsePropertyError` -/
inductive ParseError where
  | noEquals
  | name
  | readOnly
  | value (s : Str)
  deriving DecidableEq, Repr

/-- `Result<Property, ParsePropertyError>` -/
inductive Parsed where
  | ok (p : Prp)
  | error (e : ParseError)
  deriving DecidableEq, Repr

/-- property.rs:209-211 `boolean` -/
def PName.boolean : PName → Bool
  | .atime => true
  | _ => false

/-- property.rs:213-219 `PropertyName::inheritable`; `none` is `unimplemented!` -/
def PName.inheritable : PName → Option PName
  | .mountpoint => some .baseMountpoint
  | .name => none
  | x => some x

/-- property.rs:222-232 `Display for PropertyName` -/
def PName.display : PName → Str
  | .atime => ['a', 't', 'i', 'm', 'e']
  | .baseMountpoint => ['b', 'a', 's', 'e', 'm', 'o', 'u', 'n', 't', 'p', 'o', 'i', 'n', 't']
  | .mountpoint => ['m', 'o', 'u', 'n', 't', 'p', 'o', 'i', 'n', 't']
  | .name => ['n', 'a', 'm', 'e']
  | .recordSize => ['r', 'e', 'c', 'o', 'r', 'd', 's', 'i', 'z', 'e']

/-- property.rs:238-252 `FromStr for PropertyName` -/
def PName.parse (s : Str) : Option PName :=
  if s = ['a', 't', 'i', 'm', 'e'] then some .atime
  else if s = ['b', 'a', 's', 'e', 'm', 'o', 'u', 'n', 't', 'p', 'o', 'i', 'n', 't'] then some .baseMountpoint
  else if s = ['m', 'o', 'u', 'n', 't', 'p', 'o', 'i', 'n', 't'] then some .mountpoint
  else if s = ['n', 'a', 'm', 'e'] then some .name
  else if s = ['r', 'e', 'c', 'o', 'r', 'd', 's', 'i', 'z', 'e'] then some .recordSize
  else if s = ['r', 'e', 'c', 's', 'i', 'z', 'e'] then some .recordSize
  else none

/-- `s.splitn(2, c)`: the text before the first `c`, and the text after it if there is one. -/
def splitFirst (c : Char) : Str → Str × Option Str
  | [] => ([], none)
  | x :: xs =>
    if x = c then ([], some xs)
    else let r := splitFirst c xs; (x :: r.1, r.2)

/-- The value of a run of decimal digits, most significant first. -/
def digitsVal : Nat → Str → Option Nat
  | acc, [] => some acc
  | acc, c :: cs =>
    if 48 ≤ c.toNat ∧ c.toNat < 58 then
      let acc := acc * 10 + (c.toNat - 48)
      if acc < 2 ^ 64 then digitsVal acc cs else none
    else none

/-- `str::parse::<usize>`: an optional `+`, then at least one digit, below `2^64`. -/
def parseUsize (s : Str) : Option Nat :=
  match s with
  | [] => none
  | '+' :: [] => none
  | '+' :: cs => digitsVal 0 cs
  | cs => digitsVal 0 cs

/-- property.rs:170-181: the table of record sizes -/
def recordSizeOf (rs : Nat) : Option UInt8 :=
  if rs = 4096 then some 12
  else if rs = 8192 then some 13
  else if rs = 16384 then some 14
  else if rs = 32768 then some 15
  else if rs = 65536 then some 16
  else if rs = 131072 then some 17
  else if rs = 262144 then some 18
  else if rs = 524288 then some 19
  else if rs = 1048776 then some 20
  else none

/-- property.rs:152-187: the value part of `from_str` -/
def parseValue (n : PName) (v : Str) : Parsed :=
  match n with
  | .atime =>
    if v = ['t', 'r', 'u', 'e'] ∨ v = ['o', 'n'] then .ok (.atime true)
    else if v = ['f', 'a', 'l', 's', 'e'] ∨ v = ['o', 'f', 'f'] then .ok (.atime false)
    else .error (.value v)
  | .baseMountpoint => .error .readOnly
  | .mountpoint => .ok (.mountpoint v)
  | .name => .error .readOnly
  | .recordSize =>
    match parseUsize v with
    | some rs =>
      match recordSizeOf rs with
      | some e => .ok (.recordSize e)
      | none => .error (.value v)
    | none => .error (.value v)

/-- property.rs:145-188 `FromStr for Property` -/
def parse (s : Str) : Parsed :=
  let w := splitFirst '=' s
  match PName.parse w.1 with
  | none => .error .name
  | some n =>
    if n.boolean then parseValue n (w.2.getD ['o', 'n'])
    else
      match w.2 with
      | some v => parseValue n v
      | none => .error .noEquals

/-- property.rs:283-291 `Display for PropertySource` -/
def Source.display : Source → Str
  | .default => ['d', 'e', 'f', 'a', 'u', 'l', 't']
  | .set i => if i = 0 then ['l', 'o', 'c', 'a', 'l'] else ['i', 'n', 'h', 'e', 'r', 'i', 't', 'e', 'd']
  | .none => ['i', 'n', 'h', 'e', 'r', 'i', 't', 'e', 'd']

/-- property.rs:297-308 `FromStr for PropertySource` -/
def Source.parse (s : Str) : Option Source :=
  if s = ['d', 'e', 'f', 'a', 'u', 'l', 't'] then some .default
  else if s = ['l', 'o', 'c', 'a', 'l'] then some (.set 0)
  else if s = ['n', 'o', 'n', 'e'] then some .none
  else if s = ['i', 'n', 'h', 'e', 'r', 'i', 't', 'e', 'd'] then some (.set 1)
  else none

end Verif.Property
