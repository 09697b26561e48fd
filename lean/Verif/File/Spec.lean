/-!
# What a file is

A regular file is an array of bytes.  This module does not mention records,
extents or inodes.
-/

namespace Verif.File.Spec

/-- What a user may do to a file's contents. -/
inductive Op where
  /-- `pwrite(offset, data)` -/
  | write (offset : Nat) (data : List UInt8)
  /-- `ftruncate(size)` -/
  | truncate (size : Nat)
  /-- `fspacectl(SPACECTL_DEALLOC, offset, len)` -/
  | punch (offset len : Nat)

def zeros (n : Nat) : List UInt8 := List.replicate n 0

/-- Writing nothing changes nothing; otherwise the file is padded with zeros
up to `offset` and the data replaces what was there. -/
def write (c : List UInt8) (offset : Nat) (d : List UInt8) : List UInt8 :=
  if d = [] then c
  else (c ++ zeros (offset - c.length)).take offset ++ d ++ c.drop (offset + d.length)

/-- Cut the file short, or pad it with zeros. -/
def truncate (c : List UInt8) (n : Nat) : List UInt8 := c.take n ++ zeros (n - c.length)

/-- Zero the bytes of `[offset, offset + len)` that exist. -/
def punch (c : List UInt8) (offset len : Nat) : List UInt8 :=
  c.take offset ++ zeros (min (c.length - offset) len) ++ c.drop (offset + len)

def apply (c : List UInt8) : Op → List UInt8
  | .write o d => write c o d
  | .truncate n => truncate c n
  | .punch o l => punch c o l

/-- The contents after a sequence of operations on a new file. -/
def contents (ops : List Op) : List UInt8 := ops.foldl apply []

/-- What reading `n` bytes at `offset` returns. -/
def read (c : List UInt8) (offset n : Nat) : List UInt8 := (c.drop offset).take n

end Verif.File.Spec
