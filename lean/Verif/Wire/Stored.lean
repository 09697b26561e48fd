import Verif.Wire.Props
import Verif.Ddml.Props

/-!
# C81 and C33: a node stored on disk is read back

C33 takes the serialiser of the records as a parameter that inverts itself.  C81 says that those of
the trees' nodes do, so both together say that a node is read back from the disk as it was.
-/

namespace Verif.Wire
open Verif.Bytes
open Verif.Label (Codec)

open Classical in
/-- The records that a codec encodes, for the model of `ddml.rs`.  Where decoding fails the code panics
(node.rs:1428); here it gives `d`, of which nothing is known. -/
noncomputable def envOf {α} (c : Codec α) (ok : α → Prop) (d : {a // ok a}) (cd : Verif.Ddml.Codecs)
    (hash : Buf → UInt64) : Verif.Ddml.Env {a // ok a} where
  cd := cd
  hash := hash
  ser v := c.enc v.1
  deser b := match c.dec b with
    | none => d
    | some (a, _) => if h : ok a then ⟨a, h⟩ else d

theorem envOf_good {α} {c : Codec α} {ok : α → Prop} (h : Faithful c ok) (d : {a // ok a})
    {cd : Verif.Ddml.Codecs} (hcd : cd.Good) (hash : Buf → UInt64) : (envOf c ok d cd hash).Good := by
  refine ⟨hcd, fun v => ?_⟩
  have := h.1 v.1 v.2 []
  rw [List.append_nil] at this
  simp only [envOf, this, dif_pos v.2]

/-- C81: a node of a file system's tree that is stored anywhere, with any compression, and read from the
disk after it has left the cache is the node that was stored.  (Likewise for the other trees, by
`envOf_good`.) -/
theorem C81_stored_node (cd : Verif.Ddml.Codecs) (hcd : cd.Good) (hash : Buf → UInt64)
    (d v : {n // NodeData.Fits ltU128 FSValue.Fits n})
    (s : Verif.Ddml.State {n // NodeData.Fits ltU128 FSValue.Fits n}) (c : Verif.Ddml.Compression)
    (pba : Verif.Ddml.PBA) (hlen : (fsNode.enc v.1).length < Verif.Ddml.u32Max)
    (rl : Except Verif.Ddml.Err (List Buf)) :
    let en := envOf fsNode _ d cd hash
    ∃ drp, (Verif.Ddml.put en s v c (.ok pba)).2 = .ok drp ∧
      let s' := Verif.Ddml.evict (Verif.Ddml.put en s v c (.ok pba)).1 drp.pba
      (Verif.Ddml.get en s' drp (.ok (s'.pool.read drp.pba drp.asize)) rl).2 = .ok v :=
  Verif.Ddml.C33_put_then_get (envOf fsNode _ d cd hash) (envOf_good C81_fs_node d hcd hash) s v c pba hlen rl

/-- C81, non-vacuity: the sample leaf is short enough. -/
example : (fsNode.enc sampleLeaf).length < Verif.Ddml.u32Max := by decide +kernel

end Verif.Wire
