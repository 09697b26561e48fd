import Verif.Wire.Model

/-!
# Model of one exchange on the socket, bfffs/src/lib.rs and bfffsd/main.rs

The socket is a `UnixSeqpacket`: one `send` is one packet, and `recv` gives the next packet, cut off
at the size of the buffer.  What the daemon does with a request (`process_rpc`, modelled in
`Verif.Rpc`) is a parameter here.  Failing sends and receives are left out.
-/

namespace Verif.Wire
open Verif.Bytes

/-- `BUFSIZ`, bfffsd/main.rs:120 and lib.rs:347. -/
def bufSiz : Nat := 4096

/-- `UnixSeqpacket::recv`. -/
def recv (packet : Buf) : Buf := packet.take bufSiz

/-- What the daemon's task for a connection does after one packet. -/
inductive Served (σ : Type) where
  | closed (s : σ)
  | panicked (s : σ)
  | replied (s : σ) (packet : Buf)

/-- One round of `Bfffsd::handle_client`, bfffsd/main.rs:119-147. -/
def handleClient {σ} (process : σ → Request → σ × Response) (s : σ) (packet : Buf) : Served σ :=
  if (recv packet).length = 0 then .closed s
  else if (recv packet).length ≥ bufSiz then .closed s
  else match request.dec (recv packet) with
    | none => .panicked s
    | some (req, _) => .replied (process s req).1 (response.enc (process s req).2)

/-- The errors of `Bfffs::call`, lib.rs:24-33. -/
inductive CallErr where
  | corruptResponse
  | noResponse
  | tooLarge (n : Nat)
  deriving DecidableEq, Repr

/-- What `Bfffs::call` makes of the daemon's packet, lib.rs:353-364. -/
def readReply (packet : Buf) : Except CallErr Response :=
  if (recv packet).length = 0 then .error .noResponse
  else if (recv packet).length ≥ bufSiz then .error (.tooLarge (recv packet).length)
  else match response.dec (recv packet) with
    | none => .error .corruptResponse
    | some (r, _) => .ok r

/-- `Bfffs::call`, lib.rs:346-365: a connection that is closed reads as an empty packet. -/
def call {σ} (process : σ → Request → σ × Response) (s : σ) (req : Request) :
    σ × Except CallErr Response :=
  match handleClient process s (request.enc req) with
  | .closed s => (s, readReply [])
  | .panicked s => (s, readReply [])
  | .replied s packet => (s, readReply packet)

end Verif.Wire
