import Verif.Codec.NumProps
import Verif.Codec.Serial
import Verif.Dbm.ApiProps
/-
The messages of the update logger on a message queue (`DBMUpdateLoggerMQ`, tkrzw_dbm_ulog.h 260-420,
tkrzw_dbm_ulog.cc 108-420).
-/
namespace Verif.Ulog
open Verif Verif.Codec

/-- `DBMUpdateLoggerMQ::UpdateLog` (tkrzw_dbm_ulog.h): the operation, the server id and the database index. -/
structure Log where
  op : LogOp
  server : Int
  dbm : Int
deriving DecidableEq, Repr

/-- The bytes of a message. The numbers are non-negative `int32_t`. -/
def encode (server dbm : Nat) : LogOp → Bytes
  | .set k v => 0xA1 :: (writeVarNum server ++ writeVarNum dbm ++ writeVarNum k.length ++ writeVarNum v.length ++ k ++ v)
  | .remove k => 0xA2 :: (writeVarNum server ++ writeVarNum dbm ++ writeVarNum k.length ++ k)
  | .clear => 0xA3 :: (writeVarNum server ++ writeVarNum dbm)

/-- The size of the buffer that the writing functions use: `est_size` if that exceeds the buffer on the stack, else the
4096 bytes of the stack (tkrzw_dbm_ulog.cc 28, 122-125, 154-157, 180-182). -/
def capacity : LogOp → Nat
  | .set k v => if 20 + k.length + v.length > 4096 then 20 + k.length + v.length else 4096
  | .remove k => if 20 + k.length > 4096 then 20 + k.length else 4096
  | .clear => 4096

/-- The logger object (tkrzw_dbm_ulog.cc 110-114): the constructor replaces negative numbers by 0. -/
structure Logger where
  server : Nat
  dbm : Nat

def Logger.new (server dbm : Int) : Logger := ⟨(max server 0).toNat, (max dbm 0).toNat⟩

/-- What a writing function does. -/
inductive Written where
  /-- `mq_->Write` is called with the message. -/
  | message (m : Bytes)
  /-- Nothing is written and SUCCESS is returned. -/
  | skipped
  /-- Undefined behaviour: bytes are stored behind the end of the buffer. -/
  | overflow
deriving DecidableEq, Repr

/-- `WriteSet`, `WriteRemove`, `WriteClear` (tkrzw_dbm_ulog.cc 116-195). `tls` is `thread_local_server_id_`:
initially -1, set by `OverwriteThreadServerID`. -/
def Logger.write (l : Logger) (tls : Int) (op : LogOp) : Written :=
  if tls < 0 ∧ tls = -2 ^ 31 then .skipped
  else
    let m := encode (if tls ≥ 0 then tls.toNat else l.server) l.dbm op
    if m.length ≤ capacity op then .message m else .overflow

/-- Result of parsing. -/
inductive Parsed where
  | ok (l : Log)
  | broken
  /-- Undefined behaviour: a string view with a negative size, or a signed overflow. -/
  | ub
deriving DecidableEq, Repr

/-- The part of `ParseUpdateLog` behind the numbers (tkrzw_dbm_ulog.cc 224-284). -/
def parseBody (magic : UInt8) (server dbm : Int) (m : Bytes) : Parsed :=
  if magic = 0xA1 then
    if m.length < 1 then .broken
    else
      match readVarNum m with
      | none => .broken
      | some (ks, step) =>
        let m := m.drop step
        if m.length < 1 then .broken
        else
          match readVarNum m with
          | none => .broken
          | some (vs, step) =>
            let m := m.drop step
            let ks := toInt32 ks
            let vs := toInt32 vs
            if ks + vs ≥ 2 ^ 31 ∨ ks + vs < -2 ^ 31 then .ub
            else if ks + vs ≠ m.length then .broken
            else if ks < 0 ∨ vs < 0 then .ub
            else .ok ⟨.set (m.take ks.toNat) (m.drop ks.toNat), server, dbm⟩
  else if magic = 0xA2 then
    if m.length < 1 then .broken
    else
      match readVarNum m with
      | none => .broken
      | some (ks, step) =>
        let m := m.drop step
        if toInt32 ks ≠ m.length then .broken else .ok ⟨.remove m, server, dbm⟩
  else if magic = 0xA3 then .ok ⟨.clear, server, dbm⟩
  else .broken

/-- `ParseUpdateLog` (tkrzw_dbm_ulog.cc 205-284), for messages shorter than 2 GiB (`int32_t record_size`); longer ones
are not modelled (outcome `ub`). -/
def parse (m : Bytes) : Parsed :=
  if m.length ≥ 2 ^ 31 then .ub
  else
    match m with
    | [] => .broken
    | magic :: rest =>
      if m.length < 3 then .broken
      else
        match readVarNum rest with
        | none => .broken
        | some (server, step) =>
          let rest := rest.drop step
          if rest.length < 1 then .broken
          else
            match readVarNum rest with
            | none => .broken
            | some (dbm, step) => parseBody magic (toInt32 server) (toInt32 dbm) (rest.drop step)

/-- The test on the server id and on the database index in `ApplyUpdateLog` (tkrzw_dbm_ulog.cc 294-311). -/
def accepts (want have_ : Int) : Bool :=
  if want < 0 then have_ ≠ -want else have_ = want

/-- `ApplyUpdateLog` (tkrzw_dbm_ulog.cc 286-327). `none` is undefined behaviour. -/
def apply {σ : Type} (D : DbmImpl σ) (clear : σ → σ) (s : σ) (m : Bytes) (server dbm : Int) : Option (σ × Code) :=
  match parse m with
  | .ub => none
  | .broken => some (s, .brokenData)
  | .ok l =>
    if ¬ accepts server l.server then some (s, .infeasible)
    else if ¬ accepts dbm l.dbm then some (s, .infeasible)
    else
      match l.op with
      | .set k v => some ((Api.set D s k v true).1, .success)
      | .remove k => some ((Api.remove D s k).1, .success)
      | .clear => some (clear s, .success)

/-- The loop of a replication: messages are applied in order until an error; INFEASIBLE_ERROR is passed over
(tkrzw_dbm_ulog.cc 373-377). -/
def applyAll {σ : Type} (D : DbmImpl σ) (clear : σ → σ) (server dbm : Int) : List Bytes → σ → Option (σ × Code)
  | [], s => some (s, .success)
  | m :: ms, s =>
    match apply D clear s m server dbm with
    | none => none
    | some (s, c) => if c ≠ .success ∧ c ≠ .infeasible then some (s, c) else applyAll D clear server dbm ms s

end Verif.Ulog
