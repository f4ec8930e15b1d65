import Verif.Spec.FileLog

/-
Specification for C94: calls that do not touch a part of a file.
-/

namespace Radix.Spec

open Browser

/-- A call, with what came back, that does not touch the bytes from `start` to `stop`: a write or blob before or behind them, or a truncation behind them. -/
def Elsewhere (start stop : Nat) (e : Call × Seen) : Prop :=
  match e.1 with
  | .write offset data _ => offset + data.length ≤ start ∨ stop ≤ offset
  | .truncate size _ => stop ≤ size
  | .put data _ => ∀ id, e.2 = .bytes (.ok id) → ofBE id + (record data).length ≤ start ∨ stop ≤ ofBE id
  | _ => True

end Radix.Spec
