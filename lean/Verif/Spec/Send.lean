import Verif.Gen.Message

/-!
# A sender of a stream of messages
-/

namespace Proto.Spec

/-- A client that writes messages to a stream, stops when a write does not succeed and remembers the values
of which the write succeeded. -/
def send (S : Sink σ) (c : Ctx) (m : Message) : List Value → σ → List Value × σ
  | [], s => ([], s)
  | v :: vs, s =>
    match (m.write c v).run S s with
    | (.ok (), s) => (v :: (send S c m vs s).1, (send S c m vs s).2)
    | (_, s) => ([], s)

/-- A client that, on each new connection, continues with the values of which no write succeeded: the
values and the final state for each connection. -/
def resend (S : Sink σ) (c : Ctx) (m : Message) : List Value → List σ → List (List Value × σ)
  | _, [] => []
  | vs, s :: ss => send S c m vs s :: resend S c m (vs.drop (send S c m vs s).1.length) ss

end Proto.Spec
