import Verif.Runtime.Message

/-!
# A receiver of a stream of messages
-/

namespace Proto.Spec

/-- Decode messages while it works, `k` at most: the values and what is left. -/
def drain (f : Parser α) : Nat → Bytes → List α × Bytes
  | 0, b => ([], b)
  | k + 1, b =>
    match f b with
    | .ok msg => (msg.data :: (drain f k (b.drop msg.size)).1, (drain f k (b.drop msg.size)).2)
    | _ => ([], b)

/-- Decode messages while it works.  There are not more of them than bytes if none is empty. -/
def decodeAll (f : Parser α) (b : Bytes) : List α × Bytes := drain f b.length b

/-- A client that keeps what it could not decode: on each piece of the stream it appends the piece to
what is left and decodes what it can.  The values it gets for each piece, and what is left. -/
def receive (f : Parser α) : Bytes → List Bytes → List (List α) × Bytes
  | left, [] => ([], left)
  | left, x :: xs =>
    ((decodeAll f (left ++ x)).1 :: (receive f (decodeAll f (left ++ x)).2 xs).1,
      (receive f (decodeAll f (left ++ x)).2 xs).2)

end Proto.Spec
