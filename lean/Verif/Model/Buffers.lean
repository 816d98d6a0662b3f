import Verif.Model.Byte
import Verif.Model.Wrap

/-!
# The parser of `benches/buffers.rs`
-/

namespace Verif.Buffers

variable {S : Strm}

/-- benches/buffers.rs:23-32 `parser`: the number of bytes before the first `1`.  (`any_send_sync_partial_state` is the code of
`any_partial_state`.) -/
def parser (R : RangeOps S) (bytes : S.Rng → List UInt8) :=
  anyPartialState (map (recognize (takeUntilBytes R bytes [49])) List.length)

end Verif.Buffers
