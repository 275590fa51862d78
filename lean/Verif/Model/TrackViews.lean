import Verif.Model.Track
/-!
# Sizes of a tracked codec

Model of the small methods of `BPECodecXt` (nlcodec/eval/bpe_len.py:41-51).
-/

namespace Verif

/-- `merges_remaining()` (nlcodec/eval/bpe_len.py:41-42) -/
def CodecXt.remaining (x : CodecXt) : Nat := x.buffer.length

/-- `len(codec)` (nlcodec/eval/bpe_len.py:44-45) -/
def CodecXt.size (x : CodecXt) : Nat := x.scheme.table.length

/-- `total_types()` (nlcodec/eval/bpe_len.py:47-48) -/
def CodecXt.totalTypes (x : CodecXt) : Nat := x.size + x.remaining

/-- `peek_merge()` (nlcodec/eval/bpe_len.py:50-51) -/
def CodecXt.peek (x : CodecXt) : Py Ty := pyIndex x.buffer 0

end Verif
