import Verif.Model.Scheme
import Verif.Model.Batch
/-!
# Encoding all lines in one process

Model of `encode_all` of nlcodec/eval/termfreq.py.
-/

namespace Verif

/-- `encode_all(inp, scheme, index=True)` (nlcodec/eval/termfreq.py:20-30): what the generator yields; the progress bar is left out -/
def encodeAllIds (s : Scheme) (inp : List Str) : Gen (List Int) := genMap (fun line => s.encode (strip line)) none inp

/-- `encode_all(inp, scheme, index=False)` (nlcodec/eval/termfreq.py:20-32) -/
def encodeAllStr (s : Scheme) (inp : List Str) : Gen (List Str) := genMap (fun line => s.encodeStr (strip line)) none inp

end Verif
