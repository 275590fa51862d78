import Verif.Model.Scheme
/-! # Work done by the loop of `BPEScheme.encode_str` -/

namespace Verif

/-- Work of the loop: rounds of the `while` loop (nlcodec/codec.py:477) and characters copied by the slices
`seq[data_idx:]` and `seq[1:]` that make a new string (nlcodec/codec.py:487,490). -/
structure Work where
  rounds : Nat
  copied : Nat
deriving DecidableEq, Repr

/-- The loop of `encode_str` (nlcodec/codec.py:477-493) as in `encLoop`, counting.  A round that ends with
`idx = 0` is one that took the `else` branch (the other branch increases `idx`), it made a new `seq`.
Appending to `res`, comparing characters and looking up `kids` are not counted. -/
def encWork (root : Trie Ty) (unk : Int) : Nat → EncSt → Work
  | 0, _ => ⟨0, 0⟩
  | k + 1, st =>
    if st.cond then
      let st' := st.step root unk
      let w := encWork root unk k st'
      ⟨w.rounds + 1, w.copied + (if st'.idx = 0 then st'.seq.length else 0)⟩
    else ⟨0, 0⟩

/-- work of the loop of `encode_str` for a line (nlcodec/codec.py:461-493); the text is `bpeText line`
(nlcodec/codec.py:462) -/
def bpeWork (s : Scheme) (line : Str) : Work :=
  encWork s.root (UNK : Int) (encFuel (bpeText line).length) (EncSt.start s.root (bpeText line) [])

end Verif
