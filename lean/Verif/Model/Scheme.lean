import Verif.Model.Types
import Verif.Model.Trie
import Verif.Model.Utf8
/-!
# Encoder schemes

Model of `EncoderScheme` and its subclasses: construction, `encode_str`, `encode`, `decode_str`, `decode`
(nlcodec/codec.py:179-228, 352-362, 416-427, 436-501, 536-552, 566-621).
-/

namespace Verif

/-- The five concrete scheme classes (`REGISTRY`, nlcodec/codec.py:632-639; 'subword' is an alias of bpe). -/
inductive Kind where
  | word | char | bpe | clasz | byte
  deriving DecidableEq, Repr

/-- A constructed scheme object: `table`, `str_to_idx`, and for bpe the trie `root`. -/
structure Scheme where
  kind : Kind
  table : List Ty
  s2i : Dict Str Nat
  root : Trie Ty

/-- `self.idx_to_str` (nlcodec/codec.py:196) -/
def Scheme.idxToStr (s : Scheme) : List Str := s.table.map (·.name)

/-- `{tok: idx for idx, tok in enumerate(idx_to_str)}` (nlcodec/codec.py:198): a later duplicate overwrites.
`i` is the running index. -/
def strToIdxLast : List Str → Nat → Dict Str Nat → Dict Str Nat
  | [], _, d => d
  | n :: ns, i, d => strToIdxLast ns (i + 1) (Dict.set d n i)

/-- the loop keeping the first index of each name (nlcodec/codec.py:202-208) -/
def strToIdxFirst : List Str → Nat → Dict Str Nat → Dict Str Nat
  | [], _, d => d
  | n :: ns, i, d => strToIdxFirst ns (i + 1) (if Dict.mem d n then d else Dict.set d n i)

/-- `BPEScheme.make_vocab_prefix_trie` (nlcodec/codec.py:447-455), without the final assertion. -/
def buildTrie (table : List Ty) : Trie Ty := table.foldl (fun root t => root.insert t.name t) Trie.empty

/-- `ByteScheme.get_init_vocab` (nlcodec/codec.py:616-621) -/
def byteVocab : List Ty :=
  (List.range 256).map (fun c => { name := codeToStr c, level := Level.byte, idx := c, freq := -1, kids := [] }) ++
  [ { name := lit "<s>", level := Level.reserved, idx := 256, freq := -1, kids := [] },
    { name := lit "</s>", level := Level.reserved, idx := 257, freq := -1, kids := [] } ]

/-- invertible construction (nlcodec/codec.py:197-199) -/
def mkInvertible (k : Kind) (table : List Ty) : Py Scheme :=
  let d := strToIdxLast (table.map (·.name)) 0 []
  if table.length = d.length then .ok { kind := k, table := table, s2i := d, root := Trie.empty }
  else .error .assertion

/-- Construction of a scheme from a table: `EncoderScheme.__init__` (nlcodec/codec.py:183-209) through the
subclass constructors (BPE 440-445, Class 543-544, Byte 574-578: an empty table is replaced by the default). -/
def Scheme.make (k : Kind) (table : List Ty) : Py Scheme :=
  match k with
  | .word | .char =>
    match validateReserved table with
    | .error e => .error e
    | .ok _ => mkInvertible k table
  | .bpe =>
    match validateReserved table with
    | .error e => .error e
    | .ok _ =>
      let root := buildTrie table
      if root.data.isSome then .error .assertion
      else .ok { kind := .bpe, table := table, s2i := strToIdxFirst (table.map (·.name)) 0 [], root := root }
  | .clasz => mkInvertible .clasz table
  | .byte => mkInvertible .byte (if table.isEmpty then byteVocab else table)

/-! ## BPE encoding loop -/

/-- Local variables of the `while` loop of `BPEScheme.encode_str` (nlcodec/codec.py:475-493).  `best` is
`(data_node.data, data_idx)`; `none` is `(None, -1)`. -/
structure EncSt where
  seq : Str
  best : Option (Ty × Nat)
  prev : Trie Ty
  idx : Nat
  res : List Int

/-- initial values (nlcodec/codec.py:475-476) -/
def EncSt.start (root : Trie Ty) (seq : Str) (res : List Int) : EncSt :=
  { seq := seq, best := none, prev := root, idx := 0, res := res }

/-- loop condition (nlcodec/codec.py:477) -/
def EncSt.cond (st : EncSt) : Bool := !st.seq.isEmpty && decide (st.idx < st.seq.length + 1)

/-- loop body (nlcodec/codec.py:478-493) -/
def EncSt.step (root : Trie Ty) (unk : Int) (st : EncSt) : EncSt :=
  let best := match st.prev.data with
    | some d => some (d, st.idx)
    | none => st.best
  match st.seq[st.idx]? with
  | some c =>
    match st.prev.child c with
    | some k => { st with best := best, prev := k, idx := st.idx + 1 }
    | none => emit best
  | none => emit best
where
  /-- the `else` branch: emit the last data node or one unk, and restart (nlcodec/codec.py:484-493) -/
  emit (best : Option (Ty × Nat)) : EncSt :=
    match best with
    | some (d, i) => EncSt.start root (st.seq.drop i) (st.res ++ [(d.idx : Int)])
    | none => EncSt.start root (st.seq.drop 1) (st.res ++ [unk])

/-- The `while` loop with fuel; running out of fuel is `Exc.fuel`. -/
def encLoop (root : Trie Ty) (unk : Int) : Nat → EncSt → Py (List Int)
  | 0, _ => .error .fuel
  | k + 1, st => if st.cond then encLoop root unk k (st.step root unk) else .ok st.res

/-- Normalised text: `space_char.join(line.strip().split()) + space_char` (nlcodec/codec.py:462) -/
def bpeText (line : Str) : Str := join [SP] (split (strip line)) ++ [SP]

/-- fuel that is shown to be sufficient for a text of length `n` -/
def encFuel (n : Nat) : Nat := (n + 2) * (n + 2)

/-- ids found by the loop of `encode_str` (nlcodec/codec.py:461-493) -/
def bpeIds (s : Scheme) (line : Str) : Py (List Int) :=
  let text := bpeText line
  encLoop s.root (UNK : Int) (encFuel text.length) (EncSt.start s.root text [])

/-- `[self.table[idx].name for idx in res]` (nlcodec/codec.py:498) -/
def namesOf (table : List Ty) : List Int → Py (List Str)
  | [] => .ok []
  | i :: is => match pyIndex table i, namesOf table is with
    | .ok t, .ok ns => .ok (t.name :: ns)
    | .error e, _ => .error e
    | .ok _, .error e => .error e

/-- `BPEScheme.stochastic_split` (nlcodec/codec.py:529-533), draws numbered from `i`. -/
def stochasticIds (table : List Ty) (rng : Nat → Bool) : List Int → Nat → Py (List Int)
  | [], _ => .ok []
  | x :: xs, i => match pyIndex table x with
    | .error e => .error e
    | .ok t => match t.stochasticSplit rng i with
      | .error e => .error e
      | .ok (ps, j) => match stochasticIds table rng xs j with
        | .error e => .error e
        | .ok rest => .ok (ps.map (fun p => (p.idx : Int)) ++ rest)

/-- `BPEScheme.encode_str(line, split_ratio)` with `split_ratio > 0` (nlcodec/codec.py:495-498). -/
def bpeEncodeStrSplit (s : Scheme) (rng : Nat → Bool) (line : Str) : Py (List Str) :=
  match bpeIds s line with
  | .error e => .error e
  | .ok ids => match stochasticIds s.table rng ids 0 with
    | .error e => .error e
    | .ok ids' => namesOf s.table ids'

/-! ## encode_str / decode_str of all schemes -/

/-- `encode_str` of each scheme (word 357-358, char 422-423, bpe 461-498 with `split_ratio = 0`, class 548-549,
byte 589-590). -/
def Scheme.encodeStr (s : Scheme) (line : Str) : Py (List Str) :=
  match s.kind with
  | .word => .ok (split line)
  | .char => .ok ((join [SP] (split line)).map fun c => [c])
  | .bpe => match bpeIds s line with
    | .error e => .error e
    | .ok ids => namesOf s.table ids
  | .clasz => .ok [strip line]
  | .byte => match utf8Encode line with
    | .error e => .error e
    | .ok bs => .ok (bs.map codeToStr)

/-- `unk_idx`: 1 for schemes with reserved types (nlcodec/codec.py:192), -1 for the class scheme (541). -/
def Scheme.unk (s : Scheme) : Int := if s.kind = .clasz then -1 else (UNK : Int)

/-- pieces to ids: `str_to_idx.get(piece, unk_idx)` (nlcodec/codec.py:222-224, 457-459);
the byte scheme uses `str_to_idx[piece]` and may raise KeyError (607-609). -/
def Scheme.idsOf (s : Scheme) : List Str → Py (List Int)
  | [] => .ok []
  | p :: ps =>
    match s.kind, Dict.get? s.s2i p with
    | .byte, none => .error .key
    | _, o => match s.idsOf ps with
      | .error e => .error e
      | .ok is => .ok ((match o with | some i => (i : Int) | none => s.unk) :: is)

/-- `encode(line)` (nlcodec/codec.py:222-224, 457-459, 607-609) -/
def Scheme.encode (s : Scheme) (line : Str) : Py (List Int) :=
  match s.encodeStr line with
  | .error e => .error e
  | .ok ps => s.idsOf ps

/-- is the piece a reserved entry of the table? (nlcodec/codec.py:596) -/
def Scheme.pieceReserved (s : Scheme) (p : Str) : Bool :=
  match Dict.get? s.s2i p with
  | none => false
  | some i => match s.table[i]? with
    | some t => t.isReserved
    | none => false

/-- `ByteScheme.compose_str` (nlcodec/codec.py:585-587) -/
def composeStr (pieces : List Str) : Py Str :=
  match fromHex pieces.flatten with
  | .error e => .error e
  | .ok bs => .ok (utf8Decode bs)

/-- loop of `ByteScheme.decode_str` (nlcodec/codec.py:592-605): `buf` is the buffer, the result is the joined builder. -/
def byteDecode (s : Scheme) : List Str → List Str → Py Str
  | [], buf => if buf.isEmpty then .ok [] else composeStr buf
  | p :: ps, buf =>
    if s.pieceReserved p then
      match (if buf.isEmpty then (.ok [] : Py Str) else composeStr buf) with
      | .error e => .error e
      | .ok a => match byteDecode s ps [] with
        | .error e => .error e
        | .ok b => .ok (a ++ p ++ b)
    else byteDecode s ps (buf ++ [p])

/-- `decode_str` of each scheme (word 361-362, char 426-427, bpe 500-501, class 551-552, byte 592-605). -/
def Scheme.decodeStr (s : Scheme) (ps : List Str) : Py Str :=
  match s.kind with
  | .word => .ok (join [32] ps)
  | .char => .ok (replaceCh SP 32 ps.flatten)
  | .bpe => .ok (strip (replaceCh SP 32 ps.flatten))
  | .clasz => .ok (join [44] ps)
  | .byte => byteDecode s ps []

/-- `[self.idx_to_str[idx] for idx in seq]` then `decode_str` (nlcodec/codec.py:226-228, 611-613);
negative ids wrap around as Python list indices do. -/
def Scheme.decode (s : Scheme) (ids : List Int) : Py Str :=
  match namesOf s.table ids with
  | .error e => .error e
  | .ok ps => s.decodeStr ps

end Verif
