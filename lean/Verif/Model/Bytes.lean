import Verif.Model.Main
/-!
# The command `nlcodec` on bytes

Input, output and model of `nlcodec` as files of bytes.  Input and output are opened by `argparse.FileType` (nlcodec/__main__.py:41, 46) in
text mode; their encoding is that of the locale, taken to be UTF-8 with `errors='strict'`.  The model file is opened in UTF-8 with
`errors='ignore'` (nlcodec/codec.py:113, 135).  The buffers of `io.TextIOWrapper` are not observable except for one thing, which is modelled: input
arrives in chunks, and when a chunk cannot be decoded no character of it is used.  UnicodeDecodeError and UnicodeEncodeError are both `Exc.unicode`.
-/

namespace Verif

/-- may `b1` follow the first byte `b0` of a sequence of two or more bytes (Unicode table 3-7) -/
def secondOk (b0 b1 : Nat) : Bool :=
  decide ((if b0 = 0xE0 then 0xA0 else if b0 = 0xF0 then 0x90 else 0x80) ≤ b1 ∧ b1 ≤ (if b0 = 0xED then 0x9F else if b0 = 0xF4 then 0x8F else 0xBF))

/-- bytes that the incremental decoder keeps for the next chunk: an incomplete sequence -/
def utf8Pending : List Nat → Bool
  | [b0] => decide (0xC2 ≤ b0 ∧ b0 ≤ 0xF4)
  | [b0, b1] => decide (0xE0 ≤ b0 ∧ b0 ≤ 0xF4) && secondOk b0 b1
  | [b0, b1, b2] => decide (0xF0 ≤ b0 ∧ b0 ≤ 0xF4) && secondOk b0 b1 && isCont b2
  | _ => false

/-- one call of the incremental UTF-8 decoder, strict and not final: the characters and the bytes kept; `none` is UnicodeDecodeError.  The
fuel is the number of bytes. -/
def utf8Feed : Nat → List Nat → Option (Str × List Nat)
  | _, [] => some ([], [])
  | 0, _ :: _ => none
  | k + 1, b :: bs => match utf8Step (b :: bs) with
    | (some (c, r), _) => match utf8Feed k r with
      | none => none
      | some (t, p) => some (c :: t, p)
    | (none, _) => if utf8Pending (b :: bs) then some ([], b :: bs) else none

/-- decoding the chunks of a file (`inp` of nlcodec/__main__.py:41) after the kept bytes `pend`: the characters before the error, and whether the
end was reached without error -/
def readChunks : List Nat → List (List Nat) → Str × Bool
  | pend, [] => ([], pend.isEmpty)
  | pend, c :: cs => match utf8Feed (pend ++ c).length (pend ++ c) with
    | none => ([], false)
    | some (t, p) => (t ++ (readChunks p cs).1, (readChunks p cs).2)

/-- `for line in inp` (nlcodec/__main__.py:41, used in nlcodec/codec.py:369, 379, 683, 692): when decoding fails, the lines that were complete by then,
where a carriage return at the end waits for a line feed -/
def byteLines (chunks : List (List Nat)) : Gen Str :=
  let r := readChunks [] chunks
  if r.2 then ⟨inpLines r.1, none⟩
  else
    let t := if r.1.getLast? = some 13 then r.1.dropLast else r.1
    ⟨(inpLines t).filter fun l => l.getLast? == some 10, some .unicode⟩

/-- `Scheme.learn` (nlcodec/codec.py:394-413, 503-527, 624-628 through 642-661) on lines whose reading may fail: the byte scheme does not read, bpe
checks the size before, and of two errors the first one counts -/
def learnGen (J : Json) (ord : Nat → List Nat → List Nat) (A : Acc) (args : MainArgs A.F) (level : LevelName) (g : Gen Str) : Py (List Ty) :=
  let mf := args.minFreq.getD 0
  match g.exc with
  | none => if args.termFreqs then learnTf J ord A level g.out args.vocabSize mf args.cov args.minCoEv
      else learnVocab ord A level g.out args.vocabSize mf args.cov args.minCoEv
  | some e =>
    let minEv := if level = .bpe then args.minCoEv else MIN_CO_EV
    if level = .byte then .ok byteVocab
    else if (level = .bpe ∨ level = .subword) ∧ ¬ 0 < (if 1 < minEv ∧ args.vocabSize ≤ 1 then maxSize else args.vocabSize) then .error .assertion
    else if args.termFreqs then match readTermFreqs J g.out with
      | .error e' => .error e'
      | .ok _ => .error e
    else .error e

/-- `write_lines` (nlcodec/__main__.py:14-17) to a file of bytes: a line that cannot be encoded ends the program -/
def writeBytes : List Str → Option Exc → List Nat × Option Exc
  | [], e => ([], e)
  | l :: ls, e => match utf8Encode l with
    | .error x => ([], some x)
    | .ok bs => (bs ++ 10 :: (writeBytes ls e).1, (writeBytes ls e).2)

/-- writing with `errors='ignore'` (nlcodec/codec.py:113) -/
def utf8Drop (s : Str) : List Nat := s.flatMap fun c => match utf8Char c with
  | .ok bs => bs
  | .error _ => []

/-- loop of `utf8Skip`; the fuel is the number of bytes -/
def utf8SkipAux : Nat → List Nat → Str
  | 0, _ => []
  | _ + 1, [] => []
  | k + 1, b :: bs => match utf8Step (b :: bs) with
    | (some (c, r), _) => c :: utf8SkipAux k r
    | (none, r) => utf8SkipAux k r

/-- reading with `errors='ignore'` (nlcodec/codec.py:135) -/
def utf8Skip (bs : List Nat) : Str := utf8SkipAux bs.length bs

/-- `main` (nlcodec/__main__.py:80-111) on bytes: the model file afterwards, the bytes written to `out`, and the exception that ends the program -/
def mainBytes (J : Json) (ord : Nat → List Nat → List Nat) (A : Acc) (args : MainArgs A.F) (model : Option (List Nat)) (chunks : List (List Nat)) :
    Option (List Nat) × List Nat × Option Exc :=
  let g := byteLines chunks
  match args.task with
  | .learn => match args.level with
    | none => (model, [], some .assertion)
    | some level => match learnGen J ord A args level g with
      | .error e => (model, [], some e)
      | .ok table => match Scheme.make level.kind table with
        | .error e => (model, [], some e)
        | .ok _ => ((saveModel J level.kind table none).1.map utf8Drop, [], (saveModel J level.kind table none).2)
  | .encode => match model with
    | none => (model, [], some .fileNotFound)
    | some bytes => match loadScheme J (utf8Skip bytes) with
      | .error e => (model, [], some e)
      | .ok s => (model, writeBytes (genMap (encodeLine s args.indices) g.exc g.out).out (genMap (encodeLine s args.indices) g.exc g.out).exc)
  | .decode => match model with
    | none => (model, [], some .fileNotFound)
    | some bytes => match loadScheme J (utf8Skip bytes) with
      | .error e => (model, [], some e)
      | .ok s => (model, writeBytes (genMap (decodeLine s args.indices) g.exc g.out).out (genMap (decodeLine s args.indices) g.exc g.out).exc)

end Verif
