import Verif.Model.Learn
/-!
# Text files: vocabularies and term frequencies

Model of `Type.format`/`parse`/`write_out`/`read_vocab` (nlcodec/codec.py:77-80, 89-154), `EncoderScheme.save` (348-349),
`load_scheme` (667-678), `write_stats` (nlcodec/term_freq.py:68-80) and `read_term_freqs` (nlcodec/codec.py:375-391).

A file is its text.  The UTF-8 coding below the text is left out: `errors='ignore'` drops surrogates on writing
(`dropSurrogates`), and reading what was written gives the same text (proved for the codec model in `Verif/Lemmas/Utf8.lean`).
-/

namespace Verif

/-- The entries of a JSON header that are ever read back: `scheme`, `max_level` (vocabulary files), `line_count`
(frequency files).  `any` says that the object has at least one entry.  Entries of unexpected type are not modelled. -/
structure Header where
  any : Bool := true
  scheme : Option Str := none
  maxLevel : Option Int := none
  lineCount : Option Int := none
  deriving DecidableEq, Repr

/-- `json.dumps` / `json.loads`, a parameter: `dumps h` stands for the text of a header with the entries of `h` (and
others that are not read back: total, version, levels, created, types, tokens). -/
structure Json where
  dumps : Header → Str
  loads : Str → Py Header

/-- is a surrogate code point -/
def isSurrogate (c : Nat) : Bool := decide (0xD800 ≤ c ∧ c ≤ 0xDFFF)

/-- writing with `errors='ignore'` (nlcodec/codec.py:113) -/
def dropSurrogates (s : Str) : Str := s.filter fun c => !isSurrogate c

/-- universal newlines: `open(path, 'r')` turns `\r\n` and `\r` into `\n` (nlcodec/codec.py:135) -/
def univNewlines : Str → Str
  | 13 :: 10 :: r => 10 :: univNewlines r
  | 13 :: r => 10 :: univNewlines r
  | c :: r => c :: univNewlines r
  | [] => []

/-- lines of a text without the final line feeds (iteration over a text file with `newline='\n'`) -/
def fileLines (text : Str) : List Str :=
  let ps := splitOn (· == 10) text
  if ps.getLast? = some [] then ps.dropLast else ps

/-! ## vocabulary files -/

/-- `Type.format` (nlcodec/codec.py:77-80) -/
def Ty.format (t : Ty) : Str :=
  join [9] [natStr t.idx, t.name, intStr t.level, intStr t.freq, join [32] (t.kids.map fun k => natStr k.idx)]

/-- rows of `write_out` (nlcodec/codec.py:124-126); `i` is the expected index -/
def writeRows : List Ty → Nat → Py Str
  | [], _ => .ok []
  | t :: ts, i =>
    if i = t.idx then
      match writeRows ts (i + 1) with
      | .error e => .error e
      | .ok r => .ok (t.format ++ 10 :: r)
    else .error .assertion

/-- `max(levels)` (nlcodec/codec.py:118); `None` when empty -/
def maxLevel : List Ty → Option Int
  | [] => none
  | t :: ts => match maxLevel ts with
    | none => some t.level
    | some m => some (max t.level m)

/-- `Type.write_out(table, path, **meta)` (nlcodec/codec.py:110-129): the text in the file afterwards.  `max()` of an empty
table raises ValueError. -/
def writeOut (J : Json) (scheme : Option Str) (table : List Ty) : Py Str :=
  match maxLevel table with
  | none => .error .value
  | some m => match writeRows table 0 with
    | .error e => .error e
    | .ok rows => .ok (dropSurrogates (35 :: J.dumps { scheme := scheme, maxLevel := some m } ++ 10 :: rows))

/-- `list(map(int, ...))` (nlcodec/codec.py:96) -/
def pyInts : List Str → Py (List Int)
  | [] => .ok []
  | w :: ws => match pyInt w with
    | .error e => .error e
    | .ok i => match pyInts ws with
      | .error e => .error e
      | .ok is => .ok (i :: is)

/-- `[vocab[k] for k in kids]` (nlcodec/codec.py:98); entries not read yet are `None` -/
def lookupKids (vocab : List (Option Ty)) : List Int → Py (List (Option Ty))
  | [] => .ok []
  | k :: ks => match pyIndex vocab k with
    | .error e => .error e
    | .ok t => match lookupKids vocab ks with
      | .error e => .error e
      | .ok ts => .ok (t :: ts)

/-- result of `Type.parse`: like `Ty`, but the index may be negative and kids may be `None` -/
structure RawTy where
  name : Str
  level : Int
  idx : Int
  freq : Int
  kids : List (Option Ty)

/-- `Type.parse` (nlcodec/codec.py:89-100); fewer than four columns: ValueError -/
def parseType (vocab : List (Option Ty)) (line : Str) : Py RawTy :=
  match splitOn (· == 9) (strip line) with
  | c0 :: c1 :: c2 :: c3 :: more =>
    match pyInt c0 with
    | .error e => .error e
    | .ok idx => match pyInt c2 with
      | .error e => .error e
      | .ok level => match pyInt c3 with
        | .error e => .error e
        | .ok freq => match more with
          | [] => .ok ⟨c1, level, idx, freq, []⟩
          | c4 :: _ =>
            if c4.isEmpty then .ok ⟨c1, level, idx, freq, []⟩
            else match pyInts (split c4) with
              | .error e => .error e
              | .ok ks =>
                if ks.all fun k => decide (k < idx ∧ k < vocab.length) then
                  match lookupKids vocab ks with
                  | .error e => .error e
                  | .ok kids => .ok ⟨c1, level, idx, freq, kids⟩
                else .error .assertion
  | _ => .error .value

/-- all kids are present -/
def allKids : List (Option Ty) → Option (List Ty)
  | [] => some []
  | none :: _ => none
  | some t :: ts => match allKids ts with
    | none => none
    | some us => some (t :: us)

/-- loop of `read_vocab` (nlcodec/codec.py:146-150); `done` are the types read so far, `n` the number of lines.
A type with a `None` among its kids is accepted by the code (its kids would be `[..., None, ...]`); such an object is not
representable in the model, so this outcome is reported as `Exc.noneKid`. -/
def readTypes (n : Nat) : List Ty → List Str → Py (List Ty)
  | done, [] => .ok done
  | done, line :: lines =>
    match parseType (done.map some ++ List.replicate (n - done.length) none) line with
    | .error e => .error e
    | .ok r =>
      if r.idx = (done.length : Int) then
        match allKids r.kids with
        | none => .error .noneKid
        | some kids => readTypes n (done ++ [⟨r.name, r.level, done.length, r.freq, kids⟩]) lines
      else .error .assertion

/-- `Type.read_vocab(path)` (nlcodec/codec.py:131-154) on the text of the file; an empty file raises IndexError. -/
def readVocab (J : Json) (text : Str) : Py (List Ty × Option Header) :=
  match (fileLines (univNewlines text)).map strip with
  | [] => .error .index
  | l0 :: ls =>
    if startsWith [35, 123] l0 then
      match J.loads (l0.drop 1) with
      | .error e => .error e
      | .ok h => match readTypes ls.length [] ls with
        | .error e => .error e
        | .ok t => .ok (t, some h)
    else match readTypes (l0 :: ls).length [] (l0 :: ls) with
      | .error e => .error e
      | .ok t => .ok (t, none)

/-- `name` of each scheme class (nlcodec/codec.py:354, 419, 438, 539, 569) -/
def Kind.name : Kind → Str
  | .word => lit "word"
  | .char => lit "char"
  | .bpe => lit "bpe"
  | .clasz => lit "class"
  | .byte => lit "byte"

/-- `REGISTRY` (nlcodec/codec.py:632-639) -/
def registry (n : Str) : Py Kind :=
  if n = lit "char" then .ok .char else if n = lit "word" then .ok .word else if n = lit "bpe" then .ok .bpe
  else if n = lit "subword" then .ok .bpe else if n = lit "class" then .ok .clasz else if n = lit "byte" then .ok .byte
  else .error .key

/-- `EncoderScheme.save` (nlcodec/codec.py:348-349) -/
def Scheme.save (J : Json) (s : Scheme) : Py Str := writeOut J (some s.kind.name) s.table

/-- scheme class chosen by `load_scheme` (nlcodec/codec.py:669-677) -/
def headerKind (h : Option Header) : Py Kind :=
  match h with
  | none => .error .assertion
  | some h =>
    if h.any then
      match h.scheme with
      | some n => registry n
      | none => match h.maxLevel with
        | none => .error .key
        | some m => if m < 4 then pyIndex [Kind.char, Kind.bpe, Kind.word, Kind.clasz] m else .error .assertion
    else .error .assertion

/-- `load_scheme(path)` (nlcodec/codec.py:667-678) on the text of the file -/
def loadScheme (J : Json) (text : Str) : Py Scheme :=
  match readVocab J text with
  | .error e => .error e
  | .ok (types, h) => match headerKind h with
    | .error e => .error e
    | .ok k => Scheme.make k types

/-! ## term-frequency files -/

/-- rows of `write_stats` (nlcodec/term_freq.py:78-79) -/
def statRows : List (Str × Int) → Str
  | [] => []
  | (t, f) :: r => t ++ 9 :: (intStr f ++ 10 :: statRows r)

/-- `write_stats(stats, out, line_count=n)` (nlcodec/term_freq.py:68-80): the text written -/
def writeStats (J : Json) (stats : Dict Str Int) (lineCount : Option Int) : Str :=
  35 :: J.dumps { lineCount := lineCount } ++ 10 :: statRows (sortByFreq stats)

/-- loop of `read_term_freqs` (nlcodec/codec.py:379-390) after the first line: `term, freq = line.split("\t")` -/
def readFreqRows : Dict Str Int → List Str → Py (Dict Str Int)
  | d, [] => .ok d
  | d, line :: lines =>
    match splitOn (· == 9) (rstripP (· == 10) line) with
    | [t, f] => match pyInt f with
      | .error e => .error e
      | .ok n => readFreqRows (Dict.set d (strip t) n) lines
    | _ => .error .value

/-- `read_term_freqs(lines)` (nlcodec/codec.py:375-391): an unreadable header is skipped, `line_count` stays −1 then. -/
def readTermFreqs (J : Json) (lines : List Str) : Py (Dict Str Int × Int) :=
  match lines with
  | [] => .ok ([], -1)
  | l0 :: ls =>
    let l := rstripP (· == 10) l0
    if startsWith [35] l && decide ((splitOn (· == 9) l).length ≠ 2) then
      let n := match J.loads (l.drop 1) with
        | .error _ => -1
        | .ok h => h.lineCount.getD (-1)
      match readFreqRows [] ls with
      | .error e => .error e
      | .ok d => .ok (d, n)
    else match readFreqRows [] (l0 :: ls) with
      | .error e => .error e
      | .ok d => .ok (d, -1)

/-- `learn(data, ..., term_freqs=True)` for the word scheme (nlcodec/codec.py:406-413) on frequency lines -/
def learnFromStats (J : Json) (A : Acc) (lines : List Str) (vocabSize minFreq : Int) (cov : Option A.F) : Py (List Ty) :=
  match readTermFreqs J lines with
  | .error e => .error e
  | .ok (tf, n) => getInitVocab A Level.word tf cov (some n) minFreq vocabSize

end Verif
