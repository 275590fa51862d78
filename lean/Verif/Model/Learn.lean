import Verif.Model.Scheme
import Mathlib.Data.List.Sort
import Mathlib.Data.List.Lex
/-!
# Learning word, char, class and byte vocabularies

Model of `filter_types_coverage` (nlcodec/utils.py:33-48), `EncoderScheme.get_init_vocab` (nlcodec/codec.py:246-287),
`WordScheme.term_frequencies`/`learn` (365-373, 394-413), `CharScheme.learn` (429-433), `ClassScheme.get_init_vocab`
(554-563) and `ByteScheme.learn` (624-628).
-/

namespace Verif

/-- `sum(...)` over integers -/
def isum (l : List Int) : Int := l.foldr (· + ·) 0

/-- `sorted(d.items(), key=lambda x: x[1], reverse=True)`: stable, decreasing by value. -/
def sortByFreq (d : Dict Str Int) : List (Str × Int) := d.insertionSort (fun a b => b.2 ≤ a.2)

/-- The number type in which `filter_types_coverage` accumulates.  Python uses binary64 floats; the model is generic
so that theorems can be stated for exact rationals, for binary64, or for any arithmetic whatsoever. -/
structure Acc where
  F : Type
  zero : F
  /-- `cum + f / tot`, only used with `tot ≠ 0` -/
  addRatio : F → Int → Int → F
  /-- `cum >= coverage` -/
  ge : F → F → Bool
  /-- `0 < coverage <= 1` -/
  valid : F → Bool

/-- loop of `filter_types_coverage` (nlcodec/utils.py:39-43) -/
def coverLoop (A : Acc) (tot : Int) (cov : A.F) : List (Str × Int) → A.F → Dict Str Int → Py (Dict Str Int)
  | [], _, inc => .ok inc
  | (t, f) :: rest, cum, inc =>
    if tot = 0 then .error .zeroDiv
    else
      let cum' := A.addRatio cum f tot
      let inc' := Dict.set inc t f
      if A.ge cum' cov then .ok inc' else coverLoop A tot cov rest cum' inc'

/-- `filter_types_coverage(types, coverage)` (nlcodec/utils.py:33-48); logging left out. -/
def filterCoverage (A : Acc) (types : Dict Str Int) (cov : A.F) : Py (Dict Str Int × Int) :=
  if A.valid cov then
    let tot := isum (Dict.values types)
    let sorted := sortByFreq types
    match coverLoop A tot cov sorted A.zero [] with
    | .error e => .error e
    | .ok inc =>
      let excludes := sorted.filter fun p => !Dict.mem inc p.1
      .ok (inc, isum (excludes.map (·.2)))
  else .error .assertion

/-- position denoted by a slice bound `k` in a list of length `n` (Python slices: negative counts from the end, clamped). -/
def sliceBound (n : Nat) (k : Int) : Nat := if k < 0 then (n + k).toNat else min k.toNat n

/-- the dict left after `term_freqs.pop(name)` for the reserved names (nlcodec/codec.py:250-251) -/
def popReserved (tf : Dict Str Int) : Dict Str Int := reservedNames.foldl (fun d n => Dict.erase d n) tf

/-- new frequency of the reserved type at `idx` (nlcodec/codec.py:274-281) -/
def reservedFreq (tf : Dict Str Int) (unk : Int) (lineCount : Option Int) (idx : Nat) (name : Str) : Int :=
  (Dict.get? tf name).getD 0 + (if idx = 1 then unk else 0) +
    (if idx = 2 ∨ idx = 3 ∨ idx = 4 then lineCount.getD 0 else 0)

/-- `vocab[idx] = t.copy(freq=freq)` if the frequency is not 0 (nlcodec/codec.py:273-284) -/
def updateReserved (tf : Dict Str Int) (unk : Int) (lineCount : Option Int) : List Ty :=
  reservedTypes.map fun t =>
    let f := reservedFreq tf unk lineCount t.idx t.name
    if f = 0 then t else { t with freq := f }

/-- 2. and 3. of "order of trimming": the list kept and the mass added to unk (nlcodec/codec.py:261-270) -/
def trimTerms (terms : List (Str × Int)) (minFreq vocabSize : Int) : List (Str × Int) × Int :=
  let u1 := if 1 < minFreq then isum ((terms.filter fun p => decide (p.2 < minFreq)).map (·.2)) else 0
  let t1 := if 1 < minFreq then terms.filter fun p => decide (minFreq ≤ p.2) else terms
  if 0 < vocabSize ∧ vocabSize < (6 + t1.length : Nat) then
    let k := sliceBound t1.length (vocabSize - 6)
    (t1.take k, u1 + isum ((t1.drop k).map (·.2)))
  else (t1, u1)

/-- `EncoderScheme.get_init_vocab` (nlcodec/codec.py:246-287).  `cov = none` stands for `coverage=0`;
`lineCount = none` for `None`.  The function also removes the reserved names from the caller's dict
(`term_freqs.pop`), which no caller observes; logging left out. -/
def getInitVocab (A : Acc) (level : Int) (tf : Dict Str Int) (cov : Option A.F) (lineCount : Option Int)
    (minFreq vocabSize : Int) : Py (List Ty) :=
  let tf1 := popReserved tf
  match (match cov with
      | none => (.ok (tf1, 0) : Py (Dict Str Int × Int))
      | some c => filterCoverage A tf1 c) with
  | .error e => .error e
  | .ok (tf2, u0) =>
    let (kept, u1) := trimTerms (sortByFreq tf2) minFreq vocabSize
    .ok (updateReserved tf (u0 + u1) lineCount ++
      kept.zipIdx.map fun (p, i) => { name := p.1, level := level, idx := i + 6, freq := p.2, kids := [] })

/-- `ClassScheme.get_init_vocab` (nlcodec/codec.py:554-563): sorted by name, no reserved types, options ignored. -/
def classInitVocab (tf : Dict Str Int) : List Ty :=
  (tf.insertionSort (fun a b => a.1 ≤ b.1)).zipIdx.map fun (p, i) =>
    { name := p.1, level := Level.clasz, idx := i, freq := p.2, kids := [] }

/-- pieces counted by `term_frequencies`: `cls.encode_str(line.strip())` (nlcodec/codec.py:370) for the classes that
inherit it as a class method (word 357-358, char 422-423, class 548-549). -/
def learnPieces (k : Kind) (line : Str) : List Str :=
  match k with
  | .char => (join [SP] (split (strip line))).map fun c => [c]
  | .clasz => [strip (strip line)]
  | _ => split (strip line)

/-- `term_frequencies(data)` (nlcodec/codec.py:365-373) -/
def termFrequencies (k : Kind) (data : List Str) : Dict Str Int × Int :=
  (data.foldl (fun d line => Dict.count d (learnPieces k line)) [], data.length)

/-- `learn(data, vocab_size, min_freq, coverage)` with `term_freqs=False` for word, char, class
(nlcodec/codec.py:394-413, 429-433) and byte (624-628). -/
def learnRaw (A : Acc) (k : Kind) (data : List Str) (vocabSize minFreq : Int) (cov : Option A.F) : Py (List Ty) :=
  match k with
  | .word =>
    let (tf, n) := termFrequencies .word data
    getInitVocab A Level.word tf cov (some n) minFreq vocabSize
  | .char =>
    let (tf, n) := termFrequencies .char data
    getInitVocab A Level.char tf cov (some n) minFreq vocabSize
  | .clasz => .ok (classInitVocab (termFrequencies .clasz data).1)
  | .byte => .ok byteVocab
  | .bpe => .error .fuel

/-! ## Number types -/

/-- exact rationals `p / q` (q > 0), not necessarily reduced -/
def accExact : Acc where
  F := Int × Nat
  zero := (0, 1)
  addRatio c f tot := (c.1 * tot + f * c.2, c.2 * tot.natAbs)
  ge a b := decide (b.1 * a.2 ≤ a.1 * b.2)
  valid c := decide (0 < c.1 ∧ c.1 ≤ c.2)

/-- non-negative dyadic number `m * 2^e`: the values of binary64 -/
structure Dy where
  m : Nat
  e : Int
  deriving DecidableEq, Repr

/-- `p / q` rounded to 53 significant bits, ties to even (IEEE 754 binary64 without exponent limits: the quotients of
counts are far from the limits of the exponent range). -/
def roundQ (p q : Nat) : Dy :=
  if p = 0 then ⟨0, 0⟩ else
  let e0 : Int := (p.log2 : Int) - q.log2 - 52
  let scale (e : Int) : Nat × Nat := if 0 ≤ e then (p, q * 2 ^ e.toNat) else (p * 2 ^ (-e).toNat, q)
  let e := if (scale e0).1 / (scale e0).2 < 2 ^ 52 then e0 - 1
           else if 2 ^ 53 ≤ (scale e0).1 / (scale e0).2 then e0 + 1 else e0
  let (a, b) := scale e
  let m := a / b
  let r := a % b
  if 2 * r < b then ⟨m, e⟩ else if b < 2 * r then ⟨m + 1, e⟩ else if m % 2 = 0 then ⟨m, e⟩ else ⟨m + 1, e⟩

/-- exact value as a fraction -/
def Dy.frac (d : Dy) : Nat × Nat := if 0 ≤ d.e then (d.m * 2 ^ d.e.toNat, 1) else (d.m, 2 ^ (-d.e).toNat)

/-- floating-point addition -/
def Dy.add (a b : Dy) : Dy :=
  let (p, q) := a.frac
  let (p', q') := b.frac
  roundQ (p * q' + p' * q) (q * q')

/-- comparison `a >= b` -/
def Dy.ge (a b : Dy) : Bool :=
  let (p, q) := a.frac
  let (p', q') := b.frac
  decide (p' * q ≤ p * q')

/-- binary64, for non-negative counts -/
def accF64 : Acc where
  F := Dy
  zero := ⟨0, 0⟩
  addRatio c f tot := c.add (roundQ f.toNat tot.toNat)
  ge := Dy.ge
  valid c := decide (0 < c.m) && Dy.ge ⟨1, 0⟩ c

end Verif
