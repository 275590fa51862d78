import Verif.Model.Bpe
import Verif.Model.Cli
/-!
# The two-level learner `experimental/bpepp.py`

Model of `BPELearn` (experimental/bpepp.py:512-713), `WordBPE` (390-509), `BpeCodec` (248-387), `learn_codes` (716-748) and
`run` (751-767).

The data structures `LnNode`, `TrNode`, `Type` and `Level` (115-245) are copies of those of nlcodec/dstruct.py and
nlcodec/codec.py; the definitions for these are reused (`Node`, `fromSeq`, `Trie`, `Ty`, `Ty.format`, `parseType`), except
`LnNode.delete`, which is different.  Codes are natural numbers: the sequences of prepared input could contain negative
integers, which are outside the model (see `ppNatSeqs`).  Logging, progress bars and the memory statistics are left out.  The
order in which Python iterates over a set of nodes is the parameter `ord`, as in `Verif/Model/Bpe.lean`.
-/

namespace Verif

/-! ## Runs of equal symbols -/

/-- `_is_troublesome_seq` (experimental/bpepp.py:579-593): three equal symbols in a row -/
def ppTroublesome : List Nat → Bool
  | a :: b :: c :: r => (c == b && b == a) || ppTroublesome (b :: c :: r)
  | _ => false

/-- `buffer` of `_replace_trouble` (experimental/bpepp.py:598-601) from the second position on; `prev` is the symbol before and
`n` its entry -/
def ppBuffer (prev n : Nat) : List Nat → List Nat
  | [] => []
  | x :: r => let k := if x = prev then n + 1 else 1; k :: ppBuffer x k r

/-- `_replace_trouble` (experimental/bpepp.py:595-603) -/
def ppReplaceTrouble (seq : List Nat) : List Nat :=
  match seq with
  | [] => []
  | x :: r => ((seq.zip (1 :: ppBuffer x 1 r)).filter fun p => decide (p.2 ≤ 2)).map (·.1)

/-- `troubles='ignore'` or `'replace'` (experimental/bpepp.py:521-522); all callers use the default `'replace'` -/
inductive Troubles
  | ignore | replace
  deriving DecidableEq, Repr

/-! ## Index -/

/-- loop over the sequences in `BPELearn.__init__` (experimental/bpepp.py:538-575) from the state `I`; `first` says that the next
sequence is the first one (`seq[0]` raises IndexError when that one is empty; other empty sequences are skipped).  Every
sequence comes with its frequency.  The inner loop (565-570) is that of nlcodec/bpe.py:67-73. -/
def ppCreateIndex (tr : Troubles) : Bool → List (List Nat × Int) → Index → Py Index
  | _, [], I => .ok I
  | first, (seq, freq) :: rest, I =>
    if seq = [] then (if first then .error .index else ppCreateIndex tr false rest I)
    else
      let go (seq : List Nat) : Py Index :=
        match indexSeq freq I.next seq { I with mem := fromSeq I.mem I.next seq freq, next := I.next + seq.length } with
        | .error e => .error e
        | .ok I' => ppCreateIndex tr false rest I'
      if ppTroublesome seq then
        match tr with
        | .ignore => ppCreateIndex tr false rest I
        | .replace => go (ppReplaceTrouble seq)
      else go seq

/-- `BPELearn.__init__` (experimental/bpepp.py:520-577); `validate_index` (609-639) is that of nlcodec/bpe.py:82-113.  The
sequences come from a generator: `exc` is the exception it raises after the last one, if any. -/
def ppInit (tr : Troubles) (seqs : List (List Nat × Int)) (exc : Option Exc) (vocab : List Ty) : Py Index :=
  if (vocab.map (·.idx)).dedup.length ≠ (vocab.map (·.name)).dedup.length then .error .assertion
  else match checkIdx 0 vocab with
    | .error e => .error e
    | .ok () =>
      match ppCreateIndex tr true seqs { mem := fun _ => ⟨0, none, none, 0⟩, next := 0, bi := [], ix := [], uni := [] } with
      | .error e => .error e
      | .ok I => match exc with
        | some e => .error e
        | none => match validateIndex I vocab with
          | .error e => .error e
          | .ok () => .ok I

/-! ## Merging -/

/-- `LnNode.delete` (experimental/bpepp.py:129-138): unlike nlcodec/dstruct.py the deleted node keeps its links -/
def ppDelete (m : Mem) (k : Nat) : Mem :=
  let x := (m k).left
  let y := (m k).right
  setLeft (setRight m x y) y x

/-- what the loop over the nodes of a pair changes (experimental/bpepp.py:681-711); `uni` is fixed before -/
structure PpPass where
  mem : Mem
  bi : Dict Pair Int
  ix : Dict Pair (List Nat)

/-- moving a node from the pair `p` to the pair `p'` (experimental/bpepp.py:696-703, 704-711): `if ... and bi[p] > 0:` (the
read creates an entry 0 in the defaultdict), `bi[p] -= f`, `assert bi[p] >= 0`, `bi_ixs[p].remove(out)` (KeyError if it is not
there), `bi[p'] += f`, `bi_ixs[p'].add(inn)` -/
def ppMove (p p' : Pair) (f : Int) (out inn : Nat) (bi : Dict Pair Int) (ix : Dict Pair (List Nat)) :
    Py (Dict Pair Int × Dict Pair (List Nat)) :=
  match Dict.get? bi p with
  | none => .ok (Dict.set bi p 0, ix)
  | some c =>
    if ¬ 0 < c then .ok (bi, ix)
    else if c - f < 0 then .error .assertion
    else match Dict.get? ix p with
      | none => .error .key
      | some l =>
        if out ∈ l then
          .ok (Dict.incr (Dict.set bi p (c - f)) p' f, ixAdd (Dict.set ix p (l.erase out)) p' inn)
        else .error .key

/-- updates for the left neighbour (experimental/bpepp.py:696-703); `m` is the memory after the change of the nodes -/
def ppLeft (a R : Nat) (m : Mem) (x : Option Nat) (bi : Dict Pair Int) (ix : Dict Pair (List Nat)) :
    Py (Dict Pair Int × Dict Pair (List Nat)) :=
  match x with
  | none => .ok (bi, ix)
  | some x => ppMove ((m x).val, a) ((m x).val, R) (m x).freq x x bi ix

/-- updates for the right neighbour (experimental/bpepp.py:704-711); `n` is the new node, `bn` the deleted one -/
def ppRight (b R : Nat) (m : Mem) (n bn : Nat) (y : Option Nat) (bi : Dict Pair Int) (ix : Dict Pair (List Nat)) :
    Py (Dict Pair Int × Dict Pair (List Nat)) :=
  match y with
  | none => .ok (bi, ix)
  | some y => ppMove (b, (m y).val) (R, (m y).val) (m bn).freq bn n bi ix

/-- what happens at a node that does not start the pair (experimental/bpepp.py:684-687): the index is validated, which may raise
ValueError, then the assertion fails -/
def ppDirty (uni : Dict Nat Int) (vocab : List Ty) (P : PpPass) : Py PpPass :=
  match validateIndex { mem := P.mem, next := 0, bi := P.bi, ix := P.ix, uni := uni } vocab with
  | .error e => .error e
  | .ok () => .error .assertion

/-- body of the loop over `update_nodes` (experimental/bpepp.py:682-711) for the node at `n`; `b_node.val` of a missing node
raises AttributeError, but only if the first comparison was false -/
def ppNode (a b R : Nat) (uni : Dict Nat Int) (vocab : List Ty) (P : PpPass) (n : Nat) : Py PpPass :=
  let nd := P.mem n
  if nd.val ≠ a then ppDirty uni vocab P
  else match nd.right with
    | none => .error .attr
    | some bn =>
      if (P.mem bn).val ≠ b then ppDirty uni vocab P
      else if nd.freq ≠ (P.mem bn).freq then .error .assertion
      else
        let y := (P.mem bn).right
        let m1 := ppDelete P.mem bn
        let m2 := m1.upd n { m1 n with val := R }
        match ppLeft a R m2 nd.left P.bi P.ix with
        | .error e => .error e
        | .ok (bi1, ix1) => match ppRight b R m2 n bn y bi1 ix1 with
          | .error e => .error e
          | .ok (bi2, ix2) => .ok { mem := m2, bi := bi2, ix := ix2 }

/-- the loop over `update_nodes` (experimental/bpepp.py:681-711) -/
def ppPass (a b R : Nat) (uni : Dict Nat Int) (vocab : List Ty) : List Nat → PpPass → Py PpPass
  | [], P => .ok P
  | n :: ns, P => match ppNode a b R uni vocab P n with
    | .error e => .error e
    | .ok P' => ppPass a b R uni vocab ns P'

/-- `max(bi, key=bi.get)` (experimental/bpepp.py:655): the first key with the greatest value, in insertion order; `none` stands
for the ValueError of an empty dict -/
def ppMax : Dict Pair Int → Option (Pair × Int)
  | [] => none
  | x :: xs => some (xs.foldl (fun best y => if best.2 < y.2 then y else best) x)

/-- state of `learn_codes` (experimental/bpepp.py:650-651) -/
structure PpState where
  mem : Mem
  bi : Dict Pair Int
  ix : Dict Pair (List Nat)
  uni : Dict Nat Int
  vocab : List Ty

/-- one round of `learn_codes` (experimental/bpepp.py:654-711).  The flag tells whether the loop goes on (`false`: early stop
at 660). -/
def ppStep (ord : List Nat → List Nat) (minEv level : Int) (S : PpState) : Py (PpState × Bool) :=
  match ppMax S.bi with
  | none => .error .value
  | some ((a, b), f) =>
    if f < minEv then .ok (S, false)
    else
      let R := S.vocab.length
      match S.vocab[a]?, S.vocab[b]? with
      | some ta, some tb =>
        let vocab1 := S.vocab ++ [{ name := ta.name ++ tb.name, level := level, idx := R, freq := f, kids := [ta, tb] }]
        let bi1 := Dict.erase S.bi (a, b)
        let uni1 := Dict.incr (Dict.incr (Dict.set S.uni R f) a (-f)) b (-f)
        if (Dict.get? uni1 a).getD 0 < 0 then .error .assertion
        else if (Dict.get? uni1 b).getD 0 < 0 then .error .assertion
        else match Dict.get? S.ix (a, b) with
          | none => .error .key
          | some nodes =>
            match ppPass a b R uni1 vocab1 (ord nodes) { mem := S.mem, bi := bi1, ix := Dict.erase S.ix (a, b) } with
            | .error e => .error e
            | .ok P => .ok ({ mem := P.mem, bi := P.bi, ix := P.ix, uni := uni1, vocab := vocab1 }, true)
      | _, _ => .error .index

/-- `learn_codes` (experimental/bpepp.py:641-713): `n` rounds; `ord` may differ from round to round -/
def ppLoop (ord : Nat → List Nat → List Nat) (minEv level : Int) : Nat → PpState → Py PpState
  | 0, S => .ok S
  | n + 1, S => match ppStep (ord n) minEv level S with
    | .error e => .error e
    | .ok (S', true) => ppLoop ord minEv level n S'
    | .ok (S', false) => .ok S'

/-- `BPELearn(seqs, vocab).learn_codes(n_merges, min_co_evidence, code_level)` (experimental/bpepp.py:441-444, 741-744): the
final vocabulary.  A negative number of rounds is none. -/
def ppLearn (ord : Nat → List Nat → List Nat) (tr : Troubles) (seqs : List (List Nat × Int)) (exc : Option Exc) (vocab : List Ty)
    (n minEv level : Int) : Py (List Ty) :=
  match ppInit tr seqs exc vocab with
  | .error e => .error e
  | .ok I =>
    match ppLoop ord minEv level n.toNat { mem := I.mem, bi := I.bi, ix := I.ix, uni := I.uni, vocab := vocab } with
    | .error e => .error e
    | .ok S => .ok S.vocab

/-! ## Words -/

/-- `WordBPE._learn_codes` (experimental/bpepp.py:414-445) with `init_list=None` (no caller passes it); `_make_idxs` (402-412) and
`rev_idx` (435) are those of nlcodec/bpe.py:241-251, 273.  KeyError when the vocabulary has no `<unk>`. -/
def ppLearnCodesOf (ord : Nat → List Nat → List Nat) (tf : Dict Str Int) (vocab : List Ty) (vocabSize minEv : Int) : Py (List Ty) :=
  let rev := revIdx vocab
  if rev.length ≠ vocab.length then .error .assertion
  else if ¬ (vocab.length : Int) < vocabSize then .error .assertion
  else match Dict.get? rev unkName with
    | none => .error .key
    | some unk => ppLearn ord .replace (tf.map fun p => (wordCodes rev unk p.1, p.2)) none vocab (vocabSize - vocab.length) minEv
        Level.subword

/-- `{prepare_word(word): freq for ... if freq >= word_min_freq}` (experimental/bpepp.py:465-466) -/
def ppWords (tf : Dict Str Int) (wordMin : Int) : Dict Str Int := preparedFreqs (tf.filter fun p => decide (wordMin ≤ p.2))

/-- the initial vocabulary of `learn_subwords` (experimental/bpepp.py:470-492) from the prepared words; `alphabet` (470-473) is
`char_freqs` of nlcodec/bpe.py:302-305, the reserved types (243-245) are those of nlcodec/codec.py:53-55 -/
def ppAlphabet (tf : Dict Str Int) (charMin : Int) : List Ty :=
  let alpha := charFreqs tf
  let alpha1 := if 1 < charMin then alpha.filter fun p => decide (charMin ≤ p.2) else alpha
  reservedTypes ++ (sortByFreq (popReserved alpha1)).zipIdx.map fun (p, i) =>
    { name := p.1, level := Level.char, idx := i + 6, freq := p.2, kids := [] }

/-- `WordBPE.learn_subwords` (experimental/bpepp.py:447-500) -/
def ppSubwords (ord : Nat → List Nat → List Nat) (tf : Dict Str Int) (vocabSize minEv charMin wordMin : Int) : Py (List Ty) :=
  if ¬ 1 ≤ charMin then .error .assertion
  else if ¬ 1 ≤ wordMin then .error .assertion
  else
    let tf1 := ppWords tf wordMin
    let v := ppAlphabet tf1 charMin
    if vocabSize = -1 then .ok v else ppLearnCodesOf ord tf1 v vocabSize minEv

/-- `Counter(word for seq in corpus for word in seq.strip().split())` (experimental/bpepp.py:508) -/
def ppCounts (lines : List Str) : Dict Str Int := Dict.count [] (lines.flatMap fun l => split (strip l))

/-! ## Codec -/

/-- a `BpeCodec` object (experimental/bpepp.py:260-262) -/
structure PpCodec where
  vocab : List Ty
  root : Trie Ty

/-- `BpeCodec.__init__` on a list of types (experimental/bpepp.py:252-274); the trie (266-274) is built as in
nlcodec/codec.py:447-455 -/
def PpCodec.make (vocab : List Ty) : Py PpCodec :=
  if vocab = [] then .error .assertion
  else
    let root := buildTrie vocab
    if root.data.isSome then .error .assertion else .ok { vocab := vocab, root := root }

/-- `encode(seq)` (experimental/bpepp.py:309-343) with `pieces=False`; the loop is that of nlcodec/codec.py:475-493 -/
def PpCodec.encode (c : PpCodec) (line : Str) : Py (List Int) :=
  let text := bpeText line
  encLoop c.root (UNK : Int) (encFuel text.length) (EncSt.start c.root text [])

/-- `encode(seq, pieces=True)` (experimental/bpepp.py:343) -/
def PpCodec.pieces (c : PpCodec) (line : Str) : Py (List Str) :=
  match c.encode line with
  | .error e => .error e
  | .ok ids => namesOf c.vocab ids

/-- `decode(seq)` (experimental/bpepp.py:345-346) -/
def PpCodec.decode (c : PpCodec) (ids : List Int) : Py (List Str) := namesOf c.vocab ids

/-- `decode_as_str(seq)` (experimental/bpepp.py:348-350) -/
def PpCodec.decodeAsStr (c : PpCodec) (ids : List Int) : Py Str :=
  match c.decode ids with
  | .error e => .error e
  | .ok ps => .ok (strip (replaceCh SP 32 ps.flatten))

/-- `write_vocab(vocab, path)` (experimental/bpepp.py:276-289): the text in the file afterwards.  The rows are written as in
nlcodec/codec.py:124-126; `info` is the JSON text of the header (total, version, levels, time), which is never read back. -/
def ppWriteVocab (info : Str) (vocab : List Ty) : Py Str :=
  match writeRows vocab 0 with
  | .error e => .error e
  | .ok rows => .ok (dropSurrogates (35 :: info ++ 10 :: rows))

/-- `read_vocab(path)` (experimental/bpepp.py:291-307) on the text of the file: a first line that begins with `#` is dropped
unread; an empty file raises IndexError.  The loop (300-303) is that of nlcodec/codec.py:146-150. -/
def ppReadVocab (text : Str) : Py (List Ty) :=
  match (fileLines (univNewlines text)).map strip with
  | [] => .error .index
  | l0 :: ls => if startsWith [35] l0 then readTypes ls.length [] ls else readTypes (l0 :: ls).length [] (l0 :: ls)

/-- `read_lines(streams)` (experimental/bpepp.py:365-374) on the texts of the files -/
def ppReadLines (texts : List Str) : List Str := texts.flatMap fun t => (inpLines t).map strip

/-- `read_seqs(streams, max_seqs, max_len)` (experimental/bpepp.py:376-387): only a warning is logged when `max_seqs` is
reached -/
def ppReadSeqs (texts : List Str) (_maxSeqs maxLen : Nat) : Gen (List Int) :=
  genMap (fun line => match pyInts (split (strip line)) with
    | .error e => .error e
    | .ok ids => .ok (ids.take maxLen)) none (ppReadLines texts)

/-! ## Commands -/

/-- `encode_all(lines, stringify=True, pieces)` (experimental/bpepp.py:352-358), one line -/
def PpCodec.encodeLine (c : PpCodec) (pieces : Bool) (line : Str) : Py Str :=
  if pieces then match c.pieces line with
    | .error e => .error e
    | .ok ps => .ok (join [32] ps)
  else match c.encode line with
    | .error e => .error e
    | .ok ids => .ok (join [32] (ids.map intStr))

/-- `run('encode', ...)` (experimental/bpepp.py:759-762, 766-767): the text written and the exception, if any -/
def ppCliEncode (c : PpCodec) (pieces : Bool) (text : Str) : Str × Option Exc :=
  writeLines (genMap (c.encodeLine pieces) none (inpLines text))

/-- `decode_all(lines)` (experimental/bpepp.py:360-363): `return` in the loop, so this is no generator but returns the text of
the first line, or `None` when there is no line -/
def PpCodec.decodeAll (c : PpCodec) (lines : List Str) : Py (Option Str) :=
  match lines with
  | [] => .ok none
  | line :: _ => match pyInts (split (strip line)) with
    | .error e => .error e
    | .ok ids => match c.decodeAsStr ids with
      | .error e => .error e
      | .ok s => .ok (some s)

/-- `run('decode', ...)` (experimental/bpepp.py:759-760, 763-767): `enumerate` over what `decode_all` returned, which is a
string (its characters) or `None` (TypeError) -/
def ppCliDecode (c : PpCodec) (text : Str) : Str × Option Exc :=
  match c.decodeAll (inpLines text) with
  | .error e => ([], some e)
  | .ok none => ([], some .type)
  | .ok (some s) => (s.flatMap fun ch => [ch, 10], none)

/-- sequences of codes; a negative code is outside the model and reported as `Exc.noneKid` -/
def ppNatSeqs : List (List Int) → Py (List (List Nat))
  | [] => .ok []
  | s :: ss => if s.all fun i => decide (0 ≤ i) then
      match ppNatSeqs ss with
      | .error e => .error e
      | .ok r => .ok (s.map Int.toNat :: r)
    else .error .noneKid

/-- the vocabulary that `learn_codes('learn1', ...)` learns (experimental/bpepp.py:723-729) -/
def ppVocab1 (ord : Nat → List Nat → List Nat) (texts : List Str) (charMin wordMin size1 minEv1 : Int) (prepared : Bool) : Py (List Ty) :=
  if prepared then .error .assertion
  else if ¬ (0 < size1 ∨ size1 = -1) then .error .assertion
  else ppSubwords ord (ppCounts (ppReadLines texts)) size1 minEv1 charMin wordMin

/-- `learn_codes('learn1', ...)` (experimental/bpepp.py:723-730): the text of the vocabulary file written -/
def ppLearn1 (info : Str) (ord : Nat → List Nat → List Nat) (texts : List Str) (charMin wordMin size1 minEv1 : Int) (prepared : Bool) :
    Py Str :=
  match ppVocab1 ord texts charMin wordMin size1 minEv1 prepared with
  | .error e => .error e
  | .ok v => ppWriteVocab info v

/-- the vocabulary that `learn_codes('learn2', ...)` learns (experimental/bpepp.py:734-744) from the text of the level 1 vocabulary file and the texts of the
input files -/
def ppVocab2 (ord : Nat → List Nat → List Nat) (l1 : Str) (texts : List Str) (size2 minEv2 : Int) (prepared : Bool) : Py (List Ty) :=
  match ppReadVocab l1 with
  | .error e => .error e
  | .ok v =>
    match (if prepared then .ok (ppReadSeqs texts 2000000 1024)
        else match PpCodec.make v with
          | .error e => .error e
          | .ok c => .ok (genMap c.encode none (ppReadLines texts)) : Py (Gen (List Int))) with
    | .error e => .error e
    | .ok g => match ppNatSeqs g.out with
      | .error e => .error e
      | .ok seqs => ppLearn ord .replace (seqs.map fun s => (s, 1)) g.exc v size2 minEv2 2

/-- `learn_codes('learn2', ...)` (experimental/bpepp.py:732-748) on the text of the level 1 vocabulary file (`none`: no such file)
and the texts of the input files: the text of the final vocabulary file.  For renaming the old file (745-746) see Verif/Model/BpeppRun.lean. -/
def ppLearn2 (info : Str) (ord : Nat → List Nat → List Nat) (l1 : Option Str) (texts : List Str) (size2 minEv2 : Int) (prepared : Bool) :
    Py Str :=
  match l1 with
  | none => .error .assertion
  | some l1 => match ppVocab2 ord l1 texts size2 minEv2 prepared with
    | .error e => .error e
    | .ok v => ppWriteVocab info v

/-- `learn_codes('learn', ...)` (experimental/bpepp.py:723-748): both levels, the second reads the file written by the first -/
def ppLearnBoth (info1 info2 : Str) (ord1 ord2 : Nat → List Nat → List Nat) (texts : List Str) (charMin wordMin size1 minEv1 size2 minEv2 : Int)
    (prepared : Bool) : Py (Str × Str) :=
  match ppLearn1 info1 ord1 texts charMin wordMin size1 minEv1 prepared with
  | .error e => .error e
  | .ok l1 => match ppLearn2 info2 ord2 (some l1) texts size2 minEv2 prepared with
    | .error e => .error e
    | .ok l2 => .ok (l1, l2)

end Verif
