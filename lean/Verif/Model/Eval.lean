import Verif.Model.Mapred
import Verif.Model.Learn
import Mathlib.Algebra.Order.Ring.Rat
/-!
# N-grams, recall, precision, F1 and out-of-vocabulary counts

Model of nlcodec/utils.py:17-30, nlcodec/eval/pr_measure.py:20-102, nlcodec/eval/oov_count.py:21-50 and
nlcodec/eval/termfreq.py:35-44.

Floats: results of divisions, sums and products are rational numbers to which the rounding `fl` is applied; `fl = id` is exact
arithmetic, `fl = rnd64` is binary64.
-/

namespace Verif

/-- `x` rounded to binary64 (numbers far from the exponent limits) -/
def rnd64 (x : ℚ) : ℚ :=
  let v := (roundQ x.num.natAbs x.den).frac
  if x < 0 then -((v.1 : ℚ) / v.2) else (v.1 : ℚ) / v.2

section
variable {α : Type}

/-- `make_n_grams(sent, n)` (nlcodec/utils.py:17-19); `range` of a negative number is empty. -/
def makeNGrams (sent : List α) (n : Int) : Py (List (List α)) :=
  if 0 < n then .ok ((List.range (sent.length + 1 - n.toNat)).map fun i => (sent.drop i).take n.toNat) else .error .assertion

variable [DecidableEq α]

/-- loop of `make_n_grams_all` (nlcodec/utils.py:26-28) -/
def nGramsLoop (n : Int) : List (List α) → Dict (List α) Int → Py (Dict (List α) Int)
  | [], d => .ok d
  | s :: ss, d => match makeNGrams s n with
    | .error e => .error e
    | .ok gs => nGramsLoop n ss (Dict.count d gs)

/-- `make_n_grams_all(sents, n)` (nlcodec/utils.py:22-30); the progress bar and the log line are left out. -/
def makeNGramsAll (sents : List (List α)) (n : Int) : Py (Dict (List α) Int) := nGramsLoop n sents []

/-- per gram the list of ratios and the total frequency -/
abbrev GramAcc (α : Type) := Dict (List α) (List ℚ) × Dict (List α) Int

/-- one of the two inner loops of `count_gram_recall` (nlcodec/eval/pr_measure.py:29-33 with the references as `own`, 35-39 with the
candidates as `own`): the two have the same text with names exchanged. -/
def gramLoop (fl : ℚ → ℚ) (other : Dict (List α) Int) : List (List α × Int) → GramAcc α → Py (GramAcc α)
  | [], acc => .ok acc
  | (g, f) :: rest, acc =>
    if 0 < f then
      let o := (Dict.get? other g).getD 0
      gramLoop fl other rest
        (Dict.set acc.1 g ((Dict.get? acc.1 g).getD [] ++ [fl ((min o f : ℤ) / (f : ℚ))]), Dict.incr acc.2 g f)
    else .error .assertion

/-- the outer loop (nlcodec/eval/pr_measure.py:26-39); the accumulators are those of the references and of the candidates -/
def gramPairs (fl : ℚ → ℚ) (n : Int) : List (List α × List α) → GramAcc α → GramAcc α → Py (GramAcc α × GramAcc α)
  | [], r, c => .ok (r, c)
  | (cand, ref) :: rest, r, c =>
    match makeNGrams cand n with
    | .error e => .error e
    | .ok cg => match makeNGrams ref n with
      | .error e => .error e
      | .ok rg =>
        let candGrams := Dict.count [] cg
        let refGrams := Dict.count [] rg
        match gramLoop fl candGrams refGrams r with
        | .error e => .error e
        | .ok r' => match gramLoop fl refGrams candGrams c with
          | .error e => .error e
          | .ok c' => gramPairs fl n rest r' c'

/-- `sum(l)` of floats, from left to right (as before Python 3.12, which compensates rounding errors) -/
def flSum (fl : ℚ → ℚ) (l : List ℚ) : ℚ := l.foldl (fun a x => fl (a + x)) 0

/-- `{gram: sum(l) / len(l) for gram, l in d.items()}` (nlcodec/eval/pr_measure.py:42-43) -/
def averages (fl : ℚ → ℚ) : Dict (List α) (List ℚ) → Py (Dict (List α) ℚ)
  | [] => .ok []
  | (g, l) :: d => if l.length = 0 then .error .zeroDiv else match averages fl d with
    | .error e => .error e
    | .ok r => .ok ((g, fl (flSum fl l / fl l.length)) :: r)

/-- what `count_gram_recall` returns -/
structure GramReport (α : Type) where
  recalls : Dict (List α) ℚ
  refFreqs : Dict (List α) Int
  precisions : Dict (List α) ℚ
  candFreqs : Dict (List α) Int

/-- `count_gram_recall(cands, refs, n)` (nlcodec/eval/pr_measure.py:20-44) -/
def countGramRecall (fl : ℚ → ℚ) (cands refs : List (List α)) (n : Int) : Py (GramReport α) :=
  match gramPairs fl n (cands.zip refs) ([], []) ([], []) with
  | .error e => .error e
  | .ok (r, c) => match averages fl r.1 with
    | .error e => .error e
    | .ok recalls => match averages fl c.1 with
      | .error e => .error e
      | .ok precisions => .ok ⟨recalls, r.2, precisions, c.2⟩

/-- `f1_measure(precison, recall)` (nlcodec/eval/pr_measure.py:46-52); the doubling is evaluated first -/
def f1Measure (fl : ℚ → ℚ) (p r : ℚ) : Py ℚ :=
  if 0 ≤ p ∧ p ≤ 1 then
    if 0 ≤ r ∧ r ≤ 1 then
      let denr := fl (p + r)
      if denr = 0 then .ok 0 else .ok (fl (fl (fl (2 * p) * r) / denr))
    else .error .assertion
  else .error .assertion

end

/-- one line of the table that `pr_measure.main` writes (nlcodec/eval/pr_measure.py:92-102), before formatting -/
structure PrRow where
  rank : Nat
  gram : List Int
  name : Str
  rankFreq : Int
  refFreq : Int
  candFreq : Int
  recall : ℚ
  precision : ℚ
  f1 : ℚ
  deriving DecidableEq

/-- `list(g)` of a generator -/
def Gen.toList {α : Type} (g : Gen α) : Py (List α) := match g.exc with
  | some e => .error e
  | none => .ok g.out

/-- `{tuple(g): f for g, f, name in freqs}` (nlcodec/eval/pr_measure.py:64-65): a later line overwrites an earlier one -/
def freqTable (freqs : List (List Int × Int)) : Dict (List Int) Int := freqs.foldl (fun d p => Dict.set d p.1 p.2) []

/-- the frequencies by which rows are ranked (nlcodec/eval/pr_measure.py:62-75) -/
def rankFreqs (rep : GramReport Int) : Option (List (List Int × Int)) → Dict (List Int) Int
  | none => rep.refFreqs
  | some fs =>
    let gf := (freqTable fs).filter fun p => Dict.mem rep.refFreqs p.1 || Dict.mem rep.candFreqs p.1
    let oov := ((Dict.keys rep.refFreqs).filter fun g => !Dict.mem gf g)
    gf ++ oov.map fun g => (g, -1)

/-- the rows (nlcodec/eval/pr_measure.py:93-102) -/
def prRows (fl : ℚ → ℚ) (table : List Ty) (rep : GramReport Int) : List (List Int × Int) → Nat → Py (List PrRow)
  | [], _ => .ok []
  | (gram, rf) :: rest, i => match namesOf table gram with
    | .error e => .error e
    | .ok names =>
      let recall := (Dict.get? rep.recalls gram).getD 0
      let precision := (Dict.get? rep.precisions gram).getD 1
      match f1Measure fl precision recall with
      | .error e => .error e
      | .ok f1 => match prRows fl table rep rest (i + 1) with
        | .error e => .error e
        | .ok rows => .ok (⟨i + 1, gram, join [44] names, rf, (Dict.get? rep.refFreqs gram).getD (-1),
            (Dict.get? rep.candFreqs gram).getD (-1), recall, precision, f1⟩ :: rows)

/-- the names that are only logged, when `n == 1` (nlcodec/eval/pr_measure.py:83-86); `ng[0]` of each new gram -/
def newGramNames (table : List Ty) : List (List Int) → Py Unit
  | [] => .ok ()
  | g :: gs => match pyIndex g 0 with
    | .error e => .error e
    | .ok i => match pyIndex table i with
      | .error e => .error e
      | .ok _ => newGramNames table gs

/-- `pr_measure.main(model_path, cands, refs, n, out, freqs)` (nlcodec/eval/pr_measure.py:54-102), with the codec already loaded and the
lines of `freqs` already parsed; `nCpus` and `done` are the parameters of `encode_parallel`, see `parallelMap`.  The text of the
table is in Verif/Model/PrText.lean.  Note that line 61 calls `count_gram_recall` without `n`. -/
def prMain (fl : ℚ → ℚ) (s : Scheme) (nCpus : Int) (done : List (Nat × Py (List (List Int))) → List (Nat × Py (List (List Int))))
    (cands refs : List Str) (n : Int) (freqs : Option (List (List Int × Int))) : Py (List PrRow) :=
  if cands.length = refs.length then
    match (parallelMap s.encode cands nCpus 1000 done).toList with
    | .error e => .error e
    | .ok cs => match (parallelMap s.encode refs nCpus 1000 done).toList with
      | .error e => .error e
      | .ok rs => match countGramRecall fl cs rs 1 with
        | .error e => .error e
        | .ok rep =>
          let gf := rankFreqs rep freqs
          let newGrams := (Dict.keys rep.candFreqs).filter fun g => !Dict.mem gf g
          match (if n = 1 then newGramNames s.table newGrams else .ok ()) with
          | .error e => .error e
          | .ok _ => prRows fl s.table rep (gf.insertionSort fun a b => b.2 ≤ a.2) 0
  else .error .assertion

/-! ## In- and out-of-vocabulary counts -/

/-- `term_freqs(inp)` (nlcodec/eval/oov_count.py:21-27) -/
def termFreqs (inp : List Str) : Dict Str Int := inp.foldl (fun d line => Dict.count d (split (strip line))) []

/-- `partition_vocab_toks(inp, vocab)` (nlcodec/eval/oov_count.py:29-33); `vocab` is a set of strings -/
def partitionVocabToks (inp : List Str) (vocab : List Str) : Dict Str Int × Dict Str Int :=
  let tfs := termFreqs inp
  (tfs.filter fun p => vocab.contains p.1, tfs.filter fun p => !vocab.contains p.1)

/-- the numbers that `oov_count.main` prints (nlcodec/eval/oov_count.py:35-50): types and tokens in and out of vocabulary, and the two
percentages, which fail for a corpus without tokens.  All scheme classes but the byte scheme are subclasses of `WordScheme`. -/
def oovMain (fl : ℚ → ℚ) (s : Scheme) (inp : List Str) : Py ((Nat × Nat) × (Int × Int) × (ℚ × ℚ)) :=
  if s.kind ≠ .byte then
    let p := partitionVocabToks inp (Dict.keys s.s2i)
    let iv := isum (Dict.values p.1)
    let oov := isum (Dict.values p.2)
    if iv + oov = 0 then .error .zeroDiv
    else .ok ((p.1.length, p.2.length), (iv, oov), (fl (100 * iv / ((iv + oov : ℤ) : ℚ)), fl (100 * oov / ((iv + oov : ℤ) : ℚ))))
  else .error .assertion

/-- the lines that `termfreq.main` writes (nlcodec/eval/termfreq.py:35-44), before JSON formatting: grams, frequencies and names,
sorted by decreasing frequency -/
def termFreqMain (s : Scheme) (nCpus : Int) (done : List (Nat × Py (List (List Int))) → List (Nat × Py (List (List Int))))
    (inp : List Str) (n : Int) : Py (List (List Int × Int × List Str)) :=
  match (parallelMap s.encode inp nCpus 1000 done).toList with
  | .error e => .error e
  | .ok seqs => match makeNGramsAll seqs n with
    | .error e => .error e
    | .ok freqs => (freqs.insertionSort fun a b => b.2 ≤ a.2).mapM fun p => match namesOf s.table p.1 with
      | .error e => .error e
      | .ok names => .ok (p.1, p.2, names)

end Verif
