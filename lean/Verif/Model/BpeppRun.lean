import Verif.Model.Bpepp
/-!
# The files that `experimental/bpepp.py` reads and writes

Model of `learn_codes` (714-748) and `run` (751-767) on a tree of files. A path is the list of its components as `pathlib` keeps it (no empty ones and no `.`, but
`..` stays), from the root. There are no links, so a path leads to the file found by going down the components and up at `..`; that the directories on the way exist
is taken for granted.
-/

namespace Verif

/-- a `pathlib.Path` (experimental/bpepp.py:33, 714): its components; two paths are equal (745) if these are -/
abbrev PPath := List Str

/-- the files that exist (experimental/bpepp.py:733), by the path without `..` that leads to them -/
abbrev Tree := PPath → Option Str

/-- where a path leads (experimental/bpepp.py:278, 293, 368, 733, 746) -/
def resolve (p : PPath) : PPath := p.foldl (fun d c => if c = lit ".." then d.dropLast else d ++ [c]) []

/-- a file is written (experimental/bpepp.py:278-288) -/
def Tree.put (fs : Tree) (q : PPath) (t : Str) : Tree := fun r => if r = q then some t else fs r

/-- `p.rename(q)` (experimental/bpepp.py:746): an existing file `q` is replaced without a warning, as on POSIX systems -/
def Tree.move (fs : Tree) (p q : PPath) : Tree := fun r => if r = q then fs p else if r = p then none else fs r

/-- the part of a file name from its last dot on (`Path.suffix`, used in experimental/bpepp.py:746); it is empty if that dot is the first or the last character, or if there is none.
This is `pathlib` before Python 3.14. -/
def suffixOf (name : Str) : Str :=
  let tail := (name.reverse.takeWhile fun c => c ≠ 46).reverse
  if tail.length + 1 < name.length ∧ tail ≠ [] then 46 :: tail else []

/-- `vocab.with_suffix(".l1" + vocab.suffix)` (experimental/bpepp.py:746): `v.tsv` becomes `v.l1.tsv`, and `v` becomes `v.l1`. ValueError if the path has no name. -/
def l1Path (p : PPath) : Py PPath :=
  match p.getLast? with
  | none => .error .value
  | some name =>
    let suf := suffixOf name
    .ok (p.dropLast ++ [name.take (name.length - suf.length) ++ lit ".l1" ++ suf])

/-- the texts of the input files (experimental/bpepp.py:366-374). They are opened one after the other while learning goes on, but are all read before anything is
written; a missing one is reported here before any other error of learning. -/
def treeTexts (fs : Tree) : List PPath → Py (List Str)
  | [] => .ok []
  | p :: ps => match fs (resolve p) with
    | none => .error .fileNotFound
    | some t => match treeTexts fs ps with
      | .error e => .error e
      | .ok ts => .ok (t :: ts)

/-- `write_vocab(vocab, out=path)` (experimental/bpepp.py:276-289): the file is emptied when it is opened; what it holds after a failed assertion (285) is not modelled
(here nothing) -/
def ppSave (info : Str) (v : List Ty) (p : PPath) (fs : Tree) : Tree × Option Exc :=
  match ppWriteVocab info v with
  | .error e => (fs.put (resolve p) [], some e)
  | .ok t => (fs.put (resolve p) t, none)

/-- the arguments of `learn_codes` (experimental/bpepp.py:714-720), with the JSON texts of the headers written and the orders of the sets -/
structure PpArgs where
  inp : List PPath
  vocab : PPath
  vocabL1 : Option PPath := none
  charMin : Int
  wordMin : Int
  size1 : Int
  minEv1 : Int
  size2 : Int
  minEv2 : Int
  prepared : Bool := false
  info1 : Str
  info2 : Str
  ord1 : Nat → List Nat → List Nat
  ord2 : Nat → List Nat → List Nat

/-- `vocab_l1 or vocab` (experimental/bpepp.py:721); a `Path` is always true -/
def PpArgs.l1 (a : PpArgs) : PPath := a.vocabL1.getD a.vocab

/-- the first level of `learn_codes` (experimental/bpepp.py:722-730): the files afterwards and the exception -/
def ppStage1 (a : PpArgs) (fs : Tree) : Tree × Option Exc :=
  if a.prepared then (fs, some .assertion)
  else if ¬ (0 < a.size1 ∨ a.size1 = -1) then (fs, some .assertion)
  else match treeTexts fs a.inp with
    | .error e => (fs, some e)
    | .ok texts => match ppVocab1 a.ord1 texts a.charMin a.wordMin a.size1 a.minEv1 a.prepared with
      | .error e => (fs, some e)
      | .ok v => ppSave a.info1 v a.l1 fs

/-- the second level of `learn_codes` (experimental/bpepp.py:732-748): the files afterwards and the exception -/
def ppStage2 (a : PpArgs) (fs : Tree) : Tree × Option Exc :=
  match fs (resolve a.l1) with
  | none => (fs, some .assertion)
  | some t => match treeTexts fs a.inp with
    | .error e => (fs, some e)
    | .ok texts => match ppVocab2 a.ord2 t texts a.size2 a.minEv2 a.prepared with
      | .error e => (fs, some e)
      | .ok v =>
        if a.l1 = a.vocab then match l1Path a.vocab with
          | .error e => (fs, some e)
          | .ok q => ppSave a.info2 v a.vocab (fs.move (resolve a.vocab) (resolve q))
        else ppSave a.info2 v a.vocab fs

/-- the commands of `bpepp` that learn (experimental/bpepp.py:722, 732, 773) -/
inductive PpCmd
  | learn | learn1 | learn2
  deriving DecidableEq

/-- `learn_codes` (experimental/bpepp.py:714-748) -/
def ppLearnCodes (cmd : PpCmd) (a : PpArgs) (fs : Tree) : Tree × Option Exc :=
  match cmd with
  | .learn1 => ppStage1 a fs
  | .learn2 => ppStage2 a fs
  | .learn => match ppStage1 a fs with
    | (fs1, none) => ppStage2 a fs1
    | (fs1, some e) => (fs1, some e)

/-- `bpepp encode` with input and output files (experimental/bpepp.py:756-767, 807-811): argparse opens the input and empties the output before anything else; an input
that does not exist is refused by argparse (`exception`), after the output is emptied if `-o` comes first (`outFirst`). -/
def ppEncodeFiles (outFirst pieces : Bool) (vocab inp out : PPath) (fs : Tree) : Tree × Option Exc :=
  let fs1 := fs.put (resolve out) []
  let fs0 := if outFirst then fs1 else fs
  if (fs0 (resolve inp)).isNone then (fs0, some .exception)
  else match fs1 (resolve vocab) with
    | none => (fs1, some .fileNotFound)
    | some t => match ppReadVocab t with
      | .error e => (fs1, some e)
      | .ok v => match PpCodec.make v with
        | .error e => (fs1, some e)
        | .ok c =>
          let r := ppCliEncode c pieces ((fs1 (resolve inp)).getD [])
          (fs.put (resolve out) r.1, r.2)

end Verif
