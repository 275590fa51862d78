import Verif.Model.Cli
import Verif.Model.LearnCli
/-!
# The command `nlcodec`

Model of `main` (nlcodec/__main__.py:80-111) for the tasks `learn`, `encode` and `decode`; the task `estimate` is in `Verif/Model/Quality.lean`.
Standard input, output and the model file are texts; the messages about time and memory are left out.
-/

namespace Verif

/-- the argument `task` (nlcodec/__main__.py:34) -/
inductive Task
  | learn | encode | decode
  deriving DecidableEq

/-- the parsed arguments with their defaults (nlcodec/__main__.py:27-78).  `level` is one of char, word, bpe, class, byte; `cov = none` is the
coverage 0, for which the code does not cut (nlcodec/codec.py:256); the default coverage is 0.9995. -/
structure MainArgs (F : Type) where
  task : Task
  termFreqs : Bool := false
  indices : Bool := false
  vocabSize : Int := -1
  level : Option LevelName := none
  minFreq : Option Int := none
  cov : Option F
  minCoEv : Int := 95

/-- `main` (nlcodec/__main__.py:80-111): the model file afterwards, the text written to `out`, and the exception that ends the program -/
def mainTask (J : Json) (ord : Nat → List Nat → List Nat) (A : Acc) (args : MainArgs A.F) (model : Option Str) (inp : Str) :
    Option Str × Str × Option Exc :=
  match args.task with
  | .learn => match args.level with
    | none => (model, [], some .assertion)
    | some level =>
      let mf := args.minFreq.getD 0
      let learned := if args.termFreqs then learnTf J ord A level (inpLines inp) args.vocabSize mf args.cov args.minCoEv
        else learnVocab ord A level (inpLines inp) args.vocabSize mf args.cov args.minCoEv
      match learned with
      | .error e => (model, [], some e)
      | .ok table => ((saveModel J level.kind table model).1, [], (saveModel J level.kind table model).2)
  | .encode => match model with
    | none => (model, [], some .fileNotFound)
    | some text => match loadScheme J text with
      | .error e => (model, [], some e)
      | .ok s => (model, cliEncode s args.indices inp)
  | .decode => match model with
    | none => (model, [], some .fileNotFound)
    | some text => match loadScheme J text with
      | .error e => (model, [], some e)
      | .ok s => (model, cliDecode s args.indices inp)

end Verif
