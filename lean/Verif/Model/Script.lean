import Verif.Model.Abugida
/-!
# Building an `AbugidaLang` (experimental/unicode_fix.py:38-108, 228-243)
-/

namespace Verif

/-- `CodePt = Union[int, str]` (experimental/unicode_fix.py:83).  Simplification: integers are not negative. -/
inductive CodePt where
  | int (n : Nat)
  | str (s : Str)
deriving DecidableEq

/-- Arguments of `AbugidaLang(...)` (experimental/unicode_fix.py:88-90).  `consSet` tells whether the consonants are a `set` and not a list; sets are
lists here, in any order. -/
structure AbArgs where
  vowels : List (CodePt × Option CodePt)
  consonants : List CodePt
  consSet : Bool := true
  implVowel : CodePt
  virama : CodePt
  semi : List CodePt := []

/-- `maybe_ord` of a number or a string (experimental/unicode_fix.py:64-67): `ord` of a string that is not one character raises TypeError -/
def ordCp : CodePt → Py Nat
  | .int n => .ok n
  | .str [c] => .ok c
  | .str _ => .error .type

/-- `maybe_ord` of None or a code point (experimental/unicode_fix.py:62-67) -/
def ordOpt : Option CodePt → Py (Option Nat)
  | none => .ok none
  | some v => match ordCp v with
    | .error e => .error e
    | .ok c => .ok (some c)

/-- `maybe_ord` of a set or list (experimental/unicode_fix.py:70-73) -/
def ordAll : List CodePt → Py (List Nat)
  | [] => .ok []
  | v :: vs => match ordCp v with
    | .error e => .error e
    | .ok c => match ordAll vs with
      | .error e => .error e
      | .ok cs => .ok (c :: cs)

/-- `maybe_ord` of a dict (experimental/unicode_fix.py:68-69): of keys that become equal the last value is kept -/
def ordDict (d : Dict Nat (Option Nat)) : List (CodePt × Option CodePt) → Py (Dict Nat (Option Nat))
  | [] => .ok d
  | (k, v) :: es => match ordCp k with
    | .error e => .error e
    | .ok k' => match ordOpt v with
      | .error e => .error e
      | .ok v' => ordDict (Dict.set d k' v') es

/-- `AbugidaLang.__init__` (experimental/unicode_fix.py:98-108) and `Lang.__init__` (41-49) -/
def AbArgs.build (x : AbArgs) : Py Abugida :=
  match ordDict [] x.vowels with
  | .error e => .error e
  | .ok vowels => match ordAll x.consonants with
    | .error e => .error e
    | .ok cons =>
      if vowels.length ≠ (Dict.values vowels).dedup.length then .error .assertion
      else if !x.consSet then .error .assertion
      else if (Dict.keys vowels).any fun c => cons.contains c then .error .assertion
      else match ordCp x.implVowel with
        | .error e => .error e
        | .ok impl => match ordCp x.virama with
          | .error e => .error e
          | .ok vir => match ordAll x.semi with
            | .error e => .error e
            | .ok _ => .ok { consonants := cons, forms := vowels, implVowel := impl, virama := vir }

/-- `data['hin']` (experimental/unicode_fix.py:230-238) -/
def hinArgs : AbArgs where
  vowels := [(.str (lit "अ"), none), (.str (lit "आ"), some (.str (lit "ा"))), (.str (lit "इ"), some (.str (lit "ि"))),
    (.str (lit "ई"), some (.str (lit "ी"))), (.str (lit "उ"), some (.str (lit "ु"))), (.str (lit "ऊ"), some (.str (lit "ू"))),
    (.str (lit "ऋ"), some (.str (lit "ृ"))), (.str (lit "ॠ"), some (.str (lit "ॄ"))), (.str (lit "ऍ"), some (.str (lit "ॅ"))),
    (.str (lit "ऎ"), some (.str (lit "ॆ"))), (.str (lit "ए"), some (.str (lit "े"))), (.str (lit "ऐ"), some (.str (lit "ै"))),
    (.str (lit "ऑ"), some (.str (lit "ॉ"))), (.str (lit "ऒ"), some (.str (lit "ॊ"))), (.str (lit "ओ"), some (.str (lit "ो"))),
    (.str (lit "औ"), some (.str (lit "ौ"))), (.str (lit "ऌ"), some (.str (lit "ॢ"))), (.str (lit "ॡ"), some (.str (lit "ॣ")))]
  consonants := ((List.range (0x939 + 1 - 0x915)).map fun i => .int (0x915 + i)) ++ (List.range (0x95F + 1 - 0x958)).map fun i => .int (0x958 + i)
  implVowel := .str (lit "अ")
  virama := .str (lit "्")
  semi := [.str (lit "ं"), .str (lit "ः"), .str (lit "ँ"), .str (lit "़")]

/-- `get_aubugida` (experimental/unicode_fix.py:228-243) -/
def getAbugida (name : Str) : Py Abugida :=
  if name = lit "hin" ∨ name = lit "hindi" ∨ name = lit "devanagari" ∨ name = lit "sanskrit" then hinArgs.build else .error .assertion

/-- `main` with the name of a language (experimental/unicode_fix.py:246-251): what is written and the exception -/
def scriptMain (name : Str) (decode : Bool) (text : Str) : Str × Option Exc := match getAbugida name with
  | .error e => ([], some e)
  | .ok a => (rewriteFile (if decode then a.decode else a.encode) text, none)

end Verif
