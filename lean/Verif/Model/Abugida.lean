import Verif.Model.Cli
/-!
# Unicode rewriting of abugida scripts

Model of experimental/uxdx.py (`Devanagari`) and experimental/unicode_fix.py (`Lang`, `AbugidaLang`).
Lines are lists of code points.
-/

namespace Verif

/-! ## experimental/uxdx.py -/

/-- `self.consonants` (experimental/uxdx.py:18): क..ह and क़..य़ -/
def isDevaConsonant (c : Nat) : Bool := (0x915 ≤ c && c ≤ 0x939) || (0x958 ≤ c && c ≤ 0x95F)

/-- `self.impl_vowel_form` (experimental/uxdx.py:19): '⋮' -/
def uxMarker : Nat := 0x22EE

/-- `Devanagari.decode` (experimental/uxdx.py:22-25) -/
def uxDecode (line : Str) : Str := line.filter fun c => c != uxMarker

/-- `i + 1 < len(codes) and p(codes[i + 1])`, given `codes[i+1:]` (experimental/uxdx.py:33-34; experimental/unicode_fix.py:138-139) -/
def nextIs (p : Nat → Bool) : Str → Bool
  | [] => false
  | d :: _ => p d

/-- loop of `Devanagari.encode` (experimental/uxdx.py:27-36): `codes[i + 1]` is the head of the rest -/
def uxEncode : Str → Str
  | [] => []
  | c :: r =>
    let mark := isDevaConsonant c && nextIs isDevaConsonant r
    if mark then c :: uxMarker :: uxEncode r else c :: uxEncode r

/-- the loop of both `main` functions (experimental/uxdx.py:39-45; experimental/unicode_fix.py:183-187, 246-251): each line of the text file,
without its line feed, is rewritten and written with a line feed -/
def rewriteFile (f : Str → Str) (text : Str) : Str := (inpLines text).flatMap fun l => f (rstripP (· == 10) l) ++ [10]

/-- `main` (experimental/uxdx.py:39-45) -/
def uxMain (decode : Bool) (text : Str) : Str := rewriteFile (if decode then uxDecode else uxEncode) text

/-! ## experimental/unicode_fix.py -/

/-- `internal_full_vowel` (experimental/unicode_fix.py:36) -/
def fullMark : Nat := 0xE000

/-- Attributes of an `AbugidaLang` (experimental/unicode_fix.py:88-108): consonants, `vowel_to_form` (the inherent vowel has the
form `None`), implicit vowel, virama.  Semi vowels are not used by any method. -/
structure Abugida where
  consonants : List Nat
  forms : List (Nat × Option Nat)
  implVowel : Nat
  virama : Nat
deriving DecidableEq

/-- `is_space` (experimental/unicode_fix.py:49, 57-58) -/
def abSpace (c : Nat) : Bool := c == 32 || c == 9 || c == 10

/-- `is_consonant` (experimental/unicode_fix.py:54-55) -/
def Abugida.isCons (a : Abugida) (c : Nat) : Bool := a.consonants.contains c

/-- `is_vowel` (experimental/unicode_fix.py:51-52): the keys of `vowels` -/
def Abugida.isVowel (a : Abugida) (c : Nat) : Bool := (a.forms.map (·.1)).contains c

/-- `form_to_vowel` (experimental/unicode_fix.py:107) -/
def Abugida.formToVowel (a : Abugida) (c : Nat) : Option Nat := (a.forms.find? fun p => p.2 == some c).map (·.1)

/-- `is_vowel_form` (experimental/unicode_fix.py:110-112): `code and ...`, zero is no form -/
def Abugida.isForm (a : Abugida) (c : Nat) : Bool := c != 0 && (a.forms.map (·.2)).contains (some c)

/-- `vowel_to_form[c]` for a vowel (experimental/unicode_fix.py:106), as the list of code points that `codes_to_str` keeps of it:
`None` gives nothing (experimental/unicode_fix.py:77-78) -/
def Abugida.formOf (a : Abugida) (c : Nat) : Str := match a.forms.find? fun p => p.1 == c with
  | some (_, some f) => [f]
  | _ => []

/-- `is_ending` of position `i`, given `codes[i+1:]` (experimental/unicode_fix.py:128) -/
def abEnding : Str → Bool
  | [] => true
  | d :: _ => abSpace d

/-- `is_beginning` of position `i`, given `codes[i-1]` if there is one (experimental/unicode_fix.py:129) -/
def abBegin : Option Nat → Bool
  | none => true
  | some p => abSpace p

/-- loop of `AbugidaLang.encode` (experimental/unicode_fix.py:120-146); `prev` is `codes[i-1]`, none for `i = 0` -/
def Abugida.enc (a : Abugida) (prev : Option Nat) : Str → Str
  | [] => []
  | c :: r =>
    (if c == a.virama then []
    else if a.isVowel c then c :: (if abBegin prev then [] else [fullMark])
    else if a.isCons c then
      c :: (if abEnding r || !(nextIs (fun d => a.isForm d || d == a.virama) r) then [a.implVowel] else [])
    else if a.isForm c then (match a.formToVowel c with | some v => [v] | none => [])
    else [c]) ++ a.enc (some c) r

/-- loop of `AbugidaLang.decode` (experimental/unicode_fix.py:148-181) -/
def Abugida.dec (a : Abugida) (prev : Option Nat) : Str → Str
  | [] => []
  | c :: r =>
    if c == fullMark then a.dec (some c) r
    else if a.isCons c then
      c :: ((if abEnding r || nextIs a.isCons r then [a.virama] else []) ++ a.dec (some c) r)
    else if a.isVowel c then
      match r with
      | [] => (if abBegin prev then [c] else a.formOf c) ++ a.dec (some c) []
      | d :: r' =>
        if !abEnding r && d == fullMark then c :: a.dec (some d) r'
        else (if abBegin prev then [c] else a.formOf c) ++ a.dec (some c) (d :: r')
    else c :: a.dec (some c) r
termination_by l => l.length

/-- `AbugidaLang.encode` (experimental/unicode_fix.py:120-146) -/
def Abugida.encode (a : Abugida) (line : Str) : Str := a.enc none line

/-- `AbugidaLang.decode` (experimental/unicode_fix.py:148-181) -/
def Abugida.decode (a : Abugida) (line : Str) : Str := a.dec none line

/-- loop of `AbugidaLangLite.encode` (experimental/unicode_fix.py:195-210) -/
def Abugida.liteEnc (a : Abugida) : Str → Str
  | [] => []
  | c :: r =>
    (if c == a.virama then []
    else c :: (if a.isCons c && (abEnding r || nextIs a.isCons r) then [a.implVowel] else [])) ++ a.liteEnc r

/-- loop of `AbugidaLangLite.decode` (experimental/unicode_fix.py:212-226) -/
def Abugida.liteDec (a : Abugida) : Str → Str
  | [] => []
  | [c] => c :: (if a.isCons c then [a.virama] else [])
  | c :: d :: r =>
    if a.isCons c then
      if abSpace d || a.isCons d then c :: a.virama :: a.liteDec (d :: r)
      else if d == a.implVowel then c :: a.liteDec r
      else c :: a.liteDec (d :: r)
    else c :: a.liteDec (d :: r)

/-- the data of `get_aubugida('hin')` (experimental/unicode_fix.py:230-238) -/
def hindi : Abugida where
  consonants := (List.range 37).map (· + 0x915) ++ (List.range 8).map (· + 0x958)
  forms := [(0x905, none), (0x906, some 0x93E), (0x907, some 0x93F), (0x908, some 0x940), (0x909, some 0x941), (0x90A, some 0x942),
    (0x90B, some 0x943), (0x960, some 0x944), (0x90D, some 0x945), (0x90E, some 0x946), (0x90F, some 0x947), (0x910, some 0x948),
    (0x911, some 0x949), (0x912, some 0x94A), (0x913, some 0x94B), (0x914, some 0x94C), (0x90C, some 0x962), (0x961, some 0x963)]
  implVowel := 0x905
  virama := 0x94D

/-- `main` with the language `hin` (experimental/unicode_fix.py:246-251) -/
def abMain (decode : Bool) (text : Str) : Str := rewriteFile (if decode then hindi.decode else hindi.encode) text

end Verif
