import Verif.Model.File
/-!
# A concrete JSON codec

A printer and parser for flat JSON objects with string and integer values in the layout of `json.dumps` (separators `", "`
and `": "`).  It is an instance of the parameter `Json` of `Verif/Model/File.lean`, used to show that the laws assumed of
`json` (nlcodec/codec.py:122, 143; nlcodec/term_freq.py:77) can be met.  Not modelled: escapes in strings, nesting, other
white space, other value types.
-/

namespace Verif

/-- value in a header (nlcodec/codec.py:114-122: strings and integers) -/
inductive JVal where
  | str (s : Str)
  | int (i : Int)
  deriving DecidableEq, Repr

/-- `json.dumps(v)` (nlcodec/codec.py:122) for strings without escapes and integers -/
def JVal.print : JVal → Str
  | .str s => 34 :: s ++ [34]
  | .int i => intStr i

/-- entries of an object, as printed by `json.dumps` (nlcodec/codec.py:122) -/
def printEntries : List (Str × JVal) → Str
  | [] => []
  | [(k, v)] => 34 :: k ++ [34, 58, 32] ++ v.print
  | (k, v) :: r => 34 :: k ++ [34, 58, 32] ++ v.print ++ [44, 32] ++ printEntries r

/-- characters up to the next quote -/
def untilQuote : Str → Option (Str × Str)
  | [] => none
  | c :: r => if c = 34 then some ([], r) else match untilQuote r with
    | none => none
    | some (a, b) => some (c :: a, b)

/-- a value and the rest (`json.loads`, nlcodec/codec.py:143) -/
def parseVal (s : Str) : Option (JVal × Str) :=
  match s with
  | 34 :: r => match untilQuote r with
    | none => none
    | some (a, b) => some (.str a, b)
  | s => match pyInt (s.takeWhile (· != 44)) with
    | .error _ => none
    | .ok i => some (.int i, s.dropWhile (· != 44))

/-- entries of an object (`json.loads`, nlcodec/codec.py:143); `n` bounds the number of entries -/
def parseEntries : Nat → Str → Option (List (Str × JVal))
  | 0, _ => none
  | n + 1, s => match s with
    | 34 :: r => match untilQuote r with
      | some (k, 58 :: 32 :: r2) => match parseVal r2 with
        | some (v, []) => some [(k, v)]
        | some (v, 44 :: 32 :: r3) => match parseEntries n r3 with
          | none => none
          | some es => some ((k, v) :: es)
        | _ => none
      | _ => none
    | _ => none

/-- entries written for a header (nlcodec/codec.py:114-122, nlcodec/term_freq.py:70-76); the entries that are not read
back are represented by `version` -/
def Header.entries (h : Header) : List (Str × JVal) :=
  (lit "version", .str (lit "0.2")) :: ((match h.scheme with | none => [] | some s => [(lit "scheme", .str s)]) ++
    (match h.maxLevel with | none => [] | some m => [(lit "max_level", .int m)]) ++
    (match h.lineCount with | none => [] | some m => [(lit "line_count", .int m)]))

/-- a string entry: `obj.get(key)` (nlcodec/codec.py:670-671) -/
def getStr (es : List (Str × JVal)) (k : Str) : Option Str :=
  match es.find? (fun e => e.1 == k) with
  | some (_, .str s) => some s
  | _ => none

/-- an integer entry: `obj[key]` (nlcodec/codec.py:674, 385) -/
def getInt (es : List (Str × JVal)) (k : Str) : Option Int :=
  match es.find? (fun e => e.1 == k) with
  | some (_, .int s) => some s
  | _ => none

/-- the entries of an object that are read (nlcodec/codec.py:669-676, 386) -/
def Header.ofEntries (es : List (Str × JVal)) : Header :=
  { any := !es.isEmpty, scheme := getStr es (lit "scheme"), maxLevel := getInt es (lit "max_level"),
    lineCount := getInt es (lit "line_count") }

/-- `json.dumps` / `json.loads` for headers (nlcodec/codec.py:122, 143); a parse error is a ValueError -/
def pyJson : Json where
  dumps h := 123 :: printEntries h.entries ++ [125]
  loads s := match s with
    | 123 :: r => if r.getLast? = some 125 then
        match parseEntries r.length r.dropLast with
        | none => .error .value
        | some es => .ok (Header.ofEntries es)
      else .error .value
    | _ => .error .value

end Verif
