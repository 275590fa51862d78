import Verif.Model.Db
/-!
# Listing a field

Model of `keys`, `items` and `lengths` of `SeqField` (nlcodec/db/core.py:122-135); `values` is in `Model.Db`.
-/

namespace Verif

variable {κ : Type} [DecidableEq κ]

/-- `list(field.keys())` (nlcodec/db/core.py:122-123) -/
def SeqField.keys (f : SeqField κ) : List κ := Dict.keys f.ids

/-- the loop of `items` (nlcodec/db/core.py:130-132) -/
def SeqField.itemsLoop (f : SeqField κ) : List (κ × Nat) → Py (List (List Int))
  | [] => .ok []
  | (_, idx) :: rest => match f.refs[idx]? with
    | none => .error .index
    | some r => match f.itemsLoop rest with
      | .error e => .error e
      | .ok out => .ok (f.slice r :: out)

/-- `list(field.items())` (nlcodec/db/core.py:129-132): only the sequence is yielded, not the id -/
def SeqField.items (f : SeqField κ) : Py (List (List Int)) := f.itemsLoop f.ids

/-- the generator in `lengths` (nlcodec/db/core.py:135) -/
def SeqField.lengthsLoop (f : SeqField κ) : List (κ × Nat) → Py (List (κ × Int))
  | [] => .ok []
  | (id, idx) :: rest => match f.refs[idx]? with
    | none => .error .index
    | some r => match f.lengthsLoop rest with
      | .error e => .error e
      | .ok out => .ok ((id, r.2) :: out)

/-- `list(field.lengths())` (nlcodec/db/core.py:134-135) -/
def SeqField.lengths (f : SeqField κ) : Py (List (κ × Int)) := f.lengthsLoop f.ids

/-- `len(field)` (nlcodec/db/core.py:112-113) -/
def SeqField.size (f : SeqField κ) : Nat := f.ids.length

end Verif
