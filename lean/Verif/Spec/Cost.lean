import Verif.Spec.Greedy
/-!
# Specification of the work done by the greedy encoder

Independent of tries and loops.
-/

namespace Verif.Spec
open Verif

/-- length of the longest common prefix of two strings -/
def common : Str → Str → Nat
  | a :: s, b :: t => if a = b then common s t + 1 else 0
  | _, _ => 0

/-- how far the text agrees with the name it agrees with longest -/
def reach (names : List Str) (s : Str) : Nat := (names.map (common s)).foldr max 0

/-- length of the text covered by one piece of a segmentation; an unknown piece covers one character -/
def pieceLen : Option Str → Nat
  | some w => w.length
  | none => 1

/-- the text that remains at the start of each piece -/
def starts : List (Option Str) → Str → List Str
  | [], _ => []
  | o :: os, s => s :: starts os (s.drop (pieceLen o))

end Verif.Spec
