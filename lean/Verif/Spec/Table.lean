import Verif.Model.Types
/-! # Specification vocabulary for tables of types -/

namespace Verif.Spec
open Verif

/-- The names of a table. -/
def names (tbl : List Ty) : List Str := tbl.map (·.name)

/-- Every type sits at its own index (asserted by `read_vocab` and `write_out`, guaranteed by the learners). -/
def Indexed (tbl : List Ty) : Prop := ∀ (i : Nat) (t : Ty), tbl[i]? = some t → t.idx = i

/-- Every kid of an entry is an earlier entry of the same table. -/
def KidsEarlier (tbl : List Ty) : Prop := ∀ (i : Nat) (t : Ty), tbl[i]? = some t → ∀ k ∈ t.kids, ∃ j, j < i ∧ tbl[j]? = some k

end Verif.Spec
