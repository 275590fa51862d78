import Mathlib.Data.List.Forall2
import Verif.Model.Types
/-! # Specification of vocabulary shrinking -/

namespace Verif.Spec
open Verif

/-- The indices that must survive: reserved types, types occurring at least `minFreq` times among `ids`, and all their kids,
transitively. -/
inductive Needed (tbl : List Ty) (ids : List Int) (minFreq : Int) : Nat → Prop where
  | own {i : Nat} {t : Ty} : tbl[i]? = some t → (t.level = -1 ∨ minFreq ≤ ids.count (i : Int)) → Needed tbl ids minFreq i
  | kid {i : Nat} {t k : Ty} : Needed tbl ids minFreq i → tbl[i]? = some t → k ∈ t.kids → Needed tbl ids minFreq k.idx

/-- `new` is the part of `tbl` selected by `mapping`: same names, levels and frequencies, own indices, and kids pointing to the
new places of the old kids. -/
def Shrunk (tbl : List Ty) (mapping : List Nat) (new : List Ty) : Prop :=
  new.length = mapping.length ∧
  ∀ (n o : Nat) (t : Ty), mapping[n]? = some o → tbl[o]? = some t → ∃ t', new[n]? = some t' ∧ t'.name = t.name ∧ t'.level = t.level ∧
    t'.freq = t.freq ∧ t'.idx = n ∧
    List.Forall₂ (fun k k' => ∃ m, mapping[m]? = some k.idx ∧ m < n ∧ new[m]? = some k') t.kids t'.kids

/-- `i'` is the id in the shrunk vocabulary that stands for the old id `i`; −1 (no label) stays. -/
def Translates (mapping : List Nat) (i' i : Int) : Prop :=
  (i' = -1 ∧ i = -1) ∨ ∃ a b : Nat, i' = a ∧ i = b ∧ mapping[a]? = some b

end Verif.Spec
