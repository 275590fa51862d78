import Verif.Model.Types
import Mathlib.Logic.Relation
/-! # Specification of decompositions of a type -/

namespace Verif.Spec
open Verif

/-- Replace one type of the sequence by its two kids. -/
inductive SplitStep : List Ty → List Ty → Prop where
  | mk {l r : List Ty} {t a b : Ty} : t.kids = [a, b] → SplitStep (l ++ t :: r) (l ++ a :: b :: r)

/-- Any number of such replacements. -/
abbrev SplitsTo : List Ty → List Ty → Prop := Relation.ReflTransGen SplitStep

/-- Every node of the type tree has no kids or two kids. -/
inductive Binary : Ty → Prop where
  | leaf {t : Ty} : t.kids = [] → Binary t
  | node {t a b : Ty} : t.kids = [a, b] → Binary a → Binary b → Binary t

/-- Every composed node is named by the concatenation of the names of its two kids. -/
inductive Spelled : Ty → Prop where
  | leaf {t : Ty} : t.kids = [] → Spelled t
  | node {t a b : Ty} : t.kids = [a, b] → t.name = a.name ++ b.name → Spelled a → Spelled b → Spelled t

end Verif.Spec
