import Verif.Py.Basic
/-! # Specification of a priority queue -/

namespace Verif.Spec

/-- an entry: a key with its priority -/
abbrev Entry := (Nat × Nat) × Int

/-- `x` comes out before `y`: higher priority, or the same priority and a key that is smaller or equal -/
def before (x y : Entry) : Prop := y.2 < x.2 ∨ (x.2 = y.2 ∧ (x.1.1 < y.1.1 ∨ (x.1.1 = y.1.1 ∧ x.1.2 ≤ y.1.2)))

instance (x y : Entry) : Decidable (before x y) := by unfold before; infer_instance

/-- insert into a list in the order in which entries come out -/
def put (x : Entry) : List Entry → List Entry
  | [] => [x]
  | y :: l => if before x y then x :: y :: l else y :: put x l

/-- operations on a queue -/
inductive QOp where
  | push (key : Nat × Nat) (val : Int)
  | pop
  | peek
  | len

/-- observable results -/
inductive QOut where
  | done
  | item (key : Nat × Nat) (val : Int)
  | empty
  | size (n : Nat)
  deriving DecidableEq, Repr

/-- a queue that is kept sorted -/
def queueRun : List QOp → List Entry → List QOut
  | [], _ => []
  | .push k v :: ops, l => .done :: queueRun ops (put (k, v) l)
  | .pop :: ops, [] => .empty :: queueRun ops []
  | .pop :: ops, x :: l => .item x.1 x.2 :: queueRun ops l
  | .peek :: ops, [] => .empty :: queueRun ops []
  | .peek :: ops, x :: l => .item x.1 x.2 :: queueRun ops (x :: l)
  | .len :: ops, l => .size l.length :: queueRun ops l

end Verif.Spec
