import Verif.Model.Bpe
/-!
# Comparing and printing nodes

Model of `LnNode.__eq__` and `LnNode.__repr__` (nlcodec/dstruct.py:21-24, 62-73).
-/

namespace Verif

/-- `a == b` where both are nodes or None: `LnNode.__eq__` (nlcodec/dstruct.py:21-24), called with `n` further nested calls possible.
Comparing None with a node, in either order, ends in `__eq__` of the node with None for `other`, and None has no attribute `val`. -/
def lnEq (m : Mem) : Nat → Option Nat → Option Nat → Py Bool
  | _, none, none => .ok true
  | 0, _, _ => .error .recursion
  | _ + 1, some _, none => .error .attr
  | _ + 1, none, some _ => .error .attr
  | n + 1, some a, some b =>
    if (m b).val ≠ (m a).val then .ok false
    else if (m b).freq ≠ (m a).freq then .ok false
    else match lnEq m n (m b).left (m a).left with
      | .error e => .error e
      | .ok false => .ok false
      | .ok true => lnEq m n (m b).right (m a).right

/-- `while cur: lefts.append(str(cur.val)); cur = cur.left` (nlcodec/dstruct.py:65-68).  With fuel, since the loop does not end on a cycle. -/
def walkLeft (m : Mem) : Nat → Option Nat → Py (List Str)
  | _, none => .ok []
  | 0, some _ => .error .fuel
  | k + 1, some c => match walkLeft m k (m c).left with
    | .error e => .error e
    | .ok l => .ok (natStr (m c).val :: l)

/-- `while cur: rights.append(str(cur.val)); cur = cur.right` (nlcodec/dstruct.py:69-72) -/
def walkRight (m : Mem) : Nat → Option Nat → Py (List Str)
  | _, none => .ok []
  | 0, some _ => .error .fuel
  | k + 1, some c => match walkRight m k (m c).right with
    | .error e => .error e
    | .ok l => .ok (natStr (m c).val :: l)

/-- `LnNode.__repr__` (nlcodec/dstruct.py:62-73) of the node at `a` -/
def lnRepr (fuel : Nat) (m : Mem) (a : Nat) : Py Str :=
  match walkLeft m fuel (m a).left with
  | .error e => .error e
  | .ok lefts => match walkRight m fuel (m a).right with
    | .error e => .error e
    | .ok rights => .ok (join [32] lefts.reverse ++ (lit " *" ++ natStr (m a).val ++ lit "* ") ++ join [32] rights)

end Verif
