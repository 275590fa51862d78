import Verif.Py.Basic
/-!
# Prefix trie

Model of `TrNode` (nlcodec/dstruct.py:80-115).  The attributes `idx`, `name` and `parent` are never read by the
code and are left out.  Nodes are not shared, so in-place updates are functional updates along the path.  `get_node` recurses
once per character; Python's recursion limit is left out here, see `Verif/Model/Depth.lean`.
-/

namespace Verif

/-- `TrNode` (nlcodec/dstruct.py:80-90): optional data and kids in insertion order. -/
structure Trie (α : Type) where
  data : Option α
  kids : List (Nat × Trie α)

namespace Trie
variable {α : Type}

/-- a fresh `TrNode(idx)` (nlcodec/dstruct.py:84-90) -/
def empty : Trie α := ⟨none, []⟩

/-- `node.kids.get(c)` -/
def child (t : Trie α) (c : Nat) : Option (Trie α) := Dict.get? t.kids c

/-- `get_node(idxs, create_missing=False)` (nlcodec/dstruct.py:92-97): `none` stands for the KeyError. -/
def find : Str → Trie α → Option (Trie α)
  | [], t => some t
  | c :: cs, t => (t.child c).bind (find cs)

/-- `root.get_node(idxs, create_missing=True)` (nlcodec/dstruct.py:92-97) followed by `node.data = d`
(nlcodec/codec.py:451-453). -/
def insert : Str → α → Trie α → Trie α
  | [], d, t => { t with data := some d }
  | c :: cs, d, t => { t with kids := Dict.set t.kids c (insert cs d ((t.child c).getD empty)) }

mutual
/-- `size` (nlcodec/dstruct.py:109-111) -/
def size : Trie α → Nat
  | ⟨_, ks⟩ => 1 + sizes ks
/-- `sum(k.size for k in self.kids.values())` -/
def sizes : List (Nat × Trie α) → Nat
  | [] => 0
  | (_, t) :: ks => size t + sizes ks
end

mutual
/-- `data_node_count` (nlcodec/dstruct.py:114-115) -/
def dataCount : Trie α → Nat
  | ⟨d, ks⟩ => (if d.isSome then 1 else 0) + dataCounts ks
/-- `sum(k.data_node_count for k in self.kids.values())` -/
def dataCounts : List (Nat × Trie α) → Nat
  | [] => 0
  | (_, t) :: ks => dataCount t + dataCounts ks
end

end Trie
end Verif
