import Verif.Model.File
import Verif.Model.LearnCli
/-!
# The trie under Python's recursion limit

`TrNode.get_node`, `size` and `data_node_count` (nlcodec/dstruct.py:92-97, 108-115) call themselves.  Python allows a limited number of
frames (`sys.getrecursionlimit()`, 1000 by default) and raises RecursionError beyond it.  Here a function takes the number of frames that
are still free when it is called; it takes the first of them itself.  A call of `size` or `data_node_count` takes `q` frames: one for the
property, one for the generator expression passed to `sum`, and in some versions of Python (3.9 to 3.11) one for `sum` itself, which is
written in C.
-/

namespace Verif

namespace Trie
variable {α : Type}

/-- `root.get_node(idxs, create_missing=True)` (nlcodec/dstruct.py:92-97), one frame for each character and one more, followed by
`node.data = d` (nlcodec/codec.py:451-453) -/
def insertDeep : Nat → Str → α → Trie α → Py (Trie α)
  | 0, _, _, _ => .error .recursion
  | _ + 1, [], d, t => .ok { t with data := some d }
  | n + 1, c :: cs, d, t =>
    match insertDeep n cs d ((t.child c).getD empty) with
    | .error e => .error e
    | .ok k => .ok { t with kids := Dict.set t.kids c k }

mutual
/-- `size` (nlcodec/dstruct.py:108-111); the generator expression passed to `sum` is entered even if there are no kids -/
def sizeDeep (q : Nat) : Nat → Trie α → Py Nat
  | n, ⟨_, ks⟩ =>
    if n < q then .error .recursion
    else match sizesDeep q (n - q) ks with
      | .error e => .error e
      | .ok k => .ok (1 + k)
/-- `sum(k.size for k in self.kids.values())` (nlcodec/dstruct.py:111) -/
def sizesDeep (q : Nat) : Nat → List (Nat × Trie α) → Py Nat
  | _, [] => .ok 0
  | n, (_, t) :: ks =>
    match sizeDeep q n t with
    | .error e => .error e
    | .ok a => match sizesDeep q n ks with
      | .error e => .error e
      | .ok b => .ok (a + b)
end

mutual
/-- `data_node_count` (nlcodec/dstruct.py:113-115) -/
def dataCountDeep (q : Nat) : Nat → Trie α → Py Nat
  | n, ⟨d, ks⟩ =>
    if n < q then .error .recursion
    else match dataCountsDeep q (n - q) ks with
      | .error e => .error e
      | .ok k => .ok ((if d.isSome then 1 else 0) + k)
/-- `sum(k.data_node_count for k in self.kids.values())` (nlcodec/dstruct.py:115) -/
def dataCountsDeep (q : Nat) : Nat → List (Nat × Trie α) → Py Nat
  | _, [] => .ok 0
  | n, (_, t) :: ks =>
    match dataCountDeep q n t with
    | .error e => .error e
    | .ok a => match dataCountsDeep q n ks with
      | .error e => .error e
      | .ok b => .ok (a + b)
end

end Trie

/-- the loop of `make_vocab_prefix_trie` (nlcodec/codec.py:450-453) -/
def insertAllDeep (n : Nat) : List Ty → Trie Ty → Py (Trie Ty)
  | [], root => .ok root
  | t :: ts, root =>
    match root.insertDeep n t.name t with
    | .error e => .error e
    | .ok r => insertAllDeep n ts r

/-- `Scheme(table)` (nlcodec/codec.py:183-209, 440-455), called with `n` free frames below `__init__`.  `make_vocab_prefix_trie` takes one
of them; the message of nlcodec/codec.py:443-444 evaluates `size` and `data_node_count`.  The other schemes do not recurse. -/
def Scheme.makeDeep (q n : Nat) (k : Kind) (table : List Ty) : Py Scheme :=
  match k with
  | .bpe =>
    match validateReserved table with
    | .error e => .error e
    | .ok _ =>
      match insertAllDeep (n - 1) table Trie.empty with
      | .error e => .error e
      | .ok root =>
        if root.data.isSome then .error .assertion
        else match root.sizeDeep q n with
          | .error e => .error e
          | .ok _ => match root.dataCountDeep q n with
            | .error e => .error e
            | .ok _ => .ok { kind := .bpe, table := table, s2i := strToIdxFirst (table.map (·.name)) 0 [], root := root }
  | k => Scheme.make k table

/-- `load_scheme(path)` (nlcodec/codec.py:667-678) with `n` free frames below the constructor -/
def loadSchemeDeep (q n : Nat) (J : Json) (text : Str) : Py Scheme :=
  match readVocab J text with
  | .error e => .error e
  | .ok (types, h) => match headerKind h with
    | .error e => .error e
    | .ok k => Scheme.makeDeep q n k types

/-- `Scheme(table).save(out=model)` (nlcodec/codec.py:662-663) with `n` free frames below the constructor; see `saveModel` -/
def saveModelDeep (q n : Nat) (J : Json) (k : Kind) (table : List Ty) (model : Option Str) : Option Str × Option Exc :=
  match Scheme.makeDeep q n k table with
  | .error e => (model, some e)
  | .ok _ => saveModel J k table model

end Verif
