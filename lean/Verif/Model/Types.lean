import Verif.Py.Basic
/-!
# Vocabulary types

Model of `Type`, `Level`, `Reseved` (nlcodec/codec.py:32-100, 156-176).
-/

namespace Verif

/-- `Type` (nlcodec/codec.py:69-75).  `kids = []` stands for both `None` and an empty sequence: the code only
ever tests the truth value of `kids`.  Kids read from a file form a Python list and kids made by the learner a
tuple; the model does not distinguish the two. -/
structure Ty where
  name : Str
  level : Int
  idx : Nat
  freq : Int
  kids : List Ty
  deriving Repr

mutual
/-- Decidable equality of types (not part of the modelled code; used in examples). -/
def Ty.decEq : (a b : Ty) → Decidable (a = b)
  | ⟨n1, l1, i1, f1, k1⟩, ⟨n2, l2, i2, f2, k2⟩ =>
    if h : n1 = n2 ∧ l1 = l2 ∧ i1 = i2 ∧ f1 = f2 then
      match Ty.decEqs k1 k2 with
      | isTrue hk => isTrue (by simp [h, hk])
      | isFalse hk => isFalse (by simp [hk])
    else isFalse (by intro e; injection e; simp_all)
/-- Decidable equality of lists of types. -/
def Ty.decEqs : (a b : List Ty) → Decidable (a = b)
  | [], [] => isTrue rfl
  | [], _ :: _ => isFalse (by simp)
  | _ :: _, [] => isFalse (by simp)
  | x :: xs, y :: ys =>
    match Ty.decEq x y with
    | isTrue h => match Ty.decEqs xs ys with
      | isTrue h2 => isTrue (by simp [h, h2])
      | isFalse h2 => isFalse (by simp [h2])
    | isFalse h => isFalse (by simp [h])
end

instance : DecidableEq Ty := Ty.decEq

/-- Induction over type trees. -/
theorem Ty.ind {P : Ty → Prop} (h : ∀ t : Ty, (∀ k ∈ t.kids, P k) → P t) (t : Ty) : P t := by
  refine Ty.rec (motive_1 := P) (motive_2 := fun ks => ∀ k ∈ ks, P k) ?_ ?_ ?_ t
  · intro n l i f ks ih; exact h _ ih
  · simp
  · intro k ks hk hks; simpa using ⟨hk, hks⟩

namespace Level
/-- `Level` (nlcodec/codec.py:58-66). -/
def reserved : Int := -1
/-- nlcodec/codec.py:60 -/
def char : Int := 0
/-- nlcodec/codec.py:61 -/
def user : Int := 0
/-- nlcodec/codec.py:62 -/
def subword : Int := 1
/-- nlcodec/codec.py:63 -/
def word : Int := 2
/-- nlcodec/codec.py:65 -/
def clasz : Int := 0
/-- nlcodec/codec.py:66 -/
def byte : Int := 0
end Level

/-- `Type.is_reserved` (nlcodec/codec.py:82-84). -/
def Ty.isReserved (t : Ty) : Bool := t.level == Level.reserved

/-- `Reseved.ALL` (nlcodec/codec.py:33-46): `<pad> <unk> <s> </s> <cls> ▁` at indices 0..5. -/
def reservedNames : List Str :=
  [lit "<pad>", lit "<unk>", lit "<s>", lit "</s>", lit "<cls>", [SP]]

/-- `Reseved.UNK_TOK[0]` (nlcodec/codec.py:34). -/
def unkName : Str := lit "<unk>"
/-- `Reseved.UNK_IDX` (nlcodec/codec.py:41). -/
def UNK : Nat := 1

/-- `Reseved.validate` (nlcodec/codec.py:48-51): `table[idx]` may raise IndexError, wrong names fail the assertion.
The loop over `ALL` is `go`, `i` the expected index. -/
def validateReserved (table : List Ty) : Py Unit := go reservedNames 0
where
  /-- loop over `Reseved.ALL` from index `i` -/
  go : List Str → Nat → Py Unit
    | [], _ => .ok ()
    | tok :: rest, i =>
      match table[i]? with
      | none => .error .index
      | some t => if tok = t.name then go rest (i + 1) else .error .assertion

/-- `Reseved.with_reserved_types` (nlcodec/codec.py:53-55). -/
def reservedTypes : List Ty :=
  reservedNames.zipIdx.map fun (tok, i) => { name := tok, level := Level.reserved, idx := i, freq := -1, kids := [] }

/-- `Type.get_permutations` (nlcodec/codec.py:156-168) with `name=False`; `left, right = self.kids` raises
ValueError unless there are exactly two kids. -/
def Ty.getPermutations (t : Ty) : Py (List (List Ty)) :=
  match t with
  | { kids := [], .. } => .ok [[t]]
  | { kids := [l, r], .. } =>
    match l.getPermutations, r.getPermutations with
    | .ok ls, .ok rs => .ok ([t] :: ls.flatMap fun a => rs.map fun b => a ++ b)
    | .error e, _ => .error e
    | .ok _, .error e => .error e
  | _ => .error .value

/-- `Type.get_stochastic_split` (nlcodec/codec.py:170-176).  The outcome of each `random.random() < split_ratio`
is taken from the stream `rng`; the number of draws used so far is threaded (`random()` is only called when the
type has kids, because of the short-circuit `and`). Returns the pieces as types; the caller takes names or ids. -/
def Ty.stochasticSplit (rng : Nat → Bool) (t : Ty) (i : Nat) : Py (List Ty × Nat) :=
  match t with
  | { kids := [], .. } => .ok ([t], i)
  | { kids := [l, r], .. } =>
    if rng i then
      match l.stochasticSplit rng (i + 1) with
      | .error e => .error e
      | .ok (a, j) => match r.stochasticSplit rng j with
        | .error e => .error e
        | .ok (b, k) => .ok (a ++ b, k)
    else .ok ([t], i + 1)
  | _ => if rng i then .error .value else .ok ([t], i + 1)

end Verif
