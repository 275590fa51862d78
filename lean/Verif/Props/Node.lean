import Verif.Model.Node
import Verif.Lemmas.BpeIndex
import Verif.Lemmas.Scheme
import Verif.Lemmas.File
import Mathlib.Data.List.Forall2
/-! # Properties C108, C109: comparing and printing the nodes of linked lists -/

namespace Verif
open Spec

/-- the nodes at the addresses `s` form a doubly linked list in this order -/
def Spec.ListAt (m : Mem) (s : List Nat) : Prop := ∀ A n B, s = A ++ n :: B → (m n).left = A.getLast? ∧ (m n).right = B.head?

/-- two nodes with the same value and frequency -/
def Spec.Same (m : Mem) (a b : Nat) : Prop := (m a).val = (m b).val ∧ (m a).freq = (m b).freq

/-- two nodes in their lists, given by what is to the left (nearest first) and to the right, have the same value and frequency, and so have
their neighbours to both ends -/
def Spec.SameLists (m : Mem) (A : List Nat) (a : Nat) (B A' : List Nat) (b : Nat) (B' : List Nat) : Prop :=
  Same m a b ∧ List.Forall₂ (Same m) A A' ∧ List.Forall₂ (Same m) B B'

theorem lnEq_comm (m : Mem) : ∀ (n : Nat) (x y : Option Nat), lnEq m n x y = lnEq m n y x
  | 0, none, none => rfl
  | 0, none, some _ => rfl
  | 0, some _, none => rfl
  | 0, some _, some _ => rfl
  | _ + 1, none, none => rfl
  | _ + 1, none, some _ => rfl
  | _ + 1, some _, none => rfl
  | n + 1, some a, some b => by
    rw [lnEq, lnEq, lnEq_comm m n (m b).left, lnEq_comm m n (m b).right]
    simp only [ne_comm]

theorem lnEq_zero (m : Mem) (a b : Nat) : lnEq m 0 (some a) (some b) = .error .recursion := rfl

theorem lnEq_differ {m : Mem} {a b : Nat} (h : ¬ Same m a b) (n : Nat) : lnEq m (n + 1) (some a) (some b) = .ok false := by
  rw [lnEq]
  split
  · rfl
  · rename_i h1
    split
    · rfl
    · rename_i h2
      exact absurd ⟨(not_not.1 h1).symm, (not_not.1 h2).symm⟩ h

theorem lnEq_same {m : Mem} {a b : Nat} (h : Same m a b) (n : Nat) : lnEq m (n + 1) (some a) (some b) =
    match lnEq m n (m a).left (m b).left with
    | .error e => .error e
    | .ok false => .ok false
    | .ok true => lnEq m n (m a).right (m b).right := by
  rw [lnEq, if_neg (by simpa using h.1.symm), if_neg (by simpa using h.2.symm), lnEq_comm m n (m b).left, lnEq_comm m n (m b).right]
  rfl

theorem lnEq_none (m : Mem) (n : Nat) : lnEq m n none none = .ok true := by cases n <;> rfl

/-- two beginnings of lists with the same second nodes are compared for ever -/
theorem lnEq_loop {m : Mem} {a b c d : Nat} (h1 : Same m a b) (h2 : Same m c d) (ha : (m a).left = none) (hb : (m b).left = none)
    (ha' : (m a).right = some c) (hb' : (m b).right = some d) (hc : (m c).left = some a) (hd : (m d).left = some b) :
    ∀ n, lnEq m n (some a) (some b) = .error .recursion
  | 0 => rfl
  | 1 => by rw [lnEq_same h1, ha, hb, lnEq_none, ha', hb']; rfl
  | n + 2 => by
    rw [lnEq_same h1, ha, hb, lnEq_none, ha', hb']
    show lnEq m (n + 1) (some c) (some d) = _
    rw [lnEq_same h2, hc, hd, lnEq_loop h1 h2 ha hb ha' hb' hc hd n]

/-- the left neighbour of a node -/
theorem Spec.ListAt.left {m : Mem} {A : List Nat} {c a : Nat} {B : List Nat} (h : ListAt m ((c :: A).reverse ++ a :: B)) :
    (m a).left = some c := by rw [(h _ a B rfl).1]; simp

theorem Spec.ListAt.first {m : Mem} {a : Nat} {B : List Nat} (h : ListAt m (([] : List Nat).reverse ++ a :: B)) : (m a).left = none := by
  rw [(h _ a B rfl).1]; simp

theorem Spec.ListAt.shift {m : Mem} {A : List Nat} {c a : Nat} {B : List Nat} (h : ListAt m ((c :: A).reverse ++ a :: B)) :
    ListAt m (A.reverse ++ c :: a :: B) := by
  have e : (c :: A).reverse ++ a :: B = A.reverse ++ c :: a :: B := by simp
  rwa [e] at h

theorem lnEq_false {m : Mem} : ∀ {P P' : List Nat} {A B A' B' : List Nat} {a b x y : Nat} {Q Q' : List Nat} {n : Nat},
    ListAt m (A.reverse ++ a :: B) → ListAt m (A'.reverse ++ b :: B') → a :: A = P ++ x :: Q → b :: A' = P' ++ y :: Q' →
    List.Forall₂ (Same m) P P' → ¬ Same m x y → P.length < n → lnEq m n (some a) (some b) = .ok false
  | [], _, A, B, A', B', a, b, x, y, Q, Q', n, _, _, e, e', hf, hne, hn => by
    cases hf
    simp only [List.nil_append, List.cons.injEq] at e e'
    obtain ⟨k, rfl⟩ : ∃ k, n = k + 1 := ⟨n - 1, by simp at hn; omega⟩
    exact lnEq_differ (by rw [e.1, e'.1]; exact hne) k
  | p :: P, _, A, B, A', B', a, b, x, y, Q, Q', n, hl, hl', e, e', hf, hne, hn => by
    cases hf with
    | @cons _ p' _ P' hp hf =>
    simp only [List.cons_append, List.cons.injEq] at e e'
    obtain ⟨rfl, e⟩ := e
    obtain ⟨rfl, e'⟩ := e'
    obtain ⟨k, rfl⟩ : ∃ k, n = k + 1 := ⟨n - 1, by simp at hn; omega⟩
    cases A with
    | nil => simp at e
    | cons c A =>
    cases A' with
    | nil => simp at e'
    | cons c' A' =>
    rw [lnEq_same hp, hl.left, hl'.left, lnEq_false hl.shift hl'.shift e e' hf hne (by simp at hn; omega)]

theorem lnEq_attr {m : Mem} : ∀ {A A' P Q B B' : List Nat} {a b : Nat} {n : Nat},
    ListAt m (A.reverse ++ a :: B) → ListAt m (A'.reverse ++ b :: B') → A' = P ++ Q → Q ≠ [] → Same m a b →
    List.Forall₂ (Same m) A P → A.length + 1 < n → lnEq m n (some a) (some b) = .error .attr
  | [], A', P, Q, B, B', a, b, n, hl, hl', e, hQ, hs, hf, hn => by
    cases hf
    simp only [List.nil_append] at e
    subst e
    obtain ⟨k, rfl⟩ : ∃ k, n = k + 2 := ⟨n - 2, by simp at hn; omega⟩
    cases A' with
    | nil => exact absurd rfl hQ
    | cons c' A' =>
    rw [lnEq_same hs, hl.first, hl'.left]
    rfl
  | c :: A, A', P, Q, B, B', a, b, n, hl, hl', e, hQ, hs, hf, hn => by
    cases hf with
    | @cons _ c' _ P hc hf =>
    subst e
    obtain ⟨k, rfl⟩ : ∃ k, n = k + 1 := ⟨n - 1, by simp at hn; omega⟩
    rw [List.cons_append] at hl'
    rw [lnEq_same hs, hl.left, hl'.left, lnEq_attr hl.shift hl'.shift rfl hQ hc hf (by simp at hn; omega)]

theorem lnEq_recursion {m : Mem} : ∀ {A A' B B' : List Nat} {a b : Nat},
    ListAt m (A.reverse ++ a :: B) → ListAt m (A'.reverse ++ b :: B') → A ≠ [] → Same m a b → List.Forall₂ (Same m) A A' →
    ∀ n, lnEq m n (some a) (some b) = .error .recursion
  | [], _, _, _, _, _, _, _, h, _, _, _ => absurd rfl h
  | [c], A', B, B', a, b, hl, hl', _, hs, hf, n => by
    cases hf with
    | @cons _ c' _ A' hc hf =>
    cases hf
    cases n with
    | zero => rfl
    | succ n =>
    have h1 := hl.shift
    have h2 := hl'.shift
    rw [lnEq_same hs, hl.left, hl'.left,
      lnEq_loop hc hs h1.first h2.first (by rw [(h1 _ _ _ rfl).2]; rfl) (by rw [(h2 _ _ _ rfl).2]; rfl) hl.left hl'.left]
  | c :: d :: A, A', B, B', a, b, hl, hl', _, hs, hf, n => by
    cases hf with
    | @cons _ c' _ A' hc hf =>
    cases n with
    | zero => rfl
    | succ n => rw [lnEq_same hs, hl.left, hl'.left, lnEq_recursion hl.shift hl'.shift (by simp) hc hf n]

/-- C108 as stated is false: `==` on a node of a list of two nodes is RecursionError, however many calls are possible, even if the node is
compared with itself. -/
theorem C108_refuted : ¬ ∀ (m : Mem) (A B A' B' : List Nat) (a b : Nat), ListAt m (A.reverse ++ a :: B) → ListAt m (A'.reverse ++ b :: B') →
    SameLists m A a B A' b B' → ∃ n, lnEq m n (some a) (some b) = .ok true := by
  intro h
  have hl : ListAt (fromSeq (fun _ => ⟨0, none, none, 0⟩) 0 [1, 2] 1) [0, 1] := fun A n B e => by
    have := linked_fromSeq (fun _ => ⟨0, none, none, 0⟩) 0 [1, 2] 1 A n B e
    exact ⟨this.1, this.2.1⟩
  obtain ⟨n, h1⟩ := h _ [0] [] [0] [] 1 1 hl hl ⟨⟨rfl, rfl⟩, .cons ⟨rfl, rfl⟩ .nil, .nil⟩
  rw [lnEq_recursion (A := [0]) (A' := [0]) (B := []) (B' := []) hl hl (by simp) ⟨rfl, rfl⟩ (.cons ⟨rfl, rfl⟩ .nil)] at h1
  simp at h1

/-- C108, what holds: `a == b` of two nodes in linked lists, in all cases.  `A` and `A'` are the nodes to the left, nearest first.

* If going left from both meets two nodes of different value or frequency before an end, it is False.
* If one end is met first, it is AttributeError.
* If both ends are met at the same time after some steps, it is RecursionError, however many calls are possible.
* If both are first in their lists and agree, then: True if they are alone; AttributeError if one is alone; False if the second nodes differ;
  otherwise RecursionError.

In particular it is True exactly if both are alone and agree. -/
theorem C108_partial {m : Mem} {A B A' B' : List Nat} {a b : Nat} (hl : ListAt m (A.reverse ++ a :: B)) (hl' : ListAt m (A'.reverse ++ b :: B')) :
    (∀ P P' x y Q Q' n, a :: A = P ++ x :: Q → b :: A' = P' ++ y :: Q' → List.Forall₂ (Same m) P P' → ¬ Same m x y → P.length < n →
      lnEq m n (some a) (some b) = .ok false) ∧
    (∀ P Q n, A' = P ++ Q → Q ≠ [] → Same m a b → List.Forall₂ (Same m) A P → A.length + 1 < n → lnEq m n (some a) (some b) = .error .attr) ∧
    (∀ P Q n, A = P ++ Q → Q ≠ [] → Same m a b → List.Forall₂ (Same m) P A' → A'.length + 1 < n → lnEq m n (some a) (some b) = .error .attr) ∧
    (∀ n, A ≠ [] → Same m a b → List.Forall₂ (Same m) A A' → lnEq m n (some a) (some b) = .error .recursion) ∧
    (A = [] → A' = [] → Same m a b →
      (∀ n, B = [] → B' = [] → lnEq m (n + 1) (some a) (some b) = .ok true) ∧
      (∀ n, B = [] ∧ B' ≠ [] ∨ B ≠ [] ∧ B' = [] → lnEq m (n + 2) (some a) (some b) = .error .attr) ∧
      (∀ n c d C D, B = c :: C → B' = d :: D → ¬ Same m c d → lnEq m (n + 2) (some a) (some b) = .ok false) ∧
      (∀ n c d C D, B = c :: C → B' = d :: D → Same m c d → lnEq m n (some a) (some b) = .error .recursion)) ∧
    (∀ n, lnEq m n (some a) (some b) = .ok true ↔ 0 < n ∧ A = [] ∧ B = [] ∧ A' = [] ∧ B' = [] ∧ Same m a b) := by
  have hsym : ∀ {x y}, Same m x y → Same m y x := fun h => ⟨h.1.symm, h.2.symm⟩
  have hswap : ∀ {l l' : List Nat}, List.Forall₂ (Same m) l l' → List.Forall₂ (Same m) l' l := fun h => (List.Forall₂.imp (fun _ _ h => hsym h) h).flip
  have H1 : ∀ P P' x y Q Q' n, a :: A = P ++ x :: Q → b :: A' = P' ++ y :: Q' → List.Forall₂ (Same m) P P' → ¬ Same m x y → P.length < n →
      lnEq m n (some a) (some b) = .ok false := fun P P' x y Q Q' n e e' hf hne hn => lnEq_false hl hl' e e' hf hne hn
  have H2 : ∀ P Q n, A' = P ++ Q → Q ≠ [] → Same m a b → List.Forall₂ (Same m) A P → A.length + 1 < n → lnEq m n (some a) (some b) = .error .attr :=
    fun P Q n e hQ hs hf hn => lnEq_attr hl hl' e hQ hs hf hn
  have H3 : ∀ P Q n, A = P ++ Q → Q ≠ [] → Same m a b → List.Forall₂ (Same m) P A' → A'.length + 1 < n → lnEq m n (some a) (some b) = .error .attr :=
    fun P Q n e hQ hs hf hn => by rw [lnEq_comm]; exact lnEq_attr hl' hl e hQ (hsym hs) (hswap hf) hn
  have H4 : ∀ n, A ≠ [] → Same m a b → List.Forall₂ (Same m) A A' → lnEq m n (some a) (some b) = .error .recursion :=
    fun n hA hs hf => lnEq_recursion hl hl' hA hs hf n
  have H5 : A = [] → A' = [] → Same m a b →
      (∀ n, B = [] → B' = [] → lnEq m (n + 1) (some a) (some b) = .ok true) ∧
      (∀ n, B = [] ∧ B' ≠ [] ∨ B ≠ [] ∧ B' = [] → lnEq m (n + 2) (some a) (some b) = .error .attr) ∧
      (∀ n c d C D, B = c :: C → B' = d :: D → ¬ Same m c d → lnEq m (n + 2) (some a) (some b) = .ok false) ∧
      (∀ n c d C D, B = c :: C → B' = d :: D → Same m c d → lnEq m n (some a) (some b) = .error .recursion) := by
    rintro rfl rfl hs
    have hstep : ∀ n, lnEq m (n + 1) (some a) (some b) = lnEq m n B.head? B'.head? := fun n => by
      rw [lnEq_same hs, hl.first, hl'.first, lnEq_none, (hl _ _ _ rfl).2, (hl' _ _ _ rfl).2]
    refine ⟨fun n h h' => ?_, fun n h => ?_, fun n c d C D h h' hne => ?_, fun n c d C D h h' hcd => ?_⟩
    · subst h h'; rw [hstep]; exact lnEq_none m n
    · rw [hstep]
      rcases h with ⟨rfl, h⟩ | ⟨h, rfl⟩
      · obtain ⟨d, D, rfl⟩ := List.exists_cons_of_ne_nil h; rfl
      · obtain ⟨d, D, rfl⟩ := List.exists_cons_of_ne_nil h; rfl
    · subst h h'; rw [hstep]; exact lnEq_differ hne n
    · subst h h'
      have e1 : (m c).left = some a := by rw [(hl [a] c C rfl).1]; rfl
      have e2 : (m d).left = some b := by rw [(hl' [b] d D rfl).1]; rfl
      exact lnEq_loop hs hcd hl.first hl'.first (by rw [(hl _ _ _ rfl).2]; rfl) (by rw [(hl' _ _ _ rfl).2]; rfl) e1 e2 n
  refine ⟨H1, H2, H3, H4, H5, fun n => ⟨fun h => ?_, ?_⟩⟩
  · cases n with
    | zero => cases h
    | succ n =>
    have hs : Same m a b := by
      by_contra hne
      rw [lnEq_differ hne] at h
      cases h
    refine ⟨by omega, ?_⟩
    -- both are first: otherwise the comparison of the left neighbours would have to be true
    have hrec : ∀ {n : Nat} {A A' B B' : List Nat} {a b : Nat}, ListAt m (A.reverse ++ a :: B) → ListAt m (A'.reverse ++ b :: B') →
        lnEq m n (some a) (some b) = .ok true → A = [] ∧ A' = [] ∧ B = [] ∧ B' = [] := by
      intro n
      induction n using Nat.strong_induction_on with
      | _ n ih =>
      intro A A' B B' a b hl hl' h
      cases n with
      | zero => cases h
      | succ n =>
      have hs : Same m a b := by
        by_contra hne
        rw [lnEq_differ hne] at h
        cases h
      rw [lnEq_same hs] at h
      have hleft : lnEq m n (m a).left (m b).left = .ok true := by
        generalize lnEq m n (m a).left (m b).left = w at h
        match w, h with
        | .ok true, _ => rfl
      rw [hleft] at h
      cases A with
      | nil =>
        cases A' with
        | nil =>
          refine ⟨rfl, rfl, ?_⟩
          have h2 : lnEq m n (m a).right (m b).right = .ok true := h
          rw [(hl _ _ _ rfl).2, (hl' _ _ _ rfl).2] at h2
          cases B with
          | nil => cases B' with
            | nil => exact ⟨rfl, rfl⟩
            | cons d D => cases n <;> cases h2
          | cons c C => cases B' with
            | nil => cases n <;> cases h2
            | cons d D =>
              have g1 : ListAt m ([a].reverse ++ c :: C) := hl
              have g2 : ListAt m ([b].reverse ++ d :: D) := hl'
              have := (ih n (by omega) g1 g2 h2).1
              simp at this
        | cons d A' => rw [hl.first, hl'.left] at hleft; cases n <;> cases hleft
      | cons c A =>
        cases A' with
        | nil => rw [hl.left, hl'.first] at hleft; cases n <;> cases hleft
        | cons d A' =>
          rw [hl.left, hl'.left] at hleft
          have := (ih n (by omega) hl.shift hl'.shift hleft).2.2.1
          simp at this
    obtain ⟨h1, h2, h3, h4⟩ := hrec hl hl' h
    exact ⟨h1, h3, h2, h4, hs⟩
  · rintro ⟨hn, h1, h2, h3, h4, hs⟩
    obtain ⟨k, rfl⟩ : ∃ k, n = k + 1 := ⟨n - 1, by omega⟩
    exact (H5 h1 h3 hs).1 k h2 h4

/-! ## C109 -/

theorem walkLeft_spec {m : Mem} : ∀ {A B : List Nat} {a : Nat} {k : Nat}, ListAt m (A.reverse ++ a :: B) → A.length ≤ k →
    walkLeft m k (m a).left = .ok (A.map fun n => natStr (m n).val)
  | [], B, a, k, h, _ => by rw [h.first]; cases k <;> rfl
  | c :: A, B, a, k, h, hk => by
    obtain ⟨k, rfl⟩ : ∃ j, k = j + 1 := ⟨k - 1, by simp at hk; omega⟩
    rw [h.left, walkLeft, walkLeft_spec h.shift (by simpa using hk)]
    rfl

theorem walkRight_spec {m : Mem} : ∀ {A B : List Nat} {a : Nat} {k : Nat}, ListAt m (A ++ a :: B) → B.length ≤ k →
    walkRight m k (m a).right = .ok (B.map fun n => natStr (m n).val)
  | A, [], a, k, h, _ => by rw [(h _ _ _ rfl).2]; cases k <;> rfl
  | A, c :: B, a, k, h, hk => by
    obtain ⟨k, rfl⟩ : ∃ j, k = j + 1 := ⟨k - 1, by simp at hk; omega⟩
    have h' : ListAt m ((A ++ [a]) ++ c :: B) := by simpa using h
    rw [(h _ _ _ rfl).2, List.head?_cons, walkRight, walkRight_spec h' (by simpa using hk)]
    rfl

theorem tokens_intercalate_gap : ∀ {ws vs : List Str} {r : Str}, (∀ w ∈ ws, IsToken w) → Tokens r vs → vs ≠ [] →
    Tokens (List.intercalate [32] ws ++ 32 :: r) (ws ++ vs)
  | [], vs, r, _, hr, _ => by
    have := tokens_split (32 :: r)
    have e : split (32 :: r) = split r := rfl
    rw [e] at this
    rw [show vs = split r from (split_of_tokens hr).symm]
    exact this
  | [w], vs, r, hw, hr, hv => by
    have := Tokens.cons (g := []) (w := w) (c := 32) (by simp [AllSpace]) (hw w (by simp)) rfl hr hv
    simpa using this
  | w :: w' :: ws, vs, r, hw, hr, hv => by
    have ih := tokens_intercalate_gap (ws := w' :: ws) (fun x hx => hw x (by simp [hx])) hr hv
    have := Tokens.cons (g := []) (w := w) (c := 32) (by simp [AllSpace]) (hw w (by simp)) rfl ih (by simp)
    simpa [List.intercalate] using this

/-- C109: a node of a linked list prints the values to its left, its own value between stars, and the values to its right, in the order of the list
and separated by spaces. -/
theorem C109_repr {m : Mem} {A B : List Nat} {a : Nat} (h : ListAt m (A ++ a :: B)) {fuel : Nat} (hf : (A ++ a :: B).length ≤ fuel) :
    ∃ text, lnRepr fuel m a = .ok text ∧
      text = List.intercalate [32] (A.map fun n => natStr (m n).val) ++ (lit " *" ++ natStr (m a).val ++ lit "* ") ++
        List.intercalate [32] (B.map fun n => natStr (m n).val) ∧
      Tokens text ((A.map fun n => natStr (m n).val) ++ (lit "*" ++ natStr (m a).val ++ lit "*") :: B.map fun n => natStr (m n).val) := by
  have h1 : ListAt m (A.reverse.reverse ++ a :: B) := by simpa using h
  simp only [List.length_append, List.length_cons] at hf
  refine ⟨_, ?_, rfl, ?_⟩
  · rw [lnRepr, walkLeft_spec h1 (by simp; omega), walkRight_spec h (by omega)]
    simp only [← List.map_reverse, List.reverse_reverse, join_eq_intercalate]
  · have htok : ∀ (L : List Nat), ∀ w ∈ L.map (fun n => natStr (m n).val), IsToken w := by
      intro L w hw
      obtain ⟨n, -, rfl⟩ := List.mem_map.1 hw
      exact natStr_isToken _
    have hstar : IsToken (lit "*" ++ natStr (m a).val ++ lit "*") := by
      refine ⟨by simp [lit], fun c hc => ?_⟩
      simp only [lit, List.mem_append] at hc
      rcases hc with (hc | hc) | hc
      · have : c = 42 := by simpa using hc
        subst this; rfl
      · exact (natStr_isToken _).2 c hc
      · have : c = 42 := by simpa using hc
        subst this; rfl
    have hrest : Tokens ((lit "*" ++ natStr (m a).val ++ lit "*") ++ 32 :: List.intercalate [32] (B.map fun n => natStr (m n).val))
        ((lit "*" ++ natStr (m a).val ++ lit "*") :: B.map fun n => natStr (m n).val) := by
      by_cases hB : B = []
      · subst hB
        have := Tokens.last (g := []) (h := [32]) (by simp [AllSpace]) hstar (by simp [AllSpace]; rfl)
        simpa using this
      · have ht : Tokens (List.intercalate [32] (B.map fun n => natStr (m n).val)) (B.map fun n => natStr (m n).val) := by
          have := tokens_split (List.intercalate [32] (B.map fun n => natStr (m n).val))
          rw [← join_eq_intercalate, split_join_space (htok B)] at this
          rwa [← join_eq_intercalate]
        have := Tokens.cons (g := []) (c := 32) (by simp [AllSpace]) hstar rfl ht (by simpa using hB)
        simpa using this
    have := tokens_intercalate_gap (htok A) hrest (by simp)
    simpa [lit] using this

/-- C109: the nodes made from a sequence print the sequence; a deleted node prints itself alone. -/
theorem C109_from_seq (m : Mem) (next : Nat) (freq : Int) (A B : List Nat) (v : Nat) {fuel : Nat} (hf : (A ++ v :: B).length ≤ fuel) :
    lnRepr fuel (fromSeq m next (A ++ v :: B) freq) (next + A.length) =
      .ok (List.intercalate [32] (A.map natStr) ++ (lit " *" ++ natStr v ++ lit "* ") ++ List.intercalate [32] (B.map natStr)) := by
  have hl : ListAt (fromSeq m next (A ++ v :: B) freq) (newAddrs next (A ++ v :: B).length) := fun X n Y e => by
    have := linked_fromSeq m next (A ++ v :: B) freq X n Y e
    exact ⟨this.1, this.2.1⟩
  have hval : ∀ i (h : i < (A ++ v :: B).length), (fromSeq m next (A ++ v :: B) freq (next + i)).val = (A ++ v :: B)[i] := by
    intro i h
    simp only [fromSeq, Nat.le_add_right, if_true, Nat.add_sub_cancel_left, List.getElem?_eq_getElem h]
  have hsplit : newAddrs next (A ++ v :: B).length = newAddrs next A.length ++ (next + A.length) :: newAddrs (next + A.length + 1) B.length := by
    simp only [newAddrs, List.length_append, List.length_cons]
    rw [← List.range'_append_1, List.range'_succ]
  rw [hsplit] at hl
  obtain ⟨text, h1, h2, -⟩ := C109_repr hl (fuel := fuel) (by rw [← hsplit]; simpa [newAddrs] using hf)
  rw [h1, h2]
  have hA : (newAddrs next A.length).map (fun n => natStr (fromSeq m next (A ++ v :: B) freq n).val) = A.map natStr := by
    apply List.ext_getElem
    · simp [newAddrs]
    · intro i h3 h4
      simp only [List.length_map] at h4
      simp only [newAddrs, List.getElem_map, List.getElem_range', Nat.one_mul]
      rw [hval i (by simp; omega), List.getElem_append_left h4]
  have hB : (newAddrs (next + A.length + 1) B.length).map (fun n => natStr (fromSeq m next (A ++ v :: B) freq n).val) = B.map natStr := by
    apply List.ext_getElem
    · simp [newAddrs]
    · intro i h3 h4
      simp only [List.length_map] at h4
      simp only [newAddrs, List.getElem_map, List.getElem_range', Nat.one_mul]
      rw [show next + A.length + 1 + i = next + (A.length + 1 + i) by omega, hval _ (by simp; omega)]
      rw [List.getElem_append_right (by omega)]
      simp [show A.length + 1 + i - A.length = i + 1 by omega]
  rw [hA, hB, hval A.length (by simp)]
  simp

/-- C109: after `delete` a node prints itself alone, and the others print the list without it. -/
theorem C109_delete {m : Mem} {A B : List Nat} {k : Nat} (h : ListAt m (A ++ k :: B)) (hd : (A ++ k :: B).Nodup) :
    (∀ fuel, lnRepr fuel (deleteNode m k) k = .ok (lit " *" ++ natStr (m k).val ++ lit "* ")) ∧ ListAt (deleteNode m k) (A ++ B) ∧
    ∀ n, (deleteNode m k n).val = (m n).val := by
  have hk := h A k B rfl
  have happ : ∀ j, deleteNode m k j = if j = k then { m k with left := none, right := none }
      else { m j with left := if B.head? = some j then A.getLast? else (m j).left, right := if A.getLast? = some j then B.head? else (m j).right } := by
    intro j
    have hnd := List.nodup_append.1 hd
    have hx : ∀ i, A.getLast? = some i → i ≠ k := fun i hi e => hnd.2.2 i (List.mem_of_getLast? hi) k (by simp) e
    have hy : ∀ i, B.head? = some i → i ≠ k := fun i hi e => (List.nodup_cons.1 hnd.2.1).1 (e ▸ List.mem_of_mem_head? hi)
    have hxy : ∀ i, A.getLast? = some i → B.head? ≠ some i := fun i hi hi' =>
      hnd.2.2 i (List.mem_of_getLast? hi) i (by simp [List.mem_of_mem_head? hi']) rfl
    rw [deleteNode]
    simp only [hk.1, hk.2]
    generalize A.getLast? = x at hx hxy
    generalize B.head? = y at hy hxy
    by_cases hj : j = k
    · subst hj
      cases x <;> cases y <;> simp [setRight, setLeft, Mem.upd]
      all_goals first | (have := hx _ rfl; have := hy _ rfl; simp_all [Ne.symm]) | (have := hx _ rfl; simp_all [Ne.symm]) | (have := hy _ rfl; simp_all [Ne.symm])
    · rw [if_neg hj]
      cases x with
      | none => cases y with
        | none => simp [setRight, setLeft, Mem.upd, hj]
        | some q =>
          by_cases h1 : j = q
          · subst h1; simp [setRight, setLeft, Mem.upd, hj]
          · simp [setRight, setLeft, Mem.upd, hj, h1, Ne.symm h1]
      | some p => cases y with
        | none =>
          by_cases h1 : j = p
          · subst h1; simp [setRight, setLeft, Mem.upd, hj]
          · simp [setRight, setLeft, Mem.upd, hj, h1, Ne.symm h1]
        | some q =>
          have hpq : q ≠ p := fun e => hxy p rfl (by rw [e])
          by_cases h1 : j = p
          · subst h1; simp [setRight, setLeft, Mem.upd, hj, hpq, Ne.symm hpq]
          · by_cases h2 : j = q
            · subst h2; simp [setRight, setLeft, Mem.upd, hj, hpq, Ne.symm hpq]
            · simp [setRight, setLeft, Mem.upd, hj, h1, Ne.symm h1, h2, Ne.symm h2]
  have hval : ∀ n, (deleteNode m k n).val = (m n).val := by
    intro n
    rw [happ]
    split
    · rename_i e; rw [e]
    · rfl
  refine ⟨fun fuel => ?_, ?_, hval⟩
  · have e1 : (deleteNode m k k).left = none := by rw [happ, if_pos rfl]
    have e2 : (deleteNode m k k).right = none := by rw [happ, if_pos rfl]
    rw [lnRepr, e1, e2, hval]
    cases fuel <;> simp [walkLeft, walkRight, join]
  · intro X n Y e
    have hnd := List.nodup_append.1 hd
    rcases List.append_eq_append_iff.1 e with ⟨X', rfl, e2⟩ | ⟨Y', e1, e2⟩
    · -- in B
      have hn : n ∈ B := by rw [e2]; simp
      have hnk : n ≠ k := fun e => (List.nodup_cons.1 hnd.2.1).1 (e ▸ hn)
      have hnA : A.getLast? ≠ some n := fun h' => hnd.2.2 n (List.mem_of_getLast? h') n (by simp [hn]) rfl
      have := h (A ++ k :: X') n Y (by rw [e2]; simp)
      rw [happ, if_neg hnk]
      simp only [hnA, if_false]
      refine ⟨?_, this.2⟩
      cases X' with
      | nil => simp [e2]
      | cons z Z =>
        have hz : B.head? ≠ some n := by
          rw [e2]
          simp only [List.cons_append, List.head?_cons, ne_eq, Option.some.injEq]
          intro ez
          have hB := (List.nodup_cons.1 hnd.2.1).2
          rw [e2, ez] at hB
          simp at hB
        rw [if_neg hz, this.1]
        simp [List.getLast?_append, List.getLast?_cons]
    · cases Y' with
      | nil =>
        simp only [List.append_nil, List.nil_append] at e1 e2
        have hn : n ∈ B := by rw [← e2]; simp
        have hnk : n ≠ k := fun e => (List.nodup_cons.1 hnd.2.1).1 (e ▸ hn)
        have hnA : A.getLast? ≠ some n := fun h' => hnd.2.2 n (List.mem_of_getLast? h') n (by simp [hn]) rfl
        have := h (A ++ [k]) n Y (by rw [← e2]; simp)
        rw [happ, if_neg hnk]
        simp only [hnA, if_false]
        refine ⟨?_, this.2⟩
        rw [if_pos (by rw [← e2]; rfl), e1]
      | cons z Z =>
        simp only [List.cons_append, List.cons.injEq] at e2
        obtain ⟨rfl, rfl⟩ := e2
        have hn : n ∈ A := by rw [e1]; simp
        have hnk : n ≠ k := fun e => hnd.2.2 n hn k (by simp) e
        have hnB : B.head? ≠ some n := fun h' => hnd.2.2 n hn n (by simp [List.mem_of_mem_head? h']) rfl
        have := h X n (Z ++ k :: B) (by rw [e1]; simp)
        rw [happ, if_neg hnk]
        simp only [hnB, if_false]
        refine ⟨this.1, ?_⟩
        cases Z with
        | nil => rw [if_pos (by rw [e1]; simp)]; simp
        | cons z Z =>
          have hz : A.getLast? ≠ some n := by
            intro h'
            have hA := hnd.1
            rw [e1] at h' hA
            have hl : n ∈ z :: Z := by
              rw [List.getLast?_append, List.getLast?_cons_cons] at h'
              have : (z :: Z).getLast? = some n := by
                cases hg : (z :: Z).getLast? with
                | none => simp at hg
                | some w => rw [hg] at h'; simpa using h'
              exact List.mem_of_getLast? this
            exact (List.nodup_cons.1 (List.nodup_append.1 hA).2.1).1 hl
          rw [if_neg hz, this.2]
          simp

/-! ## Examples -/

/-- two lists 7 8 9 and 7 8, and the node 7 alone -/
def exNodes : Mem := fromSeq (fromSeq (fromSeq (fun _ => ⟨0, none, none, 0⟩) 0 [7, 8, 9] 1) 3 [7, 8] 1) 5 [7] 1

example : lnRepr 3 exNodes 1 = .ok (lit "7 *8* 9") ∧ lnRepr 3 exNodes 5 = .ok (lit " *7* ") ∧ lnRepr 3 exNodes 2 = .ok (lit "7 8 *9* ") ∧
    lnRepr 3 (deleteNode exNodes 1) 0 = .ok (lit " *7* 9") ∧ lnRepr 3 (deleteNode exNodes 1) 1 = .ok (lit " *8* ") := by decide +kernel

example : lnEq exNodes 9 (some 0) (some 5) = .error .attr ∧ lnEq exNodes 9 (some 0) (some 3) = .error .recursion ∧
    lnEq exNodes 9 (some 1) (some 2) = .ok false ∧ lnEq exNodes 9 (some 5) (some 5) = .ok true ∧ lnEq exNodes 9 (some 2) (some 2) = .error .recursion :=
  by decide +kernel

example : ListAt exNodes [0, 1, 2] ∧ ListAt exNodes [3, 4] ∧ ListAt exNodes [5] := by
  have key : ∀ (l : List Nat), (∀ i (h : i < l.length), (exNodes l[i]).left = (l.take i).getLast? ∧ (exNodes l[i]).right = (l.drop (i + 1)).head?) → ListAt exNodes l := by
    intro l h A n B e
    have := h A.length (by rw [e]; simp)
    subst e
    simpa using this
  refine ⟨key _ ?_, key _ ?_, key _ ?_⟩ <;> decide +kernel

end Verif
