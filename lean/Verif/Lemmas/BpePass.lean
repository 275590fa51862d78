import Verif.Lemmas.BpeMem
import Mathlib.Tactic.Ring
/-! # One pass of the BPE learner over the nodes of a pair -/

namespace Verif
open Spec

/-- nodes recorded for a pair -/
def ids (ix : Dict Pair (List Nat)) (q : Pair) : List Nat := (Dict.get? ix q).getD []

theorem ids_set (ix : Dict Pair (List Nat)) (p : Pair) (l : List Nat) (q : Pair) :
    ids (Dict.set ix p l) q = if p = q then l else ids ix q := by
  unfold ids; rw [Dict.get?_set]; split <;> rfl

theorem ids_ixAdd (ix : Dict Pair (List Nat)) (p : Pair) (n : Nat) (q : Pair) : ids (ixAdd ix p n) q =
    if p = q then (if n ∈ ids ix p then ids ix p else ids ix p ++ [n]) else ids ix q := by
  unfold ixAdd; exact ids_set _ _ _ _

theorem ixRemove_none {ix : Dict Pair (List Nat)} {p : Pair} (h : Dict.get? ix p = none) (n : Nat) : ixRemove ix p n = .ok ix := by
  unfold ixRemove; rw [h]

theorem ixRemove_mem {ix : Dict Pair (List Nat)} {p : Pair} {n : Nat} (h : n ∈ ids ix p) :
    ixRemove ix p n = .ok (Dict.set ix p ((ids ix p).erase n)) := by
  unfold ids at h ⊢
  unfold ixRemove
  cases hg : Dict.get? ix p with
  | none => simp [hg] at h
  | some l =>
    rw [hg] at h
    simp only [Option.getD_some] at h ⊢
    cases l with
    | nil => simp at h
    | cons x l => simp [h]

/-- what is known about the index of a pass -/
structure IxOk (ab : Pair) (ix : Dict Pair (List Nat)) : Prop where
  keys : (Dict.keys ix).Nodup
  none : Dict.get? ix ab = none
  nodup : ∀ q, (ids ix q).Nodup

/-- moving a node from one pair to another -/
theorem ix_move {ab : Pair} {ix : Dict Pair (List Nat)} (h : IxOk ab ix) {p p' : Pair} {n1 : Nat} (n2 : Nat) (hp' : p' ≠ ab)
    (hpp : p ≠ p') (hm : p = ab ∨ n1 ∈ ids ix p) :
    ∃ ix1, ixRemove ix p n1 = .ok ix1 ∧ IxOk ab (ixAdd ix1 p' n2) ∧
      ∀ q, q ≠ ab → ∀ j, j ∈ ids (ixAdd ix1 p' n2) q ↔ (j ∈ ids ix q ∧ ¬ (j = n1 ∧ q = p)) ∨ (j = n2 ∧ q = p') := by
  have addok : ∀ ix1 : Dict Pair (List Nat), IxOk ab ix1 → IxOk ab (ixAdd ix1 p' n2) := by
    intro ix1 h1
    refine ⟨Dict.nodup_keys_set h1.keys _ _, ?_, ?_⟩
    · unfold ixAdd; rw [Dict.get?_set_ne _ _ hp']; exact h1.none
    · intro q
      rw [ids_ixAdd]
      split
      · split
        · exact h1.nodup _
        · rename_i _ hn
          rw [List.nodup_append]
          refine ⟨h1.nodup _, by simp, ?_⟩
          rintro x hx y hy rfl
          simp at hy; subst hy; exact hn hx
      · exact h1.nodup _
  have addmem : ∀ (ix1 : Dict Pair (List Nat)) q j, j ∈ ids (ixAdd ix1 p' n2) q ↔ j ∈ ids ix1 q ∨ (j = n2 ∧ q = p') := by
    intro ix1 q j
    rw [ids_ixAdd]
    by_cases hq : p' = q
    · subst hq
      rw [if_pos rfl]
      split
      · rename_i hn
        constructor
        · exact Or.inl
        · rintro (h | ⟨rfl, _⟩)
          · exact h
          · exact hn
      · simp
    · rw [if_neg hq]
      constructor
      · exact Or.inl
      · rintro (h | ⟨_, e⟩)
        · exact h
        · exact absurd e.symm hq
  by_cases hpab : p = ab
  · subst hpab
    refine ⟨ix, ixRemove_none h.none _, addok ix h, ?_⟩
    intro q hq j
    rw [addmem]
    have : ¬ (j = n1 ∧ q = p) := fun e => hq e.2
    tauto
  · have hmem : n1 ∈ ids ix p := by tauto
    refine ⟨_, ixRemove_mem hmem, addok _ ?_, ?_⟩
    · refine ⟨Dict.nodup_keys_set h.keys _ _, ?_, ?_⟩
      · rw [Dict.get?_set_ne _ _ hpab]; exact h.none
      · intro q
        rw [ids_set]
        split
        · exact (h.nodup _).erase _
        · exact h.nodup _
    · intro q hq j
      rw [addmem, ids_set]
      by_cases hpq : p = q
      · subst hpq
        rw [if_pos rfl, (h.nodup p).mem_erase_iff]
        tauto
      · rw [if_neg hpq]
        have : ¬ (j = n1 ∧ q = p) := fun e => hpq e.2.symm
        tauto

theorem passLeft_ok {ab : Pair} {a R : Nat} {m : Mem} {x : Option Nat} {ix : Dict Pair (List Nat)} {ds : Dict Pair Int} {f : Int}
    (h : IxOk ab ix) (haR : a ≠ R) (hR : ab.2 ≠ R) (hds : (Dict.keys ds).Nodup) (hf : ∀ x', x = some x' → (m x').freq = f)
    (hm : ∀ x', x = some x' → ((m x').val, a) = ab ∨ x' ∈ ids ix ((m x').val, a)) :
    ∃ ix' ds', passLeft a R m x ix ds = .ok (ix', ds') ∧ IxOk ab ix' ∧ (Dict.keys ds').Nodup ∧
      (∀ q, q ≠ ab → ∀ j, j ∈ ids ix' q ↔ (j ∈ ids ix q ∧ ¬ (x = some j ∧ q = ((m j).val, a))) ∨ (x = some j ∧ q = ((m j).val, R))) ∧
      ∀ q, Dict.cnt ds' q = Dict.cnt ds q + f * (tl q (x.map fun j => (m j).val) R - tl q (x.map fun j => (m j).val) a) := by
  cases x with
  | none =>
    refine ⟨ix, ds, rfl, h, hds, ?_, ?_⟩
    · intro q _ j; simp
    · intro q; simp [tl]
  | some x =>
    have hp' : ((m x).val, R) ≠ ab := by rintro rfl; exact hR rfl
    have hpp : ((m x).val, a) ≠ ((m x).val, R) := by simp [haR]
    obtain ⟨ix1, e1, h1, h2⟩ := ix_move h (n1 := x) x hp' hpp (hm x rfl)
    refine ⟨ixAdd ix1 ((m x).val, R) x, Dict.incr (Dict.incr ds ((m x).val, a) (-(m x).freq)) ((m x).val, R) (m x).freq,
      by simp only [passLeft, e1], h1, ?_, ?_, ?_⟩
    · exact Dict.nodup_keys_incr (Dict.nodup_keys_incr hds _ _) _ _
    · intro q hq j
      rw [h2 q hq j]
      constructor
      · rintro (⟨h3, h4⟩ | ⟨rfl, h4⟩)
        · left; refine ⟨h3, ?_⟩; rintro ⟨e, e'⟩; injection e with e; subst e; exact h4 ⟨rfl, e'⟩
        · right; exact ⟨rfl, h4⟩
      · rintro (⟨h3, h4⟩ | ⟨h3, h4⟩)
        · left; refine ⟨h3, ?_⟩; rintro ⟨rfl, e⟩; exact h4 ⟨rfl, e⟩
        · right; injection h3 with h3; subst h3; exact ⟨rfl, h4⟩
    · intro q
      rw [Dict.cnt_incr, Dict.cnt_incr, hf x rfl]
      obtain ⟨q1, q2⟩ := q
      simp only [tl, Option.map_some, Option.some.injEq, Prod.mk.injEq]
      split <;> split <;> ring

theorem passRight_ok {ab : Pair} {b R n bn : Nat} {m : Mem} {y : Option Nat} {ix : Dict Pair (List Nat)} {ds : Dict Pair Int} {f : Int}
    (h : IxOk ab ix) (hbR : b ≠ R) (hR : ab.1 ≠ R) (hds : (Dict.keys ds).Nodup) (hf : (m bn).freq = f)
    (hm : ∀ y', y = some y' → (b, (m y').val) = ab ∨ bn ∈ ids ix (b, (m y').val)) :
    ∃ ix' ds', passRight b R m n bn y ix ds = .ok (ix', ds') ∧ IxOk ab ix' ∧ (Dict.keys ds').Nodup ∧
      (∀ q, q ≠ ab → ∀ j, j ∈ ids ix' q ↔ (j ∈ ids ix q ∧ ¬ (j = bn ∧ ∃ y', y = some y' ∧ q = (b, (m y').val))) ∨
        (j = n ∧ ∃ y', y = some y' ∧ q = (R, (m y').val))) ∧
      ∀ q, Dict.cnt ds' q = Dict.cnt ds q + f * (hd q R (y.map fun j => (m j).val) - hd q b (y.map fun j => (m j).val)) := by
  cases y with
  | none =>
    refine ⟨ix, ds, rfl, h, hds, ?_, ?_⟩
    · intro q _ j; simp
    · intro q; simp [hd]
  | some y =>
    have hp' : (R, (m y).val) ≠ ab := by rintro rfl; exact hR rfl
    have hpp : (b, (m y).val) ≠ (R, (m y).val) := by simp [hbR]
    obtain ⟨ix1, e1, h1, h2⟩ := ix_move h (n1 := bn) n hp' hpp (hm y rfl)
    refine ⟨ixAdd ix1 (R, (m y).val) n, Dict.incr (Dict.incr ds (b, (m y).val) (-(m bn).freq)) (R, (m y).val) (m bn).freq,
      by simp only [passRight, e1], h1, ?_, ?_, ?_⟩
    · exact Dict.nodup_keys_incr (Dict.nodup_keys_incr hds _ _) _ _
    · intro q hq j
      rw [h2 q hq j]
      simp
    · intro q
      rw [Dict.cnt_incr, Dict.cnt_incr, hf]
      obtain ⟨q1, q2⟩ := q
      simp only [hd, Option.map_some, Option.some.injEq, Prod.mk.injEq]
      split <;> split <;> ring

/-- weighted number of occurrences of a symbol -/
def symCount (C : Corpus) (v : Nat) : Int := (C.map fun s => s.2 * (s.1.count v : Int)).sum

theorem symCount_append (C D : Corpus) (v : Nat) : symCount (C ++ D) v = symCount C v + symCount D v := by simp [symCount]
theorem pairCount_append (C D : Corpus) (q : Pair) : pairCount (C ++ D) q = pairCount C q + pairCount D q := by simp [pairCount]
theorem symCount_cons (s : List Nat × Int) (D : Corpus) (v : Nat) : symCount (s :: D) v = s.2 * (s.1.count v : Int) + symCount D v := by
  simp [symCount]
theorem pairCount_cons (s : List Nat × Int) (D : Corpus) (q : Pair) : pairCount (s :: D) q = s.2 * pairOcc q s.1 + pairCount D q := by
  simp [pairCount]

/-- 1 when equal, else 0 -/
def ind (u v : Nat) : Int := if u = v then 1 else 0

/-- invariant of the loop over the nodes of the pair `(a, b)`; `C0` is the corpus before, `todo` the nodes to come -/
structure PInv (a b R : Nat) (C0 : Corpus) (todo : List Nat) (P : Pass) (S : Segs) : Prop where
  wf : Wf P.mem S
  ixok : IxOk (a, b) P.ix
  ixmem : ∀ q, q ≠ (a, b) → ∀ j, j ∈ ids P.ix q ↔ At P.mem S j q
  tnd : todo.Nodup
  tcase : ∀ u ∈ todo, At P.mem S u (a, b) ∨ (a = b ∧ ((u ∉ liveOf S ∧ (P.mem u).left = none ∧ (P.mem u).right = none) ∨
    (u ∈ liveOf S ∧ ∃ w, (P.mem u).right = some w ∧ (P.mem w).val = R)))
  tall : ∀ j, At P.mem S j (a, b) → j ∈ todo
  uni : ∀ v, Dict.cnt P.uni v = symCount (corpusOf P.mem S) v +
    isum (todo.map fun u => (P.mem u).freq) * (ind R v - ind a v - ind b v)
  uknd : (Dict.keys P.uni).Nodup
  dsnd : (Dict.keys P.deltas).Nodup
  ds : ∀ q, q ≠ (a, b) → Dict.cnt P.deltas q = pairCount (corpusOf P.mem S) q - pairCount C0 q
  dsab : Dict.cnt P.deltas (a, b) ≤ 0
  rel : Rel a b R C0 (corpusOf P.mem S)
  freqs : ∀ s ∈ S, 0 < s.2
  nonempty : ∀ s ∈ S, s.1 ≠ []

theorem forall₂_append_inv {α β : Type} {r : α → β → Prop} {l : List α} {m1 m2 : List β} (h : List.Forall₂ r l (m1 ++ m2)) :
    ∃ l1 l2, l = l1 ++ l2 ∧ List.Forall₂ r l1 m1 ∧ List.Forall₂ r l2 m2 := by
  induction m1 generalizing l with
  | nil => exact ⟨[], l, rfl, .nil, h⟩
  | cons x m1 ih =>
    cases h with
    | cons hx h =>
      obtain ⟨l1, l2, rfl, h1, h2⟩ := ih h
      exact ⟨_ :: l1, l2, rfl, .cons hx h1, h2⟩

theorem Rel.more {a b r : Nat} (ha : a ≠ r) (hb : b ≠ r) {C D1 D2 : Corpus} {A B : List Nat} {f : Int}
    (h : Rel a b r C (D1 ++ (A ++ a :: b :: B, f) :: D2)) : Rel a b r C (D1 ++ (A ++ r :: B, f) :: D2) := by
  obtain ⟨l1, l2, rfl, h1, h2⟩ := forall₂_append_inv h
  cases h2 with
  | cons hx h2 =>
    refine List.rel_append h1 (.cons ⟨hx.1, hx.2.more ha hb rfl⟩ h2)

/-- what one node does: it is merged with its right neighbour, or skipped (only for a pair of equal symbols) -/
def NodeDone (a b R n : Nat) (P P' : Pass) (S S' : Segs) : Prop :=
  (∃ S1 A k B f S2, S = S1 ++ (A ++ n :: k :: B, f) :: S2 ∧ S' = S1 ++ (A ++ n :: B, f) :: S2 ∧ P'.mem = mergeMem P.mem n k R ∧
    P'.uni = P.uni ∧ (P.mem n).val = a ∧ (P.mem n).right = some k ∧ (P.mem k).val = b) ∨
  (a = b ∧ S' = S ∧ ((P.mem n).isUnlinked = true ∨ ∃ w, (P.mem n).right = some w ∧ (P.mem w).val = R) ∧ P' = { P with uni := (Dict.incr (Dict.incr (Dict.incr P.uni a (P.mem n).freq) b (P.mem n).freq) R
            (-(P.mem n).freq)) })

theorem passNode_ok' {a b R : Nat} (ha : a ≠ R) (hb : b ≠ R) {C0 : Corpus} {n : Nat} {todo : List Nat} {P : Pass} {S : Segs}
    (h : PInv a b R C0 (n :: todo) P S) :
    ∃ P' S', passNode a b R P n = .ok P' ∧ NodeDone a b R n P P' S S' ∧ PInv a b R C0 todo P' S' := by
  have htnd := List.nodup_cons.1 h.tnd
  by_cases hat : At P.mem S n (a, b)
  · -- merge
    obtain ⟨hlive, hva, k, hr, hvb⟩ := hat
    simp only at hva hvb
    obtain ⟨S1, A, B, f, S2, rfl⟩ := h.wf.split hlive hr
    have p := h.wf.place
    have hAt := At_merge h.wf (R := R)
    have hwf := h.wf.merge R
    have hcorp := corpusOf_merge p R
    have hcorp0 : corpusOf P.mem (S1 ++ (A ++ n :: k :: B, f) :: S2) = corpusOf P.mem S1 ++
      (A.map (fun j => (P.mem j).val) ++ a :: b :: B.map (fun j => (P.mem j).val), f) :: corpusOf P.mem S2 := by
      rw [corpusOf_place, hva, hvb]
    have hf0 : 0 < f := h.freqs (A ++ n :: k :: B, f) (by simp)
    have hxn : ∀ x, A.getLast? = some x → x ≠ n ∧ x ≠ k := fun x hx =>
      ⟨by rintro rfl; exact p.nA (List.mem_of_getLast? hx), by rintro rfl; exact p.kA (List.mem_of_getLast? hx)⟩
    have hyn : ∀ y, B.head? = some y → y ≠ n ∧ y ≠ k := fun y hy =>
      ⟨by rintro rfl; exact p.nB (List.mem_of_head? hy), by rintro rfl; exact p.kB (List.mem_of_head? hy)⟩
    have hAx : ∀ x, A.getLast? = some x → ∀ q, At P.mem (S1 ++ (A ++ n :: k :: B, f) :: S2) x q ↔ q = ((P.mem x).val, a) := by
      intro x hx q
      have hl := h.wf.right_of_left hlive (p.leftn.trans hx)
      constructor
      · rintro ⟨_, h1, w, hw, h2⟩
        rw [hl.1] at hw; injection hw with hw; subst hw
        obtain ⟨q1, q2⟩ := q; simp at h1 h2 ⊢; exact ⟨h1.symm, h2.symm.trans hva⟩
      · rintro rfl
        exact ⟨hl.2, rfl, n, hl.1, hva⟩
    have hklive := (h.wf.left_of_right hlive hr).2
    have hAk : ∀ q, At P.mem (S1 ++ (A ++ n :: k :: B, f) :: S2) k q ↔ ∃ y, B.head? = some y ∧ q = (b, (P.mem y).val) := by
      intro q
      constructor
      · rintro ⟨_, h1, w, hw, h2⟩
        rw [p.rightk] at hw
        refine ⟨w, hw, ?_⟩
        obtain ⟨q1, q2⟩ := q; simp at h1 h2 ⊢; exact ⟨h1.symm.trans hvb, h2.symm⟩
      · rintro ⟨y, hy, rfl⟩
        exact ⟨hklive, hvb, y, p.rightk.trans hy, rfl⟩
    have hAn : ∀ q, At P.mem (S1 ++ (A ++ n :: k :: B, f) :: S2) n q → q = (a, b) := by
      rintro q ⟨_, h1, w, hw, h2⟩
      rw [hr] at hw; injection hw with hw; subst hw
      obtain ⟨q1, q2⟩ := q; simp at h1 h2 ⊢; exact ⟨h1.symm.trans hva, h2.symm.trans hvb⟩
    have hvx : ∀ x, A.getLast? = some x → (mergeMem P.mem n k R x).val = (P.mem x).val := fun x hx => by
      rw [p.merge_val, if_neg (hxn x hx).1]
    have hvy : ∀ y, B.head? = some y → (mergeMem P.mem n k R y).val = (P.mem y).val := fun y hy => by
      rw [p.merge_val, if_neg (hyn y hy).1]
    have hfx : ∀ x, A.getLast? = some x → (P.mem x).freq = f := by
      intro x hx
      obtain ⟨A', rfl⟩ := List.getLast?_eq_some_iff.1 hx
      exact (h.wf.linked (A' ++ [x] ++ n :: k :: B, f) (by simp) A' x (n :: k :: B) (by simp)).2.2
    obtain ⟨ix1, ds1, e1, hix1, hds1, hm1, hc1⟩ := passLeft_ok (a := a) (R := R) (m := mergeMem P.mem n k R) (x := A.getLast?) (f := f)
      h.ixok ha hb h.dsnd (fun x hx => by rw [p.merge_freq]; exact hfx x hx) (fun x hx => by
        rw [hvx x hx]
        by_cases hq : ((P.mem x).val, a) = (a, b)
        · exact Or.inl hq
        · exact Or.inr ((h.ixmem _ hq x).2 ((hAx x hx _).2 rfl)))
    obtain ⟨ix2, ds2, e2, hix2, hds2, hm2, hc2⟩ := passRight_ok (b := b) (R := R) (n := n) (bn := k) (m := mergeMem P.mem n k R)
      (y := B.head?) (f := f) hix1 hb ha hds1 (by rw [p.merge_freq]; exact p.freqk) (fun y hy => by
        rw [hvy y hy]
        by_cases hq : (b, (P.mem y).val) = (a, b)
        · exact Or.inl hq
        · refine Or.inr ((hm1 _ hq k).2 (Or.inl ⟨(h.ixmem _ hq k).2 ((hAk _).2 ⟨y, hy, rfl⟩), ?_⟩))
          rintro ⟨e, _⟩; exact (hxn k e).2 rfl)
    have hres : passNode a b R P n = .ok { mem := mergeMem P.mem n k R, ix := ix2, uni := P.uni, deltas := ds2 } := by
      have hun : (P.mem n).isUnlinked = false := by simp [Node.isUnlinked, hr]
      have hno : ¬ (a = b ∧ (R = (P.mem n).val ∨ R = (P.mem k).val)) := by
        rw [hva, hvb]; rintro ⟨_, e | e⟩
        · exact ha e.symm
        · exact hb e.symm
      have hno2 : ¬ ((P.mem n).val ≠ a ∨ (P.mem k).val ≠ b) := by simp [hva, hvb]
      have hno3 : ¬ ((P.mem n).freq ≠ (P.mem k).freq) := by simp [p.freqn, p.freqk]
      have hm2 : (deleteNode P.mem k).upd n { deleteNode P.mem k n with val := R } = mergeMem P.mem n k R := rfl
      simp only [passNode, hun, hr, hno, hno2, hno3, if_false, p.leftn, p.rightk, hm2, e1, e2, Bool.false_eq_true]
    have hmap1 : (A.map (fun j => (P.mem j).val)).getLast? = (A.getLast?).map fun j => (mergeMem P.mem n k R j).val := by
      rw [List.getLast?_map]
      cases hx : A.getLast? with
      | none => rfl
      | some x => simp [hvx x hx]
    have hmap2 : (B.map (fun j => (P.mem j).val)).head? = (B.head?).map fun j => (mergeMem P.mem n k R j).val := by
      rw [List.head?_map]
      cases hx : B.head? with
      | none => rfl
      | some x => simp [hvy x hx]
    have hcount : ∀ q, pairCount (corpusOf (mergeMem P.mem n k R) (S1 ++ (A ++ n :: B, f) :: S2)) q =
        pairCount (corpusOf P.mem (S1 ++ (A ++ n :: k :: B, f) :: S2)) q + (Dict.cnt ds2 q - Dict.cnt P.deltas q)
          - f * (if (a, b) = q then 1 else 0) := by
      intro q
      rw [hcorp, hcorp0, pairCount_append, pairCount_append, pairCount_cons, pairCount_cons]
      simp only
      rw [pairOcc_replace q _ a b R, hc2, hc1, hmap1, hmap2]
      ring
    refine ⟨_, S1 ++ (A ++ n :: B, f) :: S2, hres, Or.inl ⟨S1, A, k, B, f, S2, rfl, rfl, rfl, rfl, hva, hr, hvb⟩, ?_⟩
    refine { wf := hwf, ixok := hix2, ixmem := ?_, tnd := htnd.2, tcase := ?_, tall := ?_, uni := ?_, uknd := h.uknd, dsnd := hds2,
             ds := ?_, dsab := ?_, rel := ?_, freqs := ?_, nonempty := ?_ }
    · intro q hq j
      rw [hAt j q, hm2 q hq j, hm1 q hq j, h.ixmem q hq j]
      by_cases j1 : j = n
      · subst j1
        rw [if_pos rfl]
        constructor
        · rintro (⟨⟨h1, _⟩ | ⟨h1, _⟩, _⟩ | ⟨_, y, hy, h2⟩)
          · exact absurd (hAn q h1) hq
          · exact absurd rfl (hxn j h1).1
          · exact ⟨y, hy, by rw [h2, hvy y hy]⟩
        · rintro ⟨y, hy, h2⟩
          exact Or.inr ⟨rfl, y, hy, by rw [h2, hvy y hy]⟩
      · rw [if_neg j1]
        by_cases j2 : j = k
        · subst j2
          rw [if_pos rfl]
          simp only [iff_false]
          rintro (⟨⟨h1, _⟩ | ⟨h1, _⟩, h3⟩ | ⟨h1, _⟩)
          · obtain ⟨y, hy, e⟩ := (hAk q).1 h1
            exact h3 ⟨trivial, y, hy, by rw [e, hvy y hy]⟩
          · exact (hxn j h1).2 rfl
          · exact j1 h1
        · rw [if_neg j2]
          by_cases j3 : A.getLast? = some j
          · rw [if_pos j3, hAx j j3 q, hvx j j3]
            constructor
            · rintro (⟨⟨h1, h2⟩ | ⟨_, h2⟩, _⟩ | ⟨h1, _⟩)
              · exact absurd ⟨j3, h1⟩ h2
              · exact h2
              · exact absurd h1 j1
            · intro e
              exact Or.inl ⟨Or.inr ⟨j3, e⟩, fun h => j2 h.1⟩
          · rw [if_neg j3]
            constructor
            · rintro (⟨⟨h1, _⟩ | ⟨h1, _⟩, _⟩ | ⟨h1, _⟩)
              · exact h1
              · exact absurd h1 j3
              · exact absurd h1 j1
            · intro h1
              exact Or.inl ⟨Or.inl ⟨h1, fun h => j3 h.1⟩, fun h => j2 h.1⟩
    · intro u hu
      have hun : u ≠ n := by rintro rfl; exact htnd.1 hu
      by_cases huk : u = k
      · subst huk
        right
        have hab : a = b := by
          rcases h.tcase u (by simp [hu]) with h1 | h1
          · exact h1.2.1.symm.trans hvb
          · exact h1.1
        refine ⟨hab, Or.inl ⟨?_, ?_, ?_⟩⟩
        · have := p.out u (by simp)
          simp only [liveOf_append, liveOf_cons, List.mem_append, List.mem_cons, not_or]
          exact ⟨this.1, ⟨p.kA, hun, p.kB⟩, this.2⟩
        · simp only [p.merge, if_neg hun, if_pos]
        · simp only [p.merge, if_neg hun, if_pos]
      · have hliv : u ∈ liveOf (S1 ++ (A ++ n :: k :: B, f) :: S2) → u ∈ liveOf (S1 ++ (A ++ n :: B, f) :: S2) := by
          simp only [liveOf_append, liveOf_cons, List.mem_append, List.mem_cons]; tauto
        rcases h.tcase u (by simp [hu]) with h1 | ⟨hab, ⟨h1, h2, h3⟩ | ⟨h1, w, hw, hwv⟩⟩
        · by_cases hux : A.getLast? = some u
          · right
            have e := (hAx u hux _).1 h1
            simp only [Prod.mk.injEq] at e
            refine ⟨e.2.symm, Or.inr ⟨hliv h1.1, n, ?_, ?_⟩⟩
            · simp only [p.merge_right R u hun huk]
              exact (h.wf.right_of_left hlive (p.leftn.trans hux)).1
            · simp only [p.merge_val, if_pos]
          · left
            rw [hAt, if_neg hun, if_neg huk, if_neg hux]; exact h1
        · right
          have hym : ¬ B.head? = some u := by
            intro e
            exact h1 (mem_liveOf.2 ⟨(A ++ n :: k :: B, f), by simp, by simp [List.mem_of_head? e]⟩)
          have hmu : mergeMem P.mem n k R u = P.mem u := by rw [p.merge, if_neg hun, if_neg huk, if_neg hym]
          refine ⟨hab, Or.inl ⟨?_, by simp only [hmu]; exact h2, by simp only [hmu]; exact h3⟩⟩
          intro hm
          apply h1
          simp only [liveOf_append, liveOf_cons, List.mem_append, List.mem_cons] at hm ⊢
          tauto
        · right
          refine ⟨hab, Or.inr ⟨hliv h1, w, ?_, ?_⟩⟩
          · simp only [p.merge_right R u hun huk]; exact hw
          · have : w ≠ n := by rintro rfl; rw [hva] at hwv; exact ha hwv
            simp only [p.merge_val, if_neg this]; exact hwv
    · intro j hj
      rw [hAt] at hj
      by_cases j1 : j = n
      · rw [if_pos j1] at hj
        obtain ⟨y, _, e⟩ := hj
        simp only [Prod.mk.injEq] at e
        exact absurd e.1 ha
      · rw [if_neg j1] at hj
        by_cases j2 : j = k
        · rw [if_pos j2] at hj; exact hj.elim
        · rw [if_neg j2] at hj
          by_cases j3 : A.getLast? = some j
          · rw [if_pos j3] at hj
            simp only [Prod.mk.injEq] at hj
            exact absurd hj.2 hb
          · rw [if_neg j3] at hj
            rcases List.mem_cons.1 (h.tall j hj) with e | e
            · exact absurd e j1
            · exact e
    · intro v
      have h0 := h.uni v
      simp only
      rw [h0, hcorp, hcorp0]
      have hfr : (todo.map fun u => (mergeMem P.mem n k R u).freq) = todo.map fun u => (P.mem u).freq :=
        List.map_congr_left (fun u _ => p.merge_freq R u)
      rw [hfr, List.map_cons, symCount_append, symCount_append, symCount_cons, symCount_cons]
      have e1 : isum ((P.mem n).freq :: todo.map fun u => (P.mem u).freq) = f + isum (todo.map fun u => (P.mem u).freq) := by
        rw [p.freqn]; rfl
      rw [e1]
      simp only [List.count_append, List.count_cons, ind, beq_iff_eq]
      push_cast
      ring
    · intro q hq
      have h0 := h.ds q hq
      have h1 := hcount q
      rw [if_neg (Ne.symm hq)] at h1
      simp only
      rw [h1]; linarith
    · have h0 := h.dsab
      simp only
      rw [hc2, hc1]
      have z1 : tl (a, b) (A.getLast?.map fun j => (mergeMem P.mem n k R j).val) R = 0 := by
        unfold tl; rw [if_neg]; rintro ⟨_, e⟩; exact hb e.symm
      have z2 : hd (a, b) R (B.head?.map fun j => (mergeMem P.mem n k R j).val) = 0 := by
        unfold hd; rw [if_neg]; rintro ⟨e, _⟩; exact ha e.symm
      have z3 := mul_nonneg (le_of_lt hf0) (tl_nonneg (a, b) (A.getLast?.map fun j => (mergeMem P.mem n k R j).val) a)
      have z4 := mul_nonneg (le_of_lt hf0) (hd_nonneg (a, b) b (B.head?.map fun j => (mergeMem P.mem n k R j).val))
      rw [z1, z2]
      linarith
    · have h0 := h.rel
      rw [hcorp0] at h0
      simp only
      rw [hcorp]
      exact Rel.more ha hb h0
    · intro s hs
      simp only [List.mem_append, List.mem_cons] at hs
      rcases hs with hs | rfl | hs
      · exact h.freqs s (by simp [hs])
      · exact hf0
      · exact h.freqs s (by simp [hs])
    · intro s hs
      simp only [List.mem_append, List.mem_cons] at hs
      rcases hs with hs | rfl | hs
      · exact h.nonempty s (by simp [hs])
      · simp
      · exact h.nonempty s (by simp [hs])
  · -- skip
    rcases h.tcase n (by simp) with h1 | ⟨hab, hc⟩
    · exact absurd h1 hat
    · have hskip : passNode a b R P n = .ok { P with uni := (Dict.incr (Dict.incr (Dict.incr P.uni a (P.mem n).freq) b (P.mem n).freq) R
            (-(P.mem n).freq)) } := by
        rcases hc with ⟨_, h2, h3⟩ | ⟨_, w, hw, hwv⟩
        · have hun : (P.mem n).isUnlinked = true := by simp [Node.isUnlinked, h2, h3]
          simp only [passNode, hun, if_true]
        · have hun : (P.mem n).isUnlinked = false := by simp [Node.isUnlinked, hw]
          have hyes : a = b ∧ (R = (P.mem n).val ∨ R = (P.mem w).val) := ⟨hab, Or.inr hwv.symm⟩
          simp only [passNode, hun, hw, hyes, if_false, Bool.false_eq_true]
          rw [if_pos ⟨trivial, trivial⟩]
      refine ⟨_, S, hskip, Or.inr ⟨hab, rfl, ?_, rfl⟩, ?_⟩
      · rcases hc with ⟨_, h2, h3⟩ | ⟨_, w, hw, hwv⟩
        · exact Or.inl (by simp [Node.isUnlinked, h2, h3])
        · exact Or.inr ⟨w, hw, hwv⟩
      refine { wf := h.wf, ixok := h.ixok, ixmem := h.ixmem, tnd := htnd.2, tcase := fun u hu => h.tcase u (by simp [hu]), tall := ?_,
               uni := ?_, uknd := ?_, dsnd := h.dsnd, ds := h.ds, dsab := h.dsab, rel := h.rel, freqs := h.freqs,
               nonempty := h.nonempty }
      · intro j hj
        rcases List.mem_cons.1 (h.tall j hj) with rfl | e
        · exact absurd hj hat
        · exact e
      · intro v
        have h0 := h.uni v
        simp only at h0 ⊢
        rw [Dict.cnt_incr, Dict.cnt_incr, Dict.cnt_incr, h0, List.map_cons]
        have e1 : isum ((P.mem n).freq :: todo.map fun u => (P.mem u).freq) = (P.mem n).freq + isum (todo.map fun u => (P.mem u).freq) := rfl
        rw [e1]
        simp only [ind]
        split <;> split <;> split <;> ring
      · exact Dict.nodup_keys_incr (Dict.nodup_keys_incr (Dict.nodup_keys_incr h.uknd _ _) _ _) _ _

theorem passNode_ok {a b R : Nat} (ha : a ≠ R) (hb : b ≠ R) {C0 : Corpus} {n : Nat} {todo : List Nat} {P : Pass} {S : Segs}
    (h : PInv a b R C0 (n :: todo) P S) : ∃ P' S', passNode a b R P n = .ok P' ∧ PInv a b R C0 todo P' S' := by
  obtain ⟨P', S', h1, _, h2⟩ := passNode_ok' ha hb h
  exact ⟨P', S', h1, h2⟩

theorem passLoop_ok {a b R : Nat} (ha : a ≠ R) (hb : b ≠ R) {C0 : Corpus} {todo : List Nat} :
    ∀ {P : Pass} {S : Segs}, PInv a b R C0 todo P S → ∃ P' S', passLoop a b R todo P = .ok P' ∧ PInv a b R C0 [] P' S' := by
  induction todo with
  | nil => intro P S h; exact ⟨P, S, rfl, h⟩
  | cons n todo ih =>
    intro P S h
    obtain ⟨P1, S1, e1, h1⟩ := passNode_ok ha hb h
    obtain ⟨P', S', e2, h2⟩ := ih h1
    exact ⟨P', S', by simp only [passLoop, e1, e2], h2⟩

/-- no node starts the pair: it does not occur -/
theorem pairOcc_zero_of_not_at {m : Mem} {S : Segs} (h : Wf m S) {q : Pair} (hn : ∀ j, ¬ At m S j q) :
    ∀ s ∈ corpusOf m S, pairOcc q s.1 = 0 := by
  intro t ht
  obtain ⟨s, hs, rfl⟩ := List.mem_map.1 ht
  simp only
  have key : ∀ (B A : List Nat), s.1 = A ++ B → pairOcc q (B.map fun n => (m n).val) = 0 := by
    intro B
    induction B with
    | nil => intro A _; rfl
    | cons n B ih =>
      intro A e
      rw [List.map_cons, pairOcc_cons, ih (A ++ [n]) (by simp [e])]
      unfold hd
      rw [if_neg]
      · rfl
      · rintro ⟨h1, h2⟩
        cases B with
        | nil => simp at h2
        | cons k B =>
          simp only [List.map_cons, List.head?_cons, Option.some.injEq] at h2
          refine hn n ⟨mem_liveOf.2 ⟨s, hs, by simp [e]⟩, h1, k, ?_, h2⟩
          exact (h.linked s hs A n (k :: B) e).2.1
  exact key s.1 [] rfl

end Verif
