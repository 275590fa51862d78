import Verif.Model.Bpe
import Verif.Lemmas.BpeSpec
import Verif.Lemmas.Dict
import Verif.Lemmas.Learn
/-! # Linked lists in memory -/

namespace Verif
open Spec

/-- sequences of addresses with their frequency -/
abbrev Segs := List (List Nat × Int)

/-- the nodes of `s` are linked in this order and have frequency `f` -/
def Linked (m : Mem) (f : Int) (s : List Nat) : Prop :=
  ∀ A n B, s = A ++ n :: B → (m n).left = A.getLast? ∧ (m n).right = B.head? ∧ (m n).freq = f

/-- the addresses in use -/
def liveOf (S : Segs) : List Nat := S.flatMap (·.1)

/-- the corpus represented in memory -/
def corpusOf (m : Mem) (S : Segs) : Corpus := S.map fun s => (s.1.map fun n => (m n).val, s.2)

/-- the memory holds linked lists for `S` -/
structure Wf (m : Mem) (S : Segs) : Prop where
  linked : ∀ s ∈ S, Linked m s.2 s.1
  nodup : (liveOf S).Nodup

/-- merging the node at `n` with the node at `k` (nlcodec/bpe.py:193-195) -/
def mergeMem (m : Mem) (n k R : Nat) : Mem := (deleteNode m k).upd n { deleteNode m k n with val := R }

theorem mergeMem_apply {m : Mem} {n k R : Nat} (hl : (m k).left = some n) (hnk : n ≠ k)
    (hy : ∀ y, (m k).right = some y → y ≠ n ∧ y ≠ k) (j : Nat) : mergeMem m n k R j =
      if j = n then { m n with val := R, right := (m k).right }
      else if j = k then { m k with left := none, right := none }
      else if (m k).right = some j then { m j with left := some n } else m j := by
  cases hr : (m k).right with
  | none =>
    simp only [mergeMem, deleteNode, hl, hr, setRight, setLeft, Mem.upd]
    by_cases h1 : j = n
    · subst h1; simp [hnk]
    · by_cases h2 : j = k
      · subst h2; simp [h1]
      · simp [h1, h2]
  | some y =>
    obtain ⟨hyn, hyk⟩ := hy y hr
    simp only [mergeMem, deleteNode, hl, hr, setRight, setLeft, Mem.upd, Option.some.injEq]
    by_cases h1 : j = n
    · subst h1; simp [hnk, Ne.symm hyn]
    · by_cases h2 : j = k
      · subst h2; simp [h1, Ne.symm hyk]
      · by_cases h3 : j = y
        · subst h3; simp [h1, h2]
        · simp [h1, h2, h3, Ne.symm h3]

theorem mem_liveOf {S : Segs} {n : Nat} : n ∈ liveOf S ↔ ∃ s ∈ S, n ∈ s.1 := by simp [liveOf]

theorem liveOf_append (S T : Segs) : liveOf (S ++ T) = liveOf S ++ liveOf T := by simp [liveOf]

theorem liveOf_cons (s : List Nat × Int) (T : Segs) : liveOf (s :: T) = s.1 ++ liveOf T := by simp [liveOf]

/-- a live node with a right neighbour: where it is -/
theorem Wf.split {m : Mem} {S : Segs} (h : Wf m S) {n k : Nat} (hn : n ∈ liveOf S) (hr : (m n).right = some k) :
    ∃ S1 A B f S2, S = S1 ++ (A ++ n :: k :: B, f) :: S2 := by
  obtain ⟨s, hs, hn⟩ := mem_liveOf.1 hn
  obtain ⟨A, B', hAB⟩ := List.append_of_mem hn
  have := (h.linked s hs A n B' hAB).2.1
  rw [hr] at this
  cases B' with
  | nil => simp at this
  | cons k' B =>
    simp only [List.head?_cons, Option.some.injEq] at this
    subst this
    obtain ⟨S1, S2, rfl⟩ := List.append_of_mem hs
    exact ⟨S1, A, B, s.2, S2, by rw [← hAB]⟩

/-- facts at a place -/
structure Place (m : Mem) (S1 : Segs) (A : List Nat) (n k : Nat) (B : List Nat) (f : Int) (S2 : Segs) : Prop where
  leftn : (m n).left = A.getLast?
  rightn : (m n).right = some k
  freqn : (m n).freq = f
  leftk : (m k).left = some n
  rightk : (m k).right = B.head?
  freqk : (m k).freq = f
  hnk : n ≠ k
  nA : n ∉ A
  kA : k ∉ A
  nB : n ∉ B
  kB : k ∉ B
  disj : ∀ x ∈ A, x ∉ B
  out : ∀ x ∈ A ++ n :: k :: B, x ∉ liveOf S1 ∧ x ∉ liveOf S2
  ndA : A.Nodup
  ndB : B.Nodup

theorem Wf.place {m : Mem} {S1 S2 : Segs} {A B : List Nat} {n k : Nat} {f : Int} (h : Wf m (S1 ++ (A ++ n :: k :: B, f) :: S2)) :
    Place m S1 A n k B f S2 := by
  have hl := h.linked (A ++ n :: k :: B, f) (by simp)
  have h1 := hl A n (k :: B) rfl
  have h2 := hl (A ++ [n]) k B (by simp)
  have hnd := h.nodup
  rw [liveOf_append, liveOf_cons] at hnd
  simp only [List.nodup_append, List.nodup_cons, List.mem_cons, List.mem_append, not_or] at hnd
  obtain ⟨hnd1, ⟨⟨ndA, ⟨⟨hnk, hnB⟩, hkB, ndB⟩, hA⟩, hnd2, hd2⟩, hd1⟩ := hnd
  refine { leftn := h1.1, rightn := by simpa using h1.2.1, freqn := h1.2.2, leftk := by simpa using h2.1, rightk := h2.2.1, freqk := h2.2.2,
           hnk := hnk, nA := fun hm => hA n hm n (Or.inl rfl) rfl, kA := fun hm => hA k hm k (Or.inr (Or.inl rfl)) rfl, nB := hnB, kB := hkB,
           disj := fun x hx hB => hA x hx x (Or.inr (Or.inr hB)) rfl, ndA := ndA, ndB := ndB, out := ?_ }
  intro x hx
  simp only [List.mem_append, List.mem_cons] at hx
  exact ⟨fun hm => hd1 x hm x (Or.inl hx) rfl, fun hm => hd2 x hx x hm rfl⟩

theorem Place.yn {m : Mem} {S1 S2 : Segs} {A B : List Nat} {n k : Nat} {f : Int} (p : Place m S1 A n k B f S2) :
    ∀ y, (m k).right = some y → y ≠ n ∧ y ≠ k := by
  intro y hy
  rw [p.rightk] at hy
  have : y ∈ B := List.mem_of_head? hy
  exact ⟨fun e => p.nB (e ▸ this), fun e => p.kB (e ▸ this)⟩

/-- the memory after the merge, by cases -/
theorem Place.merge {m : Mem} {S1 S2 : Segs} {A B : List Nat} {n k : Nat} {f : Int} (p : Place m S1 A n k B f S2) (R j : Nat) :
    mergeMem m n k R j =
      if j = n then { m n with val := R, right := B.head? }
      else if j = k then { m k with left := none, right := none }
      else if B.head? = some j then { m j with left := some n } else m j := by
  rw [mergeMem_apply p.leftk p.hnk p.yn, p.rightk]

/-- merging two neighbours keeps the lists linked -/
theorem Wf.merge {m : Mem} {S1 S2 : Segs} {A B : List Nat} {n k : Nat} {f : Int} (h : Wf m (S1 ++ (A ++ n :: k :: B, f) :: S2)) (R : Nat) :
    Wf (mergeMem m n k R) (S1 ++ (A ++ n :: B, f) :: S2) := by
  have p := h.place
  have hm := p.merge R
  have hother : ∀ s : List Nat × Int, s ∈ S1 ∨ s ∈ S2 → ∀ j ∈ s.1, mergeMem m n k R j = m j := by
    intro s hs j hj
    have hout : ∀ x ∈ A ++ n :: k :: B, j ≠ x := by
      rintro x hx rfl
      rcases hs with hs | hs
      · exact (p.out j hx).1 (mem_liveOf.2 ⟨s, hs, hj⟩)
      · exact (p.out j hx).2 (mem_liveOf.2 ⟨s, hs, hj⟩)
    rw [hm, if_neg (hout n (by simp)), if_neg (hout k (by simp)), if_neg]
    intro e
    exact hout j (by simp [List.mem_of_head? e]) rfl
  constructor
  · intro s hs
    rw [List.mem_append, List.mem_cons] at hs
    by_cases hmid : s = (A ++ n :: B, f)
    · subst hmid
      have hl := h.linked (A ++ n :: k :: B, f) (by simp)
      intro A' j B' e
      have hndAB : (A ++ n :: B).Nodup := by
        have := p.ndA; have := p.ndB
        rw [List.nodup_append]
        refine ⟨p.ndA, List.nodup_cons.2 ⟨p.nB, p.ndB⟩, ?_⟩
        rintro x hx y hy rfl
        rcases List.mem_cons.1 hy with rfl | hy
        · exact p.nA hx
        · exact p.disj x hx hy
      simp only at e
      rcases List.append_eq_append_iff.1 e with ⟨C, hA', hB'⟩ | ⟨C, hA, hB⟩
      · -- A' = A ++ C
        cases C with
        | nil =>
          simp only [List.nil_append, List.cons.injEq] at hB'
          obtain ⟨rfl, rfl⟩ := hB'
          simp only [List.append_nil] at hA'
          subst hA'
          rw [hm, if_pos rfl]
          exact ⟨p.leftn, rfl, p.freqn⟩
        | cons c C =>
          simp only [List.cons_append, List.cons.injEq] at hB'
          obtain ⟨rfl, rfl⟩ := hB'
          subst hA'
          have hj : j ≠ n := fun e => p.nB (by simp [e])
          have hk : j ≠ k := fun e => p.kB (by simp [e])
          have hlj := hl (A ++ n :: k :: C) j B' (by simp)
          rw [hm, if_neg hj, if_neg hk]
          cases C with
          | nil =>
            simp only [List.nil_append, List.head?_cons, if_true]
            exact ⟨by simp, hlj.2.1, hlj.2.2⟩
          | cons c C =>
            simp only [List.cons_append, List.head?_cons, Option.some.injEq]
            have hcj : c ≠ j := by
              rintro rfl
              have := p.ndB
              simp at this
            rw [if_neg hcj]
            refine ⟨?_, hlj.2.1, hlj.2.2⟩
            rw [hlj.1]; simp [List.getLast?_append]
      · -- A = A' ++ C, C ++ n :: B = j :: B'
        cases C with
        | nil =>
          simp only [List.nil_append, List.cons.injEq] at hB
          obtain ⟨rfl, rfl⟩ := hB
          simp only [List.append_nil] at hA
          subst hA
          rw [hm, if_pos rfl]
          exact ⟨p.leftn, rfl, p.freqn⟩
        | cons c C =>
          simp only [List.cons_append, List.cons.injEq] at hB
          obtain ⟨rfl, rfl⟩ := hB
          subst hA
          have hj : j ≠ n := fun e => p.nA (by simp [e])
          have hk : j ≠ k := fun e => p.kA (by simp [e])
          have hlj := hl A' j (C ++ n :: k :: B) (by simp)
          have hjB : j ∉ B := p.disj j (by simp)
          rw [hm, if_neg hj, if_neg hk, if_neg (fun e => hjB (List.mem_of_head? e))]
          refine ⟨hlj.1, ?_, hlj.2.2⟩
          rw [hlj.2.1]
          cases C <;> simp
    · have hs' : s ∈ S1 ∨ s ∈ S2 := by tauto
      have hs'' : s ∈ S1 ++ (A ++ n :: k :: B, f) :: S2 := by
        simp only [List.mem_append, List.mem_cons]; tauto
      intro A' j B' e
      rw [hother s hs' j (by simp [e])]
      exact h.linked s hs'' A' j B' e
  · have hnd := h.nodup
    rw [liveOf_append, liveOf_cons] at hnd ⊢
    refine hnd.sublist ?_
    refine List.Sublist.append_left (List.Sublist.append_right (List.Sublist.append_left (List.Sublist.cons_cons _ (List.sublist_cons_self _ _)) _) _) _

theorem Place.merge_val {m : Mem} {S1 S2 : Segs} {A B : List Nat} {n k : Nat} {f : Int} (p : Place m S1 A n k B f S2) (R j : Nat) :
    (mergeMem m n k R j).val = if j = n then R else (m j).val := by
  rw [p.merge]
  by_cases h1 : j = n
  · simp [h1]
  · by_cases h2 : j = k
    · subst h2; simp [h1]
    · simp only [h1, h2, if_false]; split <;> rfl

theorem Place.merge_freq {m : Mem} {S1 S2 : Segs} {A B : List Nat} {n k : Nat} {f : Int} (p : Place m S1 A n k B f S2) (R j : Nat) :
    (mergeMem m n k R j).freq = (m j).freq := by
  rw [p.merge]
  by_cases h1 : j = n
  · simp [h1]
  · by_cases h2 : j = k
    · subst h2; simp [h1]
    · simp only [h1, h2, if_false]; split <;> rfl

theorem Place.merge_right {m : Mem} {S1 S2 : Segs} {A B : List Nat} {n k : Nat} {f : Int} (p : Place m S1 A n k B f S2) (R j : Nat)
    (h1 : j ≠ n) (h2 : j ≠ k) : (mergeMem m n k R j).right = (m j).right := by
  rw [p.merge, if_neg h1, if_neg h2]; split <;> rfl

/-- the corpus after the merge -/
theorem corpusOf_merge {m : Mem} {S1 S2 : Segs} {A B : List Nat} {n k : Nat} {f : Int} (p : Place m S1 A n k B f S2) (R : Nat) :
    corpusOf (mergeMem m n k R) (S1 ++ (A ++ n :: B, f) :: S2) =
      corpusOf m S1 ++ (A.map (fun j => (m j).val) ++ R :: B.map (fun j => (m j).val), f) :: corpusOf m S2 := by
  have hsame : ∀ l : List Nat, n ∉ l → l.map (fun j => (mergeMem m n k R j).val) = l.map (fun j => (m j).val) := by
    intro l hl
    apply List.map_congr_left
    intro j hj
    rw [p.merge_val, if_neg (by rintro rfl; exact hl hj)]
  have hseg : ∀ T : Segs, n ∉ liveOf T → corpusOf (mergeMem m n k R) T = corpusOf m T := by
    intro T hT
    apply List.map_congr_left
    intro s hs
    rw [hsame s.1 (fun hm => hT (mem_liveOf.2 ⟨s, hs, hm⟩))]
  have hn := p.out n (by simp)
  have e : corpusOf (mergeMem m n k R) (S1 ++ (A ++ n :: B, f) :: S2) = corpusOf (mergeMem m n k R) S1 ++
      ((A ++ n :: B).map (fun j => (mergeMem m n k R j).val), f) :: corpusOf (mergeMem m n k R) S2 := by
    simp [corpusOf]
  rw [e, hseg S1 hn.1, hseg S2 hn.2, List.map_append, List.map_cons, hsame A p.nA, hsame B p.nB, p.merge_val, if_pos rfl]

theorem corpusOf_place {m : Mem} {S1 S2 : Segs} {A B : List Nat} {n k : Nat} {f : Int} :
    corpusOf m (S1 ++ (A ++ n :: k :: B, f) :: S2) =
      corpusOf m S1 ++ (A.map (fun j => (m j).val) ++ (m n).val :: (m k).val :: B.map (fun j => (m j).val), f) :: corpusOf m S2 := by
  simp [corpusOf]

/-- `n` starts an occurrence of the pair `p` -/
def At (m : Mem) (S : Segs) (n : Nat) (p : Pair) : Prop :=
  n ∈ liveOf S ∧ (m n).val = p.1 ∧ ∃ k, (m n).right = some k ∧ (m k).val = p.2

theorem Wf.left_of_right {m : Mem} {S : Segs} (h : Wf m S) {n k : Nat} (hn : n ∈ liveOf S) (hr : (m n).right = some k) :
    (m k).left = some n ∧ k ∈ liveOf S := by
  obtain ⟨S1, A, B, f, S2, rfl⟩ := h.split hn hr
  exact ⟨h.place.leftk, mem_liveOf.2 ⟨(A ++ n :: k :: B, f), by simp, by simp⟩⟩

theorem Wf.right_of_left {m : Mem} {S : Segs} (h : Wf m S) {n k : Nat} (hn : n ∈ liveOf S) (hl : (m n).left = some k) :
    (m k).right = some n ∧ k ∈ liveOf S := by
  obtain ⟨s, hs, hn⟩ := mem_liveOf.1 hn
  obtain ⟨A, B, hAB⟩ := List.append_of_mem hn
  have h1 := (h.linked s hs A n B hAB).1
  rw [hl] at h1
  obtain ⟨A', rfl⟩ : ∃ A', A = A' ++ [k] := by
    obtain ⟨A', hA'⟩ := List.getLast?_eq_some_iff.1 h1.symm
    exact ⟨A', hA'⟩
  have h2 := (h.linked s hs A' k (n :: B) (by simp [hAB])).2.1
  exact ⟨by simpa using h2, mem_liveOf.2 ⟨s, hs, by simp [hAB]⟩⟩

/-- occurrences after a merge -/
theorem At_merge {m : Mem} {S1 S2 : Segs} {A B : List Nat} {n k : Nat} {f : Int} (h : Wf m (S1 ++ (A ++ n :: k :: B, f) :: S2)) {R : Nat}
    (j : Nat) (q : Pair) : At (mergeMem m n k R) (S1 ++ (A ++ n :: B, f) :: S2) j q ↔
      if j = n then ∃ y, B.head? = some y ∧ q = (R, (m y).val)
      else if j = k then False
      else if A.getLast? = some j then q = ((m j).val, R)
      else At m (S1 ++ (A ++ n :: k :: B, f) :: S2) j q := by
  have p := h.place
  have hlive : j ∈ liveOf (S1 ++ (A ++ n :: B, f) :: S2) ↔ j ≠ k ∧ j ∈ liveOf (S1 ++ (A ++ n :: k :: B, f) :: S2) := by
    have := p.out k (by simp)
    simp only [liveOf_append, liveOf_cons, List.mem_append, List.mem_cons]
    constructor
    · intro hj
      refine ⟨?_, by tauto⟩
      rintro rfl
      have := p.kA; have := p.kB; have := Ne.symm p.hnk
      tauto
    · rintro ⟨h1, h2⟩; tauto
  by_cases h1 : j = n
  · subst h1
    have hR : (mergeMem m j k R j).val = R := by rw [p.merge_val, if_pos rfl]
    have hright : (mergeMem m j k R j).right = B.head? := by rw [p.merge, if_pos rfl]
    rw [if_pos rfl]
    constructor
    · rintro ⟨_, hv, y, hy, hv2⟩
      rw [hright] at hy
      rw [hR] at hv
      rw [p.merge_val] at hv2
      have : y ≠ j := fun e => p.nB (e ▸ List.mem_of_head? hy)
      rw [if_neg this] at hv2
      refine ⟨y, hy, ?_⟩
      obtain ⟨q1, q2⟩ := q
      simp at hv hv2 ⊢; exact ⟨hv.symm, hv2.symm⟩
    · rintro ⟨y, hy, rfl⟩
      have : y ≠ j := fun e => p.nB (e ▸ List.mem_of_head? hy)
      refine ⟨hlive.2 ⟨p.hnk, mem_liveOf.2 ⟨(A ++ j :: k :: B, f), by simp, by simp⟩⟩, hR, y, hright ▸ hy, ?_⟩
      rw [p.merge_val, if_neg this]
  · rw [if_neg h1]
    by_cases h2 : j = k
    · rw [if_pos h2]
      simp only [iff_false]
      rintro ⟨hl, _⟩
      exact (hlive.1 hl).1 h2
    · rw [if_neg h2]
      simp only [At, p.merge_right R j h1 h2, p.merge_val, if_neg h1, hlive]
      by_cases h3 : A.getLast? = some j
      · rw [if_pos h3]
        have hjn : (m j).right = some n := by
          have hnl : n ∈ liveOf (S1 ++ (A ++ n :: k :: B, f) :: S2) := mem_liveOf.2 ⟨(A ++ n :: k :: B, f), by simp, by simp⟩
          exact (h.right_of_left hnl (p.leftn.trans h3)).1
        constructor
        · rintro ⟨_, hv, y, hy, hv2⟩
          rw [hjn] at hy
          injection hy with hy
          subst hy
          rw [if_pos rfl] at hv2
          obtain ⟨q1, q2⟩ := q
          simp at hv hv2 ⊢; exact ⟨hv.symm, hv2.symm⟩
        · rintro rfl
          refine ⟨⟨h2, mem_liveOf.2 ⟨(A ++ n :: k :: B, f), by simp, by simp [List.mem_of_getLast? h3]⟩⟩, rfl, n, hjn, by simp⟩
      · rw [if_neg h3]
        constructor
        · rintro ⟨⟨_, hl⟩, hv, y, hy, hv2⟩
          have : y ≠ n := by
            rintro rfl
            have := (h.left_of_right hl hy).1
            rw [p.leftn] at this
            exact h3 this
          rw [if_neg this] at hv2
          exact ⟨hl, hv, y, hy, hv2⟩
        · rintro ⟨hl, hv, y, hy, hv2⟩
          have : y ≠ n := by
            rintro rfl
            have := (h.left_of_right hl hy).1
            rw [p.leftn] at this
            exact h3 this
          exact ⟨⟨h2, hl⟩, hv, y, hy, by rw [if_neg this]; exact hv2⟩

/-- two nodes cannot have the same right neighbour -/
theorem Wf.right_inj {m : Mem} {S : Segs} (h : Wf m S) {n n' k : Nat} (hn : n ∈ liveOf S) (hn' : n' ∈ liveOf S)
    (h1 : (m n).right = some k) (h2 : (m n').right = some k) : n = n' := by
  have := (h.left_of_right hn h1).1
  have := (h.left_of_right hn' h2).1
  simp_all

end Verif
