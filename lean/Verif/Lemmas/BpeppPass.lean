import Verif.Lemmas.BpeppRuns
import Verif.Lemmas.BpeIndex
/-! # One pass of the two-level learner, compared with that of the other learner -/

namespace Verif
open Spec

theorem Wf_congr {m m' : Mem} {S : Segs} (h : Wf m S) (e : ∀ j ∈ liveOf S, m' j = m j) : Wf m' S := by
  refine ⟨?_, h.nodup⟩
  intro s hs A n B hA
  rw [e n (mem_liveOf.2 ⟨s, hs, by simp [hA]⟩)]
  exact h.linked s hs A n B hA

theorem At_congr {m m' : Mem} {S : Segs} (h : Wf m S) (e : ∀ j ∈ liveOf S, m' j = m j) (j : Nat) (q : Pair) :
    At m' S j q ↔ At m S j q := by
  unfold At
  constructor
  · rintro ⟨h1, h2, k, h3, h4⟩
    rw [e j h1] at h2 h3
    rw [e k (h.left_of_right h1 h3).2] at h4
    exact ⟨h1, h2, k, h3, h4⟩
  · rintro ⟨h1, h2, k, h3, h4⟩
    refine ⟨h1, by rw [e j h1]; exact h2, k, by rw [e j h1]; exact h3, ?_⟩
    rw [e k (h.left_of_right h1 h3).2]; exact h4

/-- symbols of the result other than the new one stand together in the original, too -/
theorem Spec.Replaces.prefix {a b r : Nat} {s t : List Nat} (h : Replaces a b r s t) : ∀ {l : List Nat}, r ∉ l → l <+: t → l <+: s := by
  induction h with
  | nil => intro l _ hl; exact hl
  | @keep x s t h ih =>
    intro l hr hl
    cases l with
    | nil => exact List.nil_prefix
    | cons y l =>
      rw [List.cons_prefix_cons] at hl ⊢
      exact ⟨hl.1, ih (fun hm => hr (by simp [hm])) hl.2⟩
  | @pair s t h ih =>
    intro l hr hl
    cases l with
    | nil => exact List.nil_prefix
    | cons y l =>
      rw [List.cons_prefix_cons] at hl
      exact absurd hl.1 (fun e => hr (by simp [e]))

theorem Spec.Replaces.infix {a b r : Nat} {s t : List Nat} (h : Replaces a b r s t) {l : List Nat} (hr : r ∉ l) (hl : l <:+: t) : l <:+: s := by
  induction h with
  | nil => exact hl
  | @keep x s t h ih =>
    rw [List.infix_cons_iff] at hl ⊢
    rcases hl with hl | hl
    · exact Or.inl ((Spec.Replaces.keep x h).prefix hr hl)
    · exact Or.inr (ih hl)
  | @pair s t h ih =>
    rw [List.infix_cons_iff] at hl
    rcases hl with hl | hl
    · exact ((Spec.Replaces.pair h).prefix hr hl).isInfix
    · exact (ih hl).trans ⟨[a, b], [], by simp⟩

theorem Spec.Apart.rel {p : Nat × Nat} {r : Nat} {C C' : Corpus} (h : Rel p.1 p.2 r C C') (hr : p.1 ≠ r) (ha : Apart C p) : Apart C' p := by
  intro e
  replace ha := ha e
  clear e
  induction h with
  | nil => simp
  | @cons s t C C' hst h ih =>
    intro u hu
    rcases List.mem_cons.1 hu with rfl | hu
    · intro hi
      exact ha s (by simp) (hst.2.infix (by simp [Ne.symm hr]) hi)
    · exact ih (fun s hs => ha s (by simp [hs])) u hu

/-- a node that starts a pair counts for it -/
theorem At_le {m : Mem} {S : Segs} (h : Wf m S) (hf : ∀ s ∈ S, 0 < s.2) {j : Nat} {q : Pair} (hj : At m S j q) :
    (m j).freq ≤ pairCount (corpusOf m S) q := by
  rw [pairCount_eq_isum h]
  have hm : j ∈ (liveOf S).filter (atB m q) := List.mem_filter.2 ⟨hj.1, (atB_iff _ _ _).2 hj.2⟩
  have hfr : ∀ i ∈ (liveOf S).filter (atB m q), 0 ≤ (m i).freq := by
    intro i hi
    obtain ⟨s, hs, hi⟩ := mem_liveOf.1 (List.mem_filter.1 hi).1
    obtain ⟨A, B, e⟩ := List.append_of_mem hi
    rw [(h.linked s hs A i B e).2.2]; exact le_of_lt (hf s hs)
  generalize (liveOf S).filter (atB m q) = l at hm hfr
  have hnn : ∀ l : List Nat, (∀ i ∈ l, 0 ≤ (m i).freq) → 0 ≤ isum (l.map fun n => (m n).freq) := by
    intro l
    induction l with
    | nil => intro _; simp [isum]
    | cons i l ih =>
      intro h
      rw [List.map_cons, isum_cons]
      have := ih (fun i hi => h i (by simp [hi]))
      have := h i (by simp)
      omega
  induction l with
  | nil => simp at hm
  | cons i l ih =>
    rw [List.map_cons, isum_cons]
    rcases List.mem_cons.1 hm with rfl | hm
    · have := hnn l (fun i hi => hfr i (by simp [hi])); omega
    · have := ih hm (fun i hi => hfr i (by simp [hi]))
      have := hfr i (by simp)
      omega

/-- the memory after the merge -/
def ppMem (m : Mem) (n k R : Nat) : Mem := (ppDelete m k).upd n { ppDelete m k n with val := R }

theorem Place.ppMem {m : Mem} {S1 S2 : Segs} {A B : List Nat} {n k : Nat} {f : Int} (p : Place m S1 A n k B f S2) (R j : Nat) :
    ppMem m n k R j =
      if j = n then { m n with val := R, right := B.head? }
      else if j = k then m k
      else if B.head? = some j then { m j with left := some n } else m j := by
  have hl := p.leftk
  have hnk := p.hnk
  have hy := p.yn
  rw [← p.rightk]
  cases hr : (m k).right with
  | none =>
    simp only [Verif.ppMem, ppDelete, hl, hr, setRight, setLeft, Mem.upd]
    by_cases h1 : j = n
    · subst h1; simp
    · by_cases h2 : j = k
      · subst h2; simp [h1]
      · simp [h1, h2]
  | some y =>
    obtain ⟨hyn, hyk⟩ := hy y hr
    simp only [Verif.ppMem, ppDelete, hl, hr, setRight, setLeft, Mem.upd, Option.some.injEq]
    by_cases h1 : j = n
    · subst h1; simp [Ne.symm hyn]
    · by_cases h2 : j = k
      · subst h2; simp [h1, Ne.symm hyk]
      · by_cases h3 : j = y
        · subst h3; simp [h1, h2]
        · simp [h1, h2, h3, Ne.symm h3]

theorem cnt_set (d : Dict Pair Int) (p : Pair) (c : Int) (q : Pair) : Dict.cnt (Dict.set d p c) q = if p = q then c else Dict.cnt d q := by
  unfold Dict.cnt; rw [Dict.get?_set]; split <;> rfl

/-- `ppMove` when the counts and the index are as they should be: as `ixRemove` and `ixAdd` -/
theorem ppMove_ok {p p' : Pair} {f : Int} {out inn : Nat} {bi : Dict Pair Int} {ix : Dict Pair (List Nat)} (hf : 0 < f)
    (hc : f ≤ Dict.cnt bi p) (hm : out ∈ ids ix p) (hk : (Dict.keys bi).Nodup) :
    ∃ ix1 bi', ixRemove ix p out = .ok ix1 ∧ ppMove p p' f out inn bi ix = .ok (bi', ixAdd ix1 p' inn) ∧ (Dict.keys bi').Nodup ∧
      ∀ q, Dict.cnt bi' q = Dict.cnt bi q - (if p = q then f else 0) + (if p' = q then f else 0) := by
  obtain ⟨l, hl⟩ : ∃ l, Dict.get? ix p = some l := by
    cases h : Dict.get? ix p with
    | none => simp [ids, h] at hm
    | some l => exact ⟨l, rfl⟩
  have hids : ids ix p = l := by simp [ids, hl]
  obtain ⟨c, hg⟩ : ∃ c, Dict.get? bi p = some c := by
    cases h : Dict.get? bi p with
    | none => rw [cnt_none h] at hc; omega
    | some c => exact ⟨c, rfl⟩
  have hcc : Dict.cnt bi p = c := cnt_of_get? hg
  refine ⟨Dict.set ix p (l.erase out), Dict.incr (Dict.set bi p (c - f)) p' f, by rw [ixRemove_mem hm, hids], ?_,
    Dict.nodup_keys_incr (Dict.nodup_keys_set hk _ _) _ _, ?_⟩
  · have h1 : ¬ ¬ 0 < c := by omega
    have h2 : ¬ c - f < 0 := by omega
    have h3 : out ∈ l := hids ▸ hm
    simp only [ppMove, hg, hl]
    rw [if_neg h1, if_neg h2, if_pos h3]
  · intro q
    rw [Dict.cnt_incr, cnt_set]
    by_cases hq : p = q
    · subst hq; simp only [if_true]; split <;> omega
    · simp only [if_neg hq]; split <;> omega

/-- the state of the pass here and there: same nodes in use, same index, counts changed by the deltas -/
structure PpSim (a b : Nat) (C0 : Corpus) (P : Pass) (Q : PpPass) (S : Segs) : Prop where
  mem : ∀ j ∈ liveOf S, Q.mem j = P.mem j
  ix : Q.ix = P.ix
  bi : ∀ q, q ≠ (a, b) → Dict.cnt Q.bi q = pairCount C0 q + Dict.cnt P.deltas q
  biab : Dict.cnt Q.bi (a, b) = 0
  bknd : (Dict.keys Q.bi).Nodup

theorem ppNode_sim {a b R : Nat} (ha : a ≠ R) (hb : b ≠ R) {C0 : Corpus} (hap : Apart C0 (a, b)) {n : Nat} {todo : List Nat} {P : Pass}
    {Q : PpPass} {S : Segs} (uni : Dict Nat Int) (vocab : List Ty) (h : PInv a b R C0 (n :: todo) P S)
    (hat : ∀ u ∈ n :: todo, At P.mem S u (a, b)) (hs : PpSim a b C0 P Q S) :
    ∃ P' Q' S', ppNode a b R uni vocab Q n = .ok Q' ∧ PInv a b R C0 todo P' S' ∧ P'.uni = P.uni ∧ (∀ u ∈ todo, At P'.mem S' u (a, b)) ∧
      PpSim a b C0 P' Q' S' := by
  obtain ⟨P', S', eP, hdone, hI⟩ := passNode_ok' ha hb h
  obtain ⟨hlive, hva, k, hr, hvb⟩ := hat n (by simp)
  simp only at hva hvb
  have hapP : Apart (corpusOf P.mem S) (a, b) := Spec.Apart.rel (p := (a, b)) h.rel ha hap
  have hklive := (h.wf.left_of_right hlive hr).2
  rcases hdone with ⟨S1, A, k', B, f, S2, hS, hS', hmem, huni, _, hr', _⟩ | ⟨_, _, hsk, _⟩
  · rw [hr] at hr'; injection hr' with hr'; subst hr'
    subst hS
    have p := h.wf.place
    have hwQ : Wf Q.mem (S1 ++ (A ++ n :: k :: B, f) :: S2) := Wf_congr h.wf hs.mem
    have pQ := hwQ.place
    have hf0 : 0 < f := h.freqs (A ++ n :: k :: B, f) (by simp)
    have hQn := hs.mem n hlive
    have hQk := hs.mem k hklive
    have hAmem : ∀ j ∈ A, j ∈ liveOf (S1 ++ (A ++ n :: k :: B, f) :: S2) := fun j hj => mem_liveOf.2 ⟨(A ++ n :: k :: B, f), by simp, by simp [hj]⟩
    have hBmem : ∀ j ∈ B, j ∈ liveOf (S1 ++ (A ++ n :: k :: B, f) :: S2) := fun j hj => mem_liveOf.2 ⟨(A ++ n :: k :: B, f), by simp, by simp [hj]⟩
    -- no triple
    have hcorp : corpusOf P.mem (S1 ++ (A ++ n :: k :: B, f) :: S2) = corpusOf P.mem S1 ++
      (A.map (fun j => (P.mem j).val) ++ a :: b :: B.map (fun j => (P.mem j).val), f) :: corpusOf P.mem S2 := by
      rw [corpusOf_place, hva, hvb]
    have hnox : ∀ x, A.getLast? = some x → ((P.mem x).val, a) ≠ (a, b) := by
      intro x hx e
      simp only [Prod.mk.injEq] at e
      obtain ⟨A', rfl⟩ := List.getLast?_eq_some_iff.1 hx
      refine hapP e.2 ((A' ++ [x]).map (fun j => (P.mem j).val) ++ a :: b :: B.map (fun j => (P.mem j).val), f) (by rw [hcorp]; simp) ?_
      refine ⟨A'.map fun j => (P.mem j).val, B.map fun j => (P.mem j).val, ?_⟩
      simp [e.1, ← e.2]
    have hnoy : ∀ y, B.head? = some y → (b, (P.mem y).val) ≠ (a, b) := by
      intro y hy e
      simp only [Prod.mk.injEq] at e
      obtain ⟨B', rfl⟩ : ∃ B', B = y :: B' := by
        cases B with
        | nil => simp at hy
        | cons z B => simp at hy; exact ⟨B, by rw [hy]⟩
      refine hapP e.1.symm (A.map (fun j => (P.mem j).val) ++ a :: b :: (y :: B').map (fun j => (P.mem j).val), f) (by rw [hcorp]; simp) ?_
      refine ⟨A.map fun j => (P.mem j).val, B'.map fun j => (P.mem j).val, ?_⟩
      simp [e.1, e.2]
    have hxn : ∀ x, A.getLast? = some x → x ≠ n ∧ x ≠ k := fun x hx =>
      ⟨by rintro rfl; exact p.nA (List.mem_of_getLast? hx), by rintro rfl; exact p.kA (List.mem_of_getLast? hx)⟩
    have hyn : ∀ y, B.head? = some y → y ≠ n ∧ y ≠ k := fun y hy =>
      ⟨by rintro rfl; exact p.nB (List.mem_of_head? hy), by rintro rfl; exact p.kB (List.mem_of_head? hy)⟩
    have hfx : ∀ x, A.getLast? = some x → (P.mem x).freq = f := by
      intro x hx
      obtain ⟨A', rfl⟩ := List.getLast?_eq_some_iff.1 hx
      exact (h.wf.linked (A' ++ [x] ++ n :: k :: B, f) (by simp) A' x (n :: k :: B) (by simp)).2.2
    -- the memory
    have hmv : ∀ j ∈ liveOf (S1 ++ (A ++ n :: k :: B, f) :: S2), (ppMem Q.mem n k R j).val = (mergeMem P.mem n k R j).val ∧
        (ppMem Q.mem n k R j).freq = (mergeMem P.mem n k R j).freq := by
      intro j hj
      rw [pQ.ppMem, p.merge]
      by_cases h1 : j = n
      · subst h1; simp [hQn]
      · by_cases h2 : j = k
        · subst h2; simp [h1, hQk]
        · simp only [h1, h2, if_false]; rw [hs.mem j hj]; split <;> simp
    have hlive' : ∀ j, j ∈ liveOf (S1 ++ (A ++ n :: B, f) :: S2) → j ≠ k ∧ j ∈ liveOf (S1 ++ (A ++ n :: k :: B, f) :: S2) := by
      intro j hj
      have := p.out k (by simp)
      simp only [liveOf_append, liveOf_cons, List.mem_append, List.mem_cons] at hj ⊢
      refine ⟨?_, by tauto⟩
      rintro rfl
      have := p.kA; have := p.kB; have := Ne.symm p.hnk
      tauto
    have hmm : ∀ j ∈ liveOf (S1 ++ (A ++ n :: B, f) :: S2), ppMem Q.mem n k R j = mergeMem P.mem n k R j := by
      intro j hj
      obtain ⟨hjk, hj⟩ := hlive' j hj
      rw [pQ.ppMem, p.merge, if_neg hjk, if_neg hjk, hQn, hs.mem j hj]
    -- what the other pass does
    have hno : ¬ (a = b ∧ (R = (P.mem n).val ∨ R = (P.mem k).val)) := by
      rw [hva, hvb]; rintro ⟨_, e | e⟩
      · exact ha e.symm
      · exact hb e.symm
    have hno2 : ¬ ((P.mem n).val ≠ a ∨ (P.mem k).val ≠ b) := by simp [hva, hvb]
    have hno3 : ¬ ((P.mem n).freq ≠ (P.mem k).freq) := by simp [p.freqn, p.freqk]
    have hun : (P.mem n).isUnlinked = false := by simp [Node.isUnlinked, hr]
    have hm2 : (deleteNode P.mem k).upd n { deleteNode P.mem k n with val := R } = mergeMem P.mem n k R := rfl
    have hm2' : (ppDelete Q.mem k).upd n { ppDelete Q.mem k n with val := R } = ppMem Q.mem n k R := rfl
    simp only [passNode, hun, hr, hno, hno2, hno3, if_false, p.leftn, p.rightk, hm2, Bool.false_eq_true] at eP
    -- left
    have hleft : ∃ ix1 ds1 bi1, passLeft a R (mergeMem P.mem n k R) A.getLast? P.ix P.deltas = .ok (ix1, ds1) ∧
        ppLeft a R (ppMem Q.mem n k R) A.getLast? Q.bi Q.ix = .ok (bi1, ix1) ∧ (Dict.keys bi1).Nodup ∧
        (∀ q, Dict.cnt bi1 q - Dict.cnt Q.bi q = Dict.cnt ds1 q - Dict.cnt P.deltas q) ∧ Dict.cnt bi1 (a, b) = 0 ∧
        (∀ y, B.head? = some y → k ∈ ids ix1 (b, (P.mem y).val)) := by
      have hkin : ∀ y, B.head? = some y → k ∈ ids P.ix (b, (P.mem y).val) := fun y hy =>
        (h.ixmem _ (hnoy y hy) k).2 ⟨hklive, hvb, y, p.rightk.trans hy, rfl⟩
      cases hx : A.getLast? with
      | none => exact ⟨P.ix, P.deltas, Q.bi, rfl, by simp only [ppLeft, hs.ix], hs.bknd, by simp, hs.biab, hkin⟩
      | some x =>
        have hxl := hAmem x (List.mem_of_getLast? hx)
        have hv1 : (mergeMem P.mem n k R x).val = (P.mem x).val := by rw [p.merge_val, if_neg (hxn x hx).1]
        have hf1 : (mergeMem P.mem n k R x).freq = f := by rw [p.merge_freq]; exact hfx x hx
        have hxr := (h.wf.right_of_left hlive (p.leftn.trans hx))
        have hatx : At P.mem (S1 ++ (A ++ n :: k :: B, f) :: S2) x ((P.mem x).val, a) := ⟨hxl, rfl, n, hxr.1, hva⟩
        have hcx : f ≤ Dict.cnt Q.bi ((P.mem x).val, a) := by
          have h1 := At_le h.wf h.freqs hatx
          have h2 := h.ds _ (hnox x hx)
          rw [hs.bi _ (hnox x hx)]
          rw [hfx x hx] at h1
          omega
        have hmx : x ∈ ids Q.ix ((P.mem x).val, a) := by rw [hs.ix]; exact (h.ixmem _ (hnox x hx) x).2 hatx
        obtain ⟨ix1, bi', e1, e2, hk', hc'⟩ := ppMove_ok (p' := ((P.mem x).val, R)) (inn := x) hf0 hcx hmx hs.bknd
        rw [hs.ix] at e1 hmx
        refine ⟨ixAdd ix1 ((P.mem x).val, R) x, Dict.incr (Dict.incr P.deltas ((P.mem x).val, a) (-f)) ((P.mem x).val, R) f, bi', ?_, ?_, hk', ?_, ?_, ?_⟩
        · simp only [passLeft, hv1, hf1, e1]
        · simp only [ppLeft, (hmv x hxl).1, (hmv x hxl).2, hv1, hf1, e2]
        · intro q
          rw [hc', Dict.cnt_incr, Dict.cnt_incr]
          split <;> split <;> omega
        · rw [hc', hs.biab, if_neg (hnox x hx), if_neg]
          · rfl
          · simp only [Prod.mk.injEq, not_and]; exact fun _ e => hb e.symm
        · intro y hy
          have h1 := hkin y hy
          have e1' : ix1 = Dict.set P.ix ((P.mem x).val, a) ((ids P.ix ((P.mem x).val, a)).erase x) := by
            have := ixRemove_mem hmx
            rw [this] at e1; injection e1 with e1; exact e1.symm
          have hin : k ∈ ids ix1 (b, (P.mem y).val) := by
            rw [e1', ids_set]
            split
            · rename_i e
              rw [(h.ixok.nodup _).mem_erase_iff]
              exact ⟨Ne.symm (hxn x hx).2, e ▸ h1⟩
            · exact h1
          rw [ids_ixAdd]
          split
          · rename_i e
            rw [e]
            split
            · exact hin
            · simp [hin]
          · exact hin
    obtain ⟨ix1, ds1, bi1, eL, eL', hbk1, hd1, hab1, hk1⟩ := hleft
    rw [eL] at eP
    simp only at eP
    have hright : ∃ ix2 ds2 bi2, passRight b R (mergeMem P.mem n k R) n k B.head? ix1 ds1 = .ok (ix2, ds2) ∧
        P' = { mem := mergeMem P.mem n k R, ix := ix2, uni := P.uni, deltas := ds2 } ∧
        ppRight b R (ppMem Q.mem n k R) n k B.head? bi1 ix1 = .ok (bi2, ix2) ∧ (Dict.keys bi2).Nodup ∧
        (∀ q, Dict.cnt bi2 q - Dict.cnt bi1 q = Dict.cnt ds2 q - Dict.cnt ds1 q) ∧ Dict.cnt bi2 (a, b) = 0 := by
      cases hy : B.head? with
      | none =>
        rw [hy] at eP
        simp only [passRight] at eP
        injection eP with eP
        exact ⟨ix1, ds1, bi1, rfl, eP.symm, rfl, hbk1, by simp, hab1⟩
      | some y =>
        have hyl := hBmem y (List.mem_of_head? hy)
        have hv1 : (mergeMem P.mem n k R y).val = (P.mem y).val := by rw [p.merge_val, if_neg (hyn y hy).1]
        have hf1 : (mergeMem P.mem n k R k).freq = f := by rw [p.merge_freq]; exact p.freqk
        have hrem := ixRemove_mem (hk1 y hy)
        have hds2 : P' = { mem := mergeMem P.mem n k R, ix := ixAdd (Dict.set ix1 (b, (P.mem y).val) ((ids ix1 (b, (P.mem y).val)).erase k)) (R, (P.mem y).val) n, uni := P.uni, deltas := Dict.incr (Dict.incr ds1 (b, (P.mem y).val) (-f)) (R, (P.mem y).val) f } := by
          rw [hy] at eP
          simp only [passRight, hv1, hf1, hrem] at eP
          injection eP with eP
          exact eP.symm
        have hcy : f ≤ Dict.cnt bi1 (b, (P.mem y).val) := by
          have h1 := hI.ds _ (hnoy y hy)
          have h2 := pairCount_nonneg (corpusOf_freqs (m := P'.mem) hI.freqs) (b, (P.mem y).val)
          rw [hds2] at h1
          simp only at h1
          have hneR : ¬ (R, (P.mem y).val) = (b, (P.mem y).val) := by
            simp only [Prod.mk.injEq, and_true]; exact fun e => hb e.symm
          rw [Dict.cnt_incr, Dict.cnt_incr, if_neg hneR, if_pos rfl] at h1
          have h3 := hd1 (b, (P.mem y).val)
          have h4 := hs.bi _ (hnoy y hy)
          rw [hds2] at h2
          simp only at h2
          omega
        obtain ⟨ix2, bi2, e1, e2, hk', hc'⟩ := ppMove_ok (p' := (R, (P.mem y).val)) (inn := n) hf0 hcy (hk1 y hy) hbk1
        rw [hrem] at e1; injection e1 with e1; subst e1
        refine ⟨_, _, bi2, ?_, hds2, ?_, hk', ?_, ?_⟩
        · simp only [passRight, hv1, hf1, hrem]
        · simp only [ppRight, (hmv y hyl).1, (hmv k hklive).2, hv1, hf1, e2]
        · intro q
          rw [hc', Dict.cnt_incr, Dict.cnt_incr]
          split <;> split <;> omega
        · rw [hc', hab1, if_neg (hnoy y hy), if_neg]
          · rfl
          · simp only [Prod.mk.injEq, not_and]; exact fun e => absurd e.symm ha
    obtain ⟨ix2, ds2, bi2, eR, hP', eR', hbk2, hd2, hab2⟩ := hright
    refine ⟨P', { mem := ppMem Q.mem n k R, bi := bi2, ix := ix2 }, S', ?_, hI, huni, ?_, ?_⟩
    · have g1 : ¬ ((Q.mem n).val ≠ a) := by simp [hQn, hva]
      have g2 : ¬ ((Q.mem k).val ≠ b) := by simp [hQk, hvb]
      have g3 : ¬ ((Q.mem n).freq ≠ (Q.mem k).freq) := by simp [pQ.freqn, pQ.freqk]
      simp only [ppNode, g1, g2, g3, if_false, pQ.rightn, pQ.leftn, pQ.rightk, hm2', eL', eR']
    · intro u hu
      have hau := hat u (by simp [hu])
      have hun' : u ≠ n := by rintro rfl; exact (List.nodup_cons.1 h.tnd).1 hu
      rw [hS', hmem, At_merge h.wf, if_neg hun', if_neg, if_neg]
      · exact hau
      · intro hx
        apply hnox u hx
        have hxr := (h.wf.right_of_left hlive (p.leftn.trans hx))
        obtain ⟨_, h1, w, hw, h2⟩ := hau
        rw [hxr.1] at hw; injection hw with hw; subst hw
        simp only at h1 h2
        rw [h1, ← h2, hva]
      · rintro rfl
        obtain ⟨_, h1, w, hw, h2⟩ := hau
        rw [p.rightk] at hw
        apply hnoy w hw
        simp only at h1 h2
        rw [h2, ← h1, hvb]
    · subst hS'
      refine ⟨?_, ?_, ?_, hab2, hbk2⟩
      · intro j hj
        rw [hP']
        exact hmm j hj
      · rw [hP']
      · intro q hq
        have h1 := hs.bi q hq
        have h2 := hd1 q
        have h3 := hd2 q
        rw [hP']
        simp only
        omega
  · exfalso
    rcases hsk with hsk | ⟨w, hw, hwv⟩
    · simp [Node.isUnlinked, hr] at hsk
    · rw [hr] at hw; injection hw with hw; subst hw
      exact hb (hvb.symm.trans hwv)

theorem ppPass_sim {a b R : Nat} (ha : a ≠ R) (hb : b ≠ R) {C0 : Corpus} (hap : Apart C0 (a, b)) (uni : Dict Nat Int) (vocab : List Ty)
    {todo : List Nat} : ∀ {P : Pass} {Q : PpPass} {S : Segs}, PInv a b R C0 todo P S → (∀ u ∈ todo, At P.mem S u (a, b)) → PpSim a b C0 P Q S →
    ∃ P' Q' S', ppPass a b R uni vocab todo Q = .ok Q' ∧ PInv a b R C0 [] P' S' ∧ P'.uni = P.uni ∧ PpSim a b C0 P' Q' S' := by
  induction todo with
  | nil => intro P Q S h _ hs; exact ⟨P, Q, S, rfl, h, rfl, hs⟩
  | cons n todo ih =>
    intro P Q S h hat hs
    obtain ⟨P1, Q1, S1, e1, h1, hu1, hat1, hs1⟩ := ppNode_sim ha hb hap uni vocab h hat hs
    obtain ⟨P', Q', S', e2, h2, hu2, hs2⟩ := ih h1 hat1 hs1
    exact ⟨P', Q', S', by simp only [ppPass, e1, e2], h2, hu2.trans hu1, hs2⟩

end Verif
