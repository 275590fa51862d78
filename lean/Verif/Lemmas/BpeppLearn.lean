import Verif.Lemmas.BpeppPass
/-! # Rounds of the two-level learner -/

namespace Verif
open Spec

theorem ppMax_fold (l : List (Pair × Int)) : ∀ x : Pair × Int,
    l.foldl (fun best y => if best.2 < y.2 then y else best) x ∈ x :: l ∧
      ∀ y ∈ x :: l, y.2 ≤ (l.foldl (fun best y => if best.2 < y.2 then y else best) x).2 := by
  induction l with
  | nil => intro x; simp
  | cons z l ih =>
    intro x
    simp only [List.foldl_cons]
    obtain ⟨h1, h2⟩ := ih (if x.2 < z.2 then z else x)
    constructor
    · rcases List.mem_cons.1 h1 with h | h
      · rw [h]; split <;> simp
      · simp [h]
    · intro y hy
      have h3 := h2 _ (List.mem_cons_self)
      simp only [List.mem_cons] at hy
      rcases hy with rfl | rfl | hy
      · refine le_trans ?_ h3; split <;> omega
      · refine le_trans ?_ h3; split <;> omega
      · exact h2 y (by simp [hy])

theorem ppMax_spec {d : Dict Pair Int} (hd : (Dict.keys d).Nodup) :
    (ppMax d = none ∧ d = []) ∨ ∃ p f, ppMax d = some (p, f) ∧ Dict.get? d p = some f ∧ ∀ q g, Dict.get? d q = some g → g ≤ f := by
  cases d with
  | nil => left; exact ⟨rfl, rfl⟩
  | cons x l =>
    right
    obtain ⟨h1, h2⟩ := ppMax_fold l x
    exact ⟨_, _, rfl, Dict.get?_of_mem hd h1, fun q g hq => h2 (q, g) (Dict.mem_of_get? hq)⟩

/-- invariant of the rounds -/
structure PpInv (S : PpState) (G : Segs) : Prop where
  wf : Wf S.mem G
  keys : (Dict.keys S.ix).Nodup
  nodup : ∀ q, (ids S.ix q).Nodup
  ixmem : ∀ q j, j ∈ ids S.ix q ↔ At S.mem G j q
  uni : ∀ v, Dict.cnt S.uni v = symCount (corpusOf S.mem G) v
  uknd : (Dict.keys S.uni).Nodup
  freqs : ∀ s ∈ G, 0 < s.2
  nonempty : ∀ s ∈ G, s.1 ≠ []
  vals : ∀ s ∈ corpusOf S.mem G, ∀ v ∈ s.1, v < S.vocab.length
  bi : ∀ q, Dict.cnt S.bi q = pairCount (corpusOf S.mem G) q
  bknd : (Dict.keys S.bi).Nodup

theorem pairCount_zero {D : Corpus} {q : Pair} (h : ∀ s ∈ D, pairOcc q s.1 = 0) : pairCount D q = 0 := by
  induction D with
  | nil => simp [pairCount]
  | cons s D ih => rw [pairCount_cons, h s (by simp), ih (fun s hs => h s (by simp [hs]))]; simp

/-- one round: no pair is left, or the best one is too rare, or its occurrences overlap, or it is merged -/
theorem ppStep_spec {ord : List Nat → List Nat} (hord : ∀ l, (ord l).Perm l) {minEv : Int} (hmin : 1 ≤ minEv) (level : Int) {S : PpState}
    {G : Segs} (h : PpInv S G) :
    (ppStep ord minEv level S = .error .value ∧ ∀ q, pairCount (corpusOf S.mem G) q = 0) ∨
    (ppStep ord minEv level S = .ok (S, false) ∧ ∀ q, pairCount (corpusOf S.mem G) q < minEv) ∨
    (∃ p, IsMax (corpusOf S.mem G) p ∧ minEv ≤ pairCount (corpusOf S.mem G) p ∧ ¬ Apart (corpusOf S.mem G) p) ∨
    (∃ S' G' p ta tb, ppStep ord minEv level S = .ok (S', true) ∧ PpInv S' G' ∧ IsMax (corpusOf S.mem G) p ∧
      minEv ≤ pairCount (corpusOf S.mem G) p ∧ Apart (corpusOf S.mem G) p ∧ S.vocab[p.1]? = some ta ∧ S.vocab[p.2]? = some tb ∧
      Merged p S.vocab.length (corpusOf S.mem G) (corpusOf S'.mem G') ∧
      S'.vocab = S.vocab ++ [mergedType S.vocab ta tb level (pairCount (corpusOf S.mem G) p)]) := by
  have hfr := corpusOf_freqs (m := S.mem) h.freqs
  have hc0 : ∀ q, 0 ≤ pairCount (corpusOf S.mem G) q := fun q => pairCount_nonneg hfr q
  rcases ppMax_spec h.bknd with ⟨e, hz⟩ | ⟨⟨a, b⟩, f, e, hg, hbest⟩
  · left
    refine ⟨by simp only [ppStep, e], fun q => ?_⟩
    rw [← h.bi, hz]; rfl
  · right
    have hf : f = pairCount (corpusOf S.mem G) (a, b) := by rw [← h.bi]; exact (cnt_of_get? hg).symm
    have hle : ∀ q, pairCount (corpusOf S.mem G) q ≤ pairCount (corpusOf S.mem G) (a, b) := by
      intro q
      have h1 := hc0 (a, b)
      rw [← h.bi q]
      cases hq : Dict.get? S.bi q with
      | none => rw [cnt_none hq]; exact h1
      | some g => rw [cnt_of_get? hq, ← hf]; exact hbest q g hq
    by_cases hlt : f < minEv
    · left
      refine ⟨by simp only [ppStep, e, hlt, if_true], fun q => ?_⟩
      have := hle q
      omega
    · right
      have hpos : 0 < pairCount (corpusOf S.mem G) (a, b) := by omega
      have hmax : IsMax (corpusOf S.mem G) (a, b) := ⟨hpos, hle⟩
      by_cases hap : Apart (corpusOf S.mem G) (a, b)
      swap
      · left; exact ⟨(a, b), hmax, by omega, hap⟩
      right
      have hvals := h.vals
      have huni0 := h.uni
      have hbi0 := h.bi
      subst hf
      generalize hC : corpusOf S.mem G = C at *
      generalize hR : S.vocab.length = R at *
      have hab : a < R ∧ b < R := by
        obtain ⟨s, hs, hm1, hm2⟩ := mem_of_pairCount (C := C) (q := (a, b)) (by omega)
        exact ⟨hvals s hs a hm1, hvals s hs b hm2⟩
      have haR : a ≠ R := by omega
      have hbR : b ≠ R := by omega
      obtain ⟨ta, hta⟩ : ∃ ta, S.vocab[a]? = some ta := ⟨S.vocab[a]'(by omega), List.getElem?_eq_getElem (by omega)⟩
      obtain ⟨tb, htb⟩ : ∃ tb, S.vocab[b]? = some tb := ⟨S.vocab[b]'(by omega), List.getElem?_eq_getElem (by omega)⟩
      have hsum : pairCount C (a, b) = isum ((ids S.ix (a, b)).map fun n => (S.mem n).freq) := by
        rw [← hC]; exact pairCount_eq_ids h.wf (h.nodup _) (h.ixmem _)
      obtain ⟨nodes, hnodes⟩ : ∃ nodes, Dict.get? S.ix (a, b) = some nodes := by
        cases hg : Dict.get? S.ix (a, b) with
        | none => rw [ids, hg] at hsum; simp [isum] at hsum; omega
        | some l => exact ⟨l, rfl⟩
      have hids : ids S.ix (a, b) = nodes := by simp [ids, hnodes]
      have hget : ∀ q, Dict.get? (Dict.erase S.ix (a, b)) q = if (a, b) = q then none else Dict.get? S.ix q := Dict.get?_erase h.keys _
      have hidse : ∀ q, ids (Dict.erase S.ix (a, b)) q = if (a, b) = q then [] else ids S.ix q := by
        intro q; unfold ids; rw [hget]; split <;> rfl
      have hnR : ∀ s ∈ C, R ∉ s.1 := fun s hs hm => absurd (hvals s hs R hm) (by omega)
      have hRset : Dict.cnt S.uni R = 0 := by rw [huni0, symCount_eq_zero hnR]
      have hmemo : ∀ u, u ∈ ord nodes ↔ At S.mem G u (a, b) := by
        intro u; rw [(hord nodes).mem_iff, ← hids]; exact h.ixmem _ u
      let uni1 := Dict.incr (Dict.incr (Dict.set S.uni R (pairCount C (a, b))) a (-(pairCount C (a, b)))) b (-(pairCount C (a, b)))
      have hP : PInv a b R C (ord nodes) { mem := S.mem, ix := Dict.erase S.ix (a, b), uni := uni1, deltas := [] } G := by
        refine { wf := h.wf, ixok := ⟨Dict.nodup_keys_erase h.keys _, by rw [hget, if_pos rfl], ?_⟩, ixmem := ?_,
                 tnd := (hord nodes).nodup_iff.2 (hids ▸ h.nodup (a, b)), tcase := fun u hu => Or.inl ((hmemo u).1 hu),
                 tall := fun j hj => (hmemo j).2 hj, uni := ?_, uknd := ?_, dsnd := by simp [Dict.keys], ds := ?_, dsab := by simp [Dict.cnt],
                 rel := by rw [hC]; exact Rel.refl _ _ _ _, freqs := h.freqs, nonempty := h.nonempty }
        · intro q; rw [hidse]; split
          · exact List.nodup_nil
          · exact h.nodup q
        · intro q hq j
          rw [hidse, if_neg (Ne.symm hq)]; exact h.ixmem q j
        · intro v
          have e1 : isum ((ord nodes).map fun u => (S.mem u).freq) = pairCount C (a, b) := by
            rw [hsum, hids]; exact isum_perm ((hord nodes).map _)
          have e2 : Dict.cnt (Dict.set S.uni R (pairCount C (a, b))) v = if R = v then pairCount C (a, b) else Dict.cnt S.uni v := by
            unfold Dict.cnt; rw [Dict.get?_set]; split <;> rfl
          have e3 := huni0 v
          simp only [uni1]
          rw [e1, Dict.cnt_incr, Dict.cnt_incr, e2, hC]
          simp only [ind]
          by_cases hRv : R = v
          · subst hRv
            rw [hRset] at e3
            rw [← e3]
            simp [haR, hbR]
          · rw [if_neg hRv, if_neg hRv, e3]
            split <;> split <;> ring
        · exact Dict.nodup_keys_incr (Dict.nodup_keys_incr (Dict.nodup_keys_set h.uknd _ _) _ _) _ _
        · intro q _; rw [hC]; simp [Dict.cnt]
      have hcbi : ∀ q, Dict.cnt (Dict.erase S.bi (a, b)) q = if (a, b) = q then 0 else Dict.cnt S.bi q := by
        intro q; unfold Dict.cnt; rw [Dict.get?_erase h.bknd]; split <;> rfl
      have hsim : PpSim a b C { mem := S.mem, ix := Dict.erase S.ix (a, b), uni := uni1, deltas := [] }
          { mem := S.mem, bi := Dict.erase S.bi (a, b), ix := Dict.erase S.ix (a, b) } G := by
        refine ⟨fun _ _ => rfl, rfl, ?_, ?_, Dict.nodup_keys_erase h.bknd _⟩
        · intro q hq
          simp only
          rw [hcbi, if_neg (Ne.symm hq), hbi0]
          simp [Dict.cnt]
        · rw [hcbi, if_pos rfl]
      obtain ⟨P, Q, G', eP, hP', hu', hs'⟩ := ppPass_sim haR hbR hap uni1
        (S.vocab ++ [mergedType S.vocab ta tb level (pairCount C (a, b))]) hP (fun u hu => (hmemo u).1 hu) hsim
      have hCQ : corpusOf Q.mem G' = corpusOf P.mem G' := corpusOf_congr hs'.mem
      generalize hC' : corpusOf P.mem G' = C' at *
      have hnoat : ∀ j, ¬ At P.mem G' j (a, b) := fun j hj => by simpa using hP'.tall j hj
      have hzero : ∀ s ∈ C', pairOcc (a, b) s.1 = 0 := by rw [← hC']; exact pairOcc_zero_of_not_at hP'.wf hnoat
      have hrel : Rel a b R C C' := by rw [← hC']; exact hP'.rel
      have hmerged : Merged (a, b) R C C' := by
        unfold Merged
        have : ∀ t ∈ C', pairOcc (a, b) t.1 = 0 := hzero
        clear * - hrel this
        induction hrel with
        | nil => exact .nil
        | cons hx h ih => exact .cons ⟨hx.1, hx.2, this _ (by simp)⟩ (ih (fun t ht => this t (by simp [ht])))
      have hfr' : ∀ s ∈ C', 0 ≤ s.2 := by rw [← hC']; exact corpusOf_freqs hP'.freqs
      have huni : ∀ v, Dict.cnt uni1 v = symCount C' v := by
        intro v
        have := hP'.uni v
        simp only [List.map_nil, hC', hu'] at this
        rw [this]; simp [isum]
      have hab0 : pairCount C' (a, b) = 0 := pairCount_zero hzero
      refine ⟨{ mem := Q.mem, bi := Q.bi, ix := Q.ix, uni := uni1, vocab := S.vocab ++ [mergedType S.vocab ta tb level (pairCount C (a, b))] },
        G', (a, b), ta, tb, ?_, ?_, hmax, by omega, hap, hta, htb, ?_, rfl⟩
      · have hu1 : ¬ (Dict.get? uni1 a).getD 0 < 0 := by
          have := huni a; have h3 := symCount_nonneg hfr' a; unfold Dict.cnt at this; omega
        have hu2 : ¬ (Dict.get? uni1 b).getD 0 < 0 := by
          have := huni b; have h3 := symCount_nonneg hfr' b; unfold Dict.cnt at this; omega
        simp only [uni1] at hu1 hu2
        simp only [uni1, mergedType, hR] at eP
        simp only [ppStep, e, hlt, if_false, hta, htb, hnodes, hR, hu1, hu2, eP, mergedType, uni1]
      · have hlen : (S.vocab ++ [mergedType S.vocab ta tb level (pairCount C (a, b))]).length = R + 1 := by simp [hR]
        refine { wf := Wf_congr hP'.wf hs'.mem, keys := ?_, nodup := ?_, ixmem := ?_, uni := ?_, uknd := ?_, freqs := hP'.freqs,
                 nonempty := hP'.nonempty, vals := ?_, bi := ?_, bknd := hs'.bknd }
        · simp only; rw [hs'.ix]; exact hP'.ixok.keys
        · simp only; rw [hs'.ix]; exact hP'.ixok.nodup
        · intro q j
          simp only
          rw [hs'.ix, At_congr hP'.wf hs'.mem]
          by_cases hq : q = (a, b)
          · subst hq
            simp only [ids, hP'.ixok.none]
            simp [hnoat j]
          · exact hP'.ixmem q hq j
        · intro v; simp only [hCQ]; exact huni v
        · have := hP'.uknd
          rw [hu'] at this
          exact this
        · simp only [hCQ]
          intro t ht v hv
          obtain ⟨s, hs, _, hx⟩ := Rel.mem hrel t ht
          rw [hlen]
          rcases hx v hv with h3 | h3
          · have := hvals s hs v h3; omega
          · omega
        · intro q
          simp only [hCQ]
          by_cases hq : q = (a, b)
          · subst hq; rw [hs'.biab, hab0]
          · have h1 := hs'.bi q hq
            have h2 := hP'.ds q hq
            rw [hC'] at h2
            omega
      · simp only [hCQ]; exact hmerged

/-- all rounds -/
theorem ppLoop_spec {ord : Nat → List Nat → List Nat} (hord : ∀ i l, (ord i l).Perm l) {minEv : Int} (hmin : 1 ≤ minEv) (level : Int) :
    ∀ (n : Nat) {S : PpState} {G : Segs}, PpInv S G →
    ∃ k C' v', k ≤ n ∧ RunMax minEv level (corpusOf S.mem G) S.vocab k C' v' ∧
      ((∃ S', ppLoop ord minEv level n S = .ok S' ∧ S'.vocab = v' ∧ (k = n ∨ ∀ q, pairCount C' q < minEv)) ∨
       (ppLoop ord minEv level n S = .error .value ∧ k < n ∧ ∀ q, pairCount C' q = 0) ∨
       (k < n ∧ ∃ p, IsMax C' p ∧ minEv ≤ pairCount C' p ∧ ¬ Apart C' p)) := by
  intro n
  induction n with
  | zero => intro S G h; exact ⟨0, _, _, le_refl _, .refl _ _, Or.inl ⟨S, rfl, rfl, Or.inl rfl⟩⟩
  | succ n ih =>
    intro S G h
    rcases ppStep_spec (hord n) hmin level h with ⟨e, hz⟩ | ⟨e, hz⟩ | hz | ⟨S1, G1, p, ta, tb, e, h1, hmax, hev, hap, hta, htb, hm, hv⟩
    · exact ⟨0, _, _, Nat.zero_le _, .refl _ _, Or.inr (Or.inl ⟨by simp only [ppLoop, e], Nat.succ_pos _, hz⟩)⟩
    · exact ⟨0, _, _, Nat.zero_le _, .refl _ _, Or.inl ⟨S, by simp only [ppLoop, e], rfl, Or.inr hz⟩⟩
    · exact ⟨0, _, _, Nat.zero_le _, .refl _ _, Or.inr (Or.inr ⟨Nat.succ_pos _, hz⟩)⟩
    · obtain ⟨k, C', v', hk, hrun, hcase⟩ := ih h1
      refine ⟨k + 1, C', v', by omega, .step hmax hev hap hta htb hm (hv ▸ hrun), ?_⟩
      have e2 : ppLoop ord minEv level (n + 1) S = ppLoop ord minEv level n S1 := by simp only [ppLoop, e]
      rw [e2]
      rcases hcase with ⟨S', h1, h2, h3⟩ | ⟨h1, h2, h3⟩ | ⟨h1, h2⟩
      · exact Or.inl ⟨S', h1, h2, h3.imp (by omega) id⟩
      · exact Or.inr (Or.inl ⟨h1, by omega, h3⟩)
      · exact Or.inr (Or.inr ⟨by omega, h2⟩)

/-- the initialisation is that of the other learner on the squeezed sequences -/
theorem ppInit_replace (seqs : List (List Nat × Int)) (vocab : List Ty) :
    ppInit .replace seqs none vocab = bpeInit (squeezed seqs) vocab := by
  simp only [ppInit, bpeInit, ppCreateIndex_replace]
  rfl

theorem squeezed_ok {seqs : List (List Nat × Int)} (hs : ∀ s ∈ seqs, s.1 ≠ [] ∧ 0 < s.2) : ∀ s ∈ squeezed seqs, s.1 ≠ [] ∧ 0 < s.2 := by
  intro t ht
  obtain ⟨s, hs', rfl⟩ := List.mem_map.1 ht
  exact ⟨ppReplaceTrouble_ne_nil (hs s hs').1, (hs s hs').2⟩

theorem squeezed_codes {seqs : List (List Nat × Int)} {n : Nat} (hs : ∀ s ∈ seqs, ∀ c ∈ s.1, c < n) : ∀ s ∈ squeezed seqs, ∀ c ∈ s.1, c < n := by
  intro t ht c hc
  obtain ⟨s, hs', rfl⟩ := List.mem_map.1 ht
  exact hs s hs' c (mem_ppReplaceTrouble hc)

theorem ppLearn_spec {ord : Nat → List Nat → List Nat} (hord : ∀ i l, (ord i l).Perm l) {minEv : Int} (hmin : 1 ≤ minEv) (level n : Int)
    {seqs : Corpus} {vocab : List Ty} (hne : seqs ≠ []) (hs : ∀ s ∈ seqs, s.1 ≠ [] ∧ 0 < s.2)
    (hidx : ∀ i (t : Ty), vocab[i]? = some t → t.idx = i) (hnames : (vocab.map (·.name)).Nodup)
    (hcodes : ∀ s ∈ seqs, ∀ c ∈ s.1, c < vocab.length) :
    ∃ k C' v', k ≤ n.toNat ∧ RunMax minEv level (squeezed seqs) vocab k C' v' ∧
      ((ppLearn ord .replace seqs none vocab n minEv level = .ok v' ∧ (k = n.toNat ∨ ∀ q, pairCount C' q < minEv)) ∨
       (ppLearn ord .replace seqs none vocab n minEv level = .error .value ∧ k < n.toNat ∧ ∀ q, pairCount C' q = 0) ∨
       (k < n.toNat ∧ ∃ p, IsMax C' p ∧ minEv ≤ pairCount C' p ∧ ¬ Apart C' p)) := by
  obtain ⟨I, G, e, hI, hc⟩ := bpeInit_spec (seqs := squeezed seqs) (vocab := vocab) (by simpa [squeezed] using hne) (squeezed_ok hs) hidx hnames
    (squeezed_codes hcodes)
  have hB : PpInv { mem := I.mem, bi := I.bi, ix := I.ix, uni := I.uni, vocab := vocab } G :=
    { wf := hI.wf, keys := hI.keys, nodup := hI.nodup, ixmem := hI.ixmem, uni := hI.uni, uknd := hI.uknd, freqs := hI.freqs,
      nonempty := hI.nonempty, vals := by simp only [hc]; exact squeezed_codes hcodes, bi := hI.bi, bknd := by
        simp only; rw [hI.bikeys]; exact hI.keys }
  obtain ⟨k, C', v', hk, hrun, hcase⟩ := ppLoop_spec hord hmin level n.toNat hB
  simp only [hc] at hrun
  refine ⟨k, C', v', hk, hrun, ?_⟩
  rcases hcase with ⟨S', h1, h2, h3⟩ | ⟨h1, h2, h3⟩ | h1
  · exact Or.inl ⟨by simp only [ppLearn, ppInit_replace, e, h1, h2], h3⟩
  · exact Or.inr (Or.inl ⟨by simp only [ppLearn, ppInit_replace, e, h1], h2, h3⟩)
  · exact Or.inr (Or.inr h1)

/-! ## cube-free corpora -/

/-- the expansion of one symbol -/
def expand1 (a b r x : Nat) : List Nat := if x = r then [a, b] else [x]

theorem Spec.Replaces.expand {a b r : Nat} {s t : List Nat} (h : Replaces a b r s t) (hr : r ∉ s) : t.flatMap (expand1 a b r) = s := by
  induction h with
  | nil => rfl
  | @keep x s t h ih =>
    simp only [List.mem_cons, not_or] at hr
    rw [List.flatMap_cons, ih hr.2, expand1, if_neg (Ne.symm hr.1)]; rfl
  | @pair s t h ih =>
    simp only [List.mem_cons, not_or] at hr
    rw [List.flatMap_cons, ih hr.2.2, expand1, if_pos rfl]; rfl

/-- every symbol of a later corpus stands for a non-empty block of the first one -/
theorem RunMax_expand {minEv level : Int} {C C' : Corpus} {v v' : List Ty} {n : Nat} (h : RunMax minEv level C v n C' v') :
    (∀ s ∈ C, ∀ c ∈ s.1, c < v.length) →
    ∃ e : Nat → List Nat, (∀ x, e x ≠ []) ∧ ∀ t ∈ C', ∃ s ∈ C, s.1 = t.1.flatMap e := by
  induction h with
  | refl C v => intro _; exact ⟨fun x => [x], by simp, fun t ht => ⟨t, ht, by simp⟩⟩
  | @step C C1 C' v v' n p ta tb hmax hev hap hta htb hm hrun ih =>
    intro hv
    have hrel := Rel.of_merged hm
    have hv1 : ∀ s ∈ C1, ∀ c ∈ s.1, c < (v ++ [mergedType v ta tb level (pairCount C p)]).length := by
      intro t ht c hc
      obtain ⟨s, hs, _, hx⟩ := Rel.mem hrel t ht
      simp only [List.length_append, List.length_singleton]
      rcases hx c hc with h3 | h3
      · have := hv s hs c h3; omega
      · omega
    obtain ⟨e, he, hall⟩ := ih hv1
    refine ⟨fun x => (e x).flatMap (expand1 p.1 p.2 v.length), ?_, ?_⟩
    · intro x hx
      rw [List.flatMap_eq_nil_iff] at hx
      obtain ⟨y, hy⟩ := List.exists_mem_of_ne_nil _ (he x)
      have := hx y hy
      unfold expand1 at this
      split at this <;> simp at this
    · intro t ht
      obtain ⟨s1, hs1, e1⟩ := hall t ht
      have key : ∀ {D D1 : Corpus}, Rel p.1 p.2 v.length D D1 → ∀ t ∈ D1, ∃ s ∈ D, Replaces p.1 p.2 v.length s.1 t.1 := by
        intro D D1 h
        induction h with
        | nil => simp
        | cons hx h ih =>
          intro t ht
          rcases List.mem_cons.1 ht with rfl | ht
          · exact ⟨_, by simp, hx.2⟩
          · obtain ⟨s, hs, h⟩ := ih t ht; exact ⟨s, by simp [hs], h⟩
      obtain ⟨s, hs, hrep⟩ := key hrel s1 hs1
      refine ⟨s, hs, ?_⟩
      rw [← hrep.expand (fun hm => absurd (hv s hs _ hm) (by omega)), e1, List.flatMap_assoc]

/-- from a cube-free corpus the occurrences of pairs never overlap -/
theorem RunMax_apart {minEv level : Int} {C C' : Corpus} {v v' : List Ty} {n : Nat} (h : RunMax minEv level C v n C' v')
    (hv : ∀ s ∈ C, ∀ c ∈ s.1, c < v.length) (hc : CubeFree C) (p : Nat × Nat) : Apart C' p := by
  obtain ⟨e, he, hall⟩ := RunMax_expand h hv
  intro _ t ht hi
  obtain ⟨s, hs, es⟩ := hall t ht
  obtain ⟨A, B, hAB⟩ := hi
  refine hc s hs (e p.1) (he _) ?_
  rw [es, ← hAB]
  exact ⟨A.flatMap e, B.flatMap e, by simp [List.flatMap_append, List.flatMap_cons]⟩

end Verif
