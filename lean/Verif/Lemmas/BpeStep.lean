import Verif.Lemmas.BpeHeap
/-! # Rounds of the BPE learner -/

namespace Verif
open Spec

/-- decidable version of `At` for a live node -/
def atB (m : Mem) (q : Pair) (n : Nat) : Bool :=
  decide ((m n).val = q.1) && (match (m n).right with | some k => decide ((m k).val = q.2) | none => false)

theorem atB_iff (m : Mem) (q : Pair) (n : Nat) : atB m q n = true ↔ (m n).val = q.1 ∧ ∃ k, (m n).right = some k ∧ (m k).val = q.2 := by
  unfold atB
  cases (m n).right <;> simp

theorem isum_cons (x : Int) (l : List Int) : isum (x :: l) = x + isum l := rfl

/-- the weight of the nodes that start a pair is the count of the pair -/
theorem pairCount_eq_isum {m : Mem} {S : Segs} (h : Wf m S) (q : Pair) :
    pairCount (corpusOf m S) q = isum (((liveOf S).filter (atB m q)).map fun n => (m n).freq) := by
  have key : ∀ s ∈ S, s.2 * pairOcc q (s.1.map fun n => (m n).val) = isum ((s.1.filter (atB m q)).map fun n => (m n).freq) := by
    intro s hs
    have gen : ∀ (B A : List Nat), s.1 = A ++ B →
        s.2 * pairOcc q (B.map fun n => (m n).val) = isum ((B.filter (atB m q)).map fun n => (m n).freq) := by
      intro B
      induction B with
      | nil => intro A _; simp [pairOcc, isum]
      | cons n B ih =>
        intro A e
        have hl := h.linked s hs A n B e
        rw [List.map_cons, pairOcc_cons, mul_add, ih (A ++ [n]) (by simp [e])]
        have hat : hd q (m n).val (B.map fun n => (m n).val).head? = if atB m q n = true then 1 else 0 := by
          unfold hd
          apply if_congr _ rfl rfl
          rw [atB_iff, hl.2.1, List.head?_map]
          cases B.head? <;> simp
        rw [hat, List.filter_cons]
        split
        · rw [List.map_cons, isum_cons, hl.2.2]; ring
        · ring
    exact gen s.1 [] rfl
  clear h
  induction S with
  | nil => rfl
  | cons s S ih =>
    have e1 : corpusOf m (s :: S) = (s.1.map fun n => (m n).val, s.2) :: corpusOf m S := rfl
    rw [e1, pairCount_cons, liveOf_cons, List.filter_append, List.map_append, isum_append, key s (by simp),
      ih (fun s hs => key s (by simp [hs]))]

theorem pairCount_eq_ids {m : Mem} {S : Segs} (h : Wf m S) {q : Pair} {l : List Nat} (hn : l.Nodup) (hm : ∀ j, j ∈ l ↔ At m S j q) :
    pairCount (corpusOf m S) q = isum (l.map fun n => (m n).freq) := by
  rw [pairCount_eq_isum h]
  apply isum_perm
  apply List.Perm.map
  rw [List.perm_ext_iff_of_nodup (h.nodup.filter _) hn]
  intro j
  rw [List.mem_filter, atB_iff, hm j]
  rfl

theorem mem_of_pairOcc {q : Pair} {s : List Nat} (h : pairOcc q s ≠ 0) : q.1 ∈ s ∧ q.2 ∈ s := by
  induction s with
  | nil => simp [pairOcc] at h
  | cons x s ih =>
    rw [pairOcc_cons] at h
    by_cases hs : pairOcc q s = 0
    · have : hd q x s.head? ≠ 0 := by omega
      unfold hd at this
      split at this
      · rename_i hx
        exact ⟨by simp [hx.1], by simp [List.mem_of_head? hx.2]⟩
      · simp at this
    · have := ih hs
      simp [this]

theorem mem_of_pairCount {C : Corpus} {q : Pair} (h : pairCount C q ≠ 0) : ∃ s ∈ C, q.1 ∈ s.1 ∧ q.2 ∈ s.1 := by
  induction C with
  | nil => simp [pairCount] at h
  | cons s C ih =>
    rw [pairCount_cons] at h
    by_cases hs : pairOcc q s.1 = 0
    · rw [hs] at h
      obtain ⟨t, ht, h2⟩ := ih (by omega)
      exact ⟨t, by simp [ht], h2⟩
    · exact ⟨s, by simp, mem_of_pairOcc hs⟩

theorem symCount_nonneg {C : Corpus} (h : ∀ s ∈ C, 0 ≤ s.2) (v : Nat) : 0 ≤ symCount C v := by
  induction C with
  | nil => simp [symCount]
  | cons s C ih =>
    rw [symCount_cons]
    have h1 := ih (fun s hs => h s (by simp [hs]))
    have h2 := mul_nonneg (h s (by simp)) (Int.natCast_nonneg (s.1.count v))
    omega

theorem symCount_eq_zero {C : Corpus} {v : Nat} (h : ∀ s ∈ C, v ∉ s.1) : symCount C v = 0 := by
  induction C with
  | nil => simp [symCount]
  | cons s C ih =>
    rw [symCount_cons, ih (fun s hs => h s (by simp [hs])), List.count_eq_zero_of_not_mem (h s (by simp))]
    simp

theorem Rel.mem {a b r : Nat} {C C' : Corpus} (h : Rel a b r C C') : ∀ t ∈ C', ∃ s ∈ C, s.2 = t.2 ∧ ∀ x ∈ t.1, x ∈ s.1 ∨ x = r := by
  induction h with
  | nil => simp
  | cons hx h ih =>
    intro t ht
    rcases List.mem_cons.1 ht with rfl | ht
    · exact ⟨_, by simp, hx.1, hx.2.mem⟩
    · obtain ⟨s, hs, h1⟩ := ih t ht
      exact ⟨s, by simp [hs], h1⟩

/-- invariant of the rounds -/
structure LInv (S : LState) (G : Segs) : Prop where
  wf : Wf S.mem G
  keys : (Dict.keys S.ix).Nodup
  nodup : ∀ q, (ids S.ix q).Nodup
  ixmem : ∀ q j, j ∈ ids S.ix q ↔ At S.mem G j q
  uni : ∀ v, Dict.cnt S.uni v = symCount (corpusOf S.mem G) v
  uknd : (Dict.keys S.uni).Nodup
  freqs : ∀ s ∈ G, 0 < s.2
  nonempty : ∀ s ∈ G, s.1 ≠ []
  vals : ∀ s ∈ corpusOf S.mem G, ∀ v ∈ s.1, v < S.vocab.length
  heap : HInv (pairCount (corpusOf S.mem G)) S.vocab.length (fun _ => False) S.heap S.dirty

theorem corpusOf_freqs {m : Mem} {G : Segs} (h : ∀ s ∈ G, 0 < s.2) : ∀ s ∈ corpusOf m G, 0 ≤ s.2 := by
  intro t ht
  obtain ⟨s, hs, rfl⟩ := List.mem_map.1 ht
  exact le_of_lt (h s hs)

/-- one round: either no pair is left, or the best one is too rare, or it is merged -/
theorem learnStep_spec {ord : List Nat → List Nat} (hord : ∀ l, (ord l).Perm l) (minEv level : Int) {S : LState} {G : Segs}
    (h : LInv S G) :
    (learnStep ord minEv level S = .error .index ∧ ∀ q, pairCount (corpusOf S.mem G) q = 0) ∨
    (∃ S' p, learnStep ord minEv level S = .ok (S', false) ∧ S'.vocab = S.vocab ∧ IsBest (corpusOf S.mem G) p ∧
      pairCount (corpusOf S.mem G) p < minEv) ∨
    (∃ S' G' p ta tb, learnStep ord minEv level S = .ok (S', true) ∧ LInv S' G' ∧ IsBest (corpusOf S.mem G) p ∧
      minEv ≤ pairCount (corpusOf S.mem G) p ∧ S.vocab[p.1]? = some ta ∧ S.vocab[p.2]? = some tb ∧
      Merged p S.vocab.length (corpusOf S.mem G) (corpusOf S'.mem G') ∧
      S'.vocab = S.vocab ++ [mergedType S.vocab ta tb level (pairCount (corpusOf S.mem G) p)]) := by
  have hfr := corpusOf_freqs (m := S.mem) h.freqs
  have hc0 : ∀ q, 0 ≤ pairCount (corpusOf S.mem G) q := fun q => pairCount_nonneg hfr q
  rcases popClean_spec hc0 (S.dirty.length + 1) S.heap S.dirty h.heap (by omega) with ⟨e, hz⟩ | ⟨⟨a, b⟩, h1, d1, e, hpos, hbest, hpa, hpb, hh⟩
  · left; exact ⟨by simp only [learnStep, e], hz⟩
  · right
    simp only at hpa hpb
    have hisb : IsBest (corpusOf S.mem G) (a, b) := ⟨hpos, hbest⟩
    by_cases hmin : pairCount (corpusOf S.mem G) (a, b) < minEv
    · left
      exact ⟨{ S with heap := h1, dirty := d1 }, (a, b), by simp only [learnStep, e, hmin, if_true], rfl, hisb, hmin⟩
    · right
      have hvals := h.vals
      have huni0 := h.uni
      generalize hC : corpusOf S.mem G = C at *
      generalize hR : S.vocab.length = R at *
      have haR : a ≠ R := by omega
      have hbR : b ≠ R := by omega
      obtain ⟨ta, hta⟩ : ∃ ta, S.vocab[a]? = some ta := ⟨S.vocab[a]'(by omega), List.getElem?_eq_getElem (by omega)⟩
      obtain ⟨tb, htb⟩ : ∃ tb, S.vocab[b]? = some tb := ⟨S.vocab[b]'(by omega), List.getElem?_eq_getElem (by omega)⟩
      have hsum : pairCount C (a, b) = isum ((ids S.ix (a, b)).map fun n => (S.mem n).freq) := by
        rw [← hC]; exact pairCount_eq_ids h.wf (h.nodup _) (h.ixmem _)
      obtain ⟨nodes, hnodes⟩ : ∃ nodes, Dict.get? S.ix (a, b) = some nodes := by
        cases hg : Dict.get? S.ix (a, b) with
        | none => rw [ids, hg] at hsum; simp [isum] at hsum; omega
        | some l => exact ⟨l, rfl⟩
      have hids : ids S.ix (a, b) = nodes := by simp [ids, hnodes]
      have hget : ∀ q, Dict.get? (Dict.erase S.ix (a, b)) q = if (a, b) = q then none else Dict.get? S.ix q := Dict.get?_erase h.keys _
      have hidse : ∀ q, ids (Dict.erase S.ix (a, b)) q = if (a, b) = q then [] else ids S.ix q := by
        intro q; unfold ids; rw [hget]; split <;> rfl
      have hnR : ∀ s ∈ C, R ∉ s.1 := fun s hs hm => absurd (hvals s hs R hm) (by omega)
      have hRset : Dict.cnt S.uni R = 0 := by rw [huni0, symCount_eq_zero hnR]
      let uni1 := Dict.incr (Dict.incr (Dict.set S.uni R (pairCount C (a, b))) a (-(pairCount C (a, b)))) b (-(pairCount C (a, b)))
      have hP : PInv a b R C (ord nodes) { mem := S.mem, ix := Dict.erase S.ix (a, b), uni := uni1, deltas := [] } G := by
        have hmemo : ∀ u, u ∈ ord nodes ↔ At S.mem G u (a, b) := by
          intro u; rw [(hord nodes).mem_iff, ← hids]; exact h.ixmem _ u
        refine { wf := h.wf, ixok := ⟨Dict.nodup_keys_erase h.keys _, by rw [hget, if_pos rfl], ?_⟩, ixmem := ?_,
                 tnd := (hord nodes).nodup_iff.2 (hids ▸ h.nodup (a, b)), tcase := fun u hu => Or.inl ((hmemo u).1 hu),
                 tall := fun j hj => (hmemo j).2 hj, uni := ?_, uknd := ?_, dsnd := by simp [Dict.keys], ds := ?_, dsab := by simp [Dict.cnt],
                 rel := by rw [hC]; exact Rel.refl _ _ _ _, freqs := h.freqs, nonempty := h.nonempty }
        · intro q; rw [hidse]; split
          · exact List.nodup_nil
          · exact h.nodup q
        · intro q hq j
          rw [hidse, if_neg (Ne.symm hq)]; exact h.ixmem q j
        · intro v
          have e1 : isum ((ord nodes).map fun u => (S.mem u).freq) = pairCount C (a, b) := by
            rw [hsum, hids]; exact isum_perm ((hord nodes).map _)
          have e2 : Dict.cnt (Dict.set S.uni R (pairCount C (a, b))) v = if R = v then pairCount C (a, b) else Dict.cnt S.uni v := by
            unfold Dict.cnt; rw [Dict.get?_set]; split <;> rfl
          have e3 := huni0 v
          simp only [uni1]
          rw [e1, Dict.cnt_incr, Dict.cnt_incr, e2, hC]
          simp only [ind]
          by_cases hRv : R = v
          · subst hRv
            rw [hRset] at e3
            rw [← e3]
            simp [haR, hbR]
          · rw [if_neg hRv, if_neg hRv, e3]
            split <;> split <;> ring
        · exact Dict.nodup_keys_incr (Dict.nodup_keys_incr (Dict.nodup_keys_set h.uknd _ _) _ _) _ _
        · intro q _; rw [hC]; simp [Dict.cnt]
      obtain ⟨P, G', eP, hP'⟩ := passLoop_ok haR hbR hP
      generalize hC' : corpusOf P.mem G' = C' at *
      have hnoat : ∀ j, ¬ At P.mem G' j (a, b) := fun j hj => by simpa using hP'.tall j hj
      have hzero : ∀ s ∈ C', pairOcc (a, b) s.1 = 0 := by rw [← hC']; exact pairOcc_zero_of_not_at hP'.wf hnoat
      have hrel : Rel a b R C C' := by rw [← hC']; exact hP'.rel
      have hmerged : Merged (a, b) R C C' := by
        unfold Merged
        have : ∀ t ∈ C', pairOcc (a, b) t.1 = 0 := hzero
        clear * - hrel this
        induction hrel with
        | nil => exact .nil
        | cons hx h ih => exact .cons ⟨hx.1, hx.2, this _ (by simp)⟩ (ih (fun t ht => this t (by simp [ht])))
      have hfr' : ∀ s ∈ C', 0 ≤ s.2 := by rw [← hC']; exact corpusOf_freqs hP'.freqs
      have huni : ∀ v, Dict.cnt P.uni v = symCount C' v := by
        intro v
        have := hP'.uni v
        simp only [List.map_nil, hC'] at this
        rw [this]; simp [isum]
      have hab0 : pairCount C' (a, b) = 0 := by
        by_contra hne
        have hz : ∀ D : Corpus, (∀ s ∈ D, pairOcc (a, b) s.1 = 0) → pairCount D (a, b) = 0 := by
          intro D hD
          induction D with
          | nil => simp [pairCount]
          | cons s D ih => rw [pairCount_cons, hD s (by simp), ih (fun s hs => hD s (by simp [hs]))]; simp
        exact hne (hz C' hzero)
      have hds : ∀ q, q ≠ (a, b) → Dict.cnt P.deltas q = pairCount C' q - pairCount C q := by
        intro q hq; have := hP'.ds q hq; rw [hC'] at this; exact this
      have hcR : ∀ q : Pair, (R = q.1 ∨ R = q.2) → pairCount C q = 0 := by
        intro q hq
        by_contra hne
        obtain ⟨s, hs, hm1, hm2⟩ := mem_of_pairCount hne
        rcases hq with e | e
        · exact hnR s hs (e ▸ hm1)
        · exact hnR s hs (e ▸ hm2)
      have hle : ∀ q : Pair, ¬ (R = q.1 ∨ R = q.2) → pairCount C' q ≤ pairCount C q := by
        intro q hq
        exact hrel.count_le hfr (fun e => hq (Or.inl e.symm)) (fun e => hq (Or.inr e.symm))
      have habR : ¬ (R = a ∨ R = b) := by omega
      have hdsign : ∀ q δ, (q, δ) ∈ P.deltas → (0 < δ → R = q.1 ∨ R = q.2) ∧ (δ < 0 → ¬ (R = q.1 ∨ R = q.2)) := by
        intro q δ hq
        have hcnt : Dict.cnt P.deltas q = δ := cnt_of_get? (Dict.get?_of_mem hP'.dsnd hq)
        by_cases hqab : q = (a, b)
        · subst hqab
          have := hP'.dsab
          exact ⟨fun h0 => by omega, fun _ => habR⟩
        · have h2 := hds q hqab
          constructor
          · intro h0
            by_contra hn
            have := hle q hn
            omega
          · intro h0 hn
            have := hcR q hn
            have := pairCount_nonneg hfr' q
            omega
      obtain ⟨h2, d2, e2, hord2, hmem2, hnd2, hdnd2, hneg2, hcnt2, hkey2⟩ := applyDeltas_spec P.deltas h1 d1 hh.ord hP'.dsnd hh.dnd hh.neg hdsign
      refine ⟨{ mem := P.mem, ix := P.ix, uni := P.uni, vocab := S.vocab ++ [mergedType S.vocab ta tb level (pairCount C (a, b))],
                heap := h2, dirty := d2 }, G', (a, b), ta, tb, ?_, ?_, hisb, by omega, hta, htb, ?_, rfl⟩
      · have hu1 : ¬ (Dict.get? P.uni a).getD 0 < 0 := by
          have := huni a; have h3 := symCount_nonneg hfr' a; unfold Dict.cnt at this; omega
        have hu2 : ¬ (Dict.get? P.uni b).getD 0 < 0 := by
          have := huni b; have h3 := symCount_nonneg hfr' b; unfold Dict.cnt at this; omega
        simp only [learnStep, e, hmin, if_false, hta, htb, hnodes, hR, uni1] at eP ⊢
        simp only [eP, hu1, hu2, if_false, e2, mergedType, hR]
      · have hlen : (S.vocab ++ [mergedType S.vocab ta tb level (pairCount C (a, b))]).length = R + 1 := by simp [hR]
        refine { wf := hP'.wf, keys := hP'.ixok.keys, nodup := hP'.ixok.nodup, ixmem := ?_, uni := ?_, uknd := hP'.uknd, freqs := hP'.freqs,
                 nonempty := hP'.nonempty, vals := ?_, heap := ?_ }
        · intro q j
          by_cases hq : q = (a, b)
          · subst hq
            simp only [ids, hP'.ixok.none]
            simp [hnoat j]
          · exact hP'.ixmem q hq j
        · intro v; simp only [hC']; exact huni v
        · simp only [hC']
          intro t ht v hv
          obtain ⟨s, hs, _, hx⟩ := Rel.mem hrel t ht
          rw [hlen]
          rcases hx v hv with h3 | h3
          · have := hvals s hs v h3; omega
          · omega
        · simp only [hC', hlen]
          have hinh : ∀ f q, (f, q) ∈ h1 → q ≠ (a, b) ∧ ¬ (R = q.1 ∨ R = q.2) := by
            intro f q hq
            have hm : q ∈ h1.map (·.2) := List.mem_map.2 ⟨_, hq, rfl⟩
            have := hh.hb q hm
            exact ⟨hh.hex q hm, by omega⟩
          refine { ord := hord2, nodup := ?_, dnd := hdnd2, val := ?_, pos := ?_, cover := ?_, neg := hneg2, hb := ?_, db := ?_, hex := by simp }
          · apply hnd2
            refine ⟨hh.nodup, ?_⟩
            intro q δ hq h0 hm
            have hRq := (hdsign q δ hq).1 h0
            have := hh.hb q hm
            omega
          · intro f q hq
            rcases (hmem2 (f, q)).1 hq with h3 | ⟨q', δ, h3, h4, h5⟩
            · obtain ⟨hn1, hn2⟩ := hinh f q h3
              have h6 := hh.val f q h3
              have h7 := hds q hn1
              have h8 := hle q hn2
              rw [hcnt2]; omega
            · injection h5 with h5 h6
              subst h6
              have hRq := (hdsign q δ h3).1 h4
              have hcnt : Dict.cnt P.deltas q = δ := cnt_of_get? (Dict.get?_of_mem hP'.dsnd h3)
              have hqab : q ≠ (a, b) := by rintro rfl; exact habR hRq
              have h7 := hds q hqab
              have h8 := hcR q hRq
              have h9 : Dict.cnt d1 q = 0 := by
                apply cnt_none
                rw [Dict.get?_eq_none_iff]
                intro hm
                have := hh.db q hm
                omega
              rw [hcnt2, h9]; omega
          · intro f q hq
            rcases (hmem2 (f, q)).1 hq with h3 | ⟨q', δ, h3, h4, h5⟩
            · exact hh.pos f q h3
            · injection h5 with h5 h6; omega
          · intro q hq _
            by_cases hRq : R = q.1 ∨ R = q.2
            · have hqab : q ≠ (a, b) := by rintro rfl; exact habR hRq
              have h7 := hds q hqab
              have h8 := hcR q hRq
              have h9 : 0 < Dict.cnt P.deltas q := by omega
              obtain ⟨δ, hδ⟩ : ∃ δ, Dict.get? P.deltas q = some δ := by
                cases hg : Dict.get? P.deltas q with
                | none => rw [cnt_none hg] at h9; omega
                | some δ => exact ⟨δ, rfl⟩
              rw [cnt_of_get? hδ] at h9
              exact List.mem_map.2 ⟨(-δ, q), (hmem2 _).2 (Or.inr ⟨q, δ, Dict.mem_of_get? hδ, h9, rfl⟩), rfl⟩
            · have hqab : q ≠ (a, b) := by rintro rfl; omega
              have h8 := hle q hRq
              obtain ⟨x, hx, hxe⟩ := List.mem_map.1 (hh.cover q (by omega) hqab)
              exact List.mem_map.2 ⟨x, (hmem2 _).2 (Or.inl hx), hxe⟩
          · intro q hq
            obtain ⟨⟨f, q'⟩, hx, hxe⟩ := List.mem_map.1 hq
            simp only at hxe; subst hxe
            rcases (hmem2 (f, q')).1 hx with h3 | ⟨q'', δ, h3, h4, h5⟩
            · have := hh.hb q' (List.mem_map.2 ⟨_, h3, rfl⟩); omega
            · injection h5 with h5 h6
              subst h6
              have hRq := (hdsign q' δ h3).1 h4
              have hcnt : Dict.cnt P.deltas q' = δ := cnt_of_get? (Dict.get?_of_mem hP'.dsnd h3)
              have hqab : q' ≠ (a, b) := by rintro rfl; exact habR hRq
              have h7 := hds q' hqab
              have h8 := hcR q' hRq
              obtain ⟨t, ht, hm1, hm2⟩ := mem_of_pairCount (C := C') (q := q') (by omega)
              obtain ⟨s, hs, _, hxx⟩ := Rel.mem hrel t ht
              constructor
              · rcases hxx _ hm1 with h3 | h3
                · have := hvals s hs _ h3; omega
                · omega
              · rcases hxx _ hm2 with h3 | h3
                · have := hvals s hs _ h3; omega
                · omega
          · intro q hq
            rcases hkey2 q hq with h3 | h3
            · have := hh.db q h3; omega
            · by_cases hqab : q = (a, b)
              · subst hqab; simp only; omega
              · have h7 := hds q hqab
                have h8 := pairCount_nonneg hfr' q
                obtain ⟨s, hs, hm1, hm2⟩ := mem_of_pairCount (C := C) (q := q) (by omega)
                have := hvals s hs _ hm1
                have := hvals s hs _ hm2
                omega
      · simp only [hC']; exact hmerged

/-- the rounds follow the specification -/
theorem learnLoop_spec {ord : Nat → List Nat → List Nat} (hord : ∀ i l, (ord i l).Perm l) (minEv level : Int) (n : Nat) :
    ∀ {S : LState} {G : Segs}, LInv S G →
    (∃ S' k C', learnLoop ord minEv level n S = .ok S' ∧ k ≤ n ∧ Run minEv level (corpusOf S.mem G) S.vocab k C' S'.vocab ∧
      (k = n ∨ ∃ p, IsBest C' p ∧ pairCount C' p < minEv)) ∨
    (∃ k C' v', learnLoop ord minEv level n S = .error .index ∧ k < n ∧ Run minEv level (corpusOf S.mem G) S.vocab k C' v' ∧
      ∀ q, pairCount C' q = 0) := by
  induction n with
  | zero =>
    intro S G _
    left; exact ⟨S, 0, corpusOf S.mem G, rfl, le_rfl, .refl _ _, Or.inl rfl⟩
  | succ n ih =>
    intro S G h
    rcases learnStep_spec (hord n) minEv level h with ⟨e, hz⟩ | ⟨S', p, e, hv, hb, hlt⟩ | ⟨S', G', p, ta, tb, e, h', hb, hge, hta, htb, hmg, hv⟩
    · right
      exact ⟨0, _, _, by simp only [learnLoop, e], by omega, .refl _ _, hz⟩
    · left
      exact ⟨S', 0, corpusOf S.mem G, by simp only [learnLoop, e], by omega, by rw [hv]; exact .refl _ _, Or.inr ⟨p, hb, hlt⟩⟩
    · rcases ih h' with ⟨S2, k, C', e2, hk, hrun, hstop⟩ | ⟨k, C', v', e2, hk, hrun, hz⟩
      · left
        refine ⟨S2, k + 1, C', by simp only [learnLoop, e, e2], by omega, .step hb hge hta htb hmg (hv ▸ hrun), ?_⟩
        rcases hstop with rfl | hs
        · exact Or.inl rfl
        · exact Or.inr hs
      · right
        exact ⟨k + 1, C', v', by simp only [learnLoop, e, e2], by omega, .step hb hge hta htb hmg (hv ▸ hrun), hz⟩

end Verif
