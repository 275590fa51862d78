import Verif.Props.Rare
import Verif.Props.Masked
/-!
# Property C25: words that never become one symbol

A word stays in two or more pieces if fewer words of the text end like it than the threshold asks; learning then returns a vocabulary.
-/

namespace Verif
open Spec

theorem count_textOf {v : List Ty} {x c : Nat} {t : Ty} (hx : v[x]? = some t) (hc : c ∈ t.name) (s : List Nat) :
    s.count x ≤ (textOf v s).count c := by
  induction s with
  | nil => simp
  | cons i s ih =>
    rw [textOf_cons, List.count_append, List.count_cons]
    split
    · rename_i h
      have h : i = x := by simpa using h
      subst h
      have := List.count_pos_iff.2 hc
      simp only [hx, Option.map_some, Option.getD_some]
      omega
    · omega

theorem marker_suffix {w q A B : Str} (hq : SP ∉ q) (h : A ++ (w ++ [SP]) ++ B = q ++ [SP]) : w <:+ q := by
  rcases List.eq_nil_or_concat B with rfl | ⟨B, b, rfl⟩
  · rw [List.append_nil, ← List.append_assoc] at h
    exact ⟨A, List.append_inj_left' h rfl⟩
  · rw [List.concat_eq_append, ← List.append_assoc] at h
    have := List.append_inj_left' h rfl
    exact absurd (this ▸ (by simp : SP ∈ A ++ (w ++ [SP]) ++ B)) hq

/-- a pair that spells out a whole word occurs at most once in each word, and only in the words that end like it -/
theorem pair_suffix {v : List Ty} {p : Nat × Nat} {ta tb : Ty} (ha : v[p.1]? = some ta) (hb : v[p.2]? = some tb) (hne : tb.name ≠ [])
    {w : Str} (hw : ta.name ++ tb.name = w ++ [SP]) {tf : List (Str × Int)} {C : Corpus} (hp : ∀ q ∈ tf, 0 < q.2 ∧ SP ∉ q.1)
    (h : List.Forall₂ (fun q s => s.2 = q.2 ∧ textOf v s.1 = q.1 ++ [SP]) tf C) :
    pairCount C p ≤ (tf.map fun q => q.2 * ((if w <:+ q.1 then 1 else 0 : Nat) : Int)).sum := by
  have hsp : SP ∈ tb.name := by
    obtain ⟨l, z, e⟩ := List.eq_nil_or_concat tb.name |>.resolve_left hne
    rw [List.concat_eq_append] at e
    rw [e, ← List.append_assoc] at hw
    have := List.append_inj_right' hw rfl
    rw [e, this]
    simp
  induction h with
  | nil => simp [pairCount]
  | @cons q s tf C hqs _ ih =>
    have ih := ih fun q hq => hp q (by simp [hq])
    obtain ⟨hpos, hno⟩ := hp q (by simp)
    rw [pairCount_cons, List.map_cons, List.sum_cons, hqs.1]
    refine add_le_add (mul_le_mul_of_nonneg_left ?_ (le_of_lt hpos)) ih
    have h1 : pairOcc p s.1 ≤ 1 := by
      have g1 := (pairOcc_le_count_snd p s.1).1
      have g2 := count_textOf hb hsp s.1
      rw [hqs.2, List.count_append, List.count_eq_zero_of_not_mem hno] at g2
      have : List.count SP [SP] = 1 := by simp
      omega
    split
    · exact_mod_cast h1
    · rename_i hs
      by_contra hlt
      have hC : 0 < pairCount [(s.1, 1)] p := by
        simp only [pairCount, List.map_cons, List.map_nil, List.sum_cons, List.sum_nil]
        simp only [Nat.cast_zero] at hlt
        omega
      obtain ⟨u, hu, A, B, e⟩ := exists_of_count hC
      rw [List.mem_singleton] at hu
      subst hu
      simp only at e
      refine hs (marker_suffix hno (A := textOf v A) (B := textOf v B) ?_)
      rw [← hqs.2, ← e, textOf_append, textOf_append, ← hw]
      simp [textOf, ha, hb]

theorem merged_texts {v : List Ty} {p : Nat × Nat} {ta tb t : Ty} (ha : v[p.1]? = some ta) (hb : v[p.2]? = some tb)
    (hn : t.name = ta.name ++ tb.name) {tf : List (Str × Int)} {C C1 : Corpus} (hm : Merged p v.length C C1)
    (hc : ∀ s ∈ C, ∀ c ∈ s.1, c < v.length) (h : List.Forall₂ (fun q s => s.2 = q.2 ∧ textOf v s.1 = q.1 ++ [SP]) tf C) :
    List.Forall₂ (fun q s => s.2 = q.2 ∧ textOf (v ++ [t]) s.1 = q.1 ++ [SP]) tf C1 := by
  unfold Merged at hm
  induction h generalizing C1 with
  | nil => cases hm; exact .nil
  | cons hqs _ ih =>
    cases hm with
    | cons g1 g2 =>
      exact .cons ⟨g1.1.symm.trans hqs.1, (g1.2.1.textOf ha hb hn (hc _ (by simp))).trans hqs.2⟩ (ih g2 fun s hs => hc s (by simp [hs]))

/-- a word stays in two or more pieces if fewer words end like it than the threshold asks -/
theorem run_suffix {minEv level : Int} {C C' : Corpus} {v v' : List Ty} {k : Nat} (h : Run minEv level C v k C' v') {w : Str}
    {tf : List (Str × Int)} (hp : ∀ q ∈ tf, 0 < q.2 ∧ SP ∉ q.1)
    (hlow : (tf.map fun q => q.2 * ((if w <:+ q.1 then 1 else 0 : Nat) : Int)).sum < minEv) :
    (∀ s ∈ C, s.1 ≠ [] ∧ 0 < s.2) → (∀ s ∈ C, ∀ c ∈ s.1, c < v.length) → (∀ t ∈ v, t.name ≠ []) →
    List.Forall₂ (fun q s => s.2 = q.2 ∧ textOf v s.1 = q.1 ++ [SP]) tf C → (∃ s ∈ C, textOf v s.1 = w ++ [SP] ∧ 2 ≤ s.1.length) →
      ∃ s ∈ C', 2 ≤ s.1.length := by
  induction h with
  | refl => exact fun _ _ _ _ ⟨s, h1, _, h2⟩ => ⟨s, h1, h2⟩
  | @step C C1 C' v v' n p ta tb hb hm ha hb2 hmer hr ih =>
    intro hs hc hn htf ⟨s, hsm, hst, hlen⟩
    obtain ⟨w1, w2⟩ := hmer.wf hs hc
    have hname : (mergedType v ta tb level (pairCount C p)).name = ta.name ++ tb.name := rfl
    refine ih w1 (by simpa using w2) ?_ ?_ ?_
    · intro t ht
      rcases List.mem_append.1 ht with ht | ht
      · exact hn t ht
      · rw [List.mem_singleton] at ht
        subst ht
        rw [hname]
        exact fun e => hn ta (List.mem_of_getElem? ha) (List.append_eq_nil_iff.1 e).1
    · exact merged_texts ha hb2 hname hmer hc htf
    · obtain ⟨t, ht, _, h2, _⟩ := mem_of_forall₂_right hmer.flip s hsm
      refine ⟨t, ht, (h2.textOf ha hb2 hname (hc s hsm)).trans hst, ?_⟩
      have hbad : s.1 ≠ [p.1, p.2] := by
        intro e
        have := pair_suffix ha hb2 (hn tb (List.mem_of_getElem? hb2)) (w := w) (by rw [← hst, e]; simp [textOf, ha, hb2]) hp htf
        omega
      clear ht hst hsm
      generalize s.1 = s1 at h2 hlen hbad
      generalize t.1 = t1 at h2
      cases h2 with
      | nil => simp at hlen
      | @keep y s t h =>
        have := List.length_pos_iff.2 (h.ne_nil (by rintro rfl; simp at hlen))
        simp only [List.length_cons]; omega
      | @pair s t h =>
        have := List.length_pos_iff.2 (h.ne_nil (by rintro rfl; exact hbad rfl))
        simp only [List.length_cons]; omega

theorem texts_coded {v : List Ty} {tf : List (Str × Int)} {C : Corpus} (hk : ∀ q ∈ tf, ∀ c ∈ q.1 ++ [SP], [c] ∈ names v)
    (h : List.Forall₂ (CodedWord v) tf C) : List.Forall₂ (fun q s => s.2 = q.2 ∧ textOf v s.1 = q.1 ++ [SP]) tf C := by
  induction h with
  | nil => exact .nil
  | cons hqs _ ih => exact .cons ⟨hqs.1, (codes_name hqs.2 (hk _ (by simp))).2⟩ (ih fun q hq => hk q (by simp [hq]))

theorem forall₂_and {α β : Type} {R S : α → β → Prop} {l : List α} {m : List β} (h1 : List.Forall₂ R l m) (h2 : List.Forall₂ S l m) :
    List.Forall₂ (fun a b => R a b ∧ S a b) l m := by
  induction h1 with
  | nil => exact .nil
  | cons h _ ih => cases h2 with | cons g1 g2 => exact .cons ⟨h, g1⟩ (ih g2)

/-- C25, what holds with a threshold of two or more and neither size nor coverage, for a text (without U+2581) of fewer than 2^60 characters:
if the text has a word `w` such that fewer of its words end in `w` than the threshold asks, learning returns a vocabulary.  A word that is
itself rarer is not enough, see `C25_suffix_needed`.  Missing: other texts, see `C25_frequent_refuted`. -/
theorem C25_suffix_partial {ord : Nat → List Nat → List Nat} (hord : ∀ i l, (ord i l).Perm l) (A : Acc) {data : List Str}
    {vs minEv : Int} (mf : Int) {toks : List (List Str)} (ht : List.Forall₂ Tokens data toks)
    (hsize : (toks.flatten.map fun w => w.length + 1).sum < 2 ^ 60) (hmin : 1 < minEv) (hvs : vs ≤ 1) (hsp : SP ∉ toks.flatten.flatten)
    {w : Str} (hw : w ∈ toks.flatten) (hrare : (toks.flatten.countP (w <:+ ·) : Int) < minEv) :
    ∃ vocab, bpeLearn ord A data vs mf none minEv = .ok vocab := by
  obtain ⟨t1, t2, t3⟩ := termFrequencies_word data
  obtain ⟨cf, v0, C, c1, c2, c3, c4, c5, c6, c0, c7⟩ := bpeLearnTf_cases (A := A) (ord := ord) t1 t2 t3 (lc := (termFrequencies .word data).2)
    (vs := vs) (mf := mf) (minEv := minEv) (cov := none) (by simp)
  have hcounts : ∀ n f, (n, f) ∈ (termFrequencies .word data).1 ↔ n ∈ toks.flatten ∧ f = toks.flatten.count n := by
    intro n f
    rw [C15_counts data toks ht (k := .word) (Or.inl rfl)]
    simp only [if_true]
    rw [show toks.flatMap (fun ws => ws) = toks.flatten from List.flatMap_id]
  have hmem := (hcounts w _).2 ⟨hw, rfl⟩
  have hlt : (v0.length : Int) < effSize vs minEv := by
    have g1 := initial_bound c2 c3
    have g2 := words_bound hcounts t1
    rw [effSize, if_pos ⟨hmin, hvs⟩]
    omega
  have hpos : ∀ q ∈ (termFrequencies .word data).1, 0 < q.2 ∧ SP ∉ q.1 := by
    rintro ⟨n, f⟩ hq
    refine ⟨t2 _ hq, fun hm => hsp ?_⟩
    exact List.mem_flatten.2 ⟨n, ((hcounts n f).1 hq).1, hm⟩
  have hlow : ((termFrequencies .word data).1.map fun q => q.2 * ((if w <:+ q.1 then 1 else 0 : Nat) : Int)).sum < minEv := by
    have := sum_counted (termFrequencies_nodup .word data) hcounts (fun q => if w <:+ q then 1 else 0)
    rw [this]
    have e : (toks.flatten.map fun q => if w <:+ q then 1 else 0).sum = toks.flatten.countP (w <:+ ·) := by
      generalize toks.flatten = l
      induction l with
      | nil => rfl
      | cons q l ih =>
        rw [List.map_cons, List.sum_cons, ih, List.countP_cons]
        simp only [decide_eq_true_eq]
        omega
    rw [e]
    exact hrare
  have htexts : List.Forall₂ (fun q s => s.2 = q.2 ∧ textOf v0 s.1 = q.1 ++ [SP]) (termFrequencies .word data).1 C := by
    have hkept : ∀ q ∈ (termFrequencies .word data).1, ∀ c ∈ q.1 ++ [SP], [c] ∈ names v0 := by
      intro q hq c hcq
      refine kept_nocut c1 (noCut_none A cf) c0 (le_refl _) (by omega) (p := ([c], chCount (termFrequencies .word data).1 c)) ((c2 [c] _).2 ⟨c, rfl, rfl, ?_⟩)
      rw [chCount_text ht]
      exact_mod_cast List.count_pos_iff.2 (List.mem_flatMap.2 ⟨q.1, ((hcounts q.1 q.2).1 hq).1, hcq⟩)
    exact texts_coded hkept c4
  obtain ⟨s, hs, ⟨_, hsc⟩, _, hst⟩ := mem_of_forall₂_right (forall₂_and c4 htexts).flip _ hmem
  have hlen : 2 ≤ s.1.length := by
    have := hsc.length_eq
    have := List.length_pos_iff.2 (t3 _ hmem)
    simp only [List.length_append, List.length_singleton] at *
    omega
  simp only [bpeLearn]
  rw [c7, if_pos hlt]
  obtain ⟨v', _, _, h, _⟩ := C25_graceful_partial hord minEv Level.subword (effSize vs minEv - v0.length).toNat (List.ne_nil_of_mem hs) c5 c3.indexed c3.distinct c6
    fun k C' v' _ hrun => by
      obtain ⟨u, hu, hl⟩ := run_suffix hrun hpos hlow c5 c6 (fun t ht => contract_nonempty c3 c2 _ (List.mem_map.2 ⟨t, ht, rfl⟩)) htexts
        ⟨s, hs, hst, hlen⟩
      refine ⟨u, hu, fun d e => ?_⟩
      rw [e] at hl
      simp at hl
  exact ⟨v', h⟩

/-- the word "ab" is seen twice, but four words end in it, and "xab" once: threshold 2 -/
example : [lit "ab", lit "ab", lit "xab", lit "yab"].countP (lit "xab" <:+ ·) = 1 ∧
    (bpeLearn ordId accExact [lit "ab ab xab yab"] 0 1 none 2).toOption.map List.length = some 12 := by decide +kernel

/-- every character is seen twice or more, and "aba" is the only word that ends in "aba" -/
example : [lit "ab", lit "ab", lit "aba"].countP (lit "aba" <:+ ·) = 1 ∧
    (bpeLearn ordId accExact [lit "ab ab aba"] 0 1 none 2).toOption.isSome = true := by decide +kernel

/-- That a word is rarer than the threshold asks is not enough: "b" is seen once, but "ab" three times. -/
theorem C25_suffix_needed : [lit "ab", lit "ab", lit "ab", lit "b"].count (lit "b") = 1 ∧
    bpeLearn ordId accExact [lit "ab ab ab b"] 0 1 none 2 = .error .index := by decide +kernel

end Verif
