import Verif.Props.Frequent
/-!
# Property C25: when learning with a threshold runs out of pairs

With a threshold and no size, learning fails on every text all of whose words reach the threshold, and succeeds on every text with a
character that does not.
-/

namespace Verif
open Spec

theorem replaces_count {a b r x : Nat} {s t : List Nat} (h : Replaces a b r s t) (ha : a ≠ x) (hb : b ≠ x) (hr : r ≠ x) : t.count x = s.count x := by
  induction h with
  | nil => rfl
  | keep y _ ih => simp [List.count_cons, ih]
  | pair _ ih => simp [ih, ha, hb, hr]

theorem replaces_two {a b r x : Nat} {s t : List Nat} (h : Replaces a b r s t) (ha : a ≠ x) (hb : b ≠ x) (hx : x ∈ s) (hs : 2 ≤ s.length) :
    2 ≤ t.length := by
  cases h with
  | nil => cases hx
  | @keep y s t h =>
    have := List.length_pos_iff.2 (h.ne_nil (by rintro rfl; simp at hs))
    simp only [List.length_cons]; omega
  | @pair s t h =>
    have hx' : x ∈ s := by simpa [ha.symm, hb.symm] using hx
    have := List.length_pos_iff.2 (h.ne_nil (by rintro rfl; simp at hx'))
    simp only [List.length_cons]; omega

theorem merged_symCount {p : Nat × Nat} {r x : Nat} {C C1 : Corpus} (h : Merged p r C C1) (ha : p.1 ≠ x) (hb : p.2 ≠ x) (hr : r ≠ x) :
    symCount C1 x = symCount C x := by
  unfold Merged at h
  induction h with
  | nil => rfl
  | cons hst _ ih => rw [symCount_cons, symCount_cons, ih, ← hst.1, replaces_count hst.2.1 ha hb hr]

/-- a symbol rarer than the threshold stays -/
theorem run_rare {minEv level : Int} {C C' : Corpus} {v v' : List Ty} {k x : Nat} (h : Run minEv level C v k C' v') :
    (∀ s ∈ C, s.1 ≠ [] ∧ 0 < s.2) → (∀ s ∈ C, ∀ c ∈ s.1, c < v.length) → symCount C x < minEv → (∃ s ∈ C, x ∈ s.1 ∧ 2 ≤ s.1.length) →
      ∃ s ∈ C', x ∈ s.1 ∧ 2 ≤ s.1.length := by
  induction h with
  | refl => exact fun _ _ _ h => h
  | @step C C1 C' v v' n p ta tb hb hm ha hb2 hmer hr ih =>
    intro hs hc hx hex
    obtain ⟨g1, g2⟩ := pairCount_le_symCount (fun s hs' => le_of_lt (hs s hs').2) p
    have n1 : p.1 ≠ x := by rintro rfl; omega
    have n2 : p.2 ≠ x := by rintro rfl; omega
    obtain ⟨s, hsm, hxs, hlen⟩ := hex
    have n3 : v.length ≠ x := by rintro rfl; exact absurd (hc s hsm _ hxs) (Nat.lt_irrefl _)
    obtain ⟨w1, w2⟩ := hmer.wf hs hc
    refine ih w1 (by simpa using w2) (by rw [merged_symCount hmer n1 n2 n3]; exact hx) ?_
    obtain ⟨t, ht, _, h2, _⟩ := mem_of_forall₂_right hmer.flip s hsm
    refine ⟨t, ht, ?_, replaces_two h2 n1 n2 hxs hlen⟩
    rw [← List.count_pos_iff, replaces_count h2 n1 n2 n3]
    exact List.count_pos_iff.2 hxs

theorem symCount_coded {tf : List (Str × Int)} {v0 : List Ty} {C : Corpus} (hd : (names v0).Nodup) (h : List.Forall₂ (CodedWord v0) tf C)
    {c x : Nat} {t : Ty} (hx : v0[x]? = some t) (ht : t.name = [c]) (h1 : x ≠ 1) : symCount C x = chCount tf c := by
  induction h with
  | nil => rfl
  | @cons p s tf C hps _ ih =>
    rw [symCount_cons, chCount_cons, ih, hps.1]
    congr 2
    have key : ∀ {w : Str} {s : List Nat}, List.Forall₂ (CodeOf v0) w s → s.count x = w.count c := by
      intro w s hf
      induction hf with
      | nil => rfl
      | @cons d i w s hdi _ ih =>
        rw [List.count_cons, List.count_cons, ih]
        have : i = x ↔ d = c := by
          constructor
          · rintro rfl
            rcases hdi with ⟨u, hu, hn⟩ | ⟨_, e⟩
            · rw [hx] at hu
              cases hu
              rw [ht] at hn
              cases hn; rfl
            · exact absurd e h1
          · rintro rfl
            exact codeOf_unique hd hdi (.inl ⟨t, hx, ht⟩)
        simp [this]
    exact_mod_cast key hps.2

/-- C25, what holds with a threshold of two or more and neither size nor coverage, for a text of fewer than 2^60 characters: if some
character other than U+2581 occurs more rarely than the threshold asks, learning returns a vocabulary.  Missing: other texts, see
`C25_frequent_refuted`. -/
theorem C25_rare_partial {ord : Nat → List Nat → List Nat} (hord : ∀ i l, (ord i l).Perm l) (A : Acc) {data : List Str}
    {vs minEv : Int} (mf : Int) {toks : List (List Str)} (ht : List.Forall₂ Tokens data toks)
    (hsize : (toks.flatten.map fun w => w.length + 1).sum < 2 ^ 60) (hmin : 1 < minEv) (hvs : vs ≤ 1) {c : Nat} (hc : c ≠ SP)
    (hin : c ∈ toks.flatten.flatten) (hrare : (toks.flatten.flatten.count c : Int) < minEv) :
    ∃ vocab, bpeLearn ord A data vs mf none minEv = .ok vocab := by
  obtain ⟨t1, t2, t3⟩ := termFrequencies_word data
  obtain ⟨cf, v0, C, c1, c2, c3, c4, c5, c6, c0, c7⟩ := bpeLearnTf_cases (A := A) (ord := ord) t1 t2 t3 (lc := (termFrequencies .word data).2)
    (vs := vs) (mf := mf) (minEv := minEv) (cov := none) (by simp)
  obtain ⟨w, hw, hcw⟩ := List.mem_flatten.1 hin
  have hcounts : ∀ n f, (n, f) ∈ (termFrequencies .word data).1 ↔ n ∈ toks.flatten ∧ f = toks.flatten.count n := by
    intro n f
    rw [C15_counts data toks ht (k := .word) (Or.inl rfl)]
    simp only [if_true]
    rw [show toks.flatMap (fun ws => ws) = toks.flatten from List.flatMap_id]
  have hmem := (hcounts w _).2 ⟨hw, rfl⟩
  have hlt : (v0.length : Int) < effSize vs minEv := by
    have g1 := initial_bound c2 c3
    have g2 := words_bound hcounts t1
    rw [effSize, if_pos ⟨hmin, hvs⟩]
    omega
  have hch : chCount (termFrequencies .word data).1 c = (toks.flatten.flatten.count c : Nat) := by
    rw [chCount_text ht, List.count_flatMap, List.count_flatten]
    congr 2
    refine List.map_congr_left fun w _ => ?_
    simp [Ne.symm hc]
  have hp : 0 < chCount (termFrequencies .word data).1 c := chCount_pos_of_mem t2 hmem hcw
  have hkept : [c] ∈ names v0 := kept_nocut c1 (noCut_none A cf) c0 (le_refl _) (by omega) ((c2 [c] _).2 ⟨c, rfl, rfl, hp⟩)
  obtain ⟨t, htm, htn⟩ := List.mem_map.1 hkept
  obtain ⟨x, hx⟩ := List.getElem?_of_mem htm
  have hx1 : x ≠ 1 := by
    rintro rfl
    have := congrArg (fun l => l[1]?) c3.reserved
    simp only [List.getElem?_map, List.getElem?_take, hx] at this
    simp only [show (1 : Nat) < 6 by decide, if_true, Option.map_some, htn] at this
    revert this
    simp [lit]
  have hsym := symCount_coded c3.distinct c4 hx htn hx1
  obtain ⟨s, hs, _, hsf⟩ := mem_of_forall₂_right c4.flip _ hmem
  have hxs : x ∈ s.1 := by
    obtain ⟨i, hi, hci⟩ := mem_of_forall₂_right hsf.flip c (List.mem_append_left _ hcw)
    rwa [codeOf_unique c3.distinct hci (.inl ⟨t, hx, htn⟩)] at hi
  have hlen : 2 ≤ s.1.length := by
    have := hsf.length_eq
    have := List.length_pos_of_mem hcw
    simp only [List.length_append, List.length_singleton] at *
    omega
  simp only [bpeLearn]
  rw [c7, if_pos hlt]
  obtain ⟨v', _, _, h, _⟩ := C25_graceful_partial hord minEv Level.subword (effSize vs minEv - v0.length).toNat (List.ne_nil_of_mem hs) c5 c3.indexed c3.distinct c6
    fun k C' v' _ hrun => by
      obtain ⟨u, hu, _, hl⟩ := run_rare hrun c5 c6 (x := x) (by rw [hsym, hch]; exact hrare) ⟨s, hs, hxs, hlen⟩
      refine ⟨u, hu, fun d e => ?_⟩
      rw [e] at hl
      simp at hl
  exact ⟨v', h⟩

/-- "c" is seen once, the other characters reach the threshold 2 -/
example : List.count 99 [lit "ab", lit "ab", lit "abc"].flatten = 1 ∧
    (bpeLearn ordId accExact [lit "ab ab abc"] 0 1 none 2).toOption.map List.length = some 11 := by decide +kernel

/-- C25 is false of every text (of fewer than 2^60 characters) all of whose words are seen as often as the threshold asks: with a threshold of
two or more and no size, learning raises IndexError, whatever the coverage. -/
theorem C25_frequent_refuted {ord : Nat → List Nat → List Nat} (hord : ∀ i l, (ord i l).Perm l) {A : Acc} {data : List Str}
    {vs mf minEv : Int} {cov : Option A.F} (hv : ∀ c, cov = some c → A.valid c = true) {toks : List (List Str)} (ht : List.Forall₂ Tokens data toks)
    (hsize : (toks.flatten.map fun w => w.length + 1).sum < 2 ^ 60) (hmin : 1 < minEv) (hvs : vs ≤ 1) (hne : toks.flatten ≠ [])
    (hall : ∀ w ∈ toks.flatten, minEv ≤ toks.flatten.count w) : bpeLearn ord A data vs mf cov minEv = .error .index := by
  have hno : ∀ vocab, bpeLearn ord A data vs mf cov minEv ≠ .ok vocab := by
    intro vocab h
    obtain ⟨tf, v0, C, k, C', h1, _, _, h4, h5⟩ := C93_corpus hord ht hv h
    have hstop : (vocab.length : Int) < effSize vs minEv := by
      have := vocab_bound hord ht hv h
      rw [effSize, if_pos ⟨hmin, hvs⟩]
      omega
    obtain ⟨p, hp, hlt⟩ := h5.resolve_left (by omega)
    have hle : ∀ s ∈ C', minEv ≤ s.2 := by
      intro s hs
      obtain ⟨q, hq, e, _⟩ := mem_of_forall₂_right h4 s hs
      obtain ⟨g1, g2⟩ := (h1 q.1 q.2).1 hq
      have := hall _ g1
      omega
    obtain ⟨s, hs, hsp⟩ := exists_of_count hp.1
    have := le_pairCount (fun s hs => by have := hle s hs; omega) hs (p := p) fun h0 => by
      have := pairOcc_infix hsp h0
      simp [pairOcc] at this
    have := hle s hs
    omega
  obtain ⟨t1, t2, t3⟩ := termFrequencies_word data
  obtain ⟨cf, v0, C, c1, c2, c3, c4, c5, c6, c0, c7⟩ := bpeLearnTf_cases (ord := ord) t1 t2 t3 (lc := (termFrequencies .word data).2)
    (vs := vs) (mf := mf) (minEv := minEv) (cov := cov) hv
  have hcounts : ∀ n f, (n, f) ∈ (termFrequencies .word data).1 ↔ n ∈ toks.flatten ∧ f = toks.flatten.count n := by
    intro n f
    rw [C15_counts data toks ht (k := .word) (Or.inl rfl)]
    simp only [if_true]
    rw [show toks.flatMap (fun ws => ws) = toks.flatten from List.flatMap_id]
  have hlt : (v0.length : Int) < effSize vs minEv := by
    have g1 := initial_bound c2 c3
    have g2 := words_bound hcounts t1
    rw [effSize, if_pos ⟨hmin, hvs⟩]
    omega
  obtain ⟨w, hw⟩ := List.exists_mem_of_ne_nil _ hne
  obtain ⟨s, hs, _⟩ := mem_of_forall₂_right c4.flip _ ((hcounts w _).2 ⟨hw, rfl⟩)
  simp only [bpeLearn] at hno ⊢
  rw [c7, if_pos hlt] at hno ⊢
  rcases C21_no_internal_error hord minEv Level.subword (effSize vs minEv - v0.length).toNat (List.ne_nil_of_mem hs) c5 c3.indexed c3.distinct c6 with
    ⟨v', h⟩ | ⟨h, _⟩
  · exact absurd h (hno v')
  · exact h

/-- "ab" twice and "b" three times, with the threshold 2 -/
example : bpeLearn ordRev accExact [lit "ab b", lit "ab b b"] 0 1 none 2 = .error .index := by decide +kernel

end Verif
