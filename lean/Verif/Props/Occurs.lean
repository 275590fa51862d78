import Verif.Spec.Occurs
import Verif.Props.ControlExact
import Verif.Props.Names
/-!
# Property C126: learned BPE types occur in the text, at least as often as their frequency says
-/

namespace Verif
open Spec

theorem occ_head (n : Str) (c : Nat) (s : Str) : occ n (c :: s) = (if n <+: c :: s then 1 else 0) + occ n s := by
  simp only [occ, List.tails_cons, List.countP_cons, decide_eq_true_eq]
  omega

theorem occ_suffix (n a s : Str) : occ n s ≤ occ n (a ++ s) := by
  induction a with
  | nil => exact le_refl _
  | cons c a ih => rw [List.cons_append, occ_head]; omega

theorem infix_of_occ {n s : Str} (h : 0 < occ n s) : n <:+: s := by
  obtain ⟨r, hr, hp⟩ := List.countP_pos_iff.1 h
  exact (of_decide_eq_true hp).isInfix.trans ((List.mem_tails _ _).1 hr).isInfix

theorem textOf_step (v : List Ty) (i : Nat) (x : List Nat) : textOf v (i :: x) = ((v[i]?).map (·.name)).getD [] ++ textOf v x := by
  simp [textOf]

theorem pairOcc_le_occ {v : List Ty} (hne : ∀ t ∈ v, t.name ≠ []) {p : Nat × Nat} {ta tb : Ty} (ha : v[p.1]? = some ta) (hb : v[p.2]? = some tb) :
    ∀ x : List Nat, pairOcc p x ≤ (occ (ta.name ++ tb.name) (textOf v x) : Int)
  | [] => by simp [pairOcc]
  | [_] => by simp [pairOcc]
  | a :: y :: r => by
    have ih := pairOcc_le_occ hne ha hb (y :: r)
    rw [pairOcc]
    split
    · rename_i e
      subst e
      rw [textOf_step, ha, Option.map_some, Option.getD_some]
      obtain ⟨c, m, hm⟩ := List.exists_cons_of_ne_nil (hne ta (List.mem_of_getElem? ha))
      have hp : ta.name ++ tb.name <+: ta.name ++ textOf v (y :: r) := by
        rw [textOf_step, hb, Option.map_some, Option.getD_some, ← List.append_assoc]
        exact List.prefix_append _ _
      generalize ta.name ++ tb.name = n at *
      rw [hm] at hp ⊢
      rw [List.cons_append] at hp ⊢
      rw [occ_head, if_pos hp]
      have := occ_suffix n m (textOf v (y :: r))
      omega
    · rw [textOf_step]
      have := occ_suffix (ta.name ++ tb.name) (((v[a]?).map (·.name)).getD []) (textOf v (y :: r))
      omega

/-- every type added by merging has at most the frequency with which its name occurs in the texts of the sequences -/
theorem Spec.Run.occurs {minEv level : Int} {C C' : Corpus} {v v' : List Ty} {k : Nat} (h : Run minEv level C v k C' v') (hne : ∀ t ∈ v, t.name ≠ [])
    (hs : ∀ s ∈ C, s.1 ≠ [] ∧ 0 < s.2) (hc : ∀ s ∈ C, ∀ c ∈ s.1, c < v.length) :
    ∃ new, v' = v ++ new ∧ ∀ t ∈ new, 0 < t.freq ∧ t.kids ≠ [] ∧ t.freq ≤ (C.map fun s => s.2 * (occ t.name (textOf v s.1) : Int)).sum := by
  induction h with
  | refl => exact ⟨[], by simp, by simp⟩
  | @step C C1 C' v v' n p ta tb hb hm ha hb2 hmer hr ih =>
    obtain ⟨h1, h2⟩ := hmer.wf hs hc
    obtain ⟨new, e, hn⟩ := ih (by
      intro t ht
      rcases List.mem_append.1 ht with ht | ht
      · exact hne t ht
      · rw [List.mem_singleton.1 ht]
        simp [mergedType, hne ta (List.mem_of_getElem? ha)]) h1 (by simpa using h2)
    refine ⟨_ :: new, by rw [e, List.append_assoc]; rfl, ?_⟩
    intro t ht
    rcases List.mem_cons.1 ht with rfl | ht2
    · refine ⟨hb.1, by simp [mergedType], ?_⟩
      simp only [mergedType, pairCount]
      refine List.sum_le_sum fun s hsm => ?_
      exact mul_le_mul_of_nonneg_left (pairOcc_le_occ hne ha hb2 s.1) (le_of_lt (hs s hsm).2)
    · obtain ⟨g1, g3, g2⟩ := hn t ht2
      refine ⟨g1, g3, le_of_le_of_eq g2 ?_⟩
      clear g1 g2 hn ih hr h1 h2 hb hm e ht ht2
      generalize hnew : mergedType v ta tb level (pairCount C p) = nt
      have hname : nt.name = ta.name ++ tb.name := by rw [← hnew]; rfl
      clear hnew
      congr 1
      induction hmer with
      | nil => rfl
      | @cons s s1 C C1 hx _ ih =>
        rw [List.map_cons, List.map_cons, ih (fun s h => hs s (by simp [h])) (fun s h => hc s (by simp [h])), hx.1,
          hx.2.1.textOf ha hb2 hname (hc s (by simp))]

theorem run_append {minEv level : Int} {C C' : Corpus} {v v' : List Ty} {k : Nat} (h : Run minEv level C v k C' v') :
    ∃ new, v' = v ++ new ∧ ∀ t ∈ new, t.kids ≠ [] := by
  induction h with
  | refl => exact ⟨[], by simp⟩
  | step _ _ _ _ _ _ ih =>
    obtain ⟨new, e, hk⟩ := ih
    refine ⟨_, by rw [e, List.append_assoc], ?_⟩
    intro t ht
    rcases List.mem_append.1 ht with ht | ht
    · rw [List.mem_singleton.1 ht]; simp [mergedType]
    · exact hk t ht

/-- the text of a coded word: unknown characters are `<unk>` -/
theorem codes_text {v0 : List Ty} (hu : (v0[1]?).map (·.name) = some (lit "<unk>")) {w : Str} {s : List Nat} (h : List.Forall₂ (CodeOf v0) w s) :
    textOf v0 s = w.flatMap (known (names v0)) := by
  induction h with
  | nil => rfl
  | @cons c i w s hc _ ih =>
    rw [textOf_step, ih, List.flatMap_cons]
    congr 1
    rcases hc with ⟨t, ht, hn⟩ | ⟨hno, rfl⟩
    · rw [ht, known, if_pos (show [c] ∈ names v0 from List.mem_map.2 ⟨t, List.mem_of_getElem? ht, hn⟩)]
      simp [hn]
    · rw [hu, known, if_neg hno]
      rfl

theorem sum_counts {tf : List (Str × Int)} {l : List Str} (h : ∀ n f, (n, f) ∈ tf ↔ n ∈ l ∧ f = l.count n) (hnd : (tf.map (·.1)).Nodup) (g : Str → Int) :
    (tf.map fun p => p.2 * g p.1).sum = (l.map g).sum := by
  have hperm : (tf.map (·.1)).Perm l.dedup := by
    rw [List.perm_ext_iff_of_nodup hnd (List.nodup_dedup _)]
    intro n
    rw [List.mem_map, List.mem_dedup]
    constructor
    · rintro ⟨⟨m, f⟩, hm, rfl⟩; exact ((h m f).1 hm).1
    · intro hn; exact ⟨(n, _), (h n _).2 ⟨hn, rfl⟩, rfl⟩
  have e1 : (tf.map fun p => p.2 * g p.1) = (tf.map (·.1)).map fun n => (l.count n : Int) * g n := by
    rw [List.map_map]
    refine List.map_congr_left ?_
    rintro ⟨n, f⟩ hp
    simp [((h n f).1 hp).2]
  rw [e1, (hperm.map _).sum_eq]
  clear e1 hperm h hnd
  induction l with
  | nil => rfl
  | cons a l ih =>
    rw [List.map_cons, List.sum_cons, ← ih]
    by_cases ha : a ∈ l
    · rw [List.dedup_cons_of_mem ha]
      have hd := List.nodup_dedup l
      have : a ∈ l.dedup := List.mem_dedup.2 ha
      revert hd this
      generalize l.dedup = d
      intro hd this
      clear ih
      induction d with
      | nil => simp at this
      | cons b d ihd =>
        rw [List.map_cons, List.map_cons, List.sum_cons, List.sum_cons]
        by_cases hb : a = b
        · subst hb
          have hn := (List.nodup_cons.1 hd).1
          have : (d.map fun n => ((a :: l).count n : Int) * g n) = d.map fun n => (l.count n : Int) * g n :=
            List.map_congr_left fun n hm => by
              rw [List.count_cons_of_ne (fun e : a = n => hn (e ▸ hm))]
          rw [this, List.count_cons_self]
          push_cast
          ring
        · rw [ihd (List.nodup_cons.1 hd).2 (by simpa [hb] using this), List.count_cons_of_ne hb]
          ring
    · rw [List.dedup_cons_of_notMem ha, List.map_cons, List.sum_cons, List.count_cons_self, List.count_eq_zero_of_not_mem ha]
      have : (l.dedup.map fun n => ((a :: l).count n : Int) * g n) = l.dedup.map fun n => (l.count n : Int) * g n :=
        List.map_congr_left fun n hm => by
          rw [List.count_cons_of_ne (fun e : a = n => ha (e ▸ List.mem_dedup.1 hm))]
      rw [this]
      simp

/-- C126: every type that BPE learning adds by merging occurs within a word of the text (ended by U+2581, unknown characters as `<unk>`); its frequency is positive
and at most the number of its occurrences. -/
theorem C126_occurs {ord : Nat → List Nat → List Nat} (hord : ∀ i l, (ord i l).Perm l) {A : Acc} {data : List Str} {toks : List (List Str)}
    (ht : List.Forall₂ Tokens data toks) {vs mf : Int} {cov : Option A.F} {minEv : Int} {vocab : List Ty}
    (hv : ∀ c, cov = some c → A.valid c = true) (h : bpeLearn ord A data vs mf cov minEv = .ok vocab) {t : Ty} (htm : t ∈ vocab) (hk : t.kids ≠ []) :
    (∃ w ∈ toks.flatten, t.name <:+: (w ++ [0x2581]).flatMap (known (names vocab))) ∧ 0 < t.freq ∧
      t.freq ≤ (toks.flatten.map fun w => (occ t.name ((w ++ [0x2581]).flatMap (known (names vocab))) : Int)).sum := by
  obtain ⟨t1, t2, t3⟩ := termFrequencies_word data
  obtain ⟨cf, v0, C, c1, c2, c3, c4, c5, c6, _, c7⟩ := bpeLearnTf_cases (ord := ord) t1 t2 t3 (lc := (termFrequencies .word data).2)
    (vs := vs) (mf := mf) (minEv := minEv) hv
  simp only [bpeLearn] at h
  rw [c7] at h
  split at h
  swap
  · cases h
  obtain ⟨k, C', _, hrun, _⟩ := C20_merges hord c5 c3.indexed c3.distinct c6 h
  have hres : names (v0.take 6) = special := by
    have := congrArg (List.map (·.1)) c3.reserved
    rw [List.map_map] at this
    exact this
  have h0 : ∀ u ∈ v0, u.name ≠ [] ∧ u.kids = [] := by
    intro u hu
    rw [← List.take_append_drop 6 v0] at hu
    rcases List.mem_append.1 hu with hu | hu
    · have h1 : (u.name, u.level, u.kids) ∈ (v0.take 6).map (fun t => (t.name, t.level, t.kids)) := List.mem_map.2 ⟨u, hu, rfl⟩
      rw [c3.reserved] at h1
      have h2 : ∀ y ∈ ([(lit "<pad>", -1, []), (lit "<unk>", -1, []), (lit "<s>", -1, []), (lit "</s>", -1, []),
        (lit "<cls>", -1, []), ([0x2581], -1, [])] : List (Str × Int × List Ty)), y.1 ≠ [] ∧ y.2.2 = [] := by decide
      exact h2 _ h1
    · obtain ⟨c, e, _⟩ := (c2 _ _).1 (c3.counted u hu).1
      exact ⟨by rw [e]; simp, (c3.counted u hu).2.2⟩
  obtain ⟨new, e, hn⟩ := hrun.occurs (fun u hu => (h0 u hu).1) c5 c6
  have hsing := run_singles hrun fun u hu => (h0 u hu).1
  have hknown : ∀ c, known (names vocab) c = known (names v0) c := fun c => by simp only [known, hsing c]
  have htn : t ∈ new := by
    rw [e] at htm
    rcases List.mem_append.1 htm with h | h
    · exact absurd (h0 t h).2 hk
    · exact h
  obtain ⟨g1, _, g2⟩ := hn t htn
  have hunk : (v0[1]?).map (·.name) = some (lit "<unk>") := by
    have : (names (v0.take 6))[1]? = some (lit "<unk>") := by rw [hres]; rfl
    rw [names, List.getElem?_map, List.getElem?_take_of_lt (by omega)] at this
    exact this
  have hsum : (C.map fun s => s.2 * (occ t.name (textOf v0 s.1) : Int)).sum =
      (toks.flatten.map fun w => (occ t.name ((w ++ [0x2581]).flatMap (known (names vocab))) : Int)).sum := by
    rw [← sum_counts (tf := (termFrequencies .word data).1) _ t1]
    · congr 1
      clear * - c4 hunk hknown
      generalize (termFrequencies .word data).1 = tf at c4
      induction c4 with
      | nil => rfl
      | @cons p s tf C hc _ ih =>
        rw [List.map_cons, List.map_cons, ih, hc.1, codes_text hunk hc.2]
        rw [funext hknown]
    · intro n f
      rw [C15_counts data toks ht (k := .word) (Or.inl rfl)]
      simp only [if_true]
      rw [show toks.flatMap (fun ws => ws) = toks.flatten from List.flatMap_id]
  rw [hsum] at g2
  refine ⟨?_, g1, g2⟩
  by_contra hno
  have hz : (toks.flatten.map fun w => (occ t.name ((w ++ [0x2581]).flatMap (known (names vocab))) : Int)).sum = 0 := by
    refine List.sum_eq_zero fun z hz => ?_
    obtain ⟨w, hw, rfl⟩ := List.mem_map.1 hz
    by_contra hne
    exact hno ⟨w, hw, infix_of_occ (by omega)⟩
  omega

/-- C126 without coverage cut: the types occur in the words as they are. -/
theorem C126_plain {ord : Nat → List Nat → List Nat} (hord : ∀ i l, (ord i l).Perm l) {A : Acc} {data : List Str} {toks : List (List Str)}
    (ht : List.Forall₂ Tokens data toks) {vs mf minEv : Int} {vocab : List Ty} (h : bpeLearn ord A data vs mf none minEv = .ok vocab) {t : Ty}
    (htm : t ∈ vocab) (hk : t.kids ≠ []) :
    (∃ w ∈ toks.flatten, t.name <:+: w ++ [0x2581]) ∧ 0 < t.freq ∧ t.freq ≤ (toks.flatten.map fun w => (occ t.name (w ++ [0x2581]) : Int)).sum := by
  have hv : ∀ c, (none : Option A.F) = some c → A.valid c = true := by simp
  have hkn : ∀ w ∈ toks.flatten, (w ++ [0x2581]).flatMap (known (names vocab)) = w ++ [0x2581] := by
    obtain ⟨t1, t2, t3⟩ := termFrequencies_word data
    obtain ⟨cf, v0, C, c1, c2, c3, c4, c5, c6, c0, c7⟩ := bpeLearnTf_all t1 t2 t3 (lc := (termFrequencies .word data).2)
      (vs := vs) (mf := mf) (minEv := minEv) hv
    have h' := h
    simp only [bpeLearn] at h'
    rw [c7] at h'
    split at h'
    swap
    · cases h'
    obtain ⟨k, C', _, hrun, _⟩ := C20_merges hord c5 c3.indexed c3.distinct c6 h'
    obtain ⟨new, e, _⟩ := run_append hrun
    intro w hw
    have hk : ∀ c ∈ w ++ [0x2581], known (names vocab) c = [c] := by
      intro c hc
      have h1 : (w, ((toks.flatten.count w : Nat) : Int)) ∈ (termFrequencies .word data).1 := by
        rw [C15_counts data toks ht (k := .word) (Or.inl rfl)]
        simp only [if_true]
        rw [show toks.flatMap (fun ws => ws) = toks.flatten from List.flatMap_id]
        exact ⟨hw, rfl⟩
      have h2 := chars_kept t2 c1 c2 c3 c0 _ h1 c hc
      rw [known, if_pos]
      rw [e, names, List.map_append]
      exact List.mem_append_left _ h2
    generalize w ++ [0x2581] = u at hk
    induction u with
    | nil => rfl
    | cons c u ih => rw [List.flatMap_cons, hk c (by simp), ih fun d hd => hk d (by simp [hd])]; rfl
  obtain ⟨⟨w, hw, h1⟩, h2, h3⟩ := C126_occurs hord ht hv h htm hk
  refine ⟨⟨w, hw, hkn w hw ▸ h1⟩, h2, ?_⟩
  rwa [List.map_congr_left fun w hw => by rw [hkn w hw]] at h3

/-- in "abab ab abab" the type "ab" has the frequency 5 with which it occurs; in "aaa aaa" overlapping occurrences of "aa" are counted -/
example : (outcome (bpeLearn ordId accExact [lit "abab ab abab"] 9 1 none 2)).toOption.map (fun v => v.drop 8) = some [(lit "ab", 5)] ∧
    (([lit "abab", lit "ab", lit "abab"].map fun w => (occ (lit "ab") (w ++ [0x2581]) : Int)).sum = 5) ∧
    (outcome (bpeLearn ordId accExact [lit "aaa aaa"] 8 1 none 2)).toOption.map (fun v => v.drop 7) = some [(lit "aa", 4)] ∧
    (([lit "aaa", lit "aaa"].map fun w => (occ (lit "aa") (w ++ [0x2581]) : Int)).sum = 4) := by decide +kernel

/-- learned from a text without "<", only reserved names have it -/
theorem learned_lt {ord : Nat → List Nat → List Nat} (hord : ∀ i l, (ord i l).Perm l) {A : Acc} {data : List Str} {toks : List (List Str)}
    (ht : List.Forall₂ Tokens data toks) (hlt : ∀ ws ∈ toks, ∀ w ∈ ws, 60 ∉ w) {vs mf minEv : Int} {vocab : List Ty}
    (h : bpeLearn ord A data vs mf none minEv = .ok vocab) : ∀ n ∈ names vocab, 60 ∈ n → n ∈ special := by
  have hv : ∀ c, (none : Option A.F) = some c → A.valid c = true := by simp
  intro n hn h60
  obtain ⟨t, htm, rfl⟩ := List.mem_map.1 hn
  by_cases hk : t.kids = []
  swap
  · exfalso
    obtain ⟨⟨w, hw, hi⟩, _⟩ := C126_plain hord ht h htm hk
    have := hi.subset h60
    obtain ⟨ws, hws, hw⟩ := List.mem_flatten.1 hw
    simp [hlt ws hws w hw] at this
  obtain ⟨tf, cf, v0, C, k, C', t1, t2, t3, t4, t5, t6, t7⟩ := C20_text hord ht hv h
  obtain ⟨new, e, hnew⟩ := run_append t6
  have htv : t ∈ v0 := by
    rw [e] at htm
    exact (List.mem_append.1 htm).resolve_right fun h => hnew t h hk
  have h0 : ∀ n ∈ names v0, 60 ∈ n → n ∈ special := by
    intro n hn h60
    rw [names, ← List.take_append_drop 6 v0, List.map_append] at hn
    rcases List.mem_append.1 hn with hn | hn
    · have := congrArg (List.map (·.1)) t4.reserved
      rw [List.map_map] at this
      have e : names (v0.take 6) = special := this
      have hn2 : n ∈ names (v0.take 6) := hn
      rwa [e] at hn2
    · exfalso
      obtain ⟨t, htm, rfl⟩ := List.mem_map.1 hn
      obtain ⟨c, e, e2, e3⟩ := (t3 _ _).1 (t4.counted t htm).1
      rw [e, List.mem_singleton] at h60
      subst h60
      have hz : chCount tf 60 = 0 := by
        have hw0 : ∀ p ∈ tf, 60 ∉ p.1 := by
          rintro ⟨w, f⟩ hp
          obtain ⟨ws, hws, hw⟩ := List.mem_flatten.1 ((t1 w f).1 hp).1
          exact hlt ws hws w hw
        clear * - hw0
        induction tf with
        | nil => rfl
        | cons p tf ih =>
          rw [chCount_cons, ih fun q hq => hw0 q (by simp [hq]), List.count_eq_zero_of_not_mem]
          · simp
          · have := hw0 p (by simp)
            simp [this, SP]
      omega
  exact h0 _ (List.mem_map.2 ⟨t, htv, rfl⟩) h60

/-- C72 for a vocabulary learned from a text without "<": in any text, a control id is made exactly where the control token is spelled out. -/
theorem C72_bpe_learned {ord : Nat → List Nat → List Nat} (hord : ∀ i l, (ord i l).Perm l) {A : Acc} {data : List Str} {toks : List (List Str)}
    (ht : List.Forall₂ Tokens data toks) (hlt : ∀ ws ∈ toks, ∀ w ∈ ws, 60 ∉ w) {vs mf minEv : Int} {vocab : List Ty}
    (h : bpeLearn ord A data vs mf none minEv = .ok vocab) :
    ∃ s, Scheme.make .bpe vocab = .ok s ∧ ∀ line ws, Tokens line ws →
      ∃ ids, s.encode line = .ok ids ∧ ∀ j n, (j, n) ∈ controlTokens → ((j : Int) ∈ ids ↔ ∃ w ∈ ws, n <:+: w) := by
  have hv : ∀ c, (none : Option A.F) = some c → A.valid c = true := by simp
  obtain ⟨s, hs, _⟩ := C19_bpe_accepted hord hv h
  refine ⟨s, hs, fun line ws hw => C72_bpe_iff hs (C22_text hord hv h).1 (learned_lt hord ht hlt h) hw⟩

/-- a model of "ab ab b" makes the id 3 of a text that spells out its token, also within a word -/
example : (bpeLearn ordId accExact [lit "ab ab b"] 10 1 none 1).isOk = true ∧ (∀ ws ∈ [[lit "ab", lit "ab", lit "b"]], ∀ w ∈ ws, 60 ∉ w) ∧
    (bpeLearn ordId accExact [lit "ab ab b"] 10 1 none 1).bind (fun v => withScheme .bpe v fun s => s.encode (lit "ab</s>b </s")) =
      .ok [7, 6, 3, 8, 1, 1, 1, 5] := by decide +kernel

end Verif
