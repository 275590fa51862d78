import Verif.Lemmas.BpeppLearn
import Verif.Lemmas.BpeText
import Verif.Lemmas.BpeRun
/-! # Runs of the two-level learner and its initial vocabulary -/

namespace Verif
open Spec

theorem squeezed_spec (seqs : Corpus) : Squeezed seqs (squeezed seqs) := by
  induction seqs with
  | nil => exact .nil
  | cons s seqs ih =>
    refine .cons ⟨rfl, ?_⟩ ih
    obtain ⟨rs, h1, h2, h3⟩ := runs_exist s.1
    refine ⟨rs, ⟨h1, h2, h3⟩, ?_, ?_, ?_⟩
    · intro r hr
      obtain ⟨r', hr', rfl⟩ := List.mem_map.1 hr
      have := h1 r' hr'
      simp only; omega
    · rw [List.isChain_map]; exact h2
    · simp only; rw [← h3, ppReplaceTrouble_runs rs h1 h2]

/-- the runs determine the squeezed corpus -/
theorem Spec.Runs.unique {rs rs' : List (Nat × Nat)} {s : List Nat} (h : Runs rs s) (h' : Runs rs' s) : rs = rs' := by
  induction rs generalizing rs' s with
  | nil =>
    obtain ⟨_, _, h3⟩ := h
    obtain ⟨g1, _, g3⟩ := h'
    cases rs' with
    | nil => rfl
    | cons r rs' =>
      have := g1 r (by simp)
      rw [← h3] at g3
      obtain ⟨n, hn⟩ : ∃ n, r.2 = n + 1 := ⟨r.2 - 1, by omega⟩
      simp [unrun, hn, List.replicate_succ] at g3
  | cons r rs ih =>
    obtain ⟨h1, h2, h3⟩ := h
    obtain ⟨g1, g2, g3⟩ := h'
    have hr := h1 r (by simp)
    cases rs' with
    | nil =>
      rw [← g3] at h3
      obtain ⟨n, hn⟩ : ∃ n, r.2 = n + 1 := ⟨r.2 - 1, by omega⟩
      simp [unrun, hn, List.replicate_succ] at h3
    | cons r' rs' =>
      have hr' := g1 r' (by simp)
      rw [List.isChain_cons] at h2 g2
      have t1 := unrun_head rs (fun r hr => h1 r (by simp [hr]))
      have t2 := unrun_head rs' (fun r hr => g1 r (by simp [hr]))
      have hd1 : (unrun rs).head? ≠ some r.1 := by
        rw [t1]
        cases rs with
        | nil => simp
        | cons q rs => have := h2.1 q (by simp); simpa using this.symm
      have hd2 : (unrun rs').head? ≠ some r'.1 := by
        rw [t2]
        cases rs' with
        | nil => simp
        | cons q rs => have := g2.1 q (by simp); simpa using this.symm
      have e : List.replicate r.2 r.1 ++ unrun rs = List.replicate r'.2 r'.1 ++ unrun rs' := by
        have := h3.trans g3.symm
        simpa [unrun] using this
      have key : ∀ (m n x y : Nat) (A B : List Nat), 0 < m → 0 < n → A.head? ≠ some x → B.head? ≠ some y →
          List.replicate m x ++ A = List.replicate n y ++ B → m = n ∧ x = y ∧ A = B := by
        intro m
        induction m with
        | zero => intro n x y A B h; omega
        | succ m ihm =>
          intro n x y A B _ hn hA hB e
          obtain ⟨k, rfl⟩ : ∃ k, n = k + 1 := ⟨n - 1, by omega⟩
          simp only [List.replicate_succ, List.cons_append, List.cons.injEq] at e
          obtain ⟨rfl, e⟩ := e
          cases m with
          | zero =>
            cases k with
            | zero => simpa using e
            | succ k =>
              simp only [List.replicate_zero, List.nil_append, List.replicate_succ, List.cons_append] at e
              rw [e] at hA; simp at hA
          | succ m =>
            cases k with
            | zero =>
              simp only [List.replicate_zero, List.nil_append, List.replicate_succ, List.cons_append] at e
              rw [← e] at hB; simp at hB
            | succ k =>
              obtain ⟨a, b, c⟩ := ihm (k + 1) x x A B (by omega) (by omega) hA hB e
              exact ⟨by omega, b, c⟩
      obtain ⟨a, b, c⟩ := key _ _ _ _ _ _ hr hr' hd1 hd2 e
      have := ih ⟨fun r hr => h1 r (by simp [hr]), h2.2, rfl⟩ ⟨fun r hr => g1 r (by simp [hr]), g2.2, c.symm⟩
      rw [this]
      congr 1
      exact Prod.ext b a

theorem Spec.Squeezed.unique {C D D' : Corpus} (h : Squeezed C D) (h' : Squeezed C D') : D = D' := by
  unfold Squeezed at h h'
  induction h generalizing D' with
  | nil => cases h'; rfl
  | @cons s t C D hst h ih =>
    cases h' with
    | @cons _ t' _ D' hst' h' =>
      obtain ⟨e1, rs, r1, r2⟩ := hst
      obtain ⟨e2, rs', r1', r2'⟩ := hst'
      have := r1.unique r1'
      subst this
      rw [ih h']
      congr 1
      exact Prod.ext (r2.2.2.symm.trans r2'.2.2) (e1.trans e2.symm)

theorem Spec.Squeezed.eq {C D : Corpus} (h : Squeezed C D) : D = squeezed C := h.unique (squeezed_spec C)

/-! ## Runs of merges -/

theorem Spec.IsMax.count_le {p : Nat × Nat} {m : Nat} {C C1 : Corpus} (h : Merged p m C C1) (hb : IsMax C p)
    (hs : ∀ s ∈ C, s.1 ≠ [] ∧ 0 < s.2) (hc : ∀ s ∈ C, ∀ c ∈ s.1, c < m) (q : Nat × Nat) : pairCount C1 q ≤ pairCount C p := by
  have hrel := Rel.of_merged h
  have hf : ∀ s ∈ C, 0 ≤ s.2 := fun s hm => le_of_lt (hs s hm).2
  by_cases hq : q.1 = m ∨ q.2 = m
  · exact Rel.count_new hrel hf (fun s hm h => absurd (hc s hm m h) (Nat.lt_irrefl _)) hq
  · rw [not_or] at hq
    exact le_trans (Rel.count_le hrel hf hq.1 hq.2) (hb.2 q)

theorem Spec.RunMax.wf {minEv level : Int} {C C' : Corpus} {v v' : List Ty} {k : Nat} (h : RunMax minEv level C v k C' v')
    (hs : ∀ s ∈ C, s.1 ≠ [] ∧ 0 < s.2) (hc : ∀ s ∈ C, ∀ c ∈ s.1, c < v.length) :
    (∀ s ∈ C', s.1 ≠ [] ∧ 0 < s.2) ∧ ∀ s ∈ C', ∀ c ∈ s.1, c < v'.length := by
  induction h with
  | refl => exact ⟨hs, hc⟩
  | step hb hm hap ha hb2 hmer hr ih =>
    obtain ⟨h1, h2⟩ := hmer.wf hs hc
    exact ih h1 (by simpa using h2)

theorem Spec.RunMax.shape {minEv level : Int} {C C' : Corpus} {v v' : List Ty} {k : Nat} (h : RunMax minEv level C v k C' v') :
    ∃ new, v' = v ++ new ∧ new.length = k ∧ ∀ i t, new[i]? = some t → t.idx = v.length + i ∧ t.level = level ∧
      minEv ≤ t.freq ∧ 0 < t.freq ∧ ∃ ja jb ta tb, ja < v.length + i ∧ jb < v.length + i ∧ v'[ja]? = some ta ∧ v'[jb]? = some tb ∧
        t.kids = [ta, tb] ∧ t.name = ta.name ++ tb.name := by
  induction h with
  | refl => exact ⟨[], by simp, rfl, by simp⟩
  | @step C C1 C' v v' n p ta tb hb hm hap ha hb2 hmer hr ih =>
    obtain ⟨new, e, hl, hn⟩ := ih
    refine ⟨_ :: new, by rw [e, List.append_assoc]; rfl, by simp [hl], ?_⟩
    have hla := (List.getElem?_eq_some_iff.1 ha).1
    have hlb := (List.getElem?_eq_some_iff.1 hb2).1
    intro i t ht
    cases i with
    | zero =>
      simp only [List.getElem?_cons_zero, Option.some.injEq] at ht
      subst ht
      refine ⟨rfl, rfl, hm, hb.1, p.1, p.2, ta, tb, hla, hlb, ?_, ?_, rfl, rfl⟩
      · rw [e, List.append_assoc, List.getElem?_append_left hla]; exact ha
      · rw [e, List.append_assoc, List.getElem?_append_left hlb]; exact hb2
    | succ i =>
      simp only [List.getElem?_cons_succ] at ht
      obtain ⟨h1, h2, h3, h4, ja, jb, ta', tb', g1, g2, g3, g4, g5, g6⟩ := hn i t ht
      simp only [List.length_append, List.length_singleton] at h1 g1 g2
      exact ⟨by omega, h2, h3, h4, ja, jb, ta', tb', by omega, by omega, g3, g4, g5, g6⟩

theorem Spec.RunMax.sorted {minEv level : Int} {C C' : Corpus} {v v' : List Ty} {k : Nat} (h : RunMax minEv level C v k C' v')
    (hs : ∀ s ∈ C, s.1 ≠ [] ∧ 0 < s.2) (hc : ∀ s ∈ C, ∀ c ∈ s.1, c < v.length) :
    (v'.drop v.length).Pairwise (fun a b => b.freq ≤ a.freq) ∧
    ∀ B, (∀ q, pairCount C q ≤ B) → ∀ t ∈ v'.drop v.length, t.freq ≤ B := by
  induction h with
  | refl => simp
  | @step C C1 C' v v' n p ta tb hb hm hap ha hb2 hmer hr ih =>
    obtain ⟨h1, h2⟩ := hmer.wf hs hc
    obtain ⟨i1, i2⟩ := ih h1 (by simpa using h2)
    obtain ⟨new, e, _, _⟩ := hr.shape
    have e1 : v'.drop (v ++ [mergedType v ta tb level (pairCount C p)]).length = new := by rw [e, List.drop_left]
    have e2 : v'.drop v.length = mergedType v ta tb level (pairCount C p) :: new := by
      rw [e, List.append_assoc, List.drop_left]; rfl
    rw [e1] at i1 i2
    have i3 := i2 (pairCount C p) (fun q => Spec.IsMax.count_le hmer hb hs hc q)
    rw [e2]
    refine ⟨List.pairwise_cons.2 ⟨fun t ht => i3 t ht, i1⟩, ?_⟩
    intro B hB t ht
    rcases List.mem_cons.1 ht with rfl | ht
    · exact hB p
    · exact le_trans (i3 t ht) (hB p)

theorem Spec.RunMax.indexed {minEv level : Int} {C C' : Corpus} {v v' : List Ty} {k : Nat} (h : RunMax minEv level C v k C' v')
    (hi : Indexed v) : Indexed v' := by
  obtain ⟨new, e, _, hn⟩ := h.shape
  intro i t ht
  rw [e] at ht
  by_cases hlt : i < v.length
  · rw [List.getElem?_append_left hlt] at ht; exact hi i t ht
  · rw [List.getElem?_append_right (by omega)] at ht
    have := (hn _ t ht).1
    omega

/-! ## Initial vocabulary -/

theorem ppAlphabet_mem {cf : Dict Str Int} (hnd : (Dict.keys cf).Nodup) (hpos : ∀ p ∈ cf, 1 ≤ p.2) (charMin : Int) :
    let K := sortByFreq (popReserved (if 1 < charMin then cf.filter fun p => decide (charMin ≤ p.2) else cf))
    (K.map (·.1)).Nodup ∧ K.Pairwise (fun a b => b.2 ≤ a.2) ∧
      ∀ p, p ∈ K ↔ p ∈ cf ∧ charMin ≤ p.2 ∧ p.1 ∉ reservedNames := by
  intro K
  have hsub : (if 1 < charMin then cf.filter fun p => decide (charMin ≤ p.2) else cf).Sublist cf := by
    split
    · exact List.filter_sublist
    · exact List.Sublist.refl _
  have hnd1 : (Dict.keys (if 1 < charMin then cf.filter fun p => decide (charMin ≤ p.2) else cf)).Nodup :=
    hnd.sublist (hsub.map _)
  have hperm := sortByFreq_perm (popReserved (if 1 < charMin then cf.filter fun p => decide (charMin ≤ p.2) else cf))
  refine ⟨(hperm.map _).nodup_iff.2 (nodup_popReserved hnd1), sortByFreq_sorted _, ?_⟩
  rintro ⟨n, f⟩
  rw [hperm.mem_iff, mem_popReserved hnd1]
  split
  · simp only [List.mem_filter, decide_eq_true_eq]; tauto
  · constructor
    · rintro ⟨h1, h2⟩
      have := hpos _ h1
      simp only at this
      exact ⟨h1, by simp only; omega, h2⟩
    · rintro ⟨h1, _, h2⟩; exact ⟨h1, h2⟩

/-- the initial vocabulary: all characters with at least the least frequency -/
theorem ppAlphabet_contract {tf : Dict Str Int} {cf : Dict Str Int} (hcf : charFreqs tf = cf) (hnd : (Dict.keys cf).Nodup)
    (hpos : ∀ p ∈ cf, 1 ≤ p.2) (charMin : Int) :
    VocabContract Level.char charMin cf (ppAlphabet tf charMin) ∧
      (∀ p ∈ cf, charMin ≤ p.2 → p.1 ∈ names (ppAlphabet tf charMin)) ∧
      (∀ t ∈ (ppAlphabet tf charMin).take 6, t.freq = -1) := by
  obtain ⟨k1, k2, k3⟩ := ppAlphabet_mem hnd hpos charMin
  simp only [ppAlphabet, hcf]
  generalize hK : sortByFreq (popReserved (if 1 < charMin then cf.filter fun p => decide (charMin ≤ p.2) else cf)) = K at k1 k2 k3
  have hr6 : reservedTypes.length = 6 := by decide
  have hnames : names (reservedTypes ++ K.zipIdx.map fun (p, i) =>
      ({ name := p.1, level := Level.char, idx := i + 6, freq := p.2, kids := [] } : Ty)) = reservedNames ++ K.map (·.1) := by
    simp only [names, List.map_append]
    rw [zipIdx_types_names]
    rfl
  refine ⟨⟨?_, ?_, ?_, ?_, ?_, ?_, ?_⟩, ?_, ?_⟩
  · rw [List.take_left' hr6]; decide
  · intro i t ht
    by_cases hi : i < 6
    · rw [List.getElem?_append_left (by rw [hr6]; exact hi)] at ht
      have h2 : ∀ j, j < 6 → (reservedTypes[j]?.map (fun t : Ty => t.idx)) = some j := by decide
      have h3 := h2 i hi
      rw [ht] at h3
      simpa using h3
    · rw [List.getElem?_append_right (by rw [hr6]; omega), hr6, List.getElem?_map, List.getElem?_zipIdx] at ht
      simp only [Option.map_map, Option.map_eq_some_iff] at ht
      obtain ⟨p, _, rfl⟩ := ht
      simp; omega
  · rw [hnames, List.nodup_append]
    refine ⟨nodup_reservedNames, k1, ?_⟩
    intro a ha b hb e
    obtain ⟨p, hp, rfl⟩ := List.mem_map.1 hb
    exact ((k3 p).1 hp).2.2 (e ▸ ha)
  · rw [List.drop_left' hr6, ← List.pairwise_map (f := fun t : Ty => t.freq) (R := fun a b => b ≤ a), zipIdx_types_freqs, List.pairwise_map]
    exact k2
  · rw [List.drop_left' hr6]
    intro t ht
    obtain ⟨a, b, c⟩ := mem_zipIdx_types ht
    exact ⟨((k3 _).1 a).1, b, c⟩
  · rw [List.drop_left' hr6]
    intro t ht
    obtain ⟨a, b, c⟩ := mem_zipIdx_types ht
    exact ((k3 _).1 a).2.1
  · rw [List.drop_left' hr6, hnames]
    intro p hp hn t ht
    obtain ⟨a, b, c⟩ := mem_zipIdx_types ht
    simp only [List.mem_append, not_or, List.mem_map, not_exists, not_and] at hn
    have h1 := ((k3 _).1 a).2.1
    simp only at h1
    by_contra hlt
    exact hn.2 p ((k3 p).2 ⟨hp, by omega, hn.1⟩) rfl
  · intro p hp hmin
    rw [hnames, List.mem_append]
    by_cases hr : p.1 ∈ reservedNames
    · exact Or.inl hr
    · exact Or.inr (List.mem_map.2 ⟨p, (k3 p).2 ⟨hp, hmin, hr⟩, rfl⟩)
  · rw [List.take_left' hr6]; decide

/-- a word with the end marker is not the name of a type -/
theorem pp_prepared_not_name {level mf : Int} {cf : List (Str × Int)} {v0 : List Ty} (hv0 : VocabContract level mf cf v0)
    (hcf : ∀ n f, (n, f) ∈ cf → ∃ c, n = [c]) {w : Str} (hw : w ≠ []) : w ++ [SP] ∉ names v0 := by
  intro hm
  have hlen : 2 ≤ (w ++ [SP]).length := by
    have := List.length_pos_of_ne_nil hw
    simp; omega
  obtain ⟨t, ht, hn⟩ := List.mem_map.1 hm
  rw [← List.take_append_drop 6 v0] at ht
  rcases List.mem_append.1 ht with ht | ht
  · have h1 : t.name ∈ ((v0.take 6).map (fun t => (t.name, t.level, t.kids))).map (·.1) := by
      simp only [List.map_map, List.mem_map]; exact ⟨t, ht, rfl⟩
    rw [hv0.reserved, hn] at h1
    have h2 : ∀ r ∈ reservedNames, 2 ≤ r.length → r.getLast? ≠ some SP := by decide
    exact h2 (w ++ [SP]) h1 hlen (by simp)
  · obtain ⟨c, hc⟩ := hcf _ _ (hv0.counted t ht).1
    rw [hn] at hc
    rw [hc] at hlen
    simp at hlen

/-- `_learn_codes` is `learn_codes` on the coded words -/
theorem ppLearnCodesOf_eq {ord : Nat → List Nat → List Nat} {tf : Dict Str Int} (hpos : ∀ p ∈ tf, 1 ≤ p.2)
    (hw : ∀ p ∈ tf, p.1 ≠ []) {level mf : Int} {cf : Dict Str Int} {v0 : List Ty} {vs minEv : Int}
    (hcf : ∀ n f, (n, f) ∈ cf → ∃ c, n = [c]) (hv0 : VocabContract level mf cf v0) :
    ∃ C, List.Forall₂ (CodedWord v0) tf C ∧ (∀ s ∈ C, s.1 ≠ [] ∧ 0 < s.2) ∧ (∀ s ∈ C, ∀ c ∈ s.1, c < v0.length) ∧
      ppLearnCodesOf ord (tf.map fun p => (p.1 ++ [SP], p.2)) v0 vs minEv = if (v0.length : Int) < vs then
        ppLearn ord .replace C none v0 (vs - v0.length) minEv Level.subword else .error .assertion := by
  obtain ⟨hlen, hrev⟩ := revIdx_spec hv0.indexed hv0.distinct
  obtain ⟨tu, htu, hun⟩ := contract_unk hv0
  have hgu : Dict.get? (revIdx v0) unkName = some 1 := (hrev _ _).2 ⟨tu, htu, hun⟩
  have hone : 1 < v0.length := (List.getElem?_eq_some_iff.1 htu).1
  have hcodes : ∀ p ∈ tf, wordCodes (revIdx v0) 1 (p.1 ++ [SP]) = (p.1 ++ [SP]).map fun c => (Dict.get? (revIdx v0) [c]).getD 1 := by
    intro p hp
    have hnn := pp_prepared_not_name hv0 hcf (hw p hp)
    have : Dict.get? (revIdx v0) (p.1 ++ [SP]) = none := by
      cases hg : Dict.get? (revIdx v0) (p.1 ++ [SP]) with
      | none => rfl
      | some i =>
        obtain ⟨t, ht, hn⟩ := (hrev _ _).1 hg
        exact absurd (List.mem_map.2 ⟨t, List.mem_of_getElem? ht, hn⟩) hnn
    simp only [wordCodes, this]
  have hcode : ∀ c, CodeOf v0 c ((Dict.get? (revIdx v0) [c]).getD 1) := by
    intro c
    cases hg : Dict.get? (revIdx v0) [c] with
    | none =>
      right
      refine ⟨?_, rfl⟩
      intro hm
      obtain ⟨t, ht, hn⟩ := List.mem_map.1 hm
      obtain ⟨i, hi⟩ := List.getElem?_of_mem ht
      have := (hrev [c] i).2 ⟨t, hi, hn⟩
      rw [hg] at this; simp at this
    | some i => left; exact (hrev _ _).1 hg
  have hlt : ∀ c i, CodeOf v0 c i → i < v0.length := by
    rintro c i (⟨t, ht, _⟩ | ⟨_, rfl⟩)
    · exact (List.getElem?_eq_some_iff.1 ht).1
    · exact hone
  refine ⟨(tf.map fun p => (p.1 ++ [SP], p.2)).map fun p => (wordCodes (revIdx v0) 1 p.1, p.2), ?_, ?_, ?_, ?_⟩
  · rw [List.map_map]
    have : ∀ l : List (Str × Int), (∀ p ∈ l, p ∈ tf) →
        List.Forall₂ (CodedWord v0) l (l.map ((fun p => (wordCodes (revIdx v0) 1 p.1, p.2)) ∘ fun p => (p.1 ++ [SP], p.2))) := by
      intro l
      induction l with
      | nil => intro _; exact .nil
      | cons p l ih =>
        intro hl
        refine .cons ⟨rfl, ?_⟩ (ih (fun p hp => hl p (by simp [hp])))
        simp only [Function.comp]
        rw [hcodes p (hl p (by simp))]
        rw [List.forall₂_map_right_iff]
        exact List.forall₂_same.2 (fun c _ => hcode c)
    exact this tf (fun p hp => hp)
  · intro s hs
    rw [List.map_map] at hs
    obtain ⟨p, hp, rfl⟩ := List.mem_map.1 hs
    simp only [Function.comp]
    rw [hcodes p hp]
    refine ⟨by simp, ?_⟩
    have := hpos p hp
    omega
  · intro s hs c hc
    rw [List.map_map] at hs
    obtain ⟨p, hp, rfl⟩ := List.mem_map.1 hs
    simp only [Function.comp] at hc
    rw [hcodes p hp] at hc
    obtain ⟨x, _, rfl⟩ := List.mem_map.1 hc
    exact hlt _ _ (hcode x)
  · simp only [ppLearnCodesOf, hlen, ne_eq, not_true_eq_false, if_false, hgu]
    by_cases h2 : (v0.length : Int) < vs
    · simp [h2]
    · simp [h2]

/-- `learn_subwords` by cases: the words that are frequent enough, the characters that are frequent enough, the coded words -/
theorem ppSubwords_cases {ord : Nat → List Nat → List Nat} {tf : Dict Str Int} (hnd : (Dict.keys tf).Nodup)
    (hw : ∀ p ∈ tf, p.1 ≠ []) {vs minEv charMin wordMin : Int} (hc : 1 ≤ charMin) (hwm : 1 ≤ wordMin) :
    ∃ tf1 cf v0 C, (∀ p, p ∈ tf1 ↔ p ∈ tf ∧ wordMin ≤ p.2) ∧ (tf1.map (·.1)).Nodup ∧
      (∀ n f, (n, f) ∈ cf ↔ ∃ c, n = [c] ∧ f = chCount tf1 c ∧ 0 < f) ∧
      VocabContract Level.char charMin cf v0 ∧ (∀ p ∈ cf, charMin ≤ p.2 → p.1 ∈ names v0) ∧ (∀ t ∈ v0.take 6, t.freq = -1) ∧
      List.Forall₂ (CodedWord v0) tf1 C ∧ (∀ s ∈ C, s.1 ≠ [] ∧ 0 < s.2) ∧ (∀ s ∈ C, ∀ c ∈ s.1, c < v0.length) ∧
      ppSubwords ord tf vs minEv charMin wordMin = if vs = -1 then .ok v0 else if (v0.length : Int) < vs then
        ppLearn ord .replace C none v0 (vs - v0.length) minEv Level.subword else .error .assertion := by
  have hmem : ∀ p, p ∈ tf.filter (fun p => decide (wordMin ≤ p.2)) ↔ p ∈ tf ∧ wordMin ≤ p.2 := by simp
  have hnd1 : (Dict.keys (tf.filter fun p => decide (wordMin ≤ p.2))).Nodup := hnd.sublist (List.filter_sublist.map _)
  have hpos1 : ∀ p ∈ tf.filter (fun p => decide (wordMin ≤ p.2)), 1 ≤ p.2 := fun p hp => le_trans hwm ((hmem p).1 hp).2
  have hw1 : ∀ p ∈ tf.filter (fun p => decide (wordMin ≤ p.2)), p.1 ≠ [] := fun p hp => hw p ((hmem p).1 hp).1
  have hwords : ppWords tf wordMin = (tf.filter fun p => decide (wordMin ≤ p.2)).map fun p => (p.1 ++ [SP], p.2) :=
    preparedFreqs_eq hnd1
  obtain ⟨hcnd, hcmem⟩ := charFreqs_spec hpos1
  generalize hcf : charFreqs ((tf.filter fun p => decide (wordMin ≤ p.2)).map fun p => (p.1 ++ [SP], p.2)) = cf at hcnd hcmem
  have hcpos : ∀ p ∈ cf, 1 ≤ p.2 := by
    rintro ⟨n, f⟩ hp
    obtain ⟨c, _, _, h⟩ := (hcmem n f).1 hp
    exact h
  obtain ⟨a1, a2, a3⟩ := ppAlphabet_contract hcf hcnd hcpos charMin
  obtain ⟨C, c1, c2, c3, c4⟩ := ppLearnCodesOf_eq (ord := ord) hpos1 hw1 (vs := vs) (minEv := minEv)
    (fun n f h => (by obtain ⟨c, hc, _⟩ := (hcmem n f).1 h; exact ⟨c, hc⟩)) a1
  refine ⟨_, cf, _, C, hmem, hnd1, hcmem, a1, a2, a3, c1, c2, c3, ?_⟩
  simp only [ppSubwords, hc, hwm, not_true_eq_false, if_false, hwords]
  rw [c4]

end Verif
