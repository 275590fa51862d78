import Verif.Lemmas.BpeStep
import Mathlib.Data.List.Dedup
/-! # Building the index of the BPE learner -/

namespace Verif
open Spec

/-- what `indexSeq` does to the counts and the index -/
theorem indexSeq_spec {freq : Int} (hf : 0 < freq) : ∀ (seq : List Nat) (n : Nat) (I : Index),
    (∀ q j, j ∈ ids I.ix q → j < n) → (∀ q, (ids I.ix q).Nodup) → (Dict.keys I.ix).Nodup → (Dict.keys I.uni).Nodup →
    Dict.keys I.bi = Dict.keys I.ix → (∀ q ∈ Dict.keys I.bi, 0 < Dict.cnt I.bi q) → (∀ v, 0 ≤ Dict.cnt I.uni v) →
    ∃ I', indexSeq freq n seq I = .ok I' ∧ I'.mem = I.mem ∧ I'.next = I.next ∧
      (∀ q j, j ∈ ids I'.ix q ↔ j ∈ ids I.ix q ∨ ∃ i, j = n + i ∧ seq[i]? = some q.1 ∧ seq[i + 1]? = some q.2) ∧
      (∀ q, (ids I'.ix q).Nodup) ∧ (Dict.keys I'.ix).Nodup ∧ (Dict.keys I'.uni).Nodup ∧ Dict.keys I'.bi = Dict.keys I'.ix ∧
      (∀ q ∈ Dict.keys I'.bi, 0 < Dict.cnt I'.bi q) ∧ (∀ v, 0 ≤ Dict.cnt I'.uni v) ∧
      (∀ q, Dict.cnt I'.bi q = Dict.cnt I.bi q + freq * pairOcc q seq) ∧
      (∀ v, Dict.cnt I'.uni v = Dict.cnt I.uni v + freq * (seq.count v : Int)) ∧
      (∀ v, v ∈ Dict.keys I'.uni ↔ v ∈ Dict.keys I.uni ∨ v ∈ seq) := by
  intro seq
  induction seq with
  | nil =>
    intro n I h1 h2 h3 h4 h5 h6 h7
    exact ⟨I, rfl, rfl, rfl, by simp, h2, h3, h4, h5, h6, h7, by simp [pairOcc], by simp, by simp⟩
  | cons a seq ih =>
    intro n I h1 h2 h3 h4 h5 h6 h7
    cases seq with
    | nil =>
      refine ⟨{ I with uni := Dict.incr I.uni a freq }, rfl, rfl, rfl, ?_, h2, h3, Dict.nodup_keys_incr h4 _ _, h5, h6, ?_, ?_, ?_, ?_⟩
      · intro q j
        constructor
        · exact Or.inl
        · rintro (h | ⟨i, _, _, h⟩)
          · exact h
          · simp at h
      · intro v; simp only [Dict.cnt_incr]; have := h7 v; split <;> omega
      · intro q; simp [pairOcc]
      · intro v; simp only [Dict.cnt_incr, List.count_cons, List.count_nil, beq_iff_eq]; split <;> simp
      · intro v; simp [Dict.mem_keys_incr]
    | cons b rest =>
      have hnm : n ∉ (Dict.get? I.ix (a, b)).getD [] := fun hm => absurd (h1 (a, b) n hm) (by omega)
      let I1 : Index := { I with bi := Dict.incr I.bi (a, b) freq, ix := Dict.set I.ix (a, b) ((Dict.get? I.ix (a, b)).getD [] ++ [n]),
                                 uni := Dict.incr I.uni a freq }
      have hids : ∀ q, ids I1.ix q = if (a, b) = q then ids I.ix (a, b) ++ [n] else ids I.ix q := fun q => ids_set _ _ _ _
      have hmem : ∀ q j, j ∈ ids I1.ix q ↔ j ∈ ids I.ix q ∨ (j = n ∧ q = (a, b)) := by
        intro q j
        rw [hids]
        by_cases hq : (a, b) = q
        · subst hq; simp
        · rw [if_neg hq]
          constructor
          · exact Or.inl
          · rintro (h | ⟨_, h⟩)
            · exact h
            · exact absurd h.symm hq
      obtain ⟨I', e, r1, r2, r3, r4, r5, r6, r7, r8, r9, r10, r11, r12⟩ := ih (n + 1) I1
        (by
          intro q j hj
          rcases (hmem q j).1 hj with h | ⟨rfl, _⟩
          · have := h1 q j h; omega
          · omega)
        (by
          intro q
          rw [hids]
          split
          · rw [List.nodup_append]
            refine ⟨h2 _, by simp, ?_⟩
            rintro x hx y hy rfl
            simp at hy; subst hy; exact hnm hx
          · exact h2 q)
        (Dict.nodup_keys_set h3 _ _) (Dict.nodup_keys_incr h4 _ _)
        (by simp only [I1, Dict.incr, Dict.keys_set, h5]; congr)
        (by
          intro q hq
          simp only [I1] at hq ⊢
          rw [Dict.cnt_incr]
          rcases (Dict.mem_keys_incr _ _ _ _).1 hq with h | h
          · have := h6 q h; split <;> omega
          · subst h
            rw [if_pos rfl]
            by_cases hk : (a, b) ∈ Dict.keys I.bi
            · have := h6 _ hk; omega
            · rw [cnt_none ((Dict.get?_eq_none_iff _ _).2 hk)]; omega)
        (by intro v; simp only [I1, Dict.cnt_incr]; have := h7 v; split <;> omega)
      refine ⟨I', ?_, r1, r2, ?_, r4, r5, r6, r7, r8, r9, ?_, ?_, ?_⟩
      · simp only [indexSeq, hnm, if_false]; exact e
      · intro q j
        rw [r3, hmem]
        obtain ⟨q1, q2⟩ := q
        constructor
        · rintro ((h | ⟨rfl, h⟩) | ⟨i, rfl, h, h'⟩)
          · exact Or.inl h
          · simp only [Prod.mk.injEq] at h
            exact Or.inr ⟨0, rfl, by simp [h.1], by simp [h.2]⟩
          · exact Or.inr ⟨i + 1, by omega, by simpa using h, by simpa using h'⟩
        · rintro (h | ⟨i, rfl, h, h'⟩)
          · exact Or.inl (Or.inl h)
          · cases i with
            | zero =>
              simp only [List.getElem?_cons_zero, Option.some.injEq, zero_add, List.getElem?_cons_succ] at h h'
              exact Or.inl (Or.inr ⟨rfl, by rw [h, h']⟩)
            | succ i => exact Or.inr ⟨i, by omega, by simpa using h, by simpa using h'⟩
      · intro q
        rw [r10]
        simp only [I1, Dict.cnt_incr, pairOcc]
        split <;> ring
      · intro v
        rw [r11]
        simp only [I1, Dict.cnt_incr, List.count_cons, beq_iff_eq]
        push_cast
        split <;> ring
      · intro v
        rw [r12]
        simp only [I1, Dict.mem_keys_incr, List.mem_cons]
        tauto

/-- the addresses given to a new sequence -/
def newAddrs (next len : Nat) : List Nat := List.range' next len

theorem fromSeq_old {m : Mem} {next : Nat} {seq : List Nat} {freq : Int} {k : Nat} (h : k < next) : fromSeq m next seq freq k = m k := by
  unfold fromSeq; rw [if_neg (by omega)]

theorem fromSeq_new {m : Mem} {next : Nat} {seq : List Nat} {freq : Int} {i : Nat} (h : i < seq.length) :
    fromSeq m next seq freq (next + i) = ⟨seq[i], if i = 0 then none else some (next + i - 1),
      if i + 1 < seq.length then some (next + i + 1) else none, freq⟩ := by
  unfold fromSeq
  rw [if_pos (by omega)]
  have : seq[next + i - next]? = some seq[i] := by
    rw [Nat.add_sub_cancel_left]; exact List.getElem?_eq_getElem h
  rw [this]
  simp only [Node.mk.injEq, true_and, and_true]
  constructor
  · by_cases h0 : i = 0
    · subst h0; simp
    · simp [h0]
  · apply if_congr _ rfl rfl; omega

theorem linked_fromSeq (m : Mem) (next : Nat) (seq : List Nat) (freq : Int) :
    Linked (fromSeq m next seq freq) freq (newAddrs next seq.length) := by
  intro A n B e
  have hlen : A.length + (B.length + 1) = seq.length := by
    have := congrArg List.length e; simp [newAddrs] at this; omega
  have hget : ∀ i, (newAddrs next seq.length)[i]? = if i < seq.length then some (next + i) else none := by
    intro i
    simp only [newAddrs]
    by_cases hi : i < seq.length
    · rw [if_pos hi, List.getElem?_range' hi]; simp
    · rw [if_neg hi, List.getElem?_eq_none]; simp; omega
  have hn : n = next + A.length := by
    have := hget A.length
    rw [e] at this
    simp at this
    exact this.2
  have hA : A.getLast? = if A.length = 0 then none else some (next + A.length - 1) := by
    rw [List.getLast?_eq_getElem?]
    split
    · rename_i h0; rw [List.length_eq_zero_iff] at h0; subst h0; rfl
    · rename_i h0
      have := hget (A.length - 1)
      rw [e, List.getElem?_append_left (by omega), if_pos (by omega)] at this
      rw [this]; congr 1; omega
  have hB : B.head? = if A.length + 1 < seq.length then some (next + A.length + 1) else none := by
    have := hget (A.length + 1)
    rw [e, List.getElem?_append_right (by omega)] at this
    simp only [Nat.add_sub_cancel_left, List.getElem?_cons_succ] at this
    rw [List.head?_eq_getElem?, this]
    rfl
  subst hn
  rw [fromSeq_new (by omega), hA, hB]
  exact ⟨rfl, rfl, rfl⟩

/-- invariant while building the index -/
structure IInv (I : Index) (G : Segs) : Prop where
  wf : Wf I.mem G
  fresh : ∀ j ∈ liveOf G, j < I.next
  ixmem : ∀ q j, j ∈ ids I.ix q ↔ At I.mem G j q
  nodup : ∀ q, (ids I.ix q).Nodup
  keys : (Dict.keys I.ix).Nodup
  uknd : (Dict.keys I.uni).Nodup
  bikeys : Dict.keys I.bi = Dict.keys I.ix
  bipos : ∀ q ∈ Dict.keys I.bi, 0 < Dict.cnt I.bi q
  bi : ∀ q, Dict.cnt I.bi q = pairCount (corpusOf I.mem G) q
  uni : ∀ v, Dict.cnt I.uni v = symCount (corpusOf I.mem G) v
  ukeys : ∀ v, v ∈ Dict.keys I.uni ↔ ∃ s ∈ corpusOf I.mem G, v ∈ s.1
  freqs : ∀ s ∈ G, 0 < s.2
  nonempty : ∀ s ∈ G, s.1 ≠ []

theorem corpusOf_congr {m m' : Mem} {G : Segs} (h : ∀ j ∈ liveOf G, m j = m' j) : corpusOf m G = corpusOf m' G := by
  apply List.map_congr_left
  intro s hs
  simp only [Prod.mk.injEq, and_true]
  apply List.map_congr_left
  intro j hj
  rw [h j (mem_liveOf.2 ⟨s, hs, hj⟩)]

theorem map_newAddrs (m : Mem) (next : Nat) (seq : List Nat) (freq : Int) :
    (newAddrs next seq.length).map (fun j => (fromSeq m next seq freq j).val) = seq := by
  apply List.ext_getElem
  · simp [newAddrs]
  · intro i h1 h2
    simp only [List.getElem_map, newAddrs, List.getElem_range', Nat.one_mul]
    rw [fromSeq_new h2]

theorem createIndex_step {I : Index} {G : Segs} (h : IInv I G) {seq : List Nat} {freq : Int} (hf : 0 < freq) (hne : seq ≠ []) :
    ∃ I', indexSeq freq I.next seq { I with mem := fromSeq I.mem I.next seq freq, next := I.next + seq.length } = .ok I' ∧
      IInv I' (G ++ [(newAddrs I.next seq.length, freq)]) ∧
      corpusOf I'.mem (G ++ [(newAddrs I.next seq.length, freq)]) = corpusOf I.mem G ++ [(seq, freq)] := by
  have hfresh : ∀ q j, j ∈ ids I.ix q → j < I.next := fun q j hj => h.fresh j ((h.ixmem q j).1 hj).1
  have hunn : ∀ v, 0 ≤ Dict.cnt I.uni v := fun v => by rw [h.uni]; exact symCount_nonneg (corpusOf_freqs h.freqs) v
  obtain ⟨I', e, r1, r2, r3, r4, r5, r6, r7, r8, r9, r10, r11, r12⟩ := indexSeq_spec hf seq I.next
    { I with mem := fromSeq I.mem I.next seq freq, next := I.next + seq.length } hfresh h.nodup h.keys h.uknd h.bikeys h.bipos hunn
  simp only at r1 r2 r3 r10 r11 r12
  have hold : ∀ j ∈ liveOf G, fromSeq I.mem I.next seq freq j = I.mem j := fun j hj => fromSeq_old (h.fresh j hj)
  have hcorp : corpusOf I'.mem (G ++ [(newAddrs I.next seq.length, freq)]) = corpusOf I.mem G ++ [(seq, freq)] := by
    rw [r1]
    have e1 : corpusOf (fromSeq I.mem I.next seq freq) (G ++ [(newAddrs I.next seq.length, freq)]) =
      corpusOf (fromSeq I.mem I.next seq freq) G ++ [((newAddrs I.next seq.length).map (fun j => (fromSeq I.mem I.next seq freq j).val), freq)] := by
      simp [corpusOf]
    rw [e1, map_newAddrs, corpusOf_congr hold]
  have hlive : ∀ j, j ∈ liveOf (G ++ [(newAddrs I.next seq.length, freq)]) ↔ j ∈ liveOf G ∨ (I.next ≤ j ∧ j < I.next + seq.length) := by
    intro j; simp [liveOf, newAddrs, List.mem_range'_1]
  have hnew : ∀ i, i < seq.length → I'.mem (I.next + i) = ⟨seq[i]!, if i = 0 then none else some (I.next + i - 1),
      if i + 1 < seq.length then some (I.next + i + 1) else none, freq⟩ := by
    intro i hi
    rw [r1, fromSeq_new hi]; simp [hi]
  refine ⟨I', e, ?_, hcorp⟩
  refine { wf := ?_, fresh := ?_, ixmem := ?_, nodup := r4, keys := r5, uknd := r6, bikeys := r7, bipos := r8, bi := ?_, uni := ?_,
           ukeys := ?_, freqs := ?_, nonempty := ?_ }
  · rw [r1]
    constructor
    · intro s hs
      rcases List.mem_append.1 hs with hs | hs
      · intro A n B e2
        rw [hold n (mem_liveOf.2 ⟨s, hs, by simp [e2]⟩)]
        exact h.wf.linked s hs A n B e2
      · simp at hs; subst hs; exact linked_fromSeq _ _ _ _
    · rw [liveOf_append, List.nodup_append]
      refine ⟨h.wf.nodup, by simp [liveOf, newAddrs, List.nodup_range'], ?_⟩
      rintro x hx y hy rfl
      have := h.fresh x hx
      simp [liveOf, newAddrs, List.mem_range'_1] at hy
      omega
  · intro j hj
    rw [r2]
    rcases (hlive j).1 hj with h1 | h1
    · have := h.fresh j h1; omega
    · omega
  · intro q j
    rw [r3, h.ixmem]
    constructor
    · rintro (⟨h1, h2, k, h3, h4⟩ | ⟨i, rfl, h2, h3⟩)
      · have hk := (h.wf.left_of_right h1 h3).2
        refine ⟨(hlive j).2 (Or.inl h1), ?_, k, ?_, ?_⟩
        · rw [r1, hold j h1]; exact h2
        · rw [r1, hold j h1]; exact h3
        · rw [r1, hold k hk]; exact h4
      · obtain ⟨hi, h2⟩ := List.getElem?_eq_some_iff.1 h2
        obtain ⟨hi', h3⟩ := List.getElem?_eq_some_iff.1 h3
        refine ⟨(hlive _).2 (Or.inr (by omega)), ?_, I.next + i + 1, ?_, ?_⟩
        · rw [hnew i hi]; simp [hi, h2]
        · rw [hnew i hi]; simp [hi']
        · have := hnew (i + 1) hi'
          rw [← Nat.add_assoc] at this
          rw [this]; simp [hi', h3]
    · rintro ⟨h1, h2, k, h3, h4⟩
      rcases (hlive j).1 h1 with h5 | h5
      · left
        rw [r1, hold j h5] at h2 h3
        have hk := (h.wf.left_of_right h5 h3).2
        rw [r1, hold k hk] at h4
        exact ⟨h5, h2, k, h3, h4⟩
      · right
        obtain ⟨i, rfl⟩ : ∃ i, j = I.next + i := ⟨j - I.next, by omega⟩
        have hi : i < seq.length := by omega
        rw [hnew i hi] at h2 h3
        simp only at h2 h3
        split at h3
        · rename_i hi'
          injection h3 with h3
          subst h3
          have := hnew (i + 1) hi'
          rw [← Nat.add_assoc] at this
          rw [this] at h4
          simp [hi, hi'] at h2 h4
          exact ⟨i, rfl, by simp [hi, h2], by simp [hi', h4]⟩
        · simp at h3
  · intro q; rw [r10, hcorp, pairCount_append, pairCount_cons, h.bi]; simp [pairCount]
  · intro v; rw [r11, hcorp, symCount_append, symCount_cons, h.uni]; simp [symCount]
  · intro v
    rw [r12, hcorp, h.ukeys]
    simp only [List.mem_append, List.mem_singleton]
    constructor
    · rintro (⟨s, hs, hv⟩ | hv)
      · exact ⟨s, Or.inl hs, hv⟩
      · exact ⟨_, Or.inr rfl, hv⟩
    · rintro ⟨s, hs | rfl, hv⟩
      · exact Or.inl ⟨s, hs, hv⟩
      · exact Or.inr hv
  · intro s hs
    rcases List.mem_append.1 hs with hs | hs
    · exact h.freqs s hs
    · simp at hs; subst hs; exact hf
  · intro s hs
    rcases List.mem_append.1 hs with hs | hs
    · exact h.nonempty s hs
    · simp at hs; subst hs
      intro e2
      simp [newAddrs] at e2
      exact hne e2

theorem createIndex_spec : ∀ (seqs : List (List Nat × Int)) (first : Bool) (I : Index) (G : Segs), IInv I G →
    (∀ s ∈ seqs, s.1 ≠ [] ∧ 0 < s.2) →
    ∃ I' G', createIndex first seqs I = .ok I' ∧ IInv I' G' ∧ corpusOf I'.mem G' = corpusOf I.mem G ++ seqs := by
  intro seqs
  induction seqs with
  | nil => intro first I G h _; exact ⟨I, G, rfl, h, by simp⟩
  | cons s seqs ih =>
    obtain ⟨seq, freq⟩ := s
    intro first I G h hs
    have h0 := hs (seq, freq) (by simp)
    obtain ⟨I1, e1, h1, hc1⟩ := createIndex_step h h0.2 h0.1
    obtain ⟨I', G', e2, h2, hc2⟩ := ih false I1 _ h1 (fun s hs' => hs s (by simp [hs']))
    refine ⟨I', G', ?_, h2, by rw [hc2, hc1]; simp⟩
    have hne : seq ≠ [] := h0.1
    simp only [createIndex, hne, if_false, e1, e2]

theorem foldl_max_mem (l : List Nat) : ∀ x, l.foldl max x ∈ x :: l ∧ ∀ y ∈ x :: l, y ≤ l.foldl max x := by
  induction l with
  | nil => intro x; simp
  | cons z l ih =>
    intro x
    have := ih (max x z)
    simp only [List.foldl_cons]
    constructor
    · rcases List.mem_cons.1 this.1 with h | h
      · rw [h]; rcases le_total x z with hxz | hxz <;> simp [hxz]
      · simp [h]
    · intro y hy
      have h0 := this.2 (max x z) (by simp)
      simp only [List.mem_cons] at hy
      rcases hy with rfl | rfl | hy
      · omega
      · omega
      · exact this.2 y (by simp [hy])

theorem checkIdx_ok : ∀ (v : List Ty) (k : Nat), (∀ i (t : Ty), v[i]? = some t → t.idx = k + i) → checkIdx k v = .ok () := by
  intro v
  induction v with
  | nil => intro k _; rfl
  | cons t v ih =>
    intro k h
    have h0 := h 0 t rfl
    simp only [checkIdx]
    rw [if_pos (by omega)]
    exact ih (k + 1) (fun i t' ht => by have := h (i + 1) t' (by simpa using ht); omega)

theorem pyMax_spec {l : List Nat} (h : l ≠ []) : ∃ m, pyMax l = .ok m ∧ m ∈ l ∧ ∀ y ∈ l, y ≤ m := by
  cases l with
  | nil => exact absurd rfl h
  | cons x l => exact ⟨_, rfl, (foldl_max_mem l x).1, (foldl_max_mem l x).2⟩

theorem pairCount_le_symCount {C : Corpus} (h : ∀ s ∈ C, 0 ≤ s.2) (q : Pair) :
    pairCount C q ≤ symCount C q.1 ∧ pairCount C q ≤ symCount C q.2 := by
  induction C with
  | nil => simp [pairCount, symCount]
  | cons s C ih =>
    have h1 := ih (fun s hs => h s (by simp [hs]))
    have h2 := mul_le_mul_of_nonneg_left (pairOcc_le_count_fst q s.1) (h s (by simp))
    have h3 := mul_le_mul_of_nonneg_left (pairOcc_le_count_snd q s.1).1 (h s (by simp))
    rw [pairCount_cons, symCount_cons, symCount_cons]
    omega

/-- `BPELearn(seqs, vocab)` succeeds -/
theorem bpeInit_spec {seqs : List (List Nat × Int)} {vocab : List Ty} (hne : seqs ≠ []) (hs : ∀ s ∈ seqs, s.1 ≠ [] ∧ 0 < s.2)
    (hidx : ∀ i (t : Ty), vocab[i]? = some t → t.idx = i) (hnames : (vocab.map (·.name)).Nodup)
    (hcodes : ∀ s ∈ seqs, ∀ c ∈ s.1, c < vocab.length) :
    ∃ I G, bpeInit seqs vocab = .ok I ∧ IInv I G ∧ corpusOf I.mem G = seqs := by
  have hempty : IInv { mem := fun _ => ⟨0, none, none, 0⟩, next := 0, bi := [], ix := [], uni := [] } [] := by
    refine { wf := ⟨by simp, by simp [liveOf]⟩, fresh := by simp [liveOf], ixmem := ?_, nodup := by simp [ids], keys := by simp [Dict.keys],
             uknd := by simp [Dict.keys], bikeys := rfl, bipos := by simp [Dict.keys], bi := ?_, uni := ?_, ukeys := ?_, freqs := by simp,
             nonempty := by simp }
    · intro q j; simp [ids, At, liveOf]
    · intro q; simp [Dict.cnt, corpusOf, pairCount]
    · intro v; simp [Dict.cnt, corpusOf, symCount]
    · intro v; simp [Dict.keys, corpusOf]
  obtain ⟨I, G, e, hI, hc⟩ := createIndex_spec seqs true _ [] hempty hs
  have hc' : corpusOf I.mem G = seqs := by simpa [corpusOf] using hc
  refine ⟨I, G, ?_, hI, hc'⟩
  have hvi : vocab.map (·.idx) = List.range vocab.length := by
    apply List.ext_getElem
    · simp
    · intro i h1 h2
      simp only [List.getElem_map, List.getElem_range]
      simp at h1
      exact hidx i _ (List.getElem?_eq_getElem h1)
  have hd1 : (vocab.map (·.idx)).dedup.length = (vocab.map (·.name)).dedup.length := by
    rw [List.dedup_eq_self.2 hnames, hvi, List.dedup_eq_self.2 List.nodup_range]; simp
  have hfr : ∀ s ∈ corpusOf I.mem G, 0 ≤ s.2 := corpusOf_freqs hI.freqs
  have hval : validateIndex I vocab = .ok () := by
    obtain ⟨s0, hs0⟩ := List.exists_mem_of_ne_nil seqs hne
    obtain ⟨c0, hc0⟩ := List.exists_mem_of_ne_nil s0.1 (hs s0 hs0).1
    have hkne : Dict.keys I.uni ≠ [] := by
      have : c0 ∈ Dict.keys I.uni := (hI.ukeys c0).2 ⟨s0, hc' ▸ hs0, hc0⟩
      exact List.ne_nil_of_mem this
    have hvpos : 0 < vocab.length := by have := hcodes s0 hs0 c0 hc0; omega
    obtain ⟨mc, e1, hm1, _⟩ := pyMax_spec hkne
    obtain ⟨mi, e2, hm2, hm3⟩ := pyMax_spec (l := vocab.map (·.idx)) (by rw [hvi]; simp; intro h0; simp [h0] at hvpos)
    have hmc : mc < vocab.length := by
      obtain ⟨s, hs1, hs2⟩ := (hI.ukeys mc).1 hm1
      exact hcodes s (hc' ▸ hs1) mc hs2
    have hmi : vocab.length - 1 ≤ mi := hm3 _ (by rw [hvi]; simp; omega)
    have hlen : I.bi.length = I.ix.length := by
      have := congrArg List.length hI.bikeys
      simpa [Dict.keys] using this
    have hbind : (Dict.keys I.bi).Nodup := by rw [hI.bikeys]; exact hI.keys
    have hbi : ∀ l : List (Pair × Int), (∀ x ∈ l, x ∈ I.bi) → validateBi I l = .ok () := by
      intro l
      induction l with
      | nil => intro _; rfl
      | cons x l ih =>
        obtain ⟨p, f⟩ := x
        intro hl
        have hmem := hl (p, f) (by simp)
        have hget := Dict.get?_of_mem hbind hmem
        have hcnt : f = pairCount (corpusOf I.mem G) p := by rw [← hI.bi]; exact (cnt_of_get? hget).symm
        have hkey : p ∈ Dict.keys I.ix := by rw [← hI.bikeys]; exact List.mem_map.2 ⟨_, hmem, rfl⟩
        obtain ⟨nodes, hn⟩ : ∃ nodes, Dict.get? I.ix p = some nodes := by
          have := (Dict.isSome_get?_iff I.ix p).2 hkey
          exact Option.isSome_iff_exists.1 this
        have hids : ids I.ix p = nodes := by simp [ids, hn]
        have hsum := pairCount_eq_ids hI.wf (hI.nodup p) (hI.ixmem p)
        have hle := pairCount_le_symCount hfr p
        have hu1 := hI.uni p.1
        have hu2 := hI.uni p.2
        have h0 := pairCount_nonneg hfr p
        have c1 : ¬ f < 0 := by omega
        have c2 : ¬ (f ≠ isum (nodes.map fun n => (I.mem n).freq)) := by rw [hcnt, hsum, hids]; simp
        have c3 : ¬ ((Dict.get? I.uni p.1).getD 0 < f) := by unfold Dict.cnt at hu1; omega
        have c4 : ¬ ((Dict.get? I.uni p.2).getD 0 < f) := by unfold Dict.cnt at hu2; omega
        simp only [validateBi, c1, hn, c2, c3, c4, if_false]
        exact ih (fun x hx => hl x (by simp [hx]))
    have hall : ((Dict.values I.uni).all fun f => decide (0 ≤ f)) = true := by
      rw [List.all_eq_true]
      intro f hf
      obtain ⟨⟨v, f'⟩, hx, rfl⟩ := List.mem_map.1 hf
      have hg := Dict.get?_of_mem hI.uknd hx
      have h1 := hI.uni v
      rw [cnt_of_get? hg] at h1
      have := symCount_nonneg hfr v
      simp only [decide_eq_true_eq]; omega
    have g1 : ¬ ¬ (mc < vocab.length ∧ mc ≤ mi) := by simp only [not_not]; omega
    have g2 : ¬ (I.bi.length ≠ I.ix.length) := by simp [hlen]
    simp only [validateIndex, e1, e2]
    rw [if_neg g1, if_neg g2]
    simp only [hbi I.bi (fun x hx => hx), hall, if_true]
  have hck := checkIdx_ok vocab 0 (fun i t ht => by rw [Nat.zero_add]; exact hidx i t ht)
  simp only [bpeInit]
  rw [if_neg (by simp [hd1])]
  simp only [hck, e, hval]

/-- the initial state of `learn_codes` -/
theorem LInv_init {I : Index} {G : Segs} {vocab : List Ty} (h : IInv I G) (hcodes : ∀ s ∈ corpusOf I.mem G, ∀ c ∈ s.1, c < vocab.length) :
    LInv { mem := I.mem, ix := I.ix, uni := I.uni, vocab := vocab, heap := heapInit I.bi, dirty := [] } G := by
  have hbind : (Dict.keys I.bi).Nodup := by rw [h.bikeys]; exact h.keys
  obtain ⟨hperm, hord⟩ := heapInit_spec I.bi
  have hkeys : ((heapInit I.bi).map (·.2)).Perm (Dict.keys I.bi) := by
    have := hperm.map (·.2)
    rwa [List.map_map] at this
  have hval : ∀ f q, (f, q) ∈ heapInit I.bi → Dict.get? I.bi q = some (-f) := by
    intro f q hq
    obtain ⟨⟨p, c⟩, hx, e⟩ := List.mem_map.1 (hperm.subset hq)
    simp only [Prod.mk.injEq] at e
    obtain ⟨e1, rfl⟩ := e
    have := Dict.get?_of_mem hbind hx
    rw [this]; congr 1; omega
  refine { wf := h.wf, keys := h.keys, nodup := h.nodup, ixmem := h.ixmem, uni := h.uni, uknd := h.uknd, freqs := h.freqs,
           nonempty := h.nonempty, vals := hcodes, heap := ?_ }
  have hb : ∀ q ∈ Dict.keys I.bi, q.1 < vocab.length ∧ q.2 < vocab.length := by
    intro q hq
    have h1 := h.bipos q hq
    rw [h.bi] at h1
    obtain ⟨s, hs, hm1, hm2⟩ := mem_of_pairCount (C := corpusOf I.mem G) (q := q) (by omega)
    exact ⟨hcodes s hs _ hm1, hcodes s hs _ hm2⟩
  refine { ord := hord, nodup := hkeys.nodup_iff.2 hbind, dnd := by simp [Dict.keys], val := ?_, pos := ?_, cover := ?_, neg := by simp, hb := ?_,
           db := by simp [Dict.keys], hex := by simp }
  · intro f q hq
    have := hval f q hq
    simp only
    rw [← h.bi, cnt_of_get? this]; simp [Dict.cnt]
  · intro f q hq
    have h1 := hval f q hq
    have h2 := h.bipos q ((Dict.isSome_get?_iff _ _).1 (by simp [h1]))
    rw [cnt_of_get? h1] at h2; omega
  · intro q hq _
    simp only [hkeys.mem_iff]
    by_contra hk
    have := cnt_none ((Dict.get?_eq_none_iff _ _).2 hk)
    rw [h.bi] at this
    simp only at hq
    omega
  · intro q hq; exact hb q (hkeys.subset hq)

/-- `BPELearn(seqs, vocab).learn_codes(n, ...)` follows the specification -/
theorem learnCodes_spec {ord : Nat → List Nat → List Nat} (hord : ∀ i l, (ord i l).Perm l) (minEv level : Int) (n : Nat)
    {seqs : Corpus} {vocab : List Ty} (hne : seqs ≠ []) (hs : ∀ s ∈ seqs, s.1 ≠ [] ∧ 0 < s.2)
    (hidx : ∀ i (t : Ty), vocab[i]? = some t → t.idx = i) (hnames : (vocab.map (·.name)).Nodup)
    (hcodes : ∀ s ∈ seqs, ∀ c ∈ s.1, c < vocab.length) :
    (∃ v' k C', learnCodes ord seqs vocab n minEv level = .ok v' ∧ k ≤ n ∧ Run minEv level seqs vocab k C' v' ∧
      (k = n ∨ ∃ p, IsBest C' p ∧ pairCount C' p < minEv)) ∨
    (∃ k C' v', learnCodes ord seqs vocab n minEv level = .error .index ∧ k < n ∧ Run minEv level seqs vocab k C' v' ∧
      ∀ q, pairCount C' q = 0) := by
  obtain ⟨I, G, e, hI, hc⟩ := bpeInit_spec hne hs hidx hnames hcodes
  have hL := LInv_init (vocab := vocab) hI (by rw [hc]; exact hcodes)
  have := learnLoop_spec hord minEv level n hL
  simp only [hc] at this
  rcases this with ⟨S', k, C', e2, hk, hrun, hstop⟩ | ⟨k, C', v', e2, hk, hrun, hz⟩
  · left; exact ⟨S'.vocab, k, C', by simp only [learnCodes, e, e2], hk, hrun, hstop⟩
  · right; exact ⟨k, C', v', by simp only [learnCodes, e, e2], hk, hrun, hz⟩

end Verif
