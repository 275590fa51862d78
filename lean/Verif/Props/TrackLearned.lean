import Verif.Props.Track
import Verif.Props.File
/-!
# Tracked merges of learned models: C61, C70

The hypothesis `MergeTable` of the theorems of `Verif/Props/Track.lean` holds for every learned BPE vocabulary.
-/

namespace Verif
open Spec

theorem checkKids_iff (ms : List Ty) : checkKids ms = .ok () ↔ ∀ t ∈ ms, ∃ a b, t.kids = [a, b] := by
  induction ms with
  | nil => simp [checkKids]
  | cons t ms ih =>
    unfold checkKids
    constructor
    · intro h
      split at h
      · cases h
      · split at h
        · rename_i hl
          intro u hu
          rcases List.mem_cons.1 hu with rfl | hu
          · exact List.length_eq_two.1 hl
          · exact ih.1 h u hu
        · cases h
    · intro h
      obtain ⟨a, b, hk⟩ := h t (by simp)
      rw [hk]
      simpa using ih.2 (fun u hu => h u (by simp [hu]))

/-- C70: a file is accepted exactly if its header says level 1, every type of level 1 or more has exactly two kids, and the others
make a BPE scheme; that scheme is the start, and the types of level 1 or more are waiting in order. -/
theorem C70_accepts (ml : Option Int) (types : List Ty) (x : CodecXt) : xtInit ml types = .ok x ↔
    ml = some 1 ∧ (∀ t ∈ types, 1 ≤ t.level → ∃ a b, t.kids = [a, b]) ∧
      Scheme.make .bpe (types.filter fun t => decide (t.level < 1)) = .ok x.scheme ∧
      x.buffer = types.filter fun t => decide (1 ≤ t.level) := by
  have hl : Level.subword = 1 := rfl
  have hk : (∀ t ∈ types, 1 ≤ t.level → ∃ a b, t.kids = [a, b]) ↔ checkKids (types.filter fun t => decide (1 ≤ t.level)) = .ok () := by
    rw [checkKids_iff]
    simp only [List.mem_filter, decide_eq_true_eq, and_imp]
  rw [hk]
  unfold xtInit
  simp only [hl]
  constructor
  · intro h
    split at h
    · rename_i hm
      split at h
      · cases h
      · rename_i hc
        split at h
        · cases h
        · rename_i s hs
          injection h with h
          subst h
          exact ⟨hm, hc, hs, rfl⟩
    · cases h
  · rintro ⟨h1, h2, h3, h4⟩
    rw [if_pos h1]
    simp only [h2, h3]
    rw [← h4]

theorem make_bpe_of {tbl : List Ty} (h3 : (names tbl).take 6 = reservedNames) (h4 : ∀ t ∈ tbl, t.name ≠ []) :
    ∃ s, Scheme.make .bpe tbl = .ok s := by
  have h1 := validateReserved_of_names h3
  have h2 : (buildTrie tbl).data = none := by
    have : (buildTrie tbl).lookup [] = lastNamed tbl [] := lookup_buildTrie tbl []
    have h5 : lastNamed tbl [] = none := by
      cases hl : lastNamed tbl [] with
      | none => rfl
      | some t => exact absurd (lastNamed_some hl).2 (h4 t (lastNamed_some hl).1)
    rw [h5] at this
    simpa [Trie.lookup] using this
  exact ⟨_, by simp only [Scheme.make, h1, h2]; rfl⟩

/-- a learned vocabulary is a table of merges over reserved types and characters -/
theorem learned_mergeTable {ord : Nat → List Nat → List Nat} (hord : ∀ i l, (ord i l).Perm l) {A : Acc} {data : List Str}
    {vs mf : Int} {cov : Option A.F} {minEv : Int} {vocab : List Ty} (hv : ∀ c, cov = some c → A.valid c = true)
    (h : bpeLearn ord A data vs mf cov minEv = .ok vocab) :
    ∃ init ms s, vocab = init ++ ms ∧ MergeTable init ms ∧ Scheme.make .bpe init = .ok s ∧ (∀ t ∈ ms, t.level = 1 ∧ t.name ≠ []) := by
  obtain ⟨t1, t2, t3⟩ := termFrequencies_word data
  obtain ⟨hix, _, hres, hnn, _⟩ := C22_text hord hv h
  have h' : bpeLearnTf ord A (termFrequencies .word data).1 (termFrequencies .word data).2 vs mf cov minEv = .ok vocab := h
  obtain ⟨cf, v0, C, c1, c2, c3, c4, c5, c6, c0, c7⟩ := bpeLearnTf_cases (ord := ord) t1 t2 t3 (lc := (termFrequencies .word data).2)
    (vs := vs) (mf := mf) (minEv := minEv) hv
  rw [c7] at h'
  split at h'
  · obtain ⟨w1, w2, w3, w4⟩ := C22_well_formed hord c5 c3.indexed c3.distinct c6 h'
    have h6 : 6 ≤ v0.length := by
      have := congrArg List.length c3.reserved
      simp at this
      omega
    have hlow : ∀ t ∈ v0, t.level < 1 := by
      intro t ht
      rw [← List.take_append_drop 6 v0] at ht
      rcases List.mem_append.1 ht with ht | ht
      · have h1 : (t.name, t.level, t.kids) ∈ (v0.take 6).map (fun t => (t.name, t.level, t.kids)) := List.mem_map.2 ⟨t, ht, rfl⟩
        rw [c3.reserved] at h1
        have h2 : ∀ x ∈ ([(lit "<pad>", -1, []), (lit "<unk>", -1, []), (lit "<s>", -1, []), (lit "</s>", -1, []),
          (lit "<cls>", -1, []), ([0x2581], -1, [])] : List (Str × Int × List Ty)), x.2.1 < 1 := by decide
        exact h2 _ h1
      · rw [(c3.counted t ht).2.1]; decide
    have hsplit : vocab = v0 ++ vocab.drop v0.length := by
      conv_lhs => rw [← List.take_append_drop v0.length vocab, w1]
    have hms : ∀ t ∈ vocab.drop v0.length, t.level = 1 ∧ ∃ ta tb, t.kids = [ta, tb] ∧ ta.idx < t.idx ∧ tb.idx < t.idx := by
      intro t ht
      obtain ⟨i, hi⟩ := List.getElem?_of_mem ht
      rw [List.getElem?_drop] at hi
      obtain ⟨g1, ja, jb, ta, tb, g2, g3, g4, g5, g6, _⟩ := w4 _ t (by omega) hi
      refine ⟨g1, ta, tb, g6, ?_, ?_⟩
      · rw [w3 _ _ g4, w3 _ _ hi]; exact g2
      · rw [w3 _ _ g5, w3 _ _ hi]; exact g3
    obtain ⟨s, hs⟩ := make_bpe_of (tbl := v0) (by
        rw [← hres, ← w1]
        simp only [names, List.map_take, List.take_take]
        rw [Nat.min_eq_left h6]) (fun t ht => hnn t (by rw [hsplit]; exact List.mem_append_left _ ht))
    refine ⟨v0, vocab.drop v0.length, s, hsplit, ⟨by rw [← hsplit]; exact w3, hlow, fun t ht => by rw [(hms t ht).1], fun t ht => (hms t ht).2⟩, hs,
      fun t ht => ⟨(hms t ht).1, hnn t (List.mem_of_mem_drop ht)⟩⟩
  · cases h'

/-- C70: every learned BPE vocabulary with at least one merge, written with its header, is accepted; it starts with the reserved types
and characters and all merges can be done one by one, after which it encodes as the learned model if the names are distinct (and to
the same pieces in any case).  A vocabulary without merges is refused. -/
theorem C70_learned {ord : Nat → List Nat → List Nat} (hord : ∀ i l, (ord i l).Perm l) {A : Acc} {data : List Str}
    {vs mf : Int} {cov : Option A.F} {minEv : Int} {vocab : List Ty} (hv : ∀ c, cov = some c → A.valid c = true)
    (h : bpeLearn ord A data vs mf cov minEv = .ok vocab) :
    (∀ t ∈ vocab, t.level ≠ 1) ∧ xtInit (maxLevel vocab) vocab = .error .assertion ∨
    ∃ x x' s, xtInit (maxLevel vocab) vocab = .ok x ∧ x.mergeN x.buffer.length = .ok x' ∧ x'.scheme.table = vocab ∧
      Scheme.make .bpe vocab = .ok s ∧ (∀ line, x'.scheme.encodeStr line = s.encodeStr line) ∧
      ((names vocab).Nodup → ∀ line, x'.scheme.encode line = s.encode line) := by
  obtain ⟨init, ms, s0, hsp, hmt, hs0, hlv⟩ := learned_mergeTable hord hv h
  obtain ⟨s, hs, _⟩ := C19_bpe_accepted hord hv h
  have hne : vocab ≠ [] := by
    intro h0
    have := (C22_text hord hv h).2.2.1
    rw [h0] at this
    simp [names, reservedNames] at this
  obtain ⟨m, hm⟩ := maxLevel_ne_none hne
  obtain ⟨⟨t, ht, htl⟩, hmax⟩ := maxLevel_spec hm
  by_cases hms : ms = []
  · left
    subst hms
    rw [List.append_nil] at hsp
    subst hsp
    have hlow := hmt.low
    refine ⟨fun t ht => by have := hlow t ht; omega, ?_⟩
    unfold xtInit
    rw [if_neg]
    rw [hm]
    have := hlow t ht
    intro hc
    injection hc with hc
    rw [hc] at htl
    rw [htl] at this
    exact absurd this (by decide)
  · right
    have hm1 : maxLevel vocab = some 1 := by
      rw [hm]
      congr 1
      obtain ⟨u, us, hu⟩ := List.exists_cons_of_ne_nil hms
      have h1 := hmax u (by rw [hsp, hu]; simp)
      rw [(hlv u (by rw [hu]; simp)).1] at h1
      rw [hsp] at ht
      rcases List.mem_append.1 ht with ht | ht
      · have := hmt.low t ht; omega
      · have := (hlv t ht).1; omega
    obtain ⟨x, x', e1, e2, e3, e4, _, e6⟩ := C70_merges_partial hmt hs0 (le_refl ms.length)
    rw [List.take_length] at e3 e6
    rw [← hsp] at e1 e3 e6
    obtain ⟨f1, _, f3⟩ := e6 s hs
    have hb : x.buffer.length = ms.length := by
      rw [hsp, show (1 : Int) = Level.subword from rfl, xtInit_ok hmt hs0] at e1
      injection e1 with e1
      rw [← e1]
    exact ⟨x, x', s, by rw [hm1]; exact e1, by rw [hb]; exact e2, e3, hs, f1, f3⟩

/-- C61: tracking works for every learned vocabulary with at least one merge and every text. -/
theorem C61_learned {ord : Nat → List Nat → List Nat} (hord : ∀ i l, (ord i l).Perm l) {A : Acc} {data : List Str}
    {vs mf : Int} {cov : Option A.F} {minEv : Int} {vocab : List Ty} (hv : ∀ c, cov = some c → A.valid c = true)
    (h : bpeLearn ord A data vs mf cov minEv = .ok vocab) {ord' : Nat → List Nat → List Nat} (hord' : ∀ i l, (ord' i l).Perm l)
    (data' : List Str) : ∃ init ms s seqs rows x T Cs C, vocab = init ++ ms ∧ Scheme.make .bpe init = .ok s ∧
      List.Forall₂ (fun l q => s.encode l = .ok (q.map fun (i : Nat) => (i : Int))) data' seqs ∧
      trackEstimate ord' (some 1) vocab data' = .ok (rows, x, T) ∧ Stages ms (plain seqs :: Cs) ∧ rows.length = ms.length + 1 ∧
      (∀ i row C, rows[i]? = some row → (plain seqs :: Cs)[i]? = some C → RowOf (fun v => shortfall v (ms.take i) (plain seqs :: Cs)) (init.length + i) C row) ∧
      (plain seqs :: Cs).getLast? = some C ∧ T.lens = seqLens C ∧
      (∀ v, v < vocab.length → T.uni[v]! = symTotal C v - shortfall v ms (plain seqs :: Cs)) ∧
      ∀ i v, i ≤ ms.length → 0 ≤ shortfall v (ms.take i) (plain seqs :: Cs) ∧
        (¬ Doubles (ms.take i) v → shortfall v (ms.take i) (plain seqs :: Cs) = 0) := by
  obtain ⟨init, ms, s, hsp, hmt, hs, _⟩ := learned_mergeTable hord hv h
  obtain ⟨seqs, rows, x, T, Cs, C, e⟩ := C61_estimate hmt hs hord' data'
  rw [← hsp] at e
  exact ⟨init, ms, s, seqs, rows, x, T, Cs, C, hsp, hs, e⟩

example : (match bpeLearn ordId accExact [lit "ab ab abc"] 11 0 none 2 with
    | .error e => .error e
    | .ok v => match xtInit (maxLevel v) v with
      | .error e => .error e
      | .ok x => .ok (names x.scheme.table, names x.buffer) : Py (List Str × List Str)) =
    .ok ([lit "<pad>", lit "<unk>", lit "<s>", lit "</s>", lit "<cls>", [SP], lit "a", lit "b", lit "c"], [lit "ab", lit "ab▁"]) := by decide +kernel

end Verif
