import Verif.Props.Segment
import Verif.Props.Main
/-!
# Property C100: words seen often enough become one type

When BPE learning is stopped by the threshold on pair counts, and not by the size, a word seen at least that often has its own type.
-/

namespace Verif
open Spec

theorem applies_ne_nil {ms : List ((Nat × Nat) × Nat)} {s s' : List Nat} (h : Applies ms s s') : s ≠ [] → s' ≠ [] := by
  induction h with
  | nil => exact id
  | cons h1 _ _ ih => exact fun h => ih (h1.ne_nil h)

/-- a pair counts at least as often as a sequence it occurs in -/
theorem le_pairCount {C : Corpus} (hC : ∀ s ∈ C, 0 ≤ s.2) {p : Nat × Nat} {s : List Nat × Int} (h : s ∈ C) (hp : pairOcc p s.1 ≠ 0) :
    s.2 ≤ pairCount C p := by
  induction C with
  | nil => cases h
  | cons u C ih =>
    rw [pairCount_cons]
    have hnn : 0 ≤ pairCount C p := by
      unfold pairCount
      refine List.sum_nonneg ?_
      intro z hz
      obtain ⟨t, ht, rfl⟩ := List.mem_map.1 hz
      exact mul_nonneg (hC t (by simp [ht])) (pairOcc_nonneg _ _)
    rcases List.mem_cons.1 h with rfl | h
    · have h1 : 1 ≤ pairOcc p s.1 := by have := pairOcc_nonneg p s.1; omega
      have := le_mul_of_one_le_right (hC _ List.mem_cons_self) h1
      omega
    · have h1 := ih (fun s hs => hC s (by simp [hs])) h
      have := mul_nonneg (hC u (by simp)) (pairOcc_nonneg p u.1)
      omega

/-- C100: if BPE learning ends before the table has the size asked for, a word of the text that occurs `minEv` times or more is left as
one symbol. -/
theorem C100_learned {ord : Nat → List Nat → List Nat} (hord : ∀ i l, (ord i l).Perm l) {A : Acc} {data : List Str}
    {vs mf : Int} {cov : Option A.F} {minEv : Int} {vocab : List Ty} {toks : List (List Str)}
    (ht : List.Forall₂ Tokens data toks) (hv : ∀ c, cov = some c → A.valid c = true)
    (h : bpeLearn ord A data vs mf cov minEv = .ok vocab) (hstop : (vocab.length : Int) < effSize vs minEv)
    {w : Str} (hw : w ∈ toks.flatten) (hmin : minEv ≤ toks.flatten.count w) : ∃ i, Learned vocab w [i] := by
  obtain ⟨tf, v0, C, k, C', h1, _, _, h4, h5⟩ := C93_corpus hord ht hv h
  obtain ⟨p, hp, hlt⟩ := h5.resolve_left (by omega)
  obtain ⟨t, htC, htf, hl⟩ : ∃ t ∈ C', t.2 = (toks.flatten.count w : Int) ∧ Learned vocab w t.1 :=
    mem_of_forall₂_right h4.flip _ ((h1 w _).2 ⟨hw, rfl⟩)
  have hpos : ∀ s ∈ C', 0 ≤ s.2 := by
    intro s hs
    obtain ⟨q, hq, e, _⟩ := mem_of_forall₂_right h4 s hs
    have := ((h1 q.1 q.2).1 hq).2
    omega
  obtain ⟨seg, f⟩ := t
  dsimp only at htf hl
  cases seg with
  | nil =>
    obtain ⟨s, hs, ha⟩ := hl
    refine absurd rfl (applies_ne_nil ha ?_)
    rintro rfl
    have := hs.length_eq
    simp at this
  | cons x seg =>
    cases seg with
    | nil => exact ⟨x, hl⟩
    | cons y r =>
      have g1 := le_pairCount hpos htC (p := (x, y)) (by
        have := pairOcc_nonneg (x, y) (y :: r)
        simp only [pairOcc, if_true]; omega)
      rcases hp.2 (x, y) with g2 | ⟨g2, _⟩ <;> omega

theorem isToken_of_tokens {line : Str} {ws : List Str} (h : Tokens line ws) {w : Str} (hw : w ∈ ws) : IsToken w := by
  have := split_isToken (s := line) (w := w); rw [split_of_tokens h] at this; exact this hw

/-- C100: if moreover its characters are in the table, the word with the end marker is a type, and the word is encoded as that one
type. -/
theorem C100_word {ord : Nat → List Nat → List Nat} (hord : ∀ i l, (ord i l).Perm l) {A : Acc} {data : List Str}
    {vs mf : Int} {cov : Option A.F} {minEv : Int} {vocab : List Ty} {toks : List (List Str)}
    (ht : List.Forall₂ Tokens data toks) (hv : ∀ c, cov = some c → A.valid c = true)
    (h : bpeLearn ord A data vs mf cov minEv = .ok vocab) (hstop : (vocab.length : Int) < effSize vs minEv)
    {w : Str} (hw : w ∈ toks.flatten) (hmin : minEv ≤ toks.flatten.count w) (hknown : ∀ c ∈ w, [c] ∈ names vocab)
    {s : Scheme} (hs : Scheme.make .bpe vocab = .ok s) :
    w ++ [SP] ∈ names vocab ∧ s.encodeStr w = .ok [w ++ [SP]] ∧ ∃ x, s.encode w = .ok [x] := by
  obtain ⟨i, hi⟩ := C100_learned hord ht hv h hstop hw hmin
  have htok : IsToken w := by
    obtain ⟨ws, hws, hww⟩ := List.mem_flatten.1 hw
    obtain ⟨line, _, hl⟩ := mem_of_forall₂_right ht ws hws
    exact isToken_of_tokens hl hww
  have hw1 : Tokens w [w] := by simpa using Tokens.last (g := []) (h := []) (by simp [AllSpace]) htok (by simp [AllSpace])
  obtain ⟨t, p, ps, h1, h2, _, h4⟩ := C93_first_partial hord hv h hs hw1 hknown hi
  obtain ⟨rfl, rfl, _⟩ := h4 rfl
  obtain ⟨hidx, _, hres, hne, hk⟩ := C22_text hord hv h
  obtain ⟨codes, hc, hap⟩ := hi
  have hname : t.name = w ++ [SP] := by
    have := (codes_name hc fun c hc => ?_).2
    · rw [← applies_textOf hidx hk (fun m hm => hm) hap] at this
      change t.name = w ++ [0x2581]
      rw [← this]; simp [textOf, h1]
    · rcases List.mem_append.1 hc with hc | hc
      · exact hknown c hc
      · simp only [List.mem_singleton] at hc
        subst hc
        exact (List.take_sublist 6 _).subset (by rw [hres]; decide)
  rw [hname] at h2
  refine ⟨hname ▸ List.mem_map.2 ⟨t, List.mem_of_getElem? h1, rfl⟩, h2, ?_⟩
  obtain ⟨out, _, he, hei⟩ := bpe_encode_spec hs hidx w
  rw [he] at h2
  injection h2 with h2
  have := congrArg List.length h2
  rw [List.length_map] at this
  obtain ⟨o, rfl⟩ := List.length_eq_one_iff.1 this
  exact ⟨_, hei⟩

/-- learning without a coverage keeps every character of the text -/
theorem learned_chars {ord : Nat → List Nat → List Nat} (hord : ∀ i l, (ord i l).Perm l) {A : Acc} {data : List Str}
    {vs mf minEv : Int} {vocab : List Ty} {toks : List (List Str)} (ht : List.Forall₂ Tokens data toks)
    (h : bpeLearn ord A data vs mf none minEv = .ok vocab) {w : Str} (hw : w ∈ toks.flatten) : ∀ c ∈ w, [c] ∈ names vocab := by
  intro c hc
  obtain ⟨t1, t2, t3⟩ := termFrequencies_word data
  obtain ⟨cf, v0, C, c1, c2, c3, c4, c5, c6, c0, c7⟩ := bpeLearnTf_cases (A := A) (ord := ord) t1 t2 t3 (lc := (termFrequencies .word data).2)
    (vs := vs) (mf := mf) (minEv := minEv) (cov := none) (by simp)
  have hin : [c] ∈ names v0 := by
    have hmem := (C15_counts (k := .word) _ _ ht (Or.inl rfl) w _).2 ⟨by simpa using hw, rfl⟩
    have hp : 0 < chCount (termFrequencies .word data).1 c := chCount_pos_of_mem t2 hmem hc
    exact kept_nocut c1 (noCut_none A cf) c0 (le_refl _) (by omega) ((c2 [c] _).2 ⟨c, rfl, rfl, hp⟩)
  simp only [bpeLearn] at h
  rw [c7] at h
  split at h
  · obtain ⟨k, C', hk, hrun, _⟩ := C20_merges hord c5 c3.indexed c3.distinct c6 h
    obtain ⟨new, e, _⟩ := hrun.shape
    rw [e, names, List.map_append]
    exact List.mem_append_left _ hin
  · simp at h

/-! ## how large a table can get -/

theorem replaces_shorter {a b r : Nat} {s t : List Nat} (h : Replaces a b r s t) : s = t ∨ t.length < s.length := by
  induction h with
  | nil => exact .inl rfl
  | keep x _ ih =>
    rcases ih with rfl | ih
    · exact .inl rfl
    · right; simpa using ih
  | pair _ ih =>
    right
    rcases ih with rfl | ih
    · simp
    · simp only [List.length_cons]; omega

/-- number of symbols in the sequences of a corpus -/
def Spec.symbols (C : Corpus) : Nat := (C.map fun s => s.1.length).sum

theorem merged_symbols {p : Nat × Nat} {r : Nat} {C C1 : Corpus} (h : Merged p r C C1) :
    symbols C1 ≤ symbols C ∧ (0 < pairCount C p → symbols C1 < symbols C) := by
  unfold Merged at h
  induction h with
  | nil => exact ⟨le_refl _, fun h => by simp [pairCount] at h⟩
  | @cons s t C C1 hst _ ih =>
    obtain ⟨_, h1, h2⟩ := hst
    simp only [symbols, List.map_cons, List.sum_cons] at ih ⊢
    rcases replaces_shorter h1 with e | e
    · rw [e]
      refine ⟨by omega, fun hp => ?_⟩
      rw [pairCount_cons, e, h2] at hp
      have := ih.2 (by omega)
      omega
    · exact ⟨by omega, fun _ => by omega⟩

theorem run_symbols {minEv level : Int} {C C' : Corpus} {v v' : List Ty} {k : Nat} (h : Run minEv level C v k C' v') :
    symbols C' + k ≤ symbols C ∧ v'.length = v.length + k := by
  induction h with
  | refl => simp
  | step hb _ _ _ hm _ ih =>
    have := (merged_symbols hm).2 hb.1
    simp only [List.length_append, List.length_singleton] at ih
    omega

/-- the characters learning starts from -/
theorem initial_bound {tf cf : List (Str × Int)} {v0 : List Ty} (h2 : ∀ n f, (n, f) ∈ cf ↔ ∃ c, n = [c] ∧ f = chCount tf c ∧ 0 < f)
    (h3 : VocabContract Level.char 1 cf v0) : v0.length ≤ 6 + (tf.map fun p => p.1.length + 1).sum := by
  have hchars : (v0.drop 6).length ≤ (tf.map fun p => p.1.length + 1).sum := by
    have hs : (names (v0.drop 6)).Subperm ((tf.flatMap fun p => p.1 ++ [0x2581]).map fun c => [c]) := by
      refine List.subperm_of_subset ?_ fun n hn => ?_
      · have := h3.distinct
        unfold names at this ⊢
        exact (this.sublist ((List.drop_sublist 6 v0).map _))
      · obtain ⟨t, htm, rfl⟩ := List.mem_map.1 hn
        obtain ⟨c, hc, hf, hpos⟩ := (h2 _ _).1 (h3.counted t htm).1
        rw [hc]
        refine List.mem_map.2 ⟨c, ?_, rfl⟩
        by_contra hno
        have : chCount tf c = 0 := by
          unfold chCount
          refine List.sum_eq_zero ?_
          intro z hz
          obtain ⟨p, hp, rfl⟩ := List.mem_map.1 hz
          have : c ∉ p.1 ++ [0x2581] := fun hm => hno (List.mem_flatMap.2 ⟨p, hp, hm⟩)
          simp [List.count_eq_zero_of_not_mem this]
        omega
    have := hs.length_le
    simpa [names, List.length_flatMap] using this
  rw [List.length_drop] at hchars
  omega

theorem words_bound {toks : List (List Str)} {tf : List (Str × Int)} (h1 : ∀ n f, (n, f) ∈ tf ↔ n ∈ toks.flatten ∧ f = toks.flatten.count n)
    (hnd : (tf.map (·.1)).Nodup) : (tf.map fun p => p.1.length + 1).sum ≤ (toks.flatten.map fun w => w.length + 1).sum := by
  have hs : (tf.map (·.1)).Subperm toks.flatten := by
    refine List.subperm_of_subset hnd fun n hn => ?_
    obtain ⟨p, hp, rfl⟩ := List.mem_map.1 hn
    exact ((h1 p.1 p.2).1 hp).1
  obtain ⟨l, hl1, hl2⟩ := hs
  have e1 := (hl1.map fun w : Str => w.length + 1).sum_eq
  have e2 := (hl2.map fun w : Str => w.length + 1).sum_le_sum (by simp)
  rw [List.map_map] at e1
  exact e1 ▸ e2

theorem vocab_bound {ord : Nat → List Nat → List Nat} (hord : ∀ i l, (ord i l).Perm l) {A : Acc} {data : List Str}
    {vs mf : Int} {cov : Option A.F} {minEv : Int} {vocab : List Ty} {toks : List (List Str)}
    (ht : List.Forall₂ Tokens data toks) (hv : ∀ c, cov = some c → A.valid c = true)
    (h : bpeLearn ord A data vs mf cov minEv = .ok vocab) :
    vocab.length ≤ 6 + 2 * (toks.flatten.map fun w => w.length + 1).sum := by
  obtain ⟨tf, cf, v0, C, k, C', h1, hnd, h2, h3, h4, h5, hst⟩ := C20_text hord ht hv h
  obtain ⟨g1, g2⟩ := run_symbols h5
  have e : symbols C = (tf.map fun p => p.1.length + 1).sum := by
    clear h1 hnd h2 h5 g1
    unfold symbols
    induction h4 with
    | nil => rfl
    | cons hc _ ih => rw [List.map_cons, List.map_cons, List.sum_cons, List.sum_cons, ih, ← hc.2.length_eq]; simp
  have hsub := words_bound h1 hnd
  have := initial_bound h2 h3
  omega

/-- the six reserved types, the characters and at most one merge for each character -/
example : (match bpeLearn ordId accExact [lit "abcd abcd x"] 0 1 none 2 with
    | .error _ => false
    | .ok v => decide (v.length = 15 ∧ 6 + 2 * ([lit "abcd", lit "abcd", lit "x"].map fun w => w.length + 1).sum = 30)) = true := by decide +kernel

/-- C100: BPE learned with a threshold of two or more and neither size nor coverage, from a text (without U+2581) of fewer than 2^60
characters.  A line all of whose words were seen as often as the threshold asks is encoded with one id for each word. -/
theorem C100_line {ord : Nat → List Nat → List Nat} (hord : ∀ i l, (ord i l).Perm l) {A : Acc} {data : List Str}
    {vs mf minEv : Int} {vocab : List Ty} {toks : List (List Str)} (ht : List.Forall₂ Tokens data toks) (hsp : ∀ ws ∈ toks, ∀ w ∈ ws, SP ∉ w)
    (hsize : (toks.flatten.map fun w => w.length + 1).sum < 2 ^ 60) (hmin : 1 < minEv) (hvs : vs ≤ 1)
    (h : bpeLearn ord A data vs mf none minEv = .ok vocab) :
    ∃ s, Scheme.make .bpe vocab = .ok s ∧ ∀ line ws, Tokens line ws → ws ≠ [] → (∀ w ∈ ws, minEv ≤ toks.flatten.count w) →
      ∃ ids, s.encode line = .ok ids ∧ ids.length = ws.length ∧ s.decode ids = .ok (List.intercalate [32] ws) := by
  have hv : ∀ c, (none : Option A.F) = some c → A.valid c = true := by simp
  have hstop : (vocab.length : Int) < effSize vs minEv := by
    have := vocab_bound hord ht hv h
    rw [effSize, if_pos ⟨hmin, hvs⟩]
    omega
  obtain ⟨s, hs, henc⟩ := C81_learned hord ht hsp hv h
  refine ⟨s, hs, fun line ws hw hne hfreq => ?_⟩
  have hmem : ∀ w ∈ ws, w ∈ toks.flatten := fun w hw' => List.count_pos_iff.1 (by have := hfreq w hw'; omega)
  obtain ⟨idss, h1, h2⟩ := henc line ws hw hne
  obtain ⟨ids, h3, h4⟩ := C04_bpe_lossless hs (C22_text hord hv h).1 hw fun w hw' c hc => ⟨learned_chars hord ht h (hmem w hw') c hc, by
    rintro rfl
    obtain ⟨l, hl, hwl⟩ := List.mem_flatten.1 (hmem w hw')
    exact hsp l hl w hwl hc⟩
  rw [h2] at h3
  injection h3 with h3
  subst h3
  refine ⟨_, h2, ?_, h4⟩
  have key : ∀ ws' : List Str, (∀ w ∈ ws', w ∈ ws) → ∀ idss, List.Forall₂ (fun w ids => s.encode w = .ok ids) ws' idss →
      idss.flatten.length = ws'.length := by
    intro ws' hsub idss hf
    induction hf with
    | nil => rfl
    | @cons w x ws' idss hwx _ ih =>
      have hw' := hsub w (by simp)
      obtain ⟨_, _, y, hy⟩ := C100_word hord ht hv h hstop (hmem w hw') (hfreq w hw') (learned_chars hord ht h (hmem w hw')) hs
      rw [hwx] at hy
      injection hy with hy
      subst hy
      rw [List.flatten_cons, List.length_append, ih fun v hv => hsub v (by simp [hv])]
      simp [Nat.add_comm]
  exact key ws (fun _ h => h) idss h1

/-- "abcd" and "ab", seen twice with the threshold 2: one id for each word -/
example : (match bpeLearn ordRev accExact [lit "abcd ab", lit "ab abcd bd"] 0 1 none 2 with
    | .error _ => false
    | .ok v => match Scheme.make .bpe v with
      | .error _ => false
      | .ok s => (match s.encode (lit " abcd ab  abcd") with
        | .error _ => false
        | .ok ids => decide (ids.length = 3)) && decide (s.encodeStr (lit "bd") = .ok [lit "b", lit "d▁"] ∨
          s.encodeStr (lit "bd") = .ok [lit "b", lit "d", lit "▁"])) = true := by decide +kernel

/-- C100 needs the threshold to be what ends learning: with a size, "abcd", seen twice, is encoded by more than one id. -/
theorem C100_size_needed : (match bpeLearn ordId accExact [lit "abcd ab", lit "ab abcd bd"] 11 1 none 2 with
    | .error _ => false
    | .ok v => decide ((withScheme .bpe v fun s => s.encodeStr (lit "abcd")) = .ok [lit "ab", lit "c", lit "d", lit "▁"])) = true := by
  decide +kernel

/-- C100 needs known characters: with a coverage that leaves out "x" the word "ax", seen twice, is encoded with an unknown character. -/
theorem C100_coverage_needed : (match bpeLearn ordId accExact [lit "ax ax aaaaaa aaaaa a"] 0 1 (some (1, 2)) 2 with
    | .error _ => false
    | .ok v => (match withScheme .bpe v fun s => s.encodeStr (lit "ax") with
      | .error _ => false
      | .ok ps => decide (lit "<unk>" ∈ ps ∧ 1 < ps.length))) = true := by decide +kernel

end Verif
