import Verif.Lemmas.BpeNames
import Verif.Props.Order
import Verif.Props.Control
import Verif.Props.Restore
/-!
# Property C73: distinct names of learned BPE types

Two types can get the same name when a word contains a block three times in a row, or when it spells a reserved name; otherwise
all names are distinct.
-/

namespace Verif
open Spec

/-- a symbol of a known character has that character as name -/
theorem codeOf_name {v0 : List Ty} {c i : Nat} (h : CodeOf v0 c i) (hk : [c] ∈ names v0) : ((v0[i]?).map (·.name)).getD [] = [c] := by
  rcases h with ⟨t, ht, hn⟩ | ⟨hno, _⟩
  · simp [ht, hn]
  · exact absurd hk hno

theorem codes_name {v0 : List Ty} {w : Str} {s : List Nat} (h : List.Forall₂ (CodeOf v0) w s) (hk : ∀ c ∈ w, [c] ∈ names v0) :
    (∀ i ∈ s, ∃ c, ((v0[i]?).map (·.name)).getD [] = [c]) ∧ textOf v0 s = w := by
  induction h with
  | nil => exact ⟨by simp, rfl⟩
  | @cons c i w s hc _ ih =>
    obtain ⟨i1, i2⟩ := ih fun c h => hk c (by simp [h])
    have hn := codeOf_name hc (hk c (by simp))
    refine ⟨?_, ?_⟩
    · intro j hj
      rcases List.mem_cons.1 hj with rfl | hj
      · exact ⟨c, hn⟩
      · exact i1 j hj
    · unfold textOf at i2 ⊢
      rw [List.flatMap_cons, i2, hn]
      rfl

/-- sequences of symbols of single characters are determined by their text -/
theorem textOf_inj {v0 : List Ty} (hd : (names v0).Nodup) : ∀ {x y : List Nat},
    (∀ i ∈ x, ∃ c, ((v0[i]?).map (·.name)).getD [] = [c]) → (∀ i ∈ y, ∃ c, ((v0[i]?).map (·.name)).getD [] = [c]) →
    textOf v0 x = textOf v0 y → x = y := by
  have nm : ∀ (i c : Nat), ((v0[i]?).map (·.name)).getD [] = [c] → (names v0)[i]? = some [c] := by
    intro i c h
    cases hv : v0[i]? with
    | none => simp [hv] at h
    | some t => simp only [hv, Option.map_some, Option.getD_some] at h; simp [names, hv, h]
  intro x
  induction x with
  | nil =>
    intro y _ hy he
    cases y with
    | nil => rfl
    | cons j y =>
      obtain ⟨c, hc⟩ := hy j (by simp)
      simp [textOf, hc] at he
  | cons i x ih =>
    intro y hx hy he
    obtain ⟨c, hc⟩ := hx i (by simp)
    cases y with
    | nil => simp [textOf, hc] at he
    | cons j y =>
      obtain ⟨d, hd'⟩ := hy j (by simp)
      have he' : [c] ++ textOf v0 x = [d] ++ textOf v0 y := by
        have := he
        unfold textOf at this ⊢
        rw [List.flatMap_cons, List.flatMap_cons, hc, hd'] at this
        exact this
      simp only [List.singleton_append, List.cons.injEq] at he'
      obtain ⟨rfl, he'⟩ := he'
      rw [ih (fun i h => hx i (by simp [h])) (fun i h => hy i (by simp [h])) he']
      congr 1
      have h1 := nm i c hc
      have h2 := nm j c hd'
      exact (List.getElem?_inj (List.getElem?_eq_some_iff.1 h1).1 hd).1 (h1.trans h2.symm)

theorem textOf_length {v0 : List Ty} {x : List Nat} (h : ∀ i ∈ x, ∃ c, ((v0[i]?).map (·.name)).getD [] = [c]) :
    (textOf v0 x).length = x.length := by
  induction x with
  | nil => rfl
  | cons i x ih =>
    obtain ⟨c, hc⟩ := h i (by simp)
    have := ih fun i hi => h i (by simp [hi])
    unfold textOf at this ⊢
    rw [List.flatMap_cons, hc]
    simp [this]

/-- C73, for text in which no word, ended by U+2581, contains a block three times in a row, and no word contains the name of a reserved
type: all types of a learned BPE vocabulary have distinct names, for every order of the sets (without a coverage limit).
Missing: words with such blocks (`C73_overlap_refuted`) or names (`C73_reserved_name_refuted`); for coverage limits see
`C73_coverage_partial`. -/
theorem C73_cube_free_partial {ord : Nat → List Nat → List Nat} (hord : ∀ i l, (ord i l).Perm l) {A : Acc} {data : List Str}
    {toks : List (List Str)} (ht : List.Forall₂ Tokens data toks)
    (hfree : ∀ w ∈ toks.flatten, ∀ b : Str, b ≠ [] → ¬ (b ++ b ++ b) <:+: w ++ [0x2581])
    (hres : ∀ w ∈ toks.flatten, ∀ r ∈ [lit "<pad>", lit "<unk>", lit "<s>", lit "</s>", lit "<cls>"], ¬ r <:+: w)
    {vs mf minEv : Int} {vocab : List Ty} (h : bpeLearn ord A data vs mf none minEv = .ok vocab) : (names vocab).Nodup := by
  have hv : ∀ c, (none : Option A.F) = some c → A.valid c = true := by simp
  obtain ⟨t1, t2, t3⟩ := termFrequencies_word data
  obtain ⟨cf, v0, C, c1, c2, c3, c4, c5, c6, c0, c7⟩ := bpeLearnTf_all t1 t2 t3 (lc := (termFrequencies .word data).2)
    (vs := vs) (mf := mf) (minEv := minEv) hv
  have hword : ∀ p ∈ (termFrequencies .word data).1, p.1 ∈ toks.flatten := by
    rintro ⟨n, f⟩ hp
    have := ((C15_counts (k := .word) data toks ht (Or.inl rfl) n f).1 hp).1
    simp only [if_true] at this
    simpa [List.mem_flatMap, List.mem_flatten] using this
  have hkept := chars_kept t2 c1 c2 c3 c0
  have hcube : CubeFree C := codedWord_cubeFree c4 hkept fun p hp => hfree p.1 (hword p hp)
  have hname : ∀ s ∈ C, ∃ w ∈ toks.flatten, (∀ i ∈ s.1, ∃ c, ((v0[i]?).map (·.name)).getD [] = [c]) ∧ textOf v0 s.1 = w ++ [SP] := by
    intro s hs
    obtain ⟨p, hp, _, hf⟩ := mem_of_forall₂_right c4 s hs
    exact ⟨p.1, hword p hp, codes_name hf (hkept p hp)⟩
  have hl : Legible C v0 := by
    intro s hs s' hs' x y hx hy he
    obtain ⟨_, _, g1, _⟩ := hname s hs
    obtain ⟨_, _, g2, _⟩ := hname s' hs'
    exact textOf_inj c3.distinct (fun i hi => g1 i (hx.subset hi)) (fun i hi => g2 i (hy.subset hi)) he
  have hu : Unspelled C v0 := by
    intro s hs x hx h2 hm
    obtain ⟨w, hw, g1, g2⟩ := hname s hs
    have hlen := textOf_length (v0 := v0) fun i hi => g1 i (hx.subset hi)
    have hin : textOf v0 x <:+: w ++ [SP] := by
      obtain ⟨P, Q, e⟩ := hx
      rw [← g2, ← e, textOf_append, textOf_append]
      exact ⟨_, _, rfl⟩
    obtain ⟨t, htm, htn⟩ := List.mem_map.1 hm
    rw [← List.take_append_drop 6 v0] at htm
    rcases List.mem_append.1 htm with htm | htm
    · have h1 : (t.name, t.level, t.kids) ∈ (v0.take 6).map (fun t => (t.name, t.level, t.kids)) := List.mem_map.2 ⟨t, htm, rfl⟩
      rw [c3.reserved] at h1
      have h3 : ∀ y ∈ ([(lit "<pad>", -1, []), (lit "<unk>", -1, []), (lit "<s>", -1, []), (lit "</s>", -1, []),
        (lit "<cls>", -1, []), ([0x2581], -1, [])] : List (Str × Int × List Ty)), y.1.length = 1 ∨
          (y.1 ∈ [lit "<pad>", lit "<unk>", lit "<s>", lit "</s>", lit "<cls>"] ∧ y.1.getLast? = some 62) := by decide
      rcases h3 _ h1 with h4 | ⟨h4, h5⟩
      · simp only [htn] at h4; omega
      · simp only [htn] at h4 h5
        refine hres w hw _ h4 ?_
        obtain ⟨P, Q, e⟩ := hin
        rcases List.eq_nil_or_concat Q with rfl | ⟨Q, q, rfl⟩
        · exfalso
          have := congrArg List.getLast? e
          rw [List.append_nil, List.getLast?_append, h5] at this
          simp [SP] at this
        · rw [List.concat_eq_append, ← List.append_assoc] at e
          exact ⟨P, Q, (List.append_inj' e rfl).1⟩
    · obtain ⟨c, hc, _⟩ := (c2 _ _).1 (c3.counted t htm).1
      rw [htn] at hc
      rw [hc] at hlen
      simp only [List.length_singleton] at hlen
      omega
  simp only [bpeLearn] at h
  rw [c7] at h
  split at h
  · obtain ⟨k, C', hk, hrun, hstop⟩ := C20_merges hord c5 c3.indexed c3.distinct c6 h
    exact (hrun.names_distinct c5 c6 hcube hl hu c3.distinct).1
  · cases h

/-- "abab cab abab" and "abab cab" are such text: three pairs are merged, one of them with equal parts -/
example : ∃ v, bpeLearn ordRev accExact [lit "abab cab abab", lit "abab cab"] 12 1 none 2 = .ok v ∧ (names v).Nodup ∧
    names (v.drop 6) = [lit "a", lit "b", lit "c", lit "ab", lit "ab▁", lit "abab▁"] := by
  have hev : (bpeLearn ordRev accExact [lit "abab cab abab", lit "abab cab"] 12 1 none 2).map (fun v => names (v.drop 6)) =
      .ok [lit "a", lit "b", lit "c", lit "ab", lit "ab▁", lit "abab▁"] := by decide +kernel
  have hw : ∀ w ∈ [lit "abab", lit "cab", lit "abab", lit "abab", lit "cab"], w = lit "abab" ∨ w = lit "cab" := by decide
  cases h : bpeLearn ordRev accExact [lit "abab cab abab", lit "abab cab"] 12 1 none 2 with
  | error e => simp [h, Except.map] at hev
  | ok v =>
    refine ⟨v, rfl, ?_, by simpa [h, Except.map] using hev⟩
    refine C73_cube_free_partial (fun _ l => List.reverse_perm l) (toks := [[lit "abab", lit "cab", lit "abab"], [lit "abab", lit "cab"]])
      (.cons (tokens_split _) (.cons (tokens_split _) .nil)) ?_ ?_ h
    · intro w hm
      rcases hw w hm with rfl | rfl <;> exact cube_check (by decide)
    · intro w hm
      rcases hw w hm with rfl | rfl <;> decide

/-- an order of sets that is increasing below 10, then decreasing -/
def ordMix (_ : Nat) (l : List Nat) : List Nat := l.filter (· < 10) ++ (l.filter fun x => !decide (x < 10)).reverse

theorem ordMix_perm (i : Nat) (l : List Nat) : (ordMix i l).Perm l :=
  ((List.reverse_perm _).append_left _).trans (List.filter_append_perm _ l)

/-- C73 is false also for plain text: in "aaab aaac baaa caaa" with `a a` first replaced from the left in the first two words and from the
right in the other two, both `a aa` and `aa a` are merged, and two types are called "aaa". -/
theorem C73_overlap_refuted : ∃ ord : Nat → List Nat → List Nat, (∀ i l, (ord i l).Perm l) ∧
    (bpeLearn ord accExact [lit "aaab aaac baaa caaa"] 12 1 none 1).map names =
      .ok [lit "<pad>", lit "<unk>", lit "<s>", lit "</s>", lit "<cls>", [SP], lit "a", lit "b", lit "c", lit "aa", lit "aaa", lit "aaa"] :=
  ⟨ordMix, ordMix_perm, by decide +kernel⟩

/-- names of a vocabulary learned from text contain no white space -/
theorem learned_no_space {ord : Nat → List Nat → List Nat} (hord : ∀ i l, (ord i l).Perm l) {A : Acc} {data : List Str}
    {vs mf minEv : Int} {cov : Option A.F} (hv : ∀ c, cov = some c → A.valid c = true) {vocab : List Ty}
    (h : bpeLearn ord A data vs mf cov minEv = .ok vocab) : ∀ n ∈ names vocab, ∀ c ∈ n, isWhite c = false := by
  have ht : List.Forall₂ Tokens data (data.map split) := by
    clear h
    induction data with
    | nil => exact .nil
    | cons l ls ih => exact .cons (tokens_split l) ih
  obtain ⟨tf, cf, v0, C, k, C', h1, hnd, h2, h3, h4, h5, hst⟩ := C20_text hord ht hv h
  obtain ⟨new, e2, _, hnew⟩ := h5.shape
  have key : ∀ (i : Nat) (t : Ty), vocab[i]? = some t → ∀ c ∈ t.name, isWhite c = false := by
    intro i
    induction i using Nat.strong_induction_on with
    | _ i ih =>
      intro t hi
      by_cases hlt : i < v0.length
      · rw [e2, List.getElem?_append_left hlt] at hi
        have htm := List.mem_of_getElem? hi
        rw [← List.take_append_drop 6 v0] at htm
        rcases List.mem_append.1 htm with htm | htm
        · have g1 : (t.name, t.level, t.kids) ∈ (v0.take 6).map (fun t => (t.name, t.level, t.kids)) := List.mem_map.2 ⟨t, htm, rfl⟩
          rw [h3.reserved] at g1
          have g2 : ∀ y ∈ ([(lit "<pad>", -1, []), (lit "<unk>", -1, []), (lit "<s>", -1, []), (lit "</s>", -1, []),
            (lit "<cls>", -1, []), ([0x2581], -1, [])] : List (Str × Int × List Ty)), ∀ c ∈ y.1, isWhite c = false := by decide
          exact g2 _ g1
        · obtain ⟨c, hc, hf, hpos⟩ := (h2 _ _).1 (h3.counted t htm).1
          intro d hd
          rw [hc, List.mem_singleton] at hd
          subst hd
          obtain ⟨p, hp, hpc⟩ : ∃ p ∈ tf, d ∈ p.1 ++ [SP] := by
            by_contra hno
            push Not at hno
            have : chCount tf d = 0 := by
              unfold chCount
              refine List.sum_eq_zero ?_
              intro z hz
              obtain ⟨p, hp, rfl⟩ := List.mem_map.1 hz
              change p.2 * ((List.count d (p.1 ++ [SP]) : Nat) : Int) = 0
              rw [List.count_eq_zero.2 (hno p hp)]
              simp
            omega
          rcases List.mem_append.1 hpc with hpc | hpc
          · have hw := ((h1 p.1 p.2).1 hp).1
            obtain ⟨ws, hws, hpw⟩ := List.mem_flatten.1 hw
            obtain ⟨l, _, hl⟩ := mem_of_forall₂_right ht ws hws
            exact (mem_of_tokens hl _ hpw d hpc).2
          · rw [List.mem_singleton] at hpc; subst hpc; decide
      · have hi' : new[i - v0.length]? = some t := by
          rw [e2, List.getElem?_append_right (by omega)] at hi; exact hi
        obtain ⟨_, _, _, _, ja, jb, ta, tb, l1, l2, g3, g4, _, g5⟩ := hnew _ t hi'
        intro c hc
        rw [g5] at hc
        rcases List.mem_append.1 hc with hc | hc
        · exact ih ja (by omega) ta g3 c hc
        · exact ih jb (by omega) tb g4 c hc
  intro n hn
  obtain ⟨t, htm, rfl⟩ := List.mem_map.1 hn
  obtain ⟨i, hi⟩ := List.getElem?_of_mem htm
  exact key i t hi

/-- C73, what distinct names are for: with a vocabulary learned from text without U+2581, and `c` any character that is not in it, the
type at `i` is produced by encoding some line exactly if no earlier type has the same name. -/
theorem C73_reachable {ord : Nat → List Nat → List Nat} (hord : ∀ i l, (ord i l).Perm l) {A : Acc} {data : List Str} {toks : List (List Str)}
    (ht : List.Forall₂ Tokens data toks) (hsp : ∀ ws ∈ toks, ∀ w ∈ ws, SP ∉ w) {vs mf minEv : Int} {cov : Option A.F}
    (hv : ∀ c, cov = some c → A.valid c = true) {vocab : List Ty} (h : bpeLearn ord A data vs mf cov minEv = .ok vocab)
    {c : Nat} (hc : isWhite c = false) (hnot : ∀ n ∈ names vocab, c ∉ n) {s : Scheme} (hs : Scheme.make .bpe vocab = .ok s)
    {i : Nat} {n : Str} (hi : (names vocab)[i]? = some n) :
    (∃ line ids, s.encode line = .ok ids ∧ (i : Int) ∈ ids) ↔ ∀ j < i, (names vocab)[j]? ≠ some n := by
  obtain ⟨hidx, _, hres, hne, _⟩ := C22_text hord hv h
  have h1 := (make_bpe_ok hs).1
  have hunk : lit "<unk>" ∈ names vocab := (List.take_sublist 6 _).subset (by rw [hres]; decide)
  have hidof : ∀ p, p ∈ names vocab → (s.idOf p = (i : Int) ↔ p = n ∧ ∀ j < i, (names vocab)[j]? ≠ some n) := by
    intro p hp
    have hm : p ∈ s.idxToStr := by rw [Scheme.idxToStr, h1]; exact hp
    cases hx : s.idxToStr.idxOf? p with
    | none => exact absurd hm (List.idxOf?_eq_none_iff.1 hx)
    | some k =>
      simp only [Scheme.idOf, hx, Nat.cast_inj]
      rw [Scheme.idxToStr, h1] at hx
      change (names vocab).idxOf? p = some k at hx
      obtain ⟨g1, g2, g3⟩ := List.idxOf?_eq_some_iff.1 hx
      obtain ⟨g4, g5⟩ := List.getElem?_eq_some_iff.1 hi
      constructor
      · rintro rfl
        refine ⟨g2.symm.trans g5, fun j hj he => ?_⟩
        obtain ⟨g6, g7⟩ := List.getElem?_eq_some_iff.1 he
        exact g3 j hj (g7.trans (g5.symm.trans g2))
      · rintro ⟨rfl, hj⟩
        rcases Nat.lt_trichotomy k i with h2 | h2 | h2
        · exact absurd (by rw [List.getElem?_eq_getElem g1, g2]) (hj k h2)
        · exact h2
        · exact absurd g5 (g3 i h2)
  have hall : ∀ {t : Str} {out : List (Option Str)}, Greedy (names vocab) t out → ∀ o ∈ out, o.getD unkName ∈ names vocab := by
    intro t out hg
    induction hg with
    | nil => simp
    | tok _ hw _ _ ih =>
      intro o ho
      rcases List.mem_cons.1 ho with rfl | ho
      · exact hw
      · exact ih o ho
    | unk _ _ ih =>
      intro o ho
      rcases List.mem_cons.1 ho with rfl | ho
      · exact hunk
      · exact ih o ho
  constructor
  · rintro ⟨line, ids, he, hm⟩
    obtain ⟨out, hg, _, he'⟩ := bpe_encode_spec hs hidx line
    rw [he'] at he
    cases he
    obtain ⟨o, ho, e⟩ := List.mem_map.1 hm
    exact ((hidof _ (hall hg o ho)).1 e).2
  · intro hfirst
    have hn : n ∈ names vocab := List.mem_of_getElem? hi
    have hn0 : n ≠ [] := by
      obtain ⟨t, htm, rfl⟩ := List.mem_map.1 hn
      exact hne t htm
    have hmark := learned_markers hord ht hsp hv h
    have hspace := learned_no_space hord hv h
    have enough : ∀ w : Str, IsToken w → (∀ out, Greedy (names vocab) (w ++ [SP]) out → some n ∈ out) →
        ∃ line ids, s.encode line = .ok ids ∧ (i : Int) ∈ ids := by
      intro w hw hin
      obtain ⟨out, hg, _, he⟩ := bpe_encode_spec hs hidx w
      have hbt : bpeText w = w ++ [SP] := by
        have hw1 : Tokens w [w] := by simpa using Tokens.last (g := []) (h := []) (by simp [AllSpace]) hw (by simp [AllSpace])
        rw [bpeText, split_strip, split_of_tokens hw1, join_eq_intercalate]; simp
      rw [hbt] at hg
      refine ⟨w, _, he, List.mem_map.2 ⟨some n, hin out hg, ?_⟩⟩
      exact (hidof n hn).2 ⟨rfl, hfirst⟩
    have first : ∀ {r : Str} {out : List (Option Str)}, Greedy (names vocab) (n ++ r) out →
        (∀ m ∈ names vocab, m <+: n ++ r → m.length ≤ n.length) → some n ∈ out := by
      intro r out hg hmax
      generalize hW : n ++ r = W at hg hmax
      cases hg with
      | nil => exact absurd (List.append_eq_nil_iff.1 hW).1 hn0
      | @unk d r' out hno _ => exact absurd ⟨r, hW⟩ (hno n hn hn0)
      | @tok p r' out hp0 hp1 hp2 _ =>
        have l1 := hp2 n hn ⟨r, hW⟩
        have l2 := hmax p hp1 ⟨r', rfl⟩
        have : p = n := (List.append_inj hW.symm (by omega)).1
        subst this
        simp
    by_cases hlast : n.getLast? = some SP
    · obtain ⟨w, rfl⟩ : ∃ w, n = w ++ [SP] := by
        obtain ⟨w, hw⟩ := List.getLast?_eq_some_iff.1 hlast
        exact ⟨w, hw⟩
      refine enough (c :: w) ⟨by simp, ?_⟩ ?_
      · intro d hd
        rcases List.mem_cons.1 hd with rfl | hd
        · exact hc
        · exact hspace _ hn d (by simp [hd])
      · intro out hg
        rw [List.cons_append] at hg
        generalize hW : c :: (w ++ [SP]) = W at hg
        cases hg with
        | nil => cases hW
        | @tok p r' out hp0 hp1 hp2 _ =>
          cases p with
          | nil => exact absurd rfl hp0
          | cons d p =>
            rw [List.cons_append, List.cons.injEq] at hW
            exact absurd (by simp [hW.1]) (hnot _ hp1)
        | @unk d r' out hno hg' =>
          cases hW
          refine List.mem_cons_of_mem _ (first (r := []) (by simpa using hg') ?_)
          intro m _ hm
          simpa using hm.length_le
    · have hsn : SP ∉ n := by
        intro hm
        have := hmark n hn
        unfold MarkerLast at this
        rcases List.eq_nil_or_concat n with rfl | ⟨w, d, rfl⟩
        · exact hn0 rfl
        · rw [List.concat_eq_append] at *
          rw [List.dropLast_concat] at this
          rw [List.mem_append, List.mem_singleton] at hm
          rcases hm with hm | rfl
          · exact this hm
          · exact hlast (by simp)
      refine enough (n ++ [c]) ⟨by simp, ?_⟩ ?_
      · intro d hd
        rcases List.mem_append.1 hd with hd | hd
        · exact hspace _ hn d hd
        · rw [List.mem_singleton] at hd; subst hd; exact hc
      · intro out hg
        rw [List.append_assoc] at hg
        refine first hg ?_
        intro m hm hpre
        by_contra hlt
        refine hnot m hm ?_
        have hcp : n ++ [c] <+: n ++ ([c] ++ [SP]) := ⟨[SP], by simp⟩
        have := List.prefix_of_prefix_length_le hcp hpre (by simp; omega)
        exact this.subset (by simp)

/-- in the vocabulary learned from this line the type at 13 is also called "<s>": no line whatsoever is encoded with it -/
example {v : List Ty} (h : bpeLearn ordId accExact [lit "<s>a <s>b <s>c <s>a"] 14 1 none 1 = .ok v) {s : Scheme}
    (hs : Scheme.make .bpe v = .ok s) : ¬ ∃ line ids, s.encode line = .ok ids ∧ (13 : Int) ∈ ids := by
  have hev : (bpeLearn ordId accExact [lit "<s>a <s>b <s>c <s>a"] 14 1 none 1).map
      (fun v => ((names v)[2]?, (names v)[13]?, (names v).all fun n => !n.contains 122)) =
      .ok (some (lit "<s>"), some (lit "<s>"), true) := by decide +kernel
  rw [h] at hev
  simp only [Except.map, Except.ok.injEq, Prod.mk.injEq, List.all_eq_true] at hev
  obtain ⟨e1, e2, e3⟩ := hev
  have hord : ∀ i l, (ordId i l).Perm l := fun _ l => List.Perm.refl l
  have := C73_reachable hord (toks := [[lit "<s>a", lit "<s>b", lit "<s>c", lit "<s>a"]]) (.cons (tokens_split _) .nil) (by decide)
    (fun _ h => by cases h) h (c := 122) (by decide) (fun n hn hc => by simpa [hc] using e3 n hn) hs e2
  rw [Nat.cast_ofNat] at this
  rw [this]
  intro hx
  exact hx 2 (by omega) e1

end Verif
