import Verif.Props.Names
import Verif.Props.Extend
/-!
# Properties C24, C73, C92, C114 with a coverage limit

A coverage limit leaves rare characters out of the vocabulary, and all of them become the one symbol `<unk>`.  What learning depends on
is then the text in which these characters are replaced by one and the same character.
-/

namespace Verif
open Spec

/-- the word with every character that has no type in the vocabulary replaced by 0x110000, which is no character -/
def Spec.masked (v : List Ty) (w : Str) : Str := w.map fun c => if [c] ∈ names v then c else 0x110000

/-- the character of a symbol of the initial table, 0x110000 if it is not a character -/
def symChar (v : List Ty) (i : Nat) : Nat :=
  match ((v[i]?).map (·.name)).getD [] with
  | [c] => c
  | _ => 0x110000

/-- a symbol of the coded words: a character or `<unk>` -/
def IsSym (v : List Ty) (i : Nat) : Prop := (∃ c, ((v[i]?).map (·.name)).getD [] = [c]) ∨ (i = 1 ∧ ((v[i]?).map (·.name)).getD [] = lit "<unk>")

theorem contract_unk_name {level mf : Int} {tf : List (Str × Int)} {v : List Ty} (h : VocabContract level mf tf v) :
    ((v[1]?).map (·.name)).getD [] = lit "<unk>" := by
  have h1 := congrArg (fun l => (l[1]?).map Prod.fst) h.reserved
  simp only [List.getElem?_map, List.getElem?_take] at h1
  cases hv : v[1]? with
  | none => simp [hv] at h1
  | some t => simp [hv] at h1; simp [h1]

theorem contract_sp {level mf : Int} {tf : List (Str × Int)} {v : List Ty} (h : VocabContract level mf tf v) : [SP] ∈ names v := by
  have := congrArg (List.map (fun x : Str × Int × List Ty => x.1)) h.reserved
  simp only [List.map_map] at this
  change names (v.take 6) = _ at this
  have h6 : [SP] ∈ names (v.take 6) := by rw [this]; decide
  exact ((List.take_sublist 6 v).map _).subset h6

theorem codes_masked {v : List Ty} (hu : ((v[1]?).map (·.name)).getD [] = lit "<unk>") {w : Str} {s : List Nat}
    (h : List.Forall₂ (CodeOf v) w s) : masked v w = s.map (symChar v) ∧ ∀ i ∈ s, IsSym v i := by
  induction h with
  | nil => exact ⟨rfl, by simp⟩
  | @cons c i w s hc _ ih =>
    obtain ⟨i1, i2⟩ := ih
    have hs : (if [c] ∈ names v then c else 0x110000) = symChar v i ∧ IsSym v i := by
      rcases hc with ⟨t, ht, hn⟩ | ⟨hno, rfl⟩
      · have hm : [c] ∈ names v := by rw [← hn]; exact List.mem_map.2 ⟨t, List.mem_of_getElem? ht, rfl⟩
        rw [if_pos hm]
        refine ⟨?_, Or.inl ⟨c, by simp [ht, hn]⟩⟩
        simp [symChar, ht, hn]
      · rw [if_neg hno]
        refine ⟨?_, Or.inr ⟨rfl, hu⟩⟩
        simp only [symChar, hu]
        rfl
    refine ⟨?_, ?_⟩
    · change (if [c] ∈ names v then c else 0x110000) :: masked v w = _
      rw [i1, hs.1, List.map_cons]
    · intro j hj
      rcases List.mem_cons.1 hj with rfl | hj
      · exact hs.2
      · exact i2 j hj

theorem masked_end {v : List Ty} (h : [SP] ∈ names v) (w : Str) : masked v (w ++ [SP]) = masked v w ++ [SP] := by
  simp [masked, h]

/-- no block three times in a row in the masked words, so none in the coded words -/
theorem masked_cubeFree {v0 : List Ty} {tf : List (Str × Int)} {C : Corpus} (h : List.Forall₂ (CodedWord v0) tf C)
    (hu : ((v0[1]?).map (·.name)).getD [] = lit "<unk>") (hsp : [SP] ∈ names v0)
    (hfree : ∀ p ∈ tf, ∀ b : Str, b ≠ [] → ¬ (b ++ b ++ b) <:+: masked v0 p.1 ++ [SP]) : CubeFree C := by
  intro s hs w hw hi
  obtain ⟨p, hp, _, hf⟩ := mem_of_forall₂_right h s hs
  obtain ⟨g, _⟩ := codes_masked hu hf
  obtain ⟨A, B, hAB⟩ := hi
  refine hfree p hp (w.map (symChar v0)) (by simpa using hw) ?_
  rw [← masked_end hsp, show masked v0 (p.1 ++ [SP]) = _ from g, ← hAB]
  exact ⟨A.map (symChar v0), B.map (symChar v0), by simp⟩

theorem masked_run_chars {minEv level : Int} {C C' : Corpus} {v v' : List Ty} {k : Nat} (h : Run minEv level C v k C' v')
    (hne : ∀ n ∈ names v, n ≠ []) (c : Nat) : [c] ∈ names v' ↔ [c] ∈ names v := by
  induction h with
  | refl => rfl
  | @step C Cm C' v v' k p ta tb hb hm ha hb2 hmer hr ih =>
    have na : ta.name ≠ [] := hne _ (List.mem_map.2 ⟨ta, List.mem_of_getElem? ha, rfl⟩)
    have nb : tb.name ≠ [] := hne _ (List.mem_map.2 ⟨tb, List.mem_of_getElem? hb2, rfl⟩)
    rw [ih]
    · simp only [names, List.map_append, List.map_cons, List.map_nil, List.mem_append, List.mem_singleton, mergedType]
      refine ⟨fun h => h.elim id fun h => ?_, Or.inl⟩
      exfalso
      have := congrArg List.length h
      simp only [List.length_singleton, List.length_append] at this
      have := List.length_pos_iff.2 na
      have := List.length_pos_iff.2 nb
      omega
    · intro n hn
      simp only [names, List.map_append, List.map_cons, List.map_nil, List.mem_append, List.mem_singleton, mergedType] at hn
      rcases hn with hn | rfl
      · exact hne n hn
      · simp [na]

theorem contract_nonempty {tf cf : List (Str × Int)} {level mf : Int} {v : List Ty} (h : VocabContract level mf cf v)
    (c2 : ∀ n f, (n, f) ∈ cf ↔ ∃ c, n = [c] ∧ f = chCount tf c ∧ 0 < f) : ∀ n ∈ names v, n ≠ [] := by
  intro n hn
  obtain ⟨t, ht, rfl⟩ := List.mem_map.1 hn
  rw [← List.take_append_drop 6 v] at ht
  rcases List.mem_append.1 ht with ht | ht
  · have h1 : (t.name, t.level, t.kids) ∈ (v.take 6).map (fun t => (t.name, t.level, t.kids)) := List.mem_map.2 ⟨t, ht, rfl⟩
    rw [h.reserved] at h1
    have h3 : ∀ y ∈ ([(lit "<pad>", -1, []), (lit "<unk>", -1, []), (lit "<s>", -1, []), (lit "</s>", -1, []),
        (lit "<cls>", -1, []), ([0x2581], -1, [])] : List (Str × Int × List Ty)), y.1 ≠ [] := by decide
    exact h3 _ h1
  · obtain ⟨c, hc, _⟩ := (c2 _ _).1 (h.counted t ht).1
    simp [hc]

/-- the initial table and the coded words of a successful run: they contain no block three times in a row if the masked words do not -/
theorem masked_setup {ord : Nat → List Nat → List Nat} (hord : ∀ i l, (ord i l).Perm l) {A : Acc} {data : List Str}
    {toks : List (List Str)} (ht : List.Forall₂ Tokens data toks) {cov : Option A.F}
    {vs mf minEv : Int} {v : List Ty} (h : bpeLearn ord A data vs mf cov minEv = .ok v)
    (hfree : ∀ w ∈ toks.flatten, ∀ b : Str, b ≠ [] → ¬ (b ++ b ++ b) <:+: masked v w ++ [0x2581])
    {cf : List (Str × Int)} {v0 : List Ty} {C : Corpus}
    (c2 : ∀ n f, (n, f) ∈ cf ↔ ∃ c, n = [c] ∧ f = chCount (termFrequencies .word data).1 c ∧ 0 < f)
    (c3 : VocabContract Level.char 1 cf v0) (c4 : List.Forall₂ (CodedWord v0) (termFrequencies .word data).1 C)
    (c5 : ∀ s ∈ C, s.1 ≠ [] ∧ 0 < s.2) (c6 : ∀ s ∈ C, ∀ c ∈ s.1, c < v0.length)
    (c7 : bpeLearnTf ord A (termFrequencies .word data).1 (termFrequencies .word data).2 vs mf cov minEv =
      if (v0.length : Int) < effSize vs minEv then
        learnCodes ord C v0 (effSize vs minEv - v0.length).toNat minEv Level.subword else .error .assertion) :
    CubeFree C ∧ (∀ p ∈ (termFrequencies .word data).1, p.1 ∈ toks.flatten) ∧ ∀ w, masked v0 w = masked v w := by
  have hword : ∀ p ∈ (termFrequencies .word data).1, p.1 ∈ toks.flatten := by
    rintro ⟨n, f⟩ hp
    have := ((C15_counts (k := .word) data toks ht (Or.inl rfl) n f).1 hp).1
    simp only [if_true] at this
    simpa [List.mem_flatMap, List.mem_flatten] using this
  have hmask : ∀ w, masked v0 w = masked v w := by
    simp only [bpeLearn] at h
    rw [c7] at h
    split at h
    · obtain ⟨k, C', _, hrun, _⟩ := C20_merges hord c5 c3.indexed c3.distinct c6 h
      intro w
      unfold masked
      refine List.map_congr_left fun c _ => ?_
      simp only [masked_run_chars hrun (contract_nonempty c3 c2) c]
    · cases h
  refine ⟨masked_cubeFree c4 (contract_unk_name c3) (contract_sp c3) ?_, hword, hmask⟩
  intro p hp
  rw [hmask]
  exact hfree p.1 (hword p hp)

/-- C24 from text, with any coverage: if a vocabulary is learned, and no word, with the characters outside this vocabulary replaced by one and the
same character and ended by U+2581, contains a block three times in a row, then every other order of the sets gives the same vocabulary.
Missing: words with such blocks (`C24_refuted`, `C24_masked_refuted`). -/
theorem C24_coverage_partial {ord ord' : Nat → List Nat → List Nat} (hord : ∀ i l, (ord i l).Perm l) (hord' : ∀ i l, (ord' i l).Perm l)
    {A : Acc} {data : List Str} {toks : List (List Str)} (ht : List.Forall₂ Tokens data toks) {cov : Option A.F}
    (hv : ∀ c, cov = some c → A.valid c = true) {vs mf minEv : Int} {v : List Ty} (h : bpeLearn ord A data vs mf cov minEv = .ok v)
    (hfree : ∀ w ∈ toks.flatten, ∀ b : Str, b ≠ [] → ¬ (b ++ b ++ b) <:+: masked v w ++ [0x2581]) :
    bpeLearn ord' A data vs mf cov minEv = .ok v := by
  obtain ⟨t1, t2, t3⟩ := termFrequencies_word data
  obtain ⟨cf, v0, C, c1, c2, c3, c4, c5, c6, c0, c7⟩ := bpeLearnTf_all t1 t2 t3 (lc := (termFrequencies .word data).2)
    (vs := vs) (mf := mf) (minEv := minEv) hv
  obtain ⟨hcube, _⟩ := masked_setup hord ht h hfree c2 c3 c4 c5 c6 (c7 ord)
  rw [← h]
  simp only [bpeLearn]
  rw [c7 ord, c7 ord', C24_cube_free_partial hord' hord (List.Perm.refl C) c5 c3.indexed c3.distinct c6 hcube]

/-- C114 from text, BPE, with any coverage: with a greater size and a lower threshold the table learned before is the beginning of the table learned
now, if no word, with the characters outside this table replaced by one and the same character and ended by U+2581, contains a block three times in a
row.  Missing: other words (`C114_bpe_refuted`), and different coverages, which give different initial tables (`C114_cover_refuted`). -/
theorem C114_coverage_partial {ord ord' : Nat → List Nat → List Nat} (hord : ∀ i l, (ord i l).Perm l) (hord' : ∀ i l, (ord' i l).Perm l)
    {A : Acc} {data : List Str} {toks : List (List Str)} (ht : List.Forall₂ Tokens data toks) {cov : Option A.F}
    (hv : ∀ c, cov = some c → A.valid c = true) {vs vs' mf mf' minEv minEv' : Int}
    (hs : effSize vs minEv ≤ effSize vs' minEv') (hm : minEv' ≤ minEv) {v v' : List Ty} (h : bpeLearn ord A data vs mf cov minEv = .ok v)
    (h' : bpeLearn ord' A data vs' mf' cov minEv' = .ok v')
    (hfree : ∀ w ∈ toks.flatten, ∀ b : Str, b ≠ [] → ¬ (b ++ b ++ b) <:+: masked v w ++ [0x2581]) : v <+: v' := by
  obtain ⟨t1, t2, t3⟩ := termFrequencies_word data
  obtain ⟨cf, v0, C, c1, c2, c3, c4, c5, c6, c0, c7⟩ := bpeLearnTf_every t1 t2 t3 (lc := (termFrequencies .word data).2) hv
  obtain ⟨hcube, _⟩ := masked_setup hord ht h hfree c2 c3 c4 c5 c6 (c7 ord vs mf minEv)
  simp only [bpeLearn] at h h'
  rw [c7] at h h'
  split at h
  · split at h'
    · exact C114_codes_partial hord hord' c5 c3.indexed c3.distinct c6 hcube (by omega) hm h h'
    · cases h'
  · cases h

/-- C92 for BPE, with any coverage: if different characters have different frequencies and no word, with the characters outside the vocabulary replaced
by one and the same character, contains a block three times in a row, neither the order of the lines nor the order of the sets matters.
Missing: ties (`C92_bpe_order_refuted`), repeated blocks. -/
theorem C92_coverage_partial {ord ord' : Nat → List Nat → List Nat} (hord : ∀ i l, (ord i l).Perm l) (hord' : ∀ i l, (ord' i l).Perm l)
    {A : Acc} {data data' : List Str} (hp : data.Perm data') {toks : List (List Str)} (ht : List.Forall₂ Tokens data toks) {cov : Option A.F}
    (hv : ∀ c, cov = some c → A.valid c = true) {vs mf minEv : Int} {v : List Ty} (h : bpeLearn ord A data vs mf cov minEv = .ok v)
    (hfree : ∀ w ∈ toks.flatten, ∀ b : Str, b ≠ [] → ¬ (b ++ b ++ b) <:+: masked v w ++ [0x2581])
    (hdist : ∀ c ∈ toks.flatten.flatten, ∀ d ∈ toks.flatten.flatten, c ≠ 0x2581 → d ≠ 0x2581 →
      toks.flatten.flatten.count c = toks.flatten.flatten.count d → c = d) :
    bpeLearn ord' A data' vs mf cov minEv = .ok v := by
  have hpm := termFrequencies_perm .word hp
  have hl : (termFrequencies .word data).2 = (termFrequencies .word data').2 := by simp [termFrequencies, hp.length_eq]
  obtain ⟨t1, t2, t3⟩ := termFrequencies_word data
  obtain ⟨t1', t2', t3'⟩ := termFrequencies_word data'
  obtain ⟨cf, v0, C, c1, c2, c3, c4, c5, c6, c0, c7⟩ := bpeLearnTf_all t1 t2 t3 (lc := (termFrequencies .word data).2)
    (vs := vs) (mf := mf) (minEv := minEv) hv
  obtain ⟨cf', v0', C', d1, d2, d3, d4, d5, d6, d0, d7⟩ := bpeLearnTf_all t1' t2' t3' (lc := (termFrequencies .word data').2)
    (vs := vs) (mf := mf) (minEv := minEv) hv
  obtain ⟨hcube, _⟩ := masked_setup hord ht h hfree c2 c3 c4 c5 c6 (c7 ord)
  have hch : ∀ c, chCount (termFrequencies .word data).1 c = chCount (termFrequencies .word data').1 c := fun c => (hpm.map _).sum_eq
  have hcf : cf.Perm cf' := by
    refine (List.perm_ext_iff_of_nodup (List.Nodup.of_map _ c1) (List.Nodup.of_map _ d1)).2 ?_
    rintro ⟨n, f⟩
    rw [c2, d2]
    simp only [hch]
  have hcpos : ∀ p ∈ cf, 1 ≤ p.2 := by
    rintro ⟨n, f⟩ hp
    obtain ⟨c, _, _, h⟩ := (c2 n f).1 hp
    exact h
  have hcnt : ∀ c, c ≠ SP → chCount (termFrequencies .word data).1 c = (toks.flatten.flatten.count c : Nat) := by
    intro c hc
    rw [chCount_text ht]
    congr 1
    generalize toks.flatten = ws
    induction ws with
    | nil => rfl
    | cons w ws ih =>
      rw [List.flatMap_cons, List.flatten_cons, List.count_append, List.count_append, List.count_append, ih]
      have : List.count c [SP] = 0 := List.count_eq_zero.2 (by simpa using hc)
      omega
  have hnd : ((popReserved cf).map (·.2)).Nodup := by
    refine List.Nodup.map_on ?_ (List.Nodup.of_map _ (nodup_popReserved c1))
    rintro ⟨x, f⟩ hx ⟨y, g⟩ hy e
    obtain ⟨x1, x2⟩ := (mem_popReserved c1 x f).1 hx
    obtain ⟨y1, y2⟩ := (mem_popReserved c1 y g).1 hy
    obtain ⟨a, rfl, a1, a2⟩ := (c2 _ _).1 x1
    obtain ⟨b, rfl, b1, b2⟩ := (c2 _ _).1 y1
    have ha : a ≠ SP := by rintro rfl; exact x2 (by decide)
    have hb : b ≠ SP := by rintro rfl; exact y2 (by decide)
    rw [hcnt a ha] at a1
    rw [hcnt b hb] at b1
    simp only at e
    have := hdist a (List.count_pos_iff.1 (by omega)) b (List.count_pos_iff.1 (by omega)) ha hb (by omega)
    subst this
    rw [e]
  have hv0 : v0 = v0' := by
    rw [← hl] at d0
    rcases getInitVocab_same (A := A) (level := Level.char) hcf c1 hcpos cov (some (termFrequencies .word data).2) 1 (-1) with
      ⟨h1, _⟩ | ⟨j, R, h0, h1, h2⟩
    · rw [c0] at h1; cases h1
    · rw [c0] at h1
      rw [d0] at h2
      cases h1; cases h2
      rw [sortByFreq_eq (popReserved_perm hcf c1) hnd]
  subst hv0
  have hC : C.Perm C' := by
    obtain ⟨D, hD, hDp⟩ := codedWord_perm hpm d4
    rw [codedWords_unique c3.distinct c4 hD]
    exact hDp
  rw [← h]
  simp only [bpeLearn]
  rw [c7 ord, d7 ord', C24_cube_free_partial hord hord' hC c5 c3.indexed c3.distinct c6 hcube]

/-! ## C73 -/

theorem textOf_cons (v : List Ty) (i : Nat) (x : List Nat) : textOf v (i :: x) = ((v[i]?).map (·.name)).getD [] ++ textOf v x := by
  simp [textOf]

/-- a text without `<` at the beginning is spelled by characters -/
theorem spelled {v : List Ty} {s : Str} (hs : ∀ c ∈ s, c ≠ 60) : ∀ {x : List Nat}, (∀ i ∈ x, IsSym v i) → s <+: textOf v x →
    s <+: x.map (symChar v) := by
  induction s with
  | nil => intro x _ _; exact List.nil_prefix
  | cons c s ih =>
    intro x hx h
    cases x with
    | nil => simp [textOf] at h
    | cons i x =>
      rw [textOf_cons] at h
      rcases hx i (by simp) with ⟨d, hd⟩ | ⟨_, hd⟩
      · rw [hd, List.singleton_append, List.cons_prefix_cons] at h
        rw [List.map_cons, List.cons_prefix_cons]
        refine ⟨?_, ih (fun c hc => hs c (by simp [hc])) (fun i hi => hx i (by simp [hi])) h.2⟩
        rw [h.1]; simp [symChar, hd]
      · rw [hd, show lit "<unk>" = 60 :: lit "unk>" from by decide, List.cons_append, List.cons_prefix_cons] at h
        exact absurd h.1 (hs c (by simp))

theorem unk_not_spelled {v : List Ty} {c : Nat} {i : Nat} {x y : List Nat} (hx : ∀ i ∈ x, IsSym v i)
    (hc : ((v[i]?).map (·.name)).getD [] = [c]) (hn : ¬ lit "<unk>" <:+: (i :: x).map (symChar v))
    (he : [c] ++ textOf v x = lit "<unk>" ++ textOf v y) : False := by
  rw [show lit "<unk>" = 60 :: lit "unk>" from by decide, List.singleton_append, List.cons_append, List.cons.injEq] at he
  obtain ⟨rfl, he⟩ := he
  have h1 := spelled (s := lit "unk>") (by decide) hx (he ▸ List.prefix_append _ _)
  refine hn (List.IsPrefix.isInfix ?_)
  rw [show lit "<unk>" = 60 :: lit "unk>" from by decide, List.map_cons, List.cons_prefix_cons]
  exact ⟨by simp [symChar, hc], h1⟩

/-- sequences of symbols of characters and of `<unk>` are determined by their text, if "<unk>" is not spelled out -/
theorem textOf_inj_masked {v : List Ty} (hd : (names v).Nodup) : ∀ {x y : List Nat},
    (∀ i ∈ x, IsSym v i) → (∀ i ∈ y, IsSym v i) →
    ¬ lit "<unk>" <:+: x.map (symChar v) → ¬ lit "<unk>" <:+: y.map (symChar v) → textOf v x = textOf v y → x = y := by
  have nm : ∀ (i c : Nat), ((v[i]?).map (·.name)).getD [] = [c] → (names v)[i]? = some [c] := by
    intro i c h
    cases hv : v[i]? with
    | none => simp [hv] at h
    | some t => simp only [hv, Option.map_some, Option.getD_some] at h; simp [names, hv, h]
  have ne : ∀ i, IsSym v i → ((v[i]?).map (·.name)).getD [] ≠ [] := by
    rintro i (⟨c, h⟩ | ⟨_, h⟩) <;> rw [h]
    · simp
    · decide
  intro x
  induction x with
  | nil =>
    intro y _ hy _ _ he
    cases y with
    | nil => rfl
    | cons j y =>
      rw [textOf_cons] at he
      exact absurd (List.append_eq_nil_iff.1 he.symm).1 (ne j (hy j (by simp)))
  | cons i x ih =>
    intro y hx hy nx ny he
    cases y with
    | nil =>
      rw [textOf_cons] at he
      exact absurd (List.append_eq_nil_iff.1 he).1 (ne i (hx i (by simp)))
    | cons j y =>
      have hx' : ∀ i ∈ x, IsSym v i := fun i h => hx i (by simp [h])
      have hy' : ∀ i ∈ y, IsSym v i := fun i h => hy i (by simp [h])
      have nx' : ¬ lit "<unk>" <:+: x.map (symChar v) := fun h => nx (by rw [List.map_cons]; exact List.infix_cons h)
      have ny' : ¬ lit "<unk>" <:+: y.map (symChar v) := fun h => ny (by rw [List.map_cons]; exact List.infix_cons h)
      rw [textOf_cons, textOf_cons] at he
      rcases hx i (by simp) with ⟨c, hc⟩ | ⟨rfl, hc⟩
      · rcases hy j (by simp) with ⟨d, hd'⟩ | ⟨rfl, hd'⟩
        · rw [hc, hd', List.singleton_append, List.singleton_append, List.cons.injEq] at he
          obtain ⟨rfl, he⟩ := he
          rw [ih hx' hy' nx' ny' he]
          congr 1
          have h1 := nm i c hc
          have h2 := nm j c hd'
          exact (List.getElem?_inj (List.getElem?_eq_some_iff.1 h1).1 hd).1 (h1.trans h2.symm)
        · rw [hc, hd'] at he
          exact (unk_not_spelled hx' hc nx he).elim
      · rcases hy j (by simp) with ⟨d, hd'⟩ | ⟨rfl, hd'⟩
        · rw [hc, hd'] at he
          exact (unk_not_spelled hy' hd' ny he.symm).elim
        · rw [hc] at he
          rw [ih hx' hy' nx' ny' (List.append_cancel_left he)]

theorem textOf_masked {v : List Ty} {x : List Nat} (h : ∀ i ∈ x, IsSym v i) : x.length ≤ (textOf v x).length ∧
    (x.length + 4 ≤ (textOf v x).length ∨ textOf v x = x.map (symChar v)) := by
  induction x with
  | nil => exact ⟨Nat.le_refl _, Or.inr rfl⟩
  | cons i x ih =>
    obtain ⟨i1, i2⟩ := ih fun i hi => h i (by simp [hi])
    rw [textOf_cons]
    rcases h i (by simp) with ⟨c, hc⟩ | ⟨_, hc⟩
    · rw [hc]
      simp only [List.length_cons, List.singleton_append, List.map_cons]
      refine ⟨by omega, i2.imp (fun h => by omega) fun h => ?_⟩
      rw [h]; simp [symChar, hc]
    · rw [hc]
      have : (lit "<unk>").length = 5 := by decide
      simp only [List.length_append, List.length_cons, this]
      exact ⟨by omega, Or.inl (by omega)⟩

theorem unmasked {v : List Ty} {r w : Str} (hr : 0x110000 ∉ r) (h : r <:+: masked v w) : r <:+: w := by
  obtain ⟨P, Q, e⟩ := h
  unfold masked at e
  obtain ⟨w1, w2, rfl, e1, e2⟩ := List.map_eq_append_iff.1 e.symm
  obtain ⟨w3, w4, rfl, e3, e4⟩ := List.map_eq_append_iff.1 e1
  have : w4 = r := by
    clear e e1 e2 e3
    induction w4 generalizing r with
    | nil => simpa using e4
    | cons c w4 ih =>
      cases r with
      | nil => simp at e4
      | cons d r =>
        simp only [List.map_cons, List.cons.injEq] at e4
        rw [ih (r := r) (fun h => hr (by simp [h])) e4.2]
        congr 1
        have h1 := e4.1
        split at h1
        · exact h1
        · exact absurd (by rw [h1]; simp) hr
  rw [this]
  exact ⟨w3, w2, rfl⟩

/-- C73, with any coverage: if no word contains the name of a reserved type, and no word, with the characters outside the vocabulary replaced by one and
the same character and ended by U+2581, contains a block three times in a row, all types of the vocabulary have distinct names.
Missing: words with such blocks (`C73_overlap_refuted`) or names (`C73_reserved_name_refuted`). -/
theorem C73_coverage_partial {ord : Nat → List Nat → List Nat} (hord : ∀ i l, (ord i l).Perm l) {A : Acc} {data : List Str}
    {toks : List (List Str)} (ht : List.Forall₂ Tokens data toks) {cov : Option A.F} (hv : ∀ c, cov = some c → A.valid c = true)
    {vs mf minEv : Int} {vocab : List Ty} (h : bpeLearn ord A data vs mf cov minEv = .ok vocab)
    (hfree : ∀ w ∈ toks.flatten, ∀ b : Str, b ≠ [] → ¬ (b ++ b ++ b) <:+: masked vocab w ++ [0x2581])
    (hres : ∀ w ∈ toks.flatten, ∀ r ∈ [lit "<pad>", lit "<unk>", lit "<s>", lit "</s>", lit "<cls>"], ¬ r <:+: w) :
    (names vocab).Nodup := by
  obtain ⟨t1, t2, t3⟩ := termFrequencies_word data
  obtain ⟨cf, v0, C, c1, c2, c3, c4, c5, c6, c0, c7⟩ := bpeLearnTf_all t1 t2 t3 (lc := (termFrequencies .word data).2)
    (vs := vs) (mf := mf) (minEv := minEv) hv
  obtain ⟨hcube, hword, hmask⟩ := masked_setup hord ht h hfree c2 c3 c4 c5 c6 (c7 ord)
  have hu1 := contract_unk_name c3
  have hname : ∀ s ∈ C, ∃ w ∈ toks.flatten, (∀ i ∈ s.1, IsSym v0 i) ∧ s.1.map (symChar v0) = masked v0 w ++ [SP] := by
    intro s hs
    obtain ⟨p, hp, _, hf⟩ := mem_of_forall₂_right c4 s hs
    obtain ⟨g1, g2⟩ := codes_masked hu1 hf
    exact ⟨p.1, hword p hp, g2, by rw [← g1]; exact masked_end (contract_sp c3) _⟩
  have hnot : ∀ s ∈ C, ∀ x, x <:+: s.1 → ∀ r ∈ [lit "<pad>", lit "<unk>", lit "<s>", lit "</s>", lit "<cls>"],
      ¬ r <:+: x.map (symChar v0) := by
    intro s hs x hx r hr hin
    obtain ⟨w, hw, _, g2⟩ := hname s hs
    have hin2 : r <:+: masked v0 w ++ [SP] := by
      rw [← g2]
      obtain ⟨P, Q, e⟩ := hx
      refine hin.trans ⟨P.map (symChar v0), Q.map (symChar v0), ?_⟩
      rw [← e]; simp
    have hprop : ∀ r ∈ [lit "<pad>", lit "<unk>", lit "<s>", lit "</s>", lit "<cls>"], r.getLast? = some 62 ∧ 0x110000 ∉ r := by decide
    obtain ⟨p1, p2⟩ := hprop r hr
    refine hres w hw r hr (unmasked (v := v0) p2 ?_)
    obtain ⟨P, Q, e⟩ := hin2
    rcases List.eq_nil_or_concat Q with rfl | ⟨Q, q, rfl⟩
    · exfalso
      have := congrArg List.getLast? e
      rw [List.append_nil, List.getLast?_append, p1] at this
      simp [SP] at this
    · rw [List.concat_eq_append, ← List.append_assoc] at e
      exact ⟨P, Q, (List.append_inj' e rfl).1⟩
  have hl : Legible C v0 := by
    intro s hs s' hs' x y hx hy he
    obtain ⟨_, _, g1, _⟩ := hname s hs
    obtain ⟨_, _, g2, _⟩ := hname s' hs'
    exact textOf_inj_masked c3.distinct (fun i hi => g1 i (hx.subset hi)) (fun i hi => g2 i (hy.subset hi))
      (hnot s hs x hx _ (by simp)) (hnot s' hs' y hy _ (by simp)) he
  have hu : Unspelled C v0 := by
    intro s hs x hx h2 hm
    obtain ⟨w, hw, g1, g2⟩ := hname s hs
    obtain ⟨l1, l2⟩ := textOf_masked (v := v0) fun i hi => g1 i (hx.subset hi)
    obtain ⟨t, htm, htn⟩ := List.mem_map.1 hm
    rw [← List.take_append_drop 6 v0] at htm
    rcases List.mem_append.1 htm with htm | htm
    · have h1 : (t.name, t.level, t.kids) ∈ (v0.take 6).map (fun t => (t.name, t.level, t.kids)) := List.mem_map.2 ⟨t, htm, rfl⟩
      rw [c3.reserved] at h1
      have h3 : ∀ y ∈ ([(lit "<pad>", -1, []), (lit "<unk>", -1, []), (lit "<s>", -1, []), (lit "</s>", -1, []),
        (lit "<cls>", -1, []), ([0x2581], -1, [])] : List (Str × Int × List Ty)), y.1.length = 1 ∨
          (y.1 ∈ [lit "<pad>", lit "<unk>", lit "<s>", lit "</s>", lit "<cls>"] ∧ y.1.length ≤ 5) := by decide
      rcases h3 _ h1 with h4 | ⟨h4, h5⟩
      · simp only [htn] at h4; omega
      · simp only [htn] at h4 h5
        rcases l2 with l2 | l2
        · omega
        · exact hnot s hs x hx _ h4 (by rw [l2])
    · obtain ⟨c, hc, _⟩ := (c2 _ _).1 (c3.counted t htm).1
      rw [htn] at hc
      rw [hc] at l1
      simp only [List.length_singleton] at l1
      omega
  simp only [bpeLearn] at h
  rw [c7] at h
  split at h
  · obtain ⟨k, C', hk, hrun, hstop⟩ := C20_merges hord c5 c3.indexed c3.distinct c6 h
    exact (hrun.names_distinct c5 c6 hcube hl hu c3.distinct).1
  · cases h

/-! ## Cases -/

/-- the words "abx", "aby", "abz", "ab" with coverage 6/10: x, y and z are left out, and `<unk>` is merged with the end marker -/
theorem exMasked : ∃ v, bpeLearn ordId accExact [lit "abx aby abz ab"] 11 1 (some (6, 10)) 1 = .ok v ∧
    names (v.drop 6) = [lit "a", lit "b", lit "ab", lit "<unk>▁", lit "ab<unk>▁"] ∧
    ∀ w ∈ [lit "abx", lit "aby", lit "abz", lit "ab"], masked v w = [97, 98, 0x110000] ∨ masked v w = [97, 98] := by
  have hev : (bpeLearn ordId accExact [lit "abx aby abz ab"] 11 1 (some (6, 10)) 1).map (fun v => decide
      (names (v.drop 6) = [lit "a", lit "b", lit "ab", lit "<unk>▁", lit "ab<unk>▁"] ∧
        ∀ w ∈ [lit "abx", lit "aby", lit "abz", lit "ab"], masked v w = [97, 98, 0x110000] ∨ masked v w = [97, 98])) = .ok true := by
    decide +kernel
  cases h : bpeLearn ordId accExact [lit "abx aby abz ab"] 11 1 (some (6, 10)) 1 with
  | error e => simp [h, Except.map] at hev
  | ok v => exact ⟨v, rfl, by simpa [h, Except.map] using hev⟩

/-- the hypotheses of the theorems hold for these words: every order of the sets gives this vocabulary, and its names are distinct -/
example {ord' : Nat → List Nat → List Nat} (hord' : ∀ i l, (ord' i l).Perm l) : ∃ v, names (v.drop 6) = [lit "a", lit "b", lit "ab", lit "<unk>▁", lit "ab<unk>▁"] ∧
    bpeLearn ord' accExact [lit "abx aby abz ab"] 11 1 (some (6, 10)) 1 = .ok v ∧ (names v).Nodup := by
  obtain ⟨v, h1, h2, h3⟩ := exMasked
  have ht : List.Forall₂ Tokens [lit "abx aby abz ab"] [[lit "abx", lit "aby", lit "abz", lit "ab"]] := .cons (tokens_split _) .nil
  have hv : ∀ c : accExact.F, some ((6, 10) : accExact.F) = some c → accExact.valid c = true := by rintro c ⟨⟩; decide
  have hfree : ∀ w ∈ [[lit "abx", lit "aby", lit "abz", lit "ab"]].flatten, ∀ b : Str, b ≠ [] → ¬ (b ++ b ++ b) <:+: masked v w ++ [0x2581] := by
    intro w hw
    rcases h3 w (by simpa using hw) with h | h <;> rw [h] <;> exact cube_check (by decide)
  have hord : ∀ i l, (ordId i l).Perm l := fun _ _ => List.Perm.refl _
  exact ⟨v, h2, C24_coverage_partial hord hord' ht hv h1 hfree,
    C73_coverage_partial hord ht hv h1 hfree (by decide)⟩

/-- two vocabularies with one coverage: ten types, and eleven with another order of sets -/
example : (outcome (bpeLearn ordId accExact [lit "abx aby abz ab"] 10 1 (some (6, 10)) 1)).toOption.map (fun v => v.drop 6) =
      some [(lit "a", 4), (lit "b", 4), (lit "ab", 4), (lit "<unk>▁", 3)] ∧
    (outcome (bpeLearn ordRev accExact [lit "abx aby abz ab"] 11 1 (some (6, 10)) 1)).toOption.map (fun v => v.drop 6) =
      some [(lit "a", 4), (lit "b", 4), (lit "ab", 4), (lit "<unk>▁", 3), (lit "ab<unk>▁", 3)] := by decide +kernel
/-- the lines "ax ay" and "ax" in both orders: a, x and y occur 3, 2 and 1 times, and only a is kept -/
example : (outcome (bpeLearn ordId accExact [lit "ax ay", lit "ax"] 9 1 (some (1, 2)) 1)).toOption.map (fun v => v.drop 6) =
      some [(lit "a", 3), (lit "<unk>▁", 3), (lit "a<unk>▁", 3)] ∧
    (outcome (bpeLearn ordRev accExact [lit "ax", lit "ax ay"] 9 1 (some (1, 2)) 1)).toOption.map (fun v => v.drop 6) =
      some [(lit "a", 3), (lit "<unk>▁", 3), (lit "a<unk>▁", 3)] := by decide +kernel

/-- C24 is false with a coverage limit even if no word contains a block three times in a row: in "b b b b xyzb" the three characters x, y and z become
the same symbol, and the order of the sets decides which two of them are merged. -/
theorem C24_masked_refuted : (∀ w ∈ [lit "b", lit "b", lit "b", lit "b", lit "xyzb"], ∀ b : Str, b ≠ [] → ¬ (b ++ b ++ b) <:+: w ++ [0x2581]) ∧
    (outcome (bpeLearn ordId accExact [lit "b b b b xyzb"] 10 1 (some (6, 10)) 1)).toOption.map (fun v => v.drop 6) =
      some [(lit "b", 5), (lit "b▁", 5), (lit "<unk><unk>", 2), (lit "<unk>b▁", 1)] ∧
    (outcome (bpeLearn ordRev accExact [lit "b b b b xyzb"] 10 1 (some (6, 10)) 1)).toOption.map (fun v => v.drop 6) =
      some [(lit "b", 5), (lit "b▁", 5), (lit "<unk><unk>", 2), (lit "<unk><unk><unk>", 1)] := by
  refine ⟨?_, by decide +kernel, by decide +kernel⟩
  intro w hw
  have : w = lit "b" ∨ w = lit "xyzb" := by simpa using hw
  rcases this with rfl | rfl <;> exact cube_check (by decide)

/-- C114 is false for BPE with different coverages: without a limit the characters x, y and z come before the first merge. -/
theorem C114_cover_refuted : ∃ v v', bpeLearn ordId accExact [lit "abx aby abz ab"] 9 1 (some (6, 10)) 1 = .ok v ∧
    bpeLearn ordId accExact [lit "abx aby abz ab"] 12 1 none 1 = .ok v' ∧ ¬ names v <+: names v' := by
  refine ⟨_, _, rfl, rfl, ?_⟩
  decide +kernel

end Verif
