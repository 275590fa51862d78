import Verif.Lemmas.Chars
import Verif.Props.LearnCli
/-!
# C13, C77: exactly which vocabularies survive the disk
-/

namespace Verif
open Spec

theorem univNewlines_mem {c : Nat} {s : Str} (h : c ∈ univNewlines s) : c ≠ 13 ∧ (c = 10 ∨ c ∈ s) := by
  induction s using univNewlines.induct with
  | case1 r ih =>
    rw [univNewlines] at h
    rcases List.mem_cons.1 h with rfl | h
    · exact ⟨by omega, .inl rfl⟩
    · exact (ih h).imp id (Or.imp id fun h => by simp [h])
  | case2 r hr ih =>
    rw [univNewlines.eq_2 _ hr] at h
    rcases List.mem_cons.1 h with rfl | h
    · exact ⟨by omega, .inl rfl⟩
    · exact (ih h).imp id (Or.imp id fun h => by simp [h])
  | case3 d r h1 h2 ih =>
    rw [univNewlines.eq_3 _ _ h1 h2] at h
    rcases List.mem_cons.1 h with rfl | h
    · exact ⟨h2, .inr (by simp)⟩
    · exact (ih h).imp id (Or.imp id fun h => by simp [h])
  | case4 => simp [univNewlines] at h

theorem mem_of_mem_strip {s : Str} {c : Nat} (h : c ∈ strip s) : c ∈ s := by
  obtain ⟨g, k, e, _⟩ := strip_decomp s
  rw [e]; simp [h]

theorem readTypes_names {n : Nat} : ∀ (lines : List Str) {done v : List Ty}, readTypes n done lines = .ok v →
    ∀ t ∈ v, t ∈ done ∨ ∃ l ∈ lines, t.name ∈ splitOn (· == 9) (strip l)
  | [], done, v, h, t, ht => by cases h; exact .inl ht
  | line :: lines, done, v, h, t, ht => by
    simp only [readTypes] at h
    split at h
    · cases h
    rename_i r hr
    split at h
    · split at h
      · cases h
      · rename_i kids hk
        rcases readTypes_names lines h t ht with hm | ⟨l, hl, hn⟩
        · rcases List.mem_append.1 hm with hm | hm
          · exact .inl hm
          · rw [List.mem_singleton.1 hm]
            refine .inr ⟨line, by simp, ?_⟩
            dsimp only
            simp only [parseType] at hr
            split at hr
            · rename_i c0 c1 c2 c3 more heq
              rw [heq]
              have : r.name = c1 := by
                repeat' (split at hr)
                all_goals first
                  | (cases hr; done)
                  | (cases hr; rfl)
              rw [this]; simp
            · cases hr
        · exact .inr ⟨l, by simp [hl], hn⟩
    · cases h

/-- the names of a loaded scheme have no tabs and line breaks, and only characters of the file -/
theorem load_names {J : Json} {text : Str} {s : Scheme} (h : loadScheme J text = .ok s) :
    s.table = byteVocab ∨ ∀ t ∈ s.table, ∀ c ∈ t.name, c ≠ 9 ∧ c ≠ 10 ∧ c ≠ 13 ∧ c ∈ text := by
  simp only [loadScheme] at h
  split at h
  · cases h
  rename_i types hd hr
  split at h
  · cases h
  refine (made_table h).symm.imp id fun e => ?_
  rw [e]
  have key : ∀ l ∈ (fileLines (univNewlines text)).map strip, ∀ n ∈ splitOn (· == 9) (strip l), ∀ c ∈ n, c ≠ 9 ∧ c ≠ 10 ∧ c ≠ 13 ∧ c ∈ text := by
    intro l hl n hn c hc
    obtain ⟨l', hl', rfl⟩ := List.mem_map.1 hl
    have h9 := splitOn_pieces _ _ hn c hc
    have hc1 := mem_of_mem_strip (mem_of_mem_strip (mem_of_mem_splitOn hn hc))
    have hl2 := mem_fileLines hl'
    have h10 := splitOn_pieces _ _ hl2 c hc1
    have := univNewlines_mem (mem_of_mem_splitOn hl2 hc1)
    simp only [beq_eq_false_iff_ne] at h9 h10
    exact ⟨h9, h10, this.1, this.2.resolve_left h10⟩
  have fin : ∀ (n : Nat) (ls : List Str), (∀ l ∈ ls, l ∈ (fileLines (univNewlines text)).map strip) → readTypes n [] ls = .ok types →
      ∀ t ∈ types, ∀ c ∈ t.name, c ≠ 9 ∧ c ≠ 10 ∧ c ≠ 13 ∧ c ∈ text := by
    intro n ls hls hrd t ht
    rcases readTypes_names ls hrd t ht with hm | ⟨l, hl, hn⟩
    · simp at hm
    · exact key l (hls l hl) _ hn
  simp only [readVocab] at hr
  split at hr
  · cases hr
  rename_i l0 ls heq
  rw [heq] at fin
  split at hr
  · split at hr
    · cases hr
    split at hr
    · cases hr
    rename_i t ht
    cases hr
    exact fin _ _ (fun l h => by simp [h]) ht
  · split at hr
    · cases hr
    rename_i t ht
    cases hr
    exact fin _ _ (fun l h => h) ht

theorem byteVocab_plain : ∀ t ∈ byteVocab, ∀ c ∈ t.name, c ≠ 9 ∧ c ≠ 10 ∧ c ≠ 13 ∧ ¬ (0xD800 ≤ c ∧ c ≤ 0xDFFF) := by decide +kernel

/-- C13, exact boundary: every scheme with a table can be saved, and the saved file gives the scheme again iff no name has a tab, a line break or a
surrogate. -/
theorem C13_save_load_iff {J : Json} (hJ : JsonLaws J) {k : Kind} {tbl : List Ty} {s : Scheme}
    (hs : Scheme.make k tbl = .ok s) (hne : s.table ≠ []) (hi : Indexed s.table) (hk : KidsEarlier s.table) :
    ∃ text, s.save J = .ok text ∧ (loadScheme J text = .ok s ↔
      ∀ t ∈ s.table, ∀ c ∈ t.name, c ≠ 9 ∧ c ≠ 10 ∧ c ≠ 13 ∧ ¬ (0xD800 ≤ c ∧ c ≤ 0xDFFF)) := by
  obtain ⟨m, hm⟩ := maxLevel_ne_none hne
  have hw := writeRows_ok s.table 0 (fun j t h => by rw [hi j t h]; omega)
  have hsave : s.save J = .ok (dropSurrogates (35 :: J.dumps { scheme := some s.kind.name, maxLevel := some m } ++ 10 ::
      s.table.flatMap fun t => t.format ++ [10])) := by
    simp only [Scheme.save, writeOut, hm, hw]
  refine ⟨_, hsave, fun h => ?_, fun h => ?_⟩
  · rcases load_names h with e | h'
    · rw [e]; exact byteVocab_plain
    · intro t ht c hc
      obtain ⟨a, b, d, e⟩ := h' t ht c hc
      refine ⟨a, b, d, ?_⟩
      have := (List.mem_filter.1 e).2
      simp only [isSurrogate, Bool.not_eq_true', decide_eq_false_iff_not] at this
      exact this
  · obtain ⟨text, h1, h2⟩ := C13_save_load_partial hJ hs hne hi hk h
    rw [hsave] at h1
    cases h1
    exact h2

/-- both cases: names with and without a tab -/
example : Plain 97 ∧ ¬ Plain 9 := by unfold Plain; decide

/-- C77 for class labels, exact boundary: learning always succeeds, and the saved labels are loaded again iff there is data and no label has an inner tab,
line break or surrogate. -/
theorem C77_class_iff {J : Json} (hJ : JsonLaws J) (A : Acc) (data : List Str) (vs mf : Int) (cov : Option A.F) :
    ∃ vocab s, learnRaw A .clasz data vs mf cov = .ok vocab ∧ Scheme.make .clasz vocab = .ok s ∧ s.table = vocab ∧
      ((∃ text, s.save J = .ok text ∧ loadScheme J text = .ok s) ↔ data ≠ [] ∧ ∀ l ∈ data, ∀ c ∈ strip l, Plain c) := by
  have h : learnRaw A .clasz data vs mf cov = .ok (classInitVocab (termFrequencies .clasz data).1) := rfl
  obtain ⟨c1, c2, c3, c4⟩ := C18_class_vocab h
  obtain ⟨s, hmk⟩ : ∃ s, Scheme.make .clasz (classInitVocab (termFrequencies .clasz data).1) = .ok s :=
    mkInvertible_of_nodup .clasz (c2.imp fun h => ne_of_lt h)
  obtain ⟨h1, h2, _⟩ := mkInvertible_ok (k := .clasz) hmk
  refine ⟨_, s, h, hmk, h1, ?_⟩
  by_cases hne : data = []
  · subst hne
    have : s.save J = .error .value := by
      rw [Scheme.save, h1]; rfl
    simp [this]
  have hne' : s.table ≠ [] := by
    intro e
    obtain ⟨l, ls, rfl⟩ := List.exists_cons_of_ne_nil hne
    have := (c3 (strip l)).2 (by simp)
    rw [← h1, e] at this
    simp [names] at this
  obtain ⟨text, g1, g2⟩ := C13_save_load_iff hJ hmk hne' (h1 ▸ c1) (h1 ▸ kidsEarlier_of_nil fun t ht => (c4 t ht).2.2)
  have e : (∃ text, s.save J = .ok text ∧ loadScheme J text = .ok s) ↔ loadScheme J text = .ok s := by
    constructor
    · rintro ⟨text', a, b⟩
      rw [g1] at a; cases a; exact b
    · exact fun h => ⟨text, g1, h⟩
  rw [e, g2, h1]
  constructor
  · refine fun hp => ⟨hne, fun l hl c hc => ?_⟩
    obtain ⟨t, ht, e⟩ := List.mem_map.1 ((c3 (strip l)).2 (List.mem_map.2 ⟨l, hl, rfl⟩))
    exact hp t ht c (e ▸ hc)
  · rintro ⟨_, hp⟩ t ht c hc
    obtain ⟨l, hl, e⟩ := List.mem_map.1 ((c3 t.name).1 (List.mem_map.2 ⟨t, ht, rfl⟩))
    exact hp l hl c (e ▸ hc)

/-- C77 is false for labels: a label with tabs may be loaded as another label, without any error. -/
theorem C77_label_refuted : ∃ vocab s text s', learnRaw accExact .clasz [lit "a\t3\t5\t\tx"] 0 0 none = .ok vocab ∧ Scheme.make .clasz vocab = .ok s ∧
    s.save pyJson = .ok text ∧ loadScheme pyJson text = .ok s' ∧ s.idxToStr = [lit "a\t3\t5\t\tx"] ∧ s'.idxToStr = [lit "a"] := by
  have hmk : ∃ s, Scheme.make .clasz [⟨lit "a\t3\t5\t\tx", 0, 0, 1, []⟩] = .ok s := ⟨_, rfl⟩
  obtain ⟨s, hs⟩ := hmk
  have key : (withScheme .clasz [⟨lit "a\t3\t5\t\tx", 0, 0, 1, []⟩] fun s => (s.save pyJson).bind fun text => (loadScheme pyJson text).map fun s' =>
      (s.idxToStr, s'.idxToStr)) = .ok ([lit "a\t3\t5\t\tx"], [lit "a"]) := by decide +kernel
  rw [withScheme, hs] at key
  dsimp only at key
  cases h1 : s.save pyJson with
  | error e => rw [h1] at key; cases key
  | ok text =>
    rw [h1] at key
    cases h2 : loadScheme pyJson text with
    | error e => simp only [Except.bind, h2] at key; cases key
    | ok s' =>
      simp only [Except.bind, h2, Except.map] at key
      have := Except.ok.inj key
      exact ⟨_, s, text, s', by decide +kernel, hs, h1, h2, (Prod.ext_iff.1 this).1, (Prod.ext_iff.1 this).2⟩

end Verif
