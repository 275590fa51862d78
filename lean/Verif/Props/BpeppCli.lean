import Verif.Props.BpeppFile
/-!
# Property C87: the commands of `experimental/bpepp.py`
-/

namespace Verif
open Spec

theorem forall₂_append_left {α β : Type} {R : α → β → Prop} {as as' : List α} {bs : List β} (h : List.Forall₂ R (as ++ as') bs) :
    ∃ b b', List.Forall₂ R as b ∧ List.Forall₂ R as' b' ∧ bs = b ++ b' := by
  induction as generalizing bs with
  | nil => exact ⟨[], bs, .nil, h, rfl⟩
  | cons a as ih =>
    cases h with
    | cons h1 h2 =>
      obtain ⟨b, b', g1, g2, rfl⟩ := ih h2
      exact ⟨_ :: b, b', .cons h1 g1, g2, rfl⟩

theorem ppReadLines_tokens {texts : List Str} {lss : List (List Str)} (hl : List.Forall₂ Lines texts lss) {wss : List (List Str)}
    (ht : List.Forall₂ Tokens lss.flatten wss) : List.Forall₂ Tokens (ppReadLines texts) wss := by
  induction hl generalizing wss with
  | nil => exact ht
  | @cons text ls texts lss h1 _ ih =>
    rw [List.flatten_cons] at ht
    obtain ⟨ws1, ws2, g1, g2, rfl⟩ := forall₂_append_left ht
    rw [ppReadLines, List.flatMap_cons]
    refine List.rel_append ?_ (ih g2)
    have := inpLines_tokens h1 g1
    rw [List.forall₂_map_left_iff]
    refine this.imp ?_
    rintro i ws rfl
    rw [← split_strip]
    exact tokens_split _

/-! ## encode and decode -/

theorem PpCodec.encode_nl (c : PpCodec) (l : Str) : c.encode (l ++ [10]) = c.encode l := by
  have : bpeText (l ++ [10]) = bpeText l := by
    rw [bpeText, bpeText, split_strip, split_strip, split_nl]
  simp only [PpCodec.encode, this]

/-- C87: `encode` writes one line for every line of the input: the ids, or with `-p` the pieces, separated by blanks. -/
theorem C87_encode {vocab : List Ty} {c : PpCodec} (h : PpCodec.make vocab = .ok c) (hi : Indexed vocab) (h2 : 2 ≤ vocab.length)
    {text : Str} {ls : List Str} (hl : Lines text ls) :
    (∃ rows, List.Forall₂ (fun l ids => c.encode l = .ok ids) ls rows ∧
      ppCliEncode c false text = (rows.flatMap (fun ids => List.intercalate [32] (ids.map intStr) ++ [10]), none)) ∧
    ∃ rows, List.Forall₂ (fun l ps => c.pieces l = .ok ps) ls rows ∧
      ppCliEncode c true text = (rows.flatMap (fun ps => List.intercalate [32] ps ++ [10]), none) := by
  have hp : ∀ l, ∃ ids ps, c.encode l = .ok ids ∧ c.pieces l = .ok ps := by
    intro l
    obtain ⟨ids, e1, _⟩ := C85_ids_in_range h hi h2 l
    have hu : (names vocab)[1]? = some (vocab[1].name) := by rw [names, List.getElem?_map, List.getElem?_eq_getElem h2]; rfl
    obtain ⟨out, _, e2⟩ := C85_pieces h hi hu (tokens_split l)
    exact ⟨ids, _, e1, e2⟩
  have hs := inpLines_spec hl
  have key : ∀ {α : Type} (f : Str → Py α) (g : α → Str), (∀ l, f (l ++ [10]) = f l) → (∀ l, ∃ a, f l = .ok a) → ∀ b : Bool,
      (∀ l a, f l = .ok a → c.encodeLine b l = .ok (g a)) →
      ∃ rows, List.Forall₂ (fun l a => f l = .ok a) ls rows ∧ ppCliEncode c b text = (rows.flatMap (fun a => g a ++ [10]), none) := by
    intro α f g hnl hok b hb
    unfold ppCliEncode
    generalize inpLines text = is at hs
    clear hl
    induction hs with
    | nil => exact ⟨[], .nil, rfl⟩
    | @cons l i ls is hli _ ih =>
      obtain ⟨rows, r1, r2⟩ := ih
      obtain ⟨a, ha⟩ := hok l
      refine ⟨a :: rows, .cons ha r1, ?_⟩
      have hi' : f i = .ok a := by rcases hli with rfl | rfl; exacts [ha, (hnl l).trans ha]
      simp only [genMap, hb i a hi']
      simp only [writeLines] at r2 ⊢
      simp only [Prod.mk.injEq] at r2
      rw [List.flatMap_cons, r2.1, List.flatMap_cons, r2.2]
  constructor
  · refine key c.encode (fun ids => List.intercalate [32] (ids.map intStr)) c.encode_nl (fun l => ?_) false ?_
    · obtain ⟨ids, _, e, _⟩ := hp l; exact ⟨ids, e⟩
    · intro l a ha; simp [PpCodec.encodeLine, ha, join_eq_intercalate]
  · refine key c.pieces (fun ps => List.intercalate [32] ps) (fun l => by simp only [PpCodec.pieces, c.encode_nl]) (fun l => ?_) true ?_
    · obtain ⟨_, ps, _, e⟩ := hp l; exact ⟨ps, e⟩
    · intro l a ha; simp [PpCodec.encodeLine, ha, join_eq_intercalate]

/-- C87 refuted: `decode` does not decode a file line by line.  It writes the characters of the text of the first line, each on a
line of its own, and ignores the other lines; without any line it is a TypeError. -/
theorem C87_decode_refuted :
    (match PpCodec.make (exTable Level.subword ["a", "b", "ab", "ba"]) with
      | .ok c => (ppCliEncode c false (lit "ab ba\nb\n"), ppCliDecode c (lit "8 5 9 5\n7 5\n"), ppCliDecode c [])
      | .error _ => (([], none), ([], none), ([], none))) =
    ((lit "8 5 9 5\n7 5\n", none), (lit "a\nb\n \nb\na\n", none), ([], some .type)) := by decide +kernel

/-- C87: what `decode` does instead, for every input: only the first line matters. -/
theorem C87_decode_actual_partial {c : PpCodec} {text l : Str} {ls : List Str} (hl : Lines text (l :: ls)) {ids : List Int}
    (ht : Tokens l (ids.map intStr)) {s : Str} (hd : c.decodeAsStr ids = .ok s) :
    ppCliDecode c text = (s.flatMap fun ch => [ch, 10], none) := by
  have hs := inpLines_spec hl
  generalize hi : inpLines text = is at hs
  cases hs with
  | @cons _ i _ is hli _ =>
    have : split (strip i) = ids.map intStr := by
      rw [split_strip, ← split_of_tokens ht]
      rcases hli with rfl | rfl
      · rfl
      · exact split_nl l
    simp only [ppCliDecode, hi, PpCodec.decodeAll, this, pyInts_intStr, hd]

/-! ## reading sequences -/

/-- C87: `read_seqs` gives the numbers of all lines of all files, each sequence cut to `max_len`. -/
theorem C87_read_seqs_partial {texts : List Str} {lss : List (List Str)} (hl : List.Forall₂ Lines texts lss) {seqs : List (List Int)}
    (ht : List.Forall₂ (fun l ids => Tokens l (ids.map intStr)) lss.flatten seqs) (maxSeqs maxLen : Nat) :
    ppReadSeqs texts maxSeqs maxLen = ⟨seqs.map (·.take maxLen), none⟩ := by
  have h1 : List.Forall₂ Tokens lss.flatten (seqs.map fun ids => ids.map intStr) := by
    rw [List.forall₂_map_right_iff]; exact ht
  have h2 := ppReadLines_tokens hl h1
  rw [List.forall₂_map_right_iff] at h2
  unfold ppReadSeqs
  apply genMap_all
  rw [List.forall₂_map_right_iff]
  refine h2.imp ?_
  intro l ids hli
  rw [split_strip, split_of_tokens hli, pyInts_intStr]

/-- C87 refuted: `max_seqs` does not bound the number of sequences. -/
theorem C87_max_seqs_refuted : (ppReadSeqs [lit "1 2 3\n4\n", lit "5"] 1 2).out = [[1, 2], [4], [5]] := by decide +kernel

/-! ## learning -/

/-- `ppLearn1` in one piece -/
theorem ppLearn1_eq (info : Str) (ord : Nat → List Nat → List Nat) (texts : List Str) (charMin wordMin size1 minEv1 : Int) (prepared : Bool) :
    ppLearn1 info ord texts charMin wordMin size1 minEv1 prepared =
      (if prepared then .error .assertion
      else if ¬ (0 < size1 ∨ size1 = -1) then .error .assertion
      else match ppSubwords ord (ppCounts (ppReadLines texts)) size1 minEv1 charMin wordMin with
        | .error e => .error e
        | .ok v => ppWriteVocab info v) := by
  unfold ppLearn1 ppVocab1
  by_cases hp : prepared = true
  · simp only [hp, if_true]
  · by_cases hs : ¬ (0 < size1 ∨ size1 = -1)
    · rw [if_neg hp, if_neg hp, if_pos hs, if_pos hs]
    · rw [if_neg hp, if_neg hp, if_neg hs, if_neg hs]; rfl

/-- `ppLearn2` in one piece -/
theorem ppLearn2_eq (info : Str) (ord : Nat → List Nat → List Nat) (l1 : Str) (texts : List Str) (size2 minEv2 : Int) (prepared : Bool) :
    ppLearn2 info ord (some l1) texts size2 minEv2 prepared =
      (match ppReadVocab l1 with
      | .error e => .error e
      | .ok v =>
        match (if prepared then .ok (ppReadSeqs texts 2000000 1024)
            else match PpCodec.make v with
              | .error e => .error e
              | .ok c => .ok (genMap c.encode none (ppReadLines texts)) : Py (Gen (List Int))) with
        | .error e => .error e
        | .ok g => match ppNatSeqs g.out with
          | .error e => .error e
          | .ok seqs => match ppLearn ord .replace (seqs.map fun s => (s, 1)) g.exc v size2 minEv2 2 with
            | .error e => .error e
            | .ok v2 => ppWriteVocab info v2) := by
  unfold ppLearn2 ppVocab2
  dsimp only
  cases ppReadVocab l1 with
  | error e => rfl
  | ok v =>
    dsimp only
    generalize (if prepared = true then _ else _ : Py (Gen (List Int))) = w
    cases w with
    | error e => rfl
    | ok g =>
      dsimp only
      cases ppNatSeqs g.out with
      | error e => rfl
      | ok seqs => rfl

/-- C87: level 1 writes the vocabulary learned from all lines of all files; the file reads back as that vocabulary, which the
codec accepts. -/
theorem C87_learn1 {info : Str} (hinfo : ∀ c ∈ info, 32 ≤ c ∧ c ≤ 126) {ord : Nat → List Nat → List Nat} {texts : List Str}
    {lss : List (List Str)} (hl : List.Forall₂ Lines texts lss) {wss : List (List Str)} (ht : List.Forall₂ Tokens lss.flatten wss)
    (hsur : ∀ w ∈ wss.flatten, ∀ c ∈ w, ¬ (0xD800 ≤ c ∧ c ≤ 0xDFFF)) {charMin wordMin size1 minEv1 : Int} {out : Str}
    (h : ppLearn1 info ord texts charMin wordMin size1 minEv1 false = .ok out) :
    ∃ v c, ppSubwords ord (ppCounts lss.flatten) size1 minEv1 charMin wordMin = .ok v ∧ ppReadVocab out = .ok v ∧
      PpCodec.make v = .ok c ∧ (size1 = -1 ∨ 0 < size1 ∧ (v.length : Int) ≤ size1) := by
  have hread := ppReadLines_tokens hl ht
  have hcnt : ppCounts (ppReadLines texts) = ppCounts lss.flatten := by
    have key : ∀ {ls : List Str} {wss : List (List Str)}, List.Forall₂ Tokens ls wss →
        (ls.flatMap fun l => split (strip l)) = wss.flatten := by
      intro ls wss hls
      induction hls with
      | nil => rfl
      | cons h1 _ ih => rw [List.flatMap_cons, List.flatten_cons, ih, split_strip, split_of_tokens h1]
    rw [ppCounts, ppCounts, key hread, key ht]
  rw [ppLearn1_eq] at h
  simp only [Bool.false_eq_true, if_false] at h
  split at h
  · cases h
  · rename_i hsz
    rw [hcnt] at h
    cases hs : ppSubwords ord (ppCounts lss.flatten) size1 minEv1 charMin wordMin with
    | error e => rw [hs] at h; cases h
    | ok v =>
      rw [hs] at h
      simp only at h
      obtain ⟨⟨text, e1, e2⟩, c, e3⟩ := C86_learned ht hsur hs hinfo
      rw [e1] at h
      injection h with h
      subst h
      refine ⟨v, c, rfl, e2, e3, ?_⟩
      have := (ppSubwords_table ht hs).2.2.2.1
      by_cases hm : size1 = -1
      · exact .inl hm
      · exact .inr ⟨by omega, this hm⟩

/-- C87: with the least frequencies 1 every line of the training text without U+2581 is restored, up to white space, by the
codec of the learned vocabulary. -/
theorem C87_restores {info : Str} (hinfo : ∀ c ∈ info, 32 ≤ c ∧ c ≤ 126) {ord : Nat → List Nat → List Nat} {texts : List Str}
    {lss : List (List Str)} (hl : List.Forall₂ Lines texts lss) {wss : List (List Str)} (ht : List.Forall₂ Tokens lss.flatten wss)
    (hsur : ∀ w ∈ wss.flatten, ∀ c ∈ w, ¬ (0xD800 ≤ c ∧ c ≤ 0xDFFF) ∧ c ≠ 0x2581) {size1 minEv1 : Int} {out : Str}
    (h : ppLearn1 info ord texts 1 1 size1 minEv1 false = .ok out) :
    ∃ v c, ppReadVocab out = .ok v ∧ PpCodec.make v = .ok c ∧ ∀ line ws, Tokens line ws → ws ∈ wss →
      ∃ ids, c.encode line = .ok ids ∧ c.decodeAsStr ids = .ok (List.intercalate [32] ws) := by
  obtain ⟨v, c, h1, h2, h3, _⟩ := C87_learn1 hinfo hl ht (fun w hw ch hc => (hsur w hw ch hc).1) h
  obtain ⟨i1, i2, i3, i4, i5, i6⟩ := ppSubwords_table ht h1
  refine ⟨v, c, h2, h3, fun line ws hw hws => C85_lossless h3 i1 ?_ hw ?_⟩
  · have : [SP] ∈ (names v).take 6 := by rw [i3]; decide
    exact List.mem_of_mem_take this
  · intro w hww ch hc
    have : w ∈ wss.flatten := List.mem_flatten.2 ⟨ws, hws, hww⟩
    exact ⟨i6 rfl rfl w this ch hc, (hsur w this ch hc).2⟩

theorem ppNatSeqs_ok (seqs : List (List Nat)) : ppNatSeqs (seqs.map fun s => s.map Int.ofNat) = .ok seqs := by
  induction seqs with
  | nil => rfl
  | cons s seqs ih =>
    rw [List.map_cons, ppNatSeqs, if_pos, ih]
    · simp only [List.map_map]
      congr 2
      rw [show (Int.toNat ∘ Int.ofNat) = id from rfl, List.map_id]
    · simp

/-- C87: level 2.  Every line becomes the sequence of the level 1 types of its greedy segmentation; these sequences, with runs
cut to two, are merged by `-vs2` rounds of BPE with the threshold `-mce2`, and the table obtained is written with level 2 for
the new types.  As in C83 this may end with ValueError when no pair is left, and nothing is said once a most frequent pair
overlaps with itself. -/
theorem C87_learn2_partial {info : Str} {ord : Nat → List Nat → List Nat} (hord : ∀ i l, (ord i l).Perm l) {minEv2 : Int} (hmin : 1 ≤ minEv2)
    {l1 : Str} {v : List Ty} (hr : ppReadVocab l1 = .ok v) (hi : Indexed v) (hnd : (names v).Nodup) (hne : ∀ t ∈ v, t.name ≠ [])
    (h2 : 2 ≤ v.length) {texts : List Str} {lss : List (List Str)} (hl : List.Forall₂ Lines texts lss) (hsome : lss.flatten ≠ [])
    {wss : List (List Str)} (ht : List.Forall₂ Tokens lss.flatten wss) (size2 : Int) :
    ∃ (outs : List (List (Option Str))) (seqs : List (List Nat)),
      List.Forall₂ (fun ws out => Greedy (names v) (List.intercalate [SP] ws ++ [SP]) out) wss outs ∧
      List.Forall₂ (List.Forall₂ fun o i => match o with
        | some w => (names v)[i]? = some w
        | none => i = 1) outs seqs ∧
      ∃ D k C' v', Squeezed (seqs.map fun s => (s, 1)) D ∧ k ≤ size2.toNat ∧ RunMax minEv2 2 D v k C' v' ∧
        ((ppLearn2 info ord (some l1) texts size2 minEv2 false = ppWriteVocab info v' ∧ (k = size2.toNat ∨ ∀ q, pairCount C' q < minEv2)) ∨
         (ppLearn2 info ord (some l1) texts size2 minEv2 false = .error .value ∧ k < size2.toNat ∧ ∀ q, pairCount C' q = 0) ∨
         (k < size2.toNat ∧ ∃ p, IsMax C' p ∧ minEv2 ≤ pairCount C' p ∧ ¬ Apart C' p)) := by
  have hread := ppReadLines_tokens hl ht
  obtain ⟨c, hc⟩ := (C85_accepts v).2 ⟨by rintro rfl; simp at h2, hne⟩
  have key : ∀ {ls : List Str} {wss : List (List Str)}, List.Forall₂ Tokens ls wss → ∃ (outs : List (List (Option Str))) (seqs : List (List Nat)),
      List.Forall₂ (fun ws out => Greedy (names v) (List.intercalate [SP] ws ++ [SP]) out) wss outs ∧
      List.Forall₂ (List.Forall₂ fun o i => match o with
        | some w => (names v)[i]? = some w
        | none => i = 1) outs seqs ∧ List.Forall₂ (fun l ids => c.encode l = .ok ids) ls (seqs.map fun s => s.map Int.ofNat) ∧
      (∀ s ∈ seqs, s ≠ [] ∧ ∀ i ∈ s, i < v.length) := by
    intro ls wss h
    induction h with
    | nil => exact ⟨[], [], .nil, .nil, .nil, by simp⟩
    | @cons l ws ls wss h1 _ ih =>
      obtain ⟨outs, seqs, g1, g2, g3, g4⟩ := ih
      obtain ⟨out, ids, e1, e2, e3⟩ := C85_greedy hc hi h1
      obtain ⟨ids', e2', e4, e5⟩ := C85_ids_in_range hc hi h2 l
      rw [e2] at e2'
      injection e2' with e2'
      subst e2'
      have hids : ids = (ids.map Int.toNat).map Int.ofNat := by
        rw [List.map_map]
        conv_lhs => rw [← List.map_id ids]
        apply List.map_congr_left
        intro i him
        have := (e5 i him).1
        simp only [id, Function.comp]
        exact (Int.toNat_of_nonneg this).symm
      refine ⟨out :: outs, ids.map Int.toNat :: seqs, .cons e1 g1, .cons ?_ g2, ?_, ?_⟩
      · rw [List.forall₂_map_right_iff]
        refine e3.imp ?_
        intro o i hoi
        cases o with
        | none => simp only at hoi ⊢; omega
        | some w =>
          obtain ⟨j, hj, rfl⟩ := hoi
          simpa using hj.1
      · rw [List.map_cons, ← hids]; exact .cons e2 g3
      · intro s hs
        rcases List.mem_cons.1 hs with rfl | hs
        · refine ⟨by simpa using e4, fun i hi' => ?_⟩
          obtain ⟨x, hx, rfl⟩ := List.mem_map.1 hi'
          have := e5 x hx
          omega
        · exact g4 s hs
  obtain ⟨outs, seqs, g1, g2, g3, g4⟩ := key hread
  have hgen : genMap c.encode none (ppReadLines texts) = ⟨seqs.map fun s => s.map Int.ofNat, none⟩ := genMap_all g3
  have hlearn : ppLearn2 info ord (some l1) texts size2 minEv2 false =
      match ppLearn ord .replace (seqs.map fun s => (s, 1)) none v size2 minEv2 2 with
      | .error e => .error e
      | .ok v2 => ppWriteVocab info v2 := by
    simp only [ppLearn2_eq, hr, hc, Bool.false_eq_true, if_false, hgen, ppNatSeqs_ok]
  have hsn : seqs.map (fun s => (s, (1 : Int))) ≠ [] := by
    have e1 := g1.length_eq
    have e2 := g2.length_eq
    have e3 := ht.length_eq
    intro h0
    apply hsome
    rw [List.map_eq_nil_iff] at h0
    rw [h0] at e2
    exact List.length_eq_zero_iff.1 (by rw [e3, e1, e2]; rfl)
  obtain ⟨k, C', v', r1, r2, r3⟩ := C83_rounds_partial hord hmin 2 size2 (seqs := seqs.map fun s => (s, 1)) hsn
    (by
      intro s hs
      obtain ⟨x, hx, rfl⟩ := List.mem_map.1 hs
      exact ⟨(g4 x hx).1, by simp⟩) hi hnd
    (by
      intro s hs
      obtain ⟨x, hx, rfl⟩ := List.mem_map.1 hs
      exact (g4 x hx).2) (squeezed_spec _)
  refine ⟨outs, seqs, g1, g2, _, k, C', v', squeezed_spec _, r1, r2, ?_⟩
  rw [hlearn]
  rcases r3 with ⟨e, h⟩ | ⟨e, h⟩ | h
  · exact .inl ⟨by rw [e], h⟩
  · exact .inr (.inl ⟨by rw [e], h⟩)
  · exact .inr (.inr h)

/-- C87: whatever level 2 writes reads back as a table that extends the level 1 table by at most `-vs2` types of level 2, each the
concatenation of two earlier ones. -/
theorem C87_learn2_table {info : Str} (hinfo : ∀ c ∈ info, 32 ≤ c ∧ c ≤ 126) {ord : Nat → List Nat → List Nat} {l1 : Str} {v : List Ty}
    (hr : ppReadVocab l1 = .ok v) (hk : KidsEarlier v)
    (hn : ∀ t ∈ v, t.name ≠ [] ∧ ∀ c ∈ t.name, c ≠ 9 ∧ c ≠ 10 ∧ c ≠ 13 ∧ ¬ (0xD800 ≤ c ∧ c ≤ 0xDFFF)) {texts : List Str} {size2 minEv2 : Int}
    {prepared : Bool} {out : Str} (h : ppLearn2 info ord (some l1) texts size2 minEv2 prepared = .ok out) :
    ∃ v', ppReadVocab out = .ok v' ∧ Indexed v' ∧ v'.take v.length = v ∧ v'.length ≤ v.length + size2.toNat ∧
      ∀ (i : Nat) (t : Ty), v.length ≤ i → v'[i]? = some t → t.level = 2 ∧ minEv2 ≤ t.freq ∧
        ∃ ja jb ta tb, ja < i ∧ jb < i ∧ v'[ja]? = some ta ∧ v'[jb]? = some tb ∧ t.kids = [ta, tb] ∧ t.name = ta.name ++ tb.name := by
  rw [ppLearn2_eq] at h
  simp only [hr] at h
  split at h
  · cases h
  · split at h
    · cases h
    · split at h
      · cases h
      · rename_i g _ _ seqs _ _ v2 hv2
        obtain ⟨w1, w2, w3, w4⟩ := C83_table hv2
        have w4' : ∀ (i : Nat) (t : Ty), v.length ≤ i → v2[i]? = some t → ∃ ja jb ta tb, ja < i ∧ jb < i ∧ v2[ja]? = some ta ∧
          v2[jb]? = some tb ∧ t.kids = [ta, tb] ∧ t.name = ta.name ++ tb.name := fun i t hi hit => (w4 i t hi hit).2.2
        obtain ⟨text, e1, e2⟩ := C86_round_trip hinfo w1 (kidsEarlier_extend hk w2 w4') (fun t htm =>
          (names_extend (P := fun c => c ≠ 9 ∧ c ≠ 10 ∧ c ≠ 13 ∧ ¬ (0xD800 ≤ c ∧ c ≤ 0xDFFF)) hn w2 w4' t htm).2)
        rw [e1] at h
        injection h with h
        subst h
        exact ⟨v2, e2, w1, w2, w3, w4⟩

theorem uintVal_other {c : Nat} (h1 : c ≠ 95) (h2 : digitVal c = none) : ∀ (l : Str) (a : Nat) (b : Bool), c ∈ l → uintVal l a b = none := by
  intro l
  induction l with
  | nil => simp
  | cons d ds ih =>
    intro a b h
    unfold uintVal
    rcases List.mem_cons.1 h with rfl | h
    · rw [if_neg h1, h2]
    · split
      · split
        · exact ih _ _ h
        · rfl
      · split
        · exact ih _ _ h
        · rfl

theorem digitVal_letter {c : Nat} (h : 57 < c) (h' : c < 0x660) : digitVal c = none := by
  rw [digitVal, Option.map_eq_none_iff, List.find?_eq_none]
  intro z hz
  have : z = 0x30 ∨ 0x660 ≤ z := (by decide : ∀ z ∈ digitZeros, z = 0x30 ∨ 0x660 ≤ z) z hz
  simp only [Bool.and_eq_true, decide_eq_true_eq, not_and]
  omega

theorem pyInt_letter {w : Str} {c : Nat} (hw : IsToken w) (hc : 57 < c ∧ c < 0x660 ∧ c ≠ 95) (h : c ∈ w) : pyInt w = .error .value := by
  have hd := uintVal_other hc.2.2 (digitVal_letter hc.1 hc.2.1)
  unfold pyInt
  rw [intStrip_token hw]
  split
  · rename_i ds
    rw [hd ds 0 false (by rcases List.mem_cons.1 h with rfl | h; omega; exact h)]
  · rename_i ds
    rw [hd ds 0 false (by rcases List.mem_cons.1 h with rfl | h; omega; exact h)]
  · rw [hd _ 0 false h]

theorem pyInts_letter {c : Nat} (hc : 57 < c ∧ c < 0x660 ∧ c ≠ 95) : ∀ {ws : List Str}, (∀ w ∈ ws, IsToken w) → (∃ w ∈ ws, c ∈ w) → ∃ e, pyInts ws = .error e := by
  intro ws
  induction ws with
  | nil => simp
  | cons w ws ih =>
    intro ht h
    unfold pyInts
    cases hp : pyInt w with
    | error e => exact ⟨_, rfl⟩
    | ok i =>
      obtain ⟨w', hw', hcw⟩ := h
      rcases List.mem_cons.1 hw' with rfl | hw'
      · rw [pyInt_letter (ht _ List.mem_cons_self) hc hcw] at hp; cases hp
      · obtain ⟨e, he⟩ := ih (fun w hw => ht w (List.mem_cons_of_mem _ hw)) ⟨w', hw', hcw⟩
        simp [he]

theorem genMap_error {α β : Type} {f : α → Py β} {a : α} {e : Exc} (hf : f a = .error e) : ∀ {as : List α}, a ∈ as →
    ∃ e, (genMap f none as).exc = some e := by
  intro as
  induction as with
  | nil => simp
  | cons b as ih =>
    intro h
    unfold genMap
    cases hb : f b with
    | error e => exact ⟨e, rfl⟩
    | ok x =>
      rcases List.mem_cons.1 h with rfl | h
      · rw [hf] at hb; cases hb
      · exact ih h

theorem ppInit_exc {tr : Troubles} {seqs : List (List Nat × Int)} {e : Exc} {vocab : List Ty} {I : Index} :
    ppInit tr seqs (some e) vocab ≠ .ok I := by
  intro h
  unfold ppInit at h
  repeat' split at h
  all_goals first | (cases h; done) | simp_all

/-- C87: prepared input with a token that contains a letter is refused; no table is written. -/
theorem C87_bad_sequences {info l1 : Str} {ord : Nat → List Nat → List Nat} {texts : List Str} {lss : List (List Str)}
    (hl : List.Forall₂ Lines texts lss) {wss : List (List Str)} (ht : List.Forall₂ Tokens lss.flatten wss)
    (hbad : ∃ w ∈ wss.flatten, ∃ c ∈ w, 65 ≤ c ∧ c ≤ 90 ∨ 97 ≤ c ∧ c ≤ 122) (size2 minEv2 : Int) :
    ∃ e, ppLearn2 info ord (some l1) texts size2 minEv2 true = .error e := by
  obtain ⟨w, hw, c, hc, hcr⟩ := hbad
  obtain ⟨ws, hws, hwws⟩ := List.mem_flatten.1 hw
  obtain ⟨l, hl', hlw⟩ := mem_of_forall₂_right (ppReadLines_tokens hl ht) ws hws
  have hsp : split (strip l) = ws := by rw [split_strip, split_of_tokens hlw]
  obtain ⟨e, he⟩ := pyInts_letter (c := c) (by omega) (ws := ws) (by rw [← hsp]; intro w hw; exact split_isToken hw) ⟨w, hwws, hc⟩
  obtain ⟨e', he'⟩ : ∃ e', (ppReadSeqs texts 2000000 1024).exc = some e' := by
    unfold ppReadSeqs
    refine genMap_error (a := l) (e := e) ?_ hl'
    simp only [hsp, he]
  cases hout : ppLearn2 info ord (some l1) texts size2 minEv2 true with
  | error e => exact ⟨e, rfl⟩
  | ok out =>
    exfalso
    rw [ppLearn2_eq] at hout
    simp only [if_true] at hout
    split at hout
    · cases hout
    · split at hout
      · cases hout
      · rw [he'] at hout
        unfold ppLearn at hout
        split at hout
        · cases hout
        · rename_i h1
          split at h1
          · cases h1
          · rename_i h2
            exact ppInit_exc h2

example : (match ppLearn2 (lit "{}") ordId ((ppWriteVocab [] (exTable Level.subword ["a", "b"])).toOption) [lit "6 5 7\n6 x 5\n"] 1 1 true with
    | .ok _ => none | .error e => some e) = some .value := by decide +kernel

/-- C87 refuted: `-vs2` is not the size of the level 2 vocabulary but the number of merges: with 8 types of level 1 and
`-vs2 2` the final vocabulary has 10 types. -/
theorem C87_size_refuted :
    (match ppLearnBoth [] [] ordId ordId [lit "a b\na b\n"] 1 1 (-1) 1 2 1 false with
      | .ok (l1, l2) => ((ppReadVocab l1).toOption.map List.length, (ppReadVocab l2).toOption.map List.length)
      | .error _ => (none, none)) = (some 8, some 10) := by decide +kernel

/-- C87 refuted: `learn` does not always go through: if level 1 merges the characters of a reserved name to a second type with that
name, level 2 fails on the distinctness of names. -/
theorem C87_learn_refuted :
    (ppLearn1 [] ordId [lit "<s>. <s>,"] 1 1 14 2 false).isOk = true ∧
    (match ppLearnBoth [] [] ordId ordId [lit "<s>. <s>,"] 1 1 14 2 1 1 false with
      | .ok _ => none
      | .error e => some e) = some .assertion := by constructor <;> decide +kernel

/-- C87: the arguments refused. -/
theorem C87_options (info : Str) (ord : Nat → List Nat → List Nat) (texts : List Str) (charMin wordMin size minEv : Int) (prepared : Bool) :
    ppLearn1 info ord texts charMin wordMin size minEv true = .error .assertion ∧
    (size < -1 ∨ size = 0 → ppLearn1 info ord texts charMin wordMin size minEv false = .error .assertion) ∧
    ppLearn2 info ord none texts size minEv prepared = .error .assertion := by
  refine ⟨rfl, fun h => ?_, rfl⟩
  rw [ppLearn1_eq, if_neg (by simp), if_pos (by omega)]

/-- both levels: characters, then the phrase "a▁b▁" -/
example : (match ppLearnBoth (lit "{}") (lit "{}") ordId ordId [lit "a b\na b c\n"] 1 1 (-1) 1 3 2 false with
    | .ok (_, l2) => (ppReadVocab l2).toOption.map (·.map fun t => (t.name, t.level, t.freq))
    | .error _ => none) = some [(lit "<pad>", -1, -1), (lit "<unk>", -1, -1), (lit "<s>", -1, -1), (lit "</s>", -1, -1), (lit "<cls>", -1, -1),
      ([SP], -1, -1), (lit "a", 0, 2), (lit "b", 0, 2), (lit "c", 0, 1), (lit "a▁", 2, 2), (lit "b▁", 2, 2), (lit "a▁b▁", 2, 2)] := by decide +kernel
/-- prepared input -/
example : (match ppLearn2 (lit "{}") ordId ((ppWriteVocab [] (exTable Level.subword ["a", "b"])).toOption) [lit "6 5 7\n6 5 7 5\n"] 1 1 true with
    | .ok l2 => (ppReadVocab l2).toOption.map fun v => (v.map fun t => (t.name, t.level, t.freq)).drop 8
    | .error _ => none) = some [(lit "a▁", 2, 2)] := by decide +kernel
example : Lines (lit "a b\na b c\n") [lit "a b", lit "a b c"] :=
  Lines.lf (l := lit "a b") (r := lit "a b c\n") (by decide) (Lines.lf (l := lit "a b c") (r := []) (by decide) .nil)

end Verif
