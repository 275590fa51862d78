import Verif.Props.Stable
import Verif.Props.Cli
import Verif.Props.Persist
import Verif.Lemmas.Abugida
/-!
# Property C132: encoding a decoded file gives the encoded file again

`nlcodec encode`, `nlcodec decode` (nlcodec/__main__.py) for word, char, BPE and class models.
-/

namespace Verif
open Spec

/-- from single lines to files -/
theorem cli_again {s : Scheme} {b : Bool} {text : Str} {ds : List Str} (hn : ∀ d ∈ ds, NoBreak d)
    (h : List.Forall₂ (fun i d => ∃ r, encodeLine s b i = .ok r ∧ encodeLine s b (d ++ [10]) = .ok r) (inpLines text) ds) :
    cliEncode s b (ds.flatMap (· ++ [10])) = cliEncode s b text := by
  have : ∃ rs, List.Forall₂ (fun i r => encodeLine s b i = .ok r) (inpLines text) rs ∧ List.Forall₂ (fun d r => encodeLine s b d = .ok r) (ds.map (· ++ [10])) rs := by
    generalize inpLines text = is at h
    clear hn
    induction h with
    | nil => exact ⟨[], .nil, .nil⟩
    | cons h _ ih =>
      obtain ⟨r, h1, h2⟩ := h
      obtain ⟨rs, h3, h4⟩ := ih
      exact ⟨r :: rs, .cons h1 h3, .cons h2 h4⟩
  obtain ⟨rs, h1, h2⟩ := this
  rw [cliEncode, cliEncode, inpLines_rows ds hn, genMap_all h1, genMap_all h2]

/-- C132, words: for every text and both output formats `encode`, `decode` and `encode` again gives the same file as the first `encode`. -/
theorem C132_word {tbl : List Ty} {s : Scheme} (h : Scheme.make .word tbl = .ok s) (b : Bool) {text : Str} {ls : List Str} (hl : Lines text ls) :
    ∃ out text', cliEncode s b text = (out, none) ∧ cliDecode s b out = (text', none) ∧ cliEncode s b text' = (out, none) := by
  obtain ⟨h1, h2, h3, h4, h5⟩ := make_word_ok h
  have hw : List.Forall₂ Tokens ls (ls.map split) := by
    rw [List.forall₂_map_right_iff]
    exact List.forall₂_same.2 fun l _ => tokens_split l
  obtain ⟨out, e1, e2⟩ := C62_word h b hl hw
  let g : Str → Str := fun w => if b = true ∧ w ∉ names tbl then lit "<unk>" else w
  have hg : ∀ w, IsToken w → IsToken (g w) := by
    intro w hw
    simp only [g]
    split
    · exact unk_token
    · exact hw
  have e3 := cli_again (s := s) (b := b) (text := text) (ds := (ls.map split).map fun ws => join [32] (ws.map g)) ?_ ?_
  · refine ⟨out, _, e1, e2, ?_⟩
    rw [← e1, ← e3]
    simp only [join_eq_intercalate, List.flatMap_map, g]
  · intro d hd
    obtain ⟨ws, hws, rfl⟩ := List.mem_map.1 hd
    obtain ⟨l, _, rfl⟩ := List.mem_map.1 hws
    refine join_noBreak fun w hw => ?_
    obtain ⟨v, hv, rfl⟩ := List.mem_map.1 hw
    exact hg v (split_isToken hv)
  · rw [List.forall₂_map_right_iff]
    refine (inpLines_tokens hl hw).imp ?_
    rintro i ws hi
    have hws : ∀ w ∈ ws, IsToken w := fun w hww => split_isToken (by rw [hi]; exact hww)
    have hs : split (join [32] (ws.map g) ++ [10]) = ws.map g := by
      rw [split_nl, split_join_space]
      intro w hw
      obtain ⟨v, hv, rfl⟩ := List.mem_map.1 hw
      exact hg v (hws v hv)
    cases b with
    | false =>
      have : ws.map g = ws := by simp [g]
      refine ⟨join [32] ws, ?_, ?_⟩
      · simp [encodeLine, Scheme.encodeStr, h2, hi]
      · rw [this] at hs ⊢
        simp [encodeLine, Scheme.encodeStr, h2, hs]
    | true =>
      have enc : ∀ l, s.encode l = .ok ((split l).map s.idOf) := by
        intro l
        simp only [Scheme.encode, Scheme.encodeStr, h2]
        exact idsOf_eq (by rw [h2]; decide) h3 _
      obtain ⟨ids, txt, a, b, c⟩ := C11_word_stable h (join [32] ws)
      have hsw := split_join_space hws
      rw [enc, hsw] at a
      cases a
      obtain ⟨ids', a', b'⟩ := C01_word_round_trip h (hsw ▸ tokens_split (join [32] ws))
      rw [enc, hsw] at a'
      cases a'
      rw [b] at b'
      cases b'
      refine ⟨join [32] ((ws.map s.idOf).map intStr), by simp only [encodeLine, if_true, enc, hi], ?_⟩
      have : s.encode (join [32] (ws.map g) ++ [10]) = .ok (ws.map s.idOf) := by
        rw [enc, split_nl, ← enc, ← c, join_eq_intercalate]
        have : ws.map g = ws.map fun w => if w ∈ names tbl then w else lit "<unk>" := by
          refine List.map_congr_left fun w _ => ?_
          by_cases hm : w ∈ names tbl <;> simp [g, hm]
        rw [this]
      simp only [encodeLine, if_true, this]

/-- the pieces of a BPE encoding are tokens -/
theorem bpe_pieces_tokens {tbl : List Ty} {s : Scheme} (h : Scheme.make .bpe tbl = .ok s) (hi : Indexed tbl) {l : Str} {ps : List Str} (he : s.encodeStr l = .ok ps) :
    ∀ p ∈ ps, IsToken p := by
  obtain ⟨o, hg, heo⟩ := bpeEncodeStr_spec h hi l
  rw [heo] at he
  rw [← Except.ok.inj he]
  intro p hp
  obtain ⟨q, hq, rfl⟩ := List.mem_map.1 hp
  refine greedy_tokens hg ?_ q hq
  intro c hc
  rw [bpeText, split_strip] at hc
  rcases List.mem_append.1 hc with hc | hc
  · rcases mem_join hc with hc | ⟨w, hw, hc⟩
    · simp at hc; subst hc; decide
    · exact (split_isToken hw).2 _ hc
  · simp at hc; subst hc; decide

/-- decoded lines have no line break -/
theorem bpe_decoded_noBreak {tbl : List Ty} {s : Scheme} (h : Scheme.make .bpe tbl = .ok s) (hi : Indexed tbl) {l d : Str} {ids : List Int} (he : s.encode l = .ok ids)
    (hd : s.decode ids = .ok d) : NoBreak d := by
  obtain ⟨h1, h2, _⟩ := make_bpe_ok h
  obtain ⟨_, ps, b1, b2, b3⟩ := bpe_decode_encode h hi l
  rw [he] at b1
  cases b1
  simp only [Scheme.decode, b3, Scheme.decodeStr, h2] at hd
  have htok := bpe_pieces_tokens h hi b2
  have key : ∀ c ∈ d, c = 32 ∨ isWhite c = false := by
    intro c hc
    rw [← Except.ok.inj hd] at hc
    have := mem_of_mem_strip hc
    rw [replaceCh, List.mem_map] at this
    obtain ⟨x, hx, hxc⟩ := this
    obtain ⟨p, hp, hxp⟩ := List.mem_flatten.1 hx
    by_cases hxs : x = SP
    · left; simp [hxs] at hxc; exact hxc.symm
    · right; simp [hxs] at hxc; rw [← hxc]; exact (htok p hp).2 x hxp
  constructor
  · intro hm
    rcases key _ hm with e | e
    · simp at e
    · simp [isWhite, whiteSpace] at e
  · intro hm
    rcases key _ hm with e | e
    · simp at e
    · simp [isWhite, whiteSpace] at e

/-- every line is encoded to a row without line break -/
theorem bpe_row {tbl : List Ty} {s : Scheme} (h : Scheme.make .bpe tbl = .ok s) (hi : Indexed tbl) (b : Bool) (x : Str) : ∃ r, encodeLine s b x = .ok r ∧ NoBreak r := by
  obtain ⟨ids, ps, b1, b2, _⟩ := bpe_decode_encode h hi x
  cases b with
  | true =>
    refine ⟨join [32] (ids.map intStr), by simp [encodeLine, b1], join_noBreak fun w hw => ?_⟩
    obtain ⟨i, _, rfl⟩ := List.mem_map.1 hw
    exact intStr_isToken i
  | false => exact ⟨join [32] ps, by simp [encodeLine, b2], join_noBreak (bpe_pieces_tokens h hi b2)⟩

/-- the row determines the ids, in both formats -/
theorem bpe_row_inj {tbl : List Ty} {s : Scheme} (h : Scheme.make .bpe tbl = .ok s) (hi : Indexed tbl) {b : Bool} {x y r : Str} (hx : encodeLine s b x = .ok r)
    (hy : encodeLine s b y = .ok r) : s.encode x = s.encode y := by
  obtain ⟨ids, ps, b1, b2, _⟩ := bpe_decode_encode h hi x
  obtain ⟨ids', ps', c1, c2, _⟩ := bpe_decode_encode h hi y
  cases b with
  | true =>
    simp only [encodeLine, b1, c1, if_true] at hx hy
    have tok : ∀ is : List Int, ∀ w ∈ is.map intStr, IsToken w := by
      intro is w hw
      obtain ⟨i, _, rfl⟩ := List.mem_map.1 hw
      exact intStr_isToken i
    have e : join [32] (ids.map intStr) = join [32] (ids'.map intStr) := (Except.ok.inj hx).trans (Except.ok.inj hy).symm
    have e2 := congrArg split e
    rw [split_join_space (tok _), split_join_space (tok _)] at e2
    have e3 := congrArg pyInts e2
    rw [pyInts_intStr, pyInts_intStr] at e3
    rw [b1, c1, e3]
  | false =>
    simp only [encodeLine, b2, c2, Bool.false_eq_true, if_false] at hx hy
    have e := congrArg split ((Except.ok.inj hx).trans (Except.ok.inj hy).symm)
    rw [split_join_space (bpe_pieces_tokens h hi b2), split_join_space (bpe_pieces_tokens h hi c2)] at e
    simp only [Scheme.encode, b2, c2, e]

/-- C132, BPE: if only reserved names have a "<" and no word has U+2581 at an end or next to another one, `encode`, `decode` and `encode` again gives the same file as
the first `encode`, in both formats, with unknown characters as well. Missing: other words, for which it fails (`C132_bpe_refuted`), and vocabularies with other names with
"<" (`C131_bpe_refuted`). -/
theorem C132_bpe_partial {tbl : List Ty} {s : Scheme} (h : Scheme.make .bpe tbl = .ok s) (hi : Indexed tbl) (hns : ∀ n ∈ names tbl, 60 ∈ n → n ∈ special) (b : Bool)
    {text : Str} {ls : List Str} {wss : List (List Str)} (hl : Lines text ls) (hw : List.Forall₂ Tokens ls wss)
    (hsp : ∀ ws ∈ wss, ∀ w ∈ ws, ∃ us : List Str, us ≠ [] ∧ (∀ u ∈ us, u ≠ [] ∧ 0x2581 ∉ u) ∧ w = List.intercalate [0x2581] us) :
    ∃ out text', cliEncode s b text = (out, none) ∧ cliDecode s b out = (text', none) ∧ cliEncode s b text' = (out, none) := by
  obtain ⟨out, ds, e1, e2, e3⟩ := C62_bpe_api h hi b hl
  have line : ∀ l ws d ids, Tokens l ws → (∀ w ∈ ws, ∃ us : List Str, us ≠ [] ∧ (∀ u ∈ us, u ≠ [] ∧ 0x2581 ∉ u) ∧ w = List.intercalate [0x2581] us) →
      s.encode l = .ok ids → s.decode ids = .ok d → NoBreak d ∧ ∀ i, (i = l ∨ i = l ++ [10]) → ∃ r, encodeLine s b i = .ok r ∧ encodeLine s b (d ++ [10]) = .ok r := by
    intro l ws d ids ht hall he hd
    obtain ⟨ids', txt, a1, a2, a3⟩ := (C131_bpe_iff h hi hns ht).2 hall
    rw [he] at a1
    cases a1
    rw [hd] at a2
    cases a2
    have same : ∀ x y, split x = split y → s.encode x = s.encode y ∧ s.encodeStr x = s.encodeStr y := fun x y hxy =>
      C11_encode_tokens (k := .bpe) (by simp) h (hxy ▸ tokens_split x) (tokens_split y)
    have strs : s.encodeStr d = s.encodeStr l := by
      obtain ⟨_, ps, b1, b2, b3⟩ := bpe_decode_encode h hi l
      obtain ⟨_, ps', c1, c2, c3⟩ := bpe_decode_encode h hi d
      rw [he] at b1
      cases b1
      rw [a3] at c1
      cases c1
      rw [b3] at c3
      cases c3
      rw [b2, c2]
    refine ⟨?_, fun i hli => ?_⟩
    · exact bpe_decoded_noBreak h hi he hd
    · have hsp : split i = split l := by
        rcases hli with rfl | rfl
        · rfl
        · exact split_nl l
      obtain ⟨x1, x2⟩ := same i l hsp
      obtain ⟨y1, y2⟩ := same (d ++ [10]) d (split_nl d)
      obtain ⟨_, ps, b1, b2, b3⟩ := bpe_decode_encode h hi l
      cases b with
      | true => exact ⟨join [32] (ids.map intStr), by simp [encodeLine, x1, he], by simp [encodeLine, y1, a3]⟩
      | false => exact ⟨join [32] ps, by simp [encodeLine, x2, b2], by simp [encodeLine, y2, strs, b2]⟩
  have hrel := inpLines_spec hl
  have : (∀ d ∈ ds, NoBreak d) ∧ List.Forall₂ (fun i d => ∃ r, encodeLine s b i = .ok r ∧ encodeLine s b (d ++ [10]) = .ok r) (inpLines text) ds := by
    generalize inpLines text = is at hrel
    clear hl e2
    induction hrel generalizing ds wss with
    | nil => cases e3; exact ⟨by simp, .nil⟩
    | cons hli _ ih =>
      cases e3 with
      | cons hd e3 => cases hw with
        | cons ht hw =>
          obtain ⟨ids, g1, g2⟩ := hd
          obtain ⟨n1, n2⟩ := line _ _ _ ids ht (fun w hw => hsp _ (by simp) w hw) g1 g2
          obtain ⟨m1, m2⟩ := ih hw (fun ws h => hsp ws (by simp [h])) _ e3
          refine ⟨?_, .cons (n2 _ hli) m2⟩
          intro x hx
          rcases List.mem_cons.1 hx with rfl | hx
          · exact n1
          · exact m1 x hx
  exact ⟨out, _, e1, e2, by rw [cli_again this.1 this.2, e1]⟩

/-- two lines with an unknown character, in pieces: the third command writes what the first wrote -/
example : ((withScheme .bpe (exTable Level.subword ["a", "b", "ab"]) fun s => .ok (cliEncode s false (lit " xab\na  b"))) = .ok (lit "<unk> ab ▁\na ▁ b ▁\n", none)) ∧
    ((withScheme .bpe (exTable Level.subword ["a", "b", "ab"]) fun s => .ok (cliDecode s false (lit "<unk> ab ▁\na ▁ b ▁\n"))) = .ok (lit "<unk>ab\na b\n", none)) ∧
    ((withScheme .bpe (exTable Level.subword ["a", "b", "ab"]) fun s => .ok (cliEncode s false (lit "<unk>ab\na b\n"))) = .ok (lit "<unk> ab ▁\na ▁ b ▁\n", none)) := by
  decide +kernel

/-- C132, BPE: if only reserved names have a "<", the second `encode` writes the file of the first one exactly if no word has U+2581 at an end or next to another one; in
both formats. -/
theorem C132_bpe_iff {tbl : List Ty} {s : Scheme} (h : Scheme.make .bpe tbl = .ok s) (hi : Indexed tbl) (hns : ∀ n ∈ names tbl, 60 ∈ n → n ∈ special) (b : Bool)
    {text : Str} {ls : List Str} {wss : List (List Str)} (hl : Lines text ls) (hw : List.Forall₂ Tokens ls wss) :
    (∃ out text', cliEncode s b text = (out, none) ∧ cliDecode s b out = (text', none) ∧ cliEncode s b text' = (out, none)) ↔
      ∀ ws ∈ wss, ∀ w ∈ ws, ∃ us : List Str, us ≠ [] ∧ (∀ u ∈ us, u ≠ [] ∧ 0x2581 ∉ u) ∧ w = List.intercalate [0x2581] us := by
  refine ⟨?_, C132_bpe_partial h hi hns b hl hw⟩
  rintro ⟨out, text', e1, e2, e3⟩
  obtain ⟨out', ds, f1, f2, f3⟩ := C62_bpe_api h hi b hl
  rw [e1] at f1
  cases f1
  rw [e2] at f2
  cases f2
  have hn : ∀ d ∈ ds, NoBreak d := by
    intro d hd
    obtain ⟨l, _, ids, g1, g2⟩ := (forall₂_mem_right f3) d hd
    exact bpe_decoded_noBreak h hi g1 g2
  choose f hf hfn using bpe_row h hi b
  have all : ∀ xs : List Str, List.Forall₂ (fun x r => encodeLine s b x = .ok r) xs (xs.map f) := by
    intro xs
    rw [List.forall₂_map_right_iff]
    exact List.forall₂_same.2 fun x _ => hf x
  rw [cliEncode, genMap_all (all _)] at e1
  rw [cliEncode, inpLines_rows ds hn, genMap_all (all _)] at e3
  have e := congrArg (fun p => inpLines p.1) (e1.trans e3.symm)
  have nb : ∀ xs : List Str, ∀ r ∈ xs.map f, NoBreak r := by
    intro xs r hr
    obtain ⟨x, _, rfl⟩ := List.mem_map.1 hr
    exact hfn x
  simp only [writeLines] at e
  rw [inpLines_rows _ (nb _), inpLines_rows _ (nb _)] at e
  replace e := List.map_injective_iff.2 (fun _ _ hh => List.append_cancel_right hh) e
  have hrel := inpLines_spec hl
  generalize inpLines text = is at hrel e
  clear e1 e2 e3 hl hn
  induction hrel generalizing ds wss with
  | nil => cases hw; simp
  | @cons l i _ _ hli _ ih =>
    cases f3 with
    | @cons _ d _ _ hd f3 => cases hw with
      | cons ht hw =>
        simp only [List.map_cons, List.cons.injEq] at e
        intro ws hws
        rcases List.mem_cons.1 hws with rfl | hws
        · obtain ⟨ids, g1, g2⟩ := hd
          refine (C131_bpe_iff h hi hns ht).1 ⟨ids, d, g1, g2, ?_⟩
          have same : ∀ x y, split x = split y → s.encode x = s.encode y := fun x y hxy =>
            (C11_encode_tokens (k := .bpe) (by simp) h (hxy ▸ tokens_split x) (tokens_split y)).1
          have hsp : split i = split l := by
            rcases hli with rfl | rfl
            · rfl
            · exact split_nl l
          rw [← same (d ++ [10]) d (split_nl d), ← g1, ← same i l hsp]
          exact bpe_row_inj h hi (hf _) (by rw [← e.1]; exact hf i)
        · exact ih hw _ f3 e.2 ws hws

/-- C132, BPE, fails in general: a word that ends in U+2581 has lost it after `decode`, so the second `encode` writes another file. -/
theorem C132_bpe_refuted : ¬ ∀ (tbl : List Ty) (s : Scheme), Scheme.make .bpe tbl = .ok s → Indexed tbl → (∀ n ∈ names tbl, 60 ∈ n → n ∈ special) →
    ∀ (b : Bool) (text : Str), ∃ out text', cliEncode s b text = (out, none) ∧ cliDecode s b out = (text', none) ∧ cliEncode s b text' = (out, none) := by
  intro h
  have key : ∃ s, Scheme.make .bpe (exTable Level.subword ["a"]) = .ok s ∧ cliEncode s false (lit "a▁\n") = (lit "a ▁ ▁\n", none) ∧
      cliDecode s false (lit "a ▁ ▁\n") = (lit "a\n", none) ∧ cliEncode s false (lit "a\n") = (lit "a ▁\n", none) := by
    refine ⟨_, rfl, ?_, ?_, ?_⟩ <;> decide +kernel
  have hidx : Indexed (exTable Level.subword ["a"]) := by
    intro i t h
    have hi : i < 7 := (List.getElem?_eq_some_iff.1 h).1
    have : ∀ i, i < 7 → ∀ t, (exTable Level.subword ["a"])[i]? = some t → t.idx = i := by decide
    exact this i hi t h
  obtain ⟨s, k1, k2, k3, k4⟩ := key
  obtain ⟨out, text', e1, e2, e3⟩ := h _ s k1 hidx (by decide +kernel) false (lit "a▁\n")
  rw [k2] at e1
  cases e1
  rw [k3] at e2
  cases e2
  rw [k4] at e3
  revert e3
  decide +kernel

/-- words: an unknown word comes back as its mark, and the second `encode` writes the same ids -/
example : ((withScheme .word (exTable Level.word ["ab", "b"]) fun s => .ok (cliEncode s true (lit " zz  ab\n\nb"))) =
      (withScheme .word (exTable Level.word ["ab", "b"]) fun s => .ok (cliEncode s true (lit "<unk> ab\n\nb\n")))) ∧
    ((withScheme .word (exTable Level.word ["ab", "b"]) fun s => .ok (cliDecode s true (cliEncode s true (lit " zz  ab\n\nb")).1)) =
      .ok (lit "<unk> ab\n\nb\n", none)) := by
  decide +kernel

/-- files whose lines have the same tokens are encoded alike -/
theorem cli_same_tokens {k : Kind} (hk : k = .word ∨ k = .char ∨ k = .bpe) {tbl : List Ty} {s : Scheme} (h : Scheme.make k tbl = .ok s) (b : Bool) {text : Str} {ls : List Str}
    {wss : List (List Str)} (hl : Lines text ls) (hw : List.Forall₂ Tokens ls wss) :
    cliEncode s b (wss.flatMap fun ws => List.intercalate [32] ws ++ [10]) = cliEncode s b text := by
  have tok : ∀ ws ∈ wss, ∀ w ∈ ws, IsToken w := by
    intro ws hws w hww
    obtain ⟨l, _, ht⟩ := (forall₂_mem_right hw) ws hws
    exact split_isToken (by rw [split_of_tokens ht]; exact hww)
  have hin := inpLines_tokens hl hw
  have e : (wss.flatMap fun ws => List.intercalate [32] ws ++ [10]) = (wss.map fun ws => join [32] ws).flatMap (· ++ [10]) := by
    simp only [join_eq_intercalate, List.flatMap_map]
  rw [e, cliEncode, cliEncode, inpLines_rows _ (by
    intro d hd
    obtain ⟨ws, hws, rfl⟩ := List.mem_map.1 hd
    exact join_noBreak (tok ws hws))]
  congr 1
  generalize inpLines text = is at hin
  clear hl hw e
  induction hin with
  | nil => rfl
  | @cons i ws _ _ hi _ ih =>
    have hs : split (join [32] ws ++ [10]) = split i := by rw [split_nl, split_join_space (tok ws (by simp)), hi]
    obtain ⟨x1, x2⟩ := C11_encode_tokens hk h (hs ▸ tokens_split (join [32] ws ++ [10])) (tokens_split i)
    have : encodeLine s b (join [32] ws ++ [10]) = encodeLine s b i := by simp only [encodeLine, x1, x2]
    have ih := ih fun v hv => tok v (by simp [hv])
    simp only [List.map_cons, genMap, this, ih]

/-- C132, characters: for every text without U+2581 in the pieces format, and for every such text of known characters as ids. Missing: ids of unknown characters, for which it
fails (`C132_char_refuted`). -/
theorem C132_char_partial {tbl : List Ty} {s : Scheme} (h : Scheme.make .char tbl = .ok s) (b : Bool) {text : Str} {ls : List Str} {wss : List (List Str)} (hl : Lines text ls)
    (hw : List.Forall₂ Tokens ls wss) (hc : ∀ ws ∈ wss, ∀ w ∈ ws, ∀ c ∈ w, c ≠ 0x2581 ∧ (b = true → [c] ∈ names tbl)) :
    ∃ out text', cliEncode s b text = (out, none) ∧ cliDecode s b out = (text', none) ∧ cliEncode s b text' = (out, none) := by
  obtain ⟨out, e1, e2⟩ := C62_char h b hl hw
  refine ⟨out, _, e1, e2, ?_⟩
  rw [← e1, ← cli_same_tokens (k := .char) (by simp) h b hl hw]
  congr 1
  apply List.flatMap_congr
  intro ws hws
  congr 1
  have hc := hc ws hws
  clear hws
  have one : ∀ w : Str, (∀ c ∈ w, c ≠ 0x2581 ∧ (b = true → [c] ∈ names tbl)) →
      (w.flatMap fun c => if c = SP then [32] else if b = true ∧ [c] ∉ names tbl then lit "<unk>" else [c]) = w := by
    intro w hcw
    have : ∀ c ∈ w, (if c = SP then [32] else if b = true ∧ [c] ∉ names tbl then lit "<unk>" else [c]) = [c] := by
      intro c hcc
      obtain ⟨h1, h2⟩ := hcw c hcc
      rw [if_neg (show c ≠ SP from h1), if_neg (fun hh => hh.2 (h2 hh.1))]
    rw [List.flatMap_congr this]
    simp
  induction ws with
  | nil => rfl
  | cons w ws ih => cases ws with
    | nil => simpa using one w (hc w (by simp))
    | cons v vs =>
      rw [List.intercalate_cons_cons, List.intercalate_cons_cons, List.flatMap_append, List.flatMap_append, one w (hc w (by simp)), ih fun u hu => hc u (by simp [hu])]
      simp

/-- C132, characters, fails in general: an unknown character has one id, its text `<unk>` has five. -/
theorem C132_char_refuted : ∃ (tbl : List Ty) (s : Scheme), Scheme.make .char tbl = .ok s ∧ cliEncode s true (lit "a?\n") = (lit "6 1\n", none) ∧
    cliDecode s true (lit "6 1\n") = (lit "a<unk>\n", none) ∧ cliEncode s true (lit "a<unk>\n") = (lit "6 1 1 1 1 1\n", none) := by
  refine ⟨exTable Level.char ["a"], _, rfl, ?_, ?_, ?_⟩ <;> decide +kernel

/-- an unknown character in the pieces format -/
example : ((withScheme .char (exTable Level.char ["a"]) fun s => .ok (cliEncode s false (lit " a?  b\n"))) = .ok (lit "a ? ▁ b\n", none)) ∧
    ((withScheme .char (exTable Level.char ["a"]) fun s => .ok (cliDecode s false (lit "a ? ▁ b\n"))) = .ok (lit "a? b\n", none)) ∧
    ((withScheme .char (exTable Level.char ["a"]) fun s => .ok (cliEncode s false (lit "a? b\n"))) = .ok (lit "a ? ▁ b\n", none)) := by
  decide +kernel

/-- C132, classes: known labels as ids, and labels that are blank or one token as pieces. Missing: labels of several words as pieces, for which it fails
(`C132_class_refuted`), and unknown labels as ids. -/
theorem C132_class_partial {tbl : List Ty} {s : Scheme} (h : Scheme.make .clasz tbl = .ok s) (b : Bool) {text : Str} {ls : List Str} (hl : Lines text ls)
    (hc : ∀ l ∈ ls, if b = true then strip l ∈ names tbl else strip l = [] ∨ IsToken (strip l)) :
    ∃ out text', cliEncode s b text = (out, none) ∧ cliDecode s b out = (text', none) ∧ cliEncode s b text' = (out, none) := by
  have hk := (mkInvertible_ok (k := .clasz) h).2.1
  have dec : ∃ out, cliEncode s b text = (out, none) ∧ cliDecode s b out = (ls.flatMap fun l => strip l ++ [10], none) := by
    cases b with
    | true => exact C62_class_idx_partial h hl (by simpa using hc)
    | false => exact C62_class_str_partial h hl (by simpa using hc)
  obtain ⟨out, e1, e2⟩ := dec
  refine ⟨out, _, e1, e2, ?_⟩
  have hn : ∀ d ∈ ls.map strip, NoBreak d := by
    intro d hd
    obtain ⟨l, hm, rfl⟩ := List.mem_map.1 hd
    have := lines_noBreak hl l hm
    exact ⟨fun hx => this.1 (mem_of_mem_strip hx), fun hx => this.2 (mem_of_mem_strip hx)⟩
  have e : (ls.flatMap fun l => strip l ++ [10]) = (ls.map strip).flatMap (· ++ [10]) := by rw [List.flatMap_map]
  rw [← e1, e, cliEncode, cliEncode, inpLines_rows _ hn]
  congr 1
  have hrel := inpLines_spec hl
  generalize inpLines text = is at hrel
  clear hl hc e1 e2 e hn
  induction hrel with
  | nil => rfl
  | @cons l i _ _ hli _ ih =>
    have hs : strip (strip l ++ [10]) = strip i := by rw [strip_nl_of (Or.inr rfl), strip_strip, strip_nl_of hli]
    have : encodeLine s b (strip l ++ [10]) = encodeLine s b i := by simp only [encodeLine, Scheme.encode, Scheme.encodeStr, hk, hs]
    simp only [List.map_cons, genMap, this, ih]

/-- C132, classes, fails in general: the label `New York` is read as two pieces, which are joined by a comma. -/
theorem C132_class_refuted {tbl : List Ty} {s : Scheme} (h : Scheme.make .clasz tbl = .ok s) :
    ¬ ∃ out text', cliEncode s false (lit "New York\n") = (out, none) ∧ cliDecode s false out = (text', none) ∧ cliEncode s false text' = (out, none) := by
  rintro ⟨out, text', e1, e2, e3⟩
  have hk := (mkInvertible_ok (k := .clasz) h).2.1
  obtain ⟨_, k1, k2⟩ := C62_class_refuted h
  rw [k1] at e1
  cases e1
  rw [k2] at e2
  cases e2
  have hin : inpLines (lit "New,York\n") = [lit "New,York\n"] := by decide
  have hst : strip (lit "New,York\n") = lit "New,York" := by decide +kernel
  simp only [cliEncode, hin, genMap, encodeLine, Scheme.encodeStr, hk, hst, Bool.false_eq_true, if_false, writeLines, join] at e3
  revert e3
  decide

/-- labels of one and of two words as ids -/
example : ((withScheme .clasz [⟨lit "New York", 0, 0, 1, []⟩, ⟨lit "Paris", 0, 1, 1, []⟩] fun s => .ok (cliEncode s true (lit " Paris\nNew York"))) = .ok (lit "1\n0\n", none)) ∧
    ((withScheme .clasz [⟨lit "New York", 0, 0, 1, []⟩, ⟨lit "Paris", 0, 1, 1, []⟩] fun s => .ok (cliDecode s true (lit "1\n0\n"))) = .ok (lit "Paris\nNew York\n", none)) ∧
    ((withScheme .clasz [⟨lit "New York", 0, 0, 1, []⟩, ⟨lit "Paris", 0, 1, 1, []⟩] fun s => .ok (cliEncode s true (lit "Paris\nNew York\n"))) = .ok (lit "1\n0\n", none)) := by
  decide +kernel

end Verif
