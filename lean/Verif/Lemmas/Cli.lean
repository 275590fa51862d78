import Verif.Lemmas.File
import Verif.Model.Cli
import Verif.Spec.Lines
/-! # Lemmas on the command line -/

namespace Verif
open Spec

/-! ## lines of a text -/

theorem univNewlines_append {l : Str} (h : 13 ∉ l) (r : Str) : univNewlines (l ++ r) = l ++ univNewlines r := by
  induction l with
  | nil => rfl
  | cons c l ih =>
    have hc : c ≠ 13 := fun e => h (by simp [e])
    have := ih (fun hm => h (by simp [hm]))
    rw [List.cons_append, univNewlines.eq_3 c _ (fun r e _ => hc e) (fun e => hc e), this, List.cons_append]

theorem keepLines_append {l : Str} (h : 10 ∉ l) (r : Str) : keepLines (l ++ 10 :: r) = (l ++ [10]) :: keepLines r := by
  induction l with
  | nil => simp [keepLines]
  | cons c l ih =>
    have hc : c ≠ 10 := fun e => h (by simp [e])
    rw [List.cons_append, keepLines, if_neg hc, ih (fun hm => h (by simp [hm]))]
    rfl

theorem keepLines_last {l : Str} (h : 10 ∉ l) (hne : l ≠ []) : keepLines l = [l] := by
  induction l with
  | nil => exact absurd rfl hne
  | cons c l ih =>
    have hc : c ≠ 10 := fun e => h (by simp [e])
    rw [keepLines, if_neg hc]
    cases l with
    | nil => rfl
    | cons d l => rw [ih (fun hm => h (by simp [hm])) (by simp)]; rfl

/-- the lines read are the lines of the text, with a line feed except perhaps the last one -/
theorem inpLines_spec {text : Str} {ls : List Str} (h : Lines text ls) :
    List.Forall₂ (fun l i => i = l ∨ i = l ++ [10]) ls (inpLines text) := by
  induction h with
  | nil => exact .nil
  | last hne hc =>
    rw [inpLines, univNewlines_id hc.2, keepLines_last hc.1 hne]
    exact .cons (.inl rfl) .nil
  | @lf l r ls hc hl ih =>
    rw [inpLines, univNewlines_append hc.2]
    have : univNewlines (10 :: r) = 10 :: univNewlines r := univNewlines.eq_3 10 _ (fun _ e => absurd e (by decide)) (by decide)
    rw [this, keepLines_append hc.1]
    exact .cons (.inr rfl) ih
  | @crlf l r ls hc hl ih =>
    rw [inpLines, univNewlines_append hc.2, univNewlines.eq_1, keepLines_append hc.1]
    exact .cons (.inr rfl) ih
  | @cr l r ls hc hh hl ih =>
    rw [inpLines, univNewlines_append hc.2, univNewlines.eq_2 _ (by rintro r' rfl; simp at hh), keepLines_append hc.1]
    exact .cons (.inr rfl) ih

/-- reading back rows that were written -/
theorem inpLines_rows (rows : List Str) (h : ∀ r ∈ rows, NoBreak r) : inpLines (rows.flatMap (· ++ [10])) = rows.map (· ++ [10]) := by
  rw [inpLines, univNewlines_id]
  · induction rows with
    | nil => rfl
    | cons r rows ih =>
      rw [List.flatMap_cons, List.append_assoc, List.singleton_append, keepLines_append (h r (by simp)).1,
        ih (fun r' hr => h r' (by simp [hr]))]
      rfl
  · intro hm
    obtain ⟨r, hr, hc⟩ := List.mem_flatMap.1 hm
    rcases List.mem_append.1 hc with hc | hc
    · exact (h r hr).2 hc
    · simp at hc

/-- every text has lines -/
theorem lines_exist (text : Str) : ∃ ls, Lines text ls := by
  generalize hn : text.length = n
  induction n using Nat.strongRecOn generalizing text with
  | ind n ih =>
    have hb : text = text.takeWhile (fun c => c != 10 && c != 13) ++ text.dropWhile (fun c => c != 10 && c != 13) :=
      (List.takeWhile_append_dropWhile).symm
    have hl : NoBreak (text.takeWhile (fun c => c != 10 && c != 13)) := by
      have hall := List.all_takeWhile (p := fun c : Nat => c != 10 && c != 13) (l := text)
      rw [List.all_eq_true] at hall
      constructor
      · intro hm; simpa using hall _ hm
      · intro hm; simpa using hall _ hm
    generalize text.takeWhile (fun c => c != 10 && c != 13) = l at hb hl
    cases hd : text.dropWhile (fun c => c != 10 && c != 13) with
    | nil =>
      rw [hd, List.append_nil] at hb
      subst hb
      by_cases hne : text = []
      · subst hne; exact ⟨_, .nil⟩
      · exact ⟨_, .last hne hl⟩
    | cons c r =>
      have hc : c = 10 ∨ c = 13 := by
        have := List.head?_dropWhile_not (fun c => c != 10 && c != 13) text
        rw [hd] at this
        simp at this
        omega
      rw [hd] at hb
      have hlen : text.length = l.length + (r.length + 1) := by rw [hb]; simp
      rcases hc with rfl | rfl
      · obtain ⟨ls, h⟩ := ih r.length (by omega) r rfl
        exact ⟨_, by rw [hb]; exact .lf hl h⟩
      · by_cases hr : r.head? = some 10
        · cases r with
          | nil => simp at hr
          | cons d r =>
            simp at hr
            subst hr
            simp at hlen
            obtain ⟨ls, h⟩ := ih r.length (by omega) r rfl
            exact ⟨_, by rw [hb]; exact .crlf hl h⟩
        · obtain ⟨ls, h⟩ := ih r.length (by omega) r rfl
          exact ⟨_, by rw [hb]; exact .cr hl hr h⟩

/-! ## generators without exception -/

theorem genMap_all {α β : Type} {f : α → Py β} {as : List α} {bs : List β} (h : List.Forall₂ (fun a b => f a = .ok b) as bs) :
    genMap f none as = ⟨bs, none⟩ := by
  induction h with
  | nil => rfl
  | cons h _ ih => simp [genMap, h, ih]

theorem tokens_noBreak {w : Str} (h : IsToken w) : NoBreak w := by
  constructor
  · intro hm; have := h.2 _ hm; simp [isWhite, whiteSpace] at this
  · intro hm; have := h.2 _ hm; simp [isWhite, whiteSpace] at this

theorem join_noBreak {ws : List Str} (h : ∀ w ∈ ws, IsToken w) : NoBreak (join [32] ws) := by
  induction ws with
  | nil => simp [join, NoBreak]
  | cons w ws ih =>
    cases ws with
    | nil => simpa [join] using tokens_noBreak (h w (by simp))
    | cons v vs =>
      have h1 := tokens_noBreak (h w (by simp))
      have h2 := ih (fun u hu => h u (by simp [hu]))
      simp only [join]
      constructor
      · have := h1.1; have := h2.1; simp_all
      · have := h1.2; have := h2.2; simp_all

theorem split_nl (l : Str) : split (l ++ [10]) = split l :=
  split_append_right (by intro c hc; simp at hc; subst hc; decide) l

theorem pyInts_intStr (is : List Int) : pyInts (is.map intStr) = .ok is := by
  induction is with
  | nil => rfl
  | cons i is ih => simp [pyInts, pyInt_intStr, ih]

/-- one line: the words written for it are tokens, and decoding them gives `d` -/
structure LineOK (s : Scheme) (b : Bool) (line d : Str) : Prop where
  ok : ∃ ws : List Str, (∀ w ∈ ws, IsToken w) ∧ encodeLine s b line = .ok (join [32] ws) ∧
    ∀ l, split l = ws → decodeLine s b l = .ok d

/-- the pipe, from the behaviour of single lines -/
theorem cli_of_lines {s : Scheme} {b : Bool} {text : Str} {ds : List Str} (h : List.Forall₂ (LineOK s b) (inpLines text) ds) :
    ∃ out, cliEncode s b text = (out, none) ∧ cliDecode s b out = (ds.flatMap (· ++ [10]), none) := by
  have key : ∃ wss : List (List Str), (∀ ws ∈ wss, ∀ w ∈ ws, IsToken w) ∧
      List.Forall₂ (fun a r => encodeLine s b a = .ok r) (inpLines text) (wss.map (join [32])) ∧
      List.Forall₂ (fun a d => decodeLine s b a = .ok d) ((wss.map (join [32])).map (· ++ [10])) ds := by
    generalize inpLines text = ls at h
    induction h with
    | nil => exact ⟨[], by simp, .nil, .nil⟩
    | cons h _ ih =>
      obtain ⟨wss, h1, h2, h3⟩ := ih
      obtain ⟨ws, h4, h5, h6⟩ := h.ok
      refine ⟨ws :: wss, ?_, .cons h5 h2, .cons (h6 _ ?_) h3⟩
      · intro x hx
        rcases List.mem_cons.1 hx with rfl | hx
        · exact h4
        · exact h1 x hx
      · rw [split_nl, split_join_space h4]
  obtain ⟨wss, h1, h2, h3⟩ := key
  refine ⟨_, by rw [cliEncode, genMap_all h2]; rfl, ?_⟩
  rw [cliDecode, inpLines_rows, genMap_all h3]
  · rfl
  · intro r hr
    obtain ⟨ws, hws, rfl⟩ := List.mem_map.1 hr
    exact join_noBreak (h1 ws hws)

/-- index mode: from `encode` and `decode` -/
theorem lineOK_idx {s : Scheme} {line d : Str} {ids : List Int} (h1 : s.encode line = .ok ids) (h2 : s.decode ids = .ok d) :
    LineOK s true line d := by
  refine ⟨⟨ids.map intStr, ?_, ?_, ?_⟩⟩
  · intro w hw
    obtain ⟨i, _, rfl⟩ := List.mem_map.1 hw
    exact intStr_isToken i
  · simp [encodeLine, h1]
  · intro l hl
    simp [decodeLine, hl, pyInts_intStr, h2]

/-- piece mode: from `encode_str` and `decode_str`, if the pieces are tokens -/
theorem lineOK_str {s : Scheme} {line d : Str} {ps : List Str} (h0 : ∀ p ∈ ps, IsToken p) (h1 : s.encodeStr line = .ok ps)
    (h2 : s.decodeStr ps = .ok d) : LineOK s false line d := by
  refine ⟨⟨ps, h0, ?_, ?_⟩⟩
  · simp [encodeLine, h1]
  · intro l hl
    simp [decodeLine, hl, h2]

theorem strip_nl_of {l i : Str} (h : i = l ∨ i = l ++ [10]) : strip i = strip l := by
  rcases h with rfl | rfl
  · rfl
  · obtain ⟨g, g', h1, h2, h3⟩ := strip_decomp l
    have h4 : AllSpace (g' ++ [10]) := by
      intro c hc
      rcases List.mem_append.1 hc with hc | hc
      · exact h3 c hc
      · simp at hc; subst hc; decide
    have := strip_of_decomp h2 h4 (s := strip l) (fun c => strip_head c) (fun c => strip_last c)
    rw [← List.append_assoc, ← h1] at this
    exact this

theorem forall₂_mem_right {α β : Type} {R : α → β → Prop} {as : List α} {bs : List β} (h : List.Forall₂ R as bs) :
    ∀ b ∈ bs, ∃ a ∈ as, R a b := by
  induction h with
  | nil => simp
  | cons h _ ih =>
    intro b hb
    rcases List.mem_cons.1 hb with rfl | hb
    · exact ⟨_, by simp, h⟩
    · obtain ⟨a, ha, hr⟩ := ih b hb
      exact ⟨a, by simp [ha], hr⟩

/-! ## pieces are tokens -/

theorem sp_token : IsToken [SP] := by
  refine ⟨by simp, ?_⟩
  intro c hc
  simp at hc
  subst hc
  decide

theorem unk_token : IsToken (lit "<unk>") := by
  refine ⟨by decide, ?_⟩
  decide

theorem greedy_tokens {ns : List Str} {t : Str} {out : List (Option Str)} (h : Greedy ns t out) (ht : ∀ c ∈ t, isWhite c = false) :
    ∀ o ∈ out, IsToken (o.getD (lit "<unk>")) := by
  induction h with
  | nil => simp
  | tok hne _ _ _ ih =>
    intro o ho
    rcases List.mem_cons.1 ho with rfl | ho
    · exact ⟨hne, fun c hc => ht c (List.mem_append_left _ hc)⟩
    · exact ih (fun c hc => ht c (by simp [hc])) o ho
  | unk _ _ ih =>
    intro o ho
    rcases List.mem_cons.1 ho with rfl | ho
    · exact unk_token
    · exact ih (fun c hc => ht c (by simp [hc])) o ho

/-! ## byte scheme -/

theorem hexDigit_white : ∀ d, d < 16 → isWhite (hexDigit d) = false := by decide

theorem codeToStr_token (c : Nat) (h : c < 256) : IsToken (codeToStr c) := by
  rw [codeToStr]
  split
  · refine ⟨by simp, ?_⟩
    intro d hd
    simp at hd
    subst hd
    exact hexDigit_white _ (by omega)
  · refine ⟨by simp, ?_⟩
    intro d hd
    simp at hd
    rcases hd with rfl | rfl
    · exact hexDigit_white _ (by omega)
    · exact hexDigit_white _ (by omega)

theorem fromHex_odd (bs : List Nat) (h : ∀ b ∈ bs, 16 ≤ b ∧ b < 256) : fromHex ((bs.map codeToStr).flatten ++ [97]) = .error .value := by
  induction bs with
  | nil => decide
  | cons b bs ih =>
    have hb := h b (by simp)
    have hx : ∀ n, n < 16 → isAsciiSpace (hexDigit n) = false ∧ hexVal (hexDigit n) = some n := by decide
    have e : codeToStr b = [hexDigit (b / 16), hexDigit (b % 16)] := by rw [codeToStr, if_neg (by omega)]
    simp only [List.map_cons, List.flatten_cons, e, List.cons_append, List.nil_append]
    rw [fromHex, (hx (b / 16) (by omega)).1, (hx (b / 16) (by omega)).2, (hx (b % 16) (by omega)).2,
      ih (fun b hb => h b (by simp [hb]))]
    rfl

end Verif
