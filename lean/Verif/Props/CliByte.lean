import Verif.Props.Main
import Verif.Props.ByteExact
/-!
# C62 and C88: exactly the files that `encode` followed by `decode` restores with a byte scheme
-/

namespace Verif
open Spec

/-- a line that the byte scheme encodes: what is written for it and what is read back from that -/
theorem byte_line {s : Scheme} (h : Scheme.make .byte [] = .ok s) (b : Bool) {i : Str} {bs : List Nat} (he : utf8Encode i = .ok bs)
    (hb : ∀ c ∈ bs, c < 256) : ∃ ws : List Str, (∀ w ∈ ws, IsToken w) ∧ encodeLine s b i = .ok (join [32] ws) ∧
      ∀ l, split l = ws → decodeLine s b l = composeStr (bs.map codeToStr) := by
  have hk := make_byte_ok h
  have hdec : s.decodeStr (bs.map codeToStr) = composeStr (bs.map codeToStr) := by
    simp only [Scheme.decodeStr, hk.kind]
    have := hk.byteDecode_run bs hb [] []
    simp only [List.append_nil, List.nil_append] at this
    rw [this]
    cases bs with
    | nil => rfl
    | cons c cs =>
      rw [byteDecode, if_neg (by simp)]
  cases b with
  | true =>
    refine ⟨(bs.map fun (n : Nat) => (n : Int)).map intStr, ?_, ?_, ?_⟩
    · intro w hw
      obtain ⟨i, _, rfl⟩ := List.mem_map.1 hw
      exact intStr_isToken i
    · rw [encodeLine, if_pos rfl, hk.encode he]
    · intro l hl
      simp only [decodeLine, if_true, hl, pyInts_intStr, Scheme.decode]
      rw [hk.namesOf _ hb]
      exact hdec
  | false =>
    refine ⟨bs.map codeToStr, ?_, ?_, ?_⟩
    · intro p hp
      obtain ⟨c, hc, rfl⟩ := List.mem_map.1 hp
      exact codeToStr_token c (hb c hc)
    · simp [encodeLine, Scheme.encodeStr, hk.kind, he]
    · intro l hl
      simp only [decodeLine, Bool.false_eq_true, if_false, hl]
      exact hdec

/-- the first line decides: what comes back starts with what was composed from its bytes -/
theorem byte_first {s : Scheme} (h : Scheme.make .byte [] = .ok s) (b : Bool) {text : Str} {i : Str} {is : List Str}
    (hin : inpLines text = i :: is) {bs : List Nat} (he : utf8Encode i = .ok bs) (hb : ∀ c ∈ bs, c < 256) {out res : Str}
    (h1 : cliEncode s b text = (out, none)) (h2 : cliDecode s b out = (res, none)) :
    ∃ a z, composeStr (bs.map codeToStr) = .ok a ∧ res = a ++ 10 :: z := by
  obtain ⟨ws, hws, h3, h4⟩ := byte_line h b he hb
  have hj := join_noBreak hws
  have hout : ∃ more, out = join [32] ws ++ 10 :: more := by
    have h1 := congrArg Prod.fst h1
    rw [cliEncode, hin, genMap, h3] at h1
    exact ⟨(genMap (encodeLine s b) none is).out.flatMap (· ++ [10]), by simpa [writeLines] using h1.symm⟩
  obtain ⟨more, rfl⟩ := hout
  have hin' : inpLines (join [32] ws ++ 10 :: more) = (join [32] ws ++ [10]) :: inpLines more := by
    rw [inpLines, univNewlines_append hj.2, univNewlines.eq_3 10 _ (fun _ e => absurd e (by decide)) (by decide),
      keepLines_append hj.1]
    rfl
  rw [cliDecode, hin', genMap, h4 _ (by rw [split_nl, split_join_space hws])] at h2
  cases hc : composeStr (bs.map codeToStr) with
  | error e => rw [hc] at h2; simp [writeLines] at h2
  | ok a =>
    rw [hc] at h2
    have h2 := congrArg Prod.fst h2
    exact ⟨a, (genMap (decodeLine s b) none (inpLines more)).out.flatMap (· ++ [10]), rfl, by simpa [writeLines] using h2.symm⟩

/-- C62, byte scheme, exactly: in both modes, `encode` followed by `decode` give a file back line by line if and only if the file has no
code point below 16.  Such a file has no line feed and no carriage return, thus at most one line. -/
theorem C62_byte_iff {s : Scheme} (h : Scheme.make .byte [] = .ok s) (b : Bool) (text : String) {ls : List Str}
    (hl : Lines (lit text) ls) :
    (∃ out, cliEncode s b (lit text) = (out, none) ∧ cliDecode s b out = (ls.flatMap (· ++ [10]), none)) ↔
      ∀ c ∈ text.toList, 16 ≤ c.toNat := by
  have hsc := lit_scalar text
  have key : ∀ {l r : Str} {ls' : List Str}, inpLines (lit text) = (l ++ [10]) :: inpLines r → (∀ c ∈ l, c ∈ lit text) →
      ¬ ∃ out, cliEncode s b (lit text) = (out, none) ∧ cliDecode s b out = ((l :: ls').flatMap (· ++ [10]), none) := by
    rintro l r ls' hin hsub ⟨out, h1, h2⟩
    obtain ⟨bs, he, hb⟩ := utf8Encode_ok l (fun c hc => hsc c (hsub c hc))
    have he' : utf8Encode (l ++ [10]) = .ok (bs ++ [10]) := utf8Encode_append he (by decide)
    have hb' : ∀ c ∈ bs ++ [10], c < 256 := by
      intro c hc
      rcases List.mem_append.1 hc with hc | hc
      · exact hb c hc
      · simp at hc; omega
    obtain ⟨a, z, hc, hz⟩ := byte_first h b hin he' hb' h1 h2
    have := compose_exact he' hc (z := 10 :: z) (z' := ls'.flatMap (· ++ [10])) (by simp) (by rw [← hz]; simp) 10 (by simp)
    omega
  have back : (∀ c ∈ text.toList, 16 ≤ c.toNat) → ∀ c ∈ lit text, 16 ≤ c := by
    intro h16 c hc
    obtain ⟨d, hd, rfl⟩ := List.mem_map.1 hc
    exact h16 d hd
  have fwd : (∀ c ∈ lit text, 16 ≤ c) → ∀ c ∈ text.toList, 16 ≤ c.toNat := fun h16 c hc => h16 _ (List.mem_map.2 ⟨c, hc, rfl⟩)
  generalize ht : lit text = t at hl hsc key back fwd
  cases hl with
  | nil =>
    refine ⟨fun _ => fwd (by simp), fun _ => ⟨[], rfl, rfl⟩⟩
  | @last _ hne hc =>
    have hin : inpLines t = [t] := by rw [inpLines, univNewlines_id hc.2, keepLines_last hc.1 hne]
    constructor
    · rintro ⟨out, h1, h2⟩
      apply fwd
      obtain ⟨bs, he, hb⟩ := utf8Encode_ok t hsc
      obtain ⟨a, z, hc, hz⟩ := byte_first h b hin he hb h1 h2
      exact compose_exact he hc (z := 10 :: z) (z' := [10]) (by simp) (by rw [← hz]; simp)
    · intro h16
      obtain ⟨out, h1, h2⟩ := C62_byte_partial h b text (by rw [ht]; exact hne) h16
      rw [ht] at h1 h2
      exact ⟨out, h1, by rw [h2]; simp⟩
  | @lf l r ls hc hl =>
    refine ⟨fun hx => absurd hx (key (r := r) ?_ (by simp +contextual)), fun h16 => ?_⟩
    · rw [inpLines, univNewlines_append hc.2, univNewlines.eq_3 10 _ (fun _ e => absurd e (by decide)) (by decide),
        keepLines_append hc.1]
      rfl
    · have := back h16 10 (by simp)
      omega
  | @crlf l r ls hc hl =>
    refine ⟨fun hx => absurd hx (key (r := r) ?_ (by simp +contextual)), fun h16 => ?_⟩
    · rw [inpLines, univNewlines_append hc.2, univNewlines.eq_1, keepLines_append hc.1]
      rfl
    · have := back h16 10 (by simp)
      omega
  | @cr l r ls hc hh hl =>
    refine ⟨fun hx => absurd hx (key (r := r) ?_ (by simp +contextual)), fun h16 => ?_⟩
    · rw [inpLines, univNewlines_append hc.2, univNewlines.eq_2 _ (by rintro r' rfl; simp at hh), keepLines_append hc.1]
      rfl
    · have := back h16 13 (by simp)
      omega

/-- C88 for bytes, exactly: `learn`, `encode` and `decode` give a file back line by line if and only if it has no code point below 16, whatever the
model was learned from. -/
theorem C88_byte_iff {J : Json} (hJ : JsonLaws J) {ord : Nat → List Nat → List Nat} {A : Acc} {args enc dec : MainArgs A.F}
    (ht : args.task = .learn) (hraw : args.termFreqs = false) (hlev : args.level = some .byte) (he : enc.task = .encode) (hd : dec.task = .decode)
    (hi : enc.indices = dec.indices) (model : Option Str) (train : Str) (text : String) {ls : List Str} (hl : Lines (lit text) ls) :
    ∃ m, mainTask J ord A args model train = (some m, [], none) ∧
      ((∃ out, mainTask J ord A enc (some m) (lit text) = (some m, out, none) ∧
        mainTask J ord A dec (some m) out = (some m, ls.flatMap (· ++ [10]), none)) ↔ ∀ c ∈ text.toList, 16 ≤ c.toNat) := by
  obtain ⟨s, m, h1, h2, h3, h4, h5⟩ := byte_persist hJ
  rw [saveTable, h1] at h4
  refine ⟨m, ?_, ?_⟩
  · simp only [mainTask, ht, hlev, hraw, learnVocab, learnRaw, Bool.false_eq_true, if_false, LevelName.kind, saveModel_ok h1 h4]
  · have h1' : Scheme.make .byte [] = .ok s := by
      rw [← h1]
      have : byteVocab.isEmpty = false := by simp [byteVocab]
      simp only [Scheme.make, this, Bool.false_eq_true, if_false, List.isEmpty_nil, if_true]
    rw [← C62_byte_iff h1' enc.indices text hl]
    refine exists_congr fun out => and_congr ?_ ?_
    · simp only [mainTask, he, h5]
      constructor
      · intro g
        exact Prod.ext (congrArg (·.2.1) g) (congrArg (·.2.2) g)
      · intro g
        rw [g]
    · simp only [mainTask, hd, h5, ← hi]
      constructor
      · intro g
        exact Prod.ext (congrArg (·.2.1) g) (congrArg (·.2.2) g)
      · intro g
        rw [g]

example : pipeline { task := .learn, level := some .byte, cov := none } true (lit "né") = (lit "né\n", none) := by decide +kernel
example : pipeline { task := .learn, level := some .byte, cov := none } true (lit "n\n") = ([], some .value) := by decide +kernel

/-- a file without line break, one with a tab, and one with a line break -/
example : (withScheme .byte [] fun s => .ok (cliEncode s true (lit "né"), cliDecode s true (cliEncode s true (lit "né")).1)) =
    .ok ((lit "110 195 169\n", none), (lit "né\n", none)) := by decide +kernel
example : Lines (lit "né") [lit "né"] := .last (by decide) (by decide)
example : (withScheme .byte [] fun s => .ok (cliDecode s false (cliEncode s false (lit "a\tb")).1)) =
    .ok ([], some .value) := by decide +kernel
example : (withScheme .byte [] fun s => .ok (cliDecode s false (cliEncode s false (lit "\t\t")).1)) =
    .ok ([0xFFFD, 10], none) := by decide +kernel

end Verif
