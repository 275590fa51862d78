import Verif.Props.Codec
import Verif.Lemmas.Byte
/-!
# Properties C08, C09: the byte scheme

`Scheme.make .byte [] = .ok s` is `ByteScheme()` with its built-in vocabulary (`make_byte_exists`: it is accepted).
Lean's `String` ranges over exactly the encodable texts (sequences of Unicode scalar values), and
`String.utf8EncodeChar` is the UTF-8 encoder of Lean's own library, used here as the independent specification.
-/

namespace Verif

/-! ## C08 -/

/-- C08, encoding: the ids are the UTF-8 bytes of the text. -/
theorem C08_byte_encode_utf8 {s : Scheme} (h : Scheme.make .byte [] = .ok s) (text : String) :
    s.encode (lit text) = .ok ((text.toList.flatMap String.utf8EncodeChar).map fun b => (b.toNat : Int)) := by
  have := (make_byte_ok h).encode (utf8Encode_eq text.toList)
  rw [lit, this, List.map_map]
  rfl

/-- C08: encoding fails with UnicodeEncodeError exactly on texts with a surrogate (no other failure). -/
theorem C08_byte_encode_total {s : Scheme} (h : Scheme.make .byte [] = .ok s) (line : Str) :
    (∃ ids, s.encode line = .ok ids) ↔ ∃ text : String, lit text = line := by
  constructor
  · rintro ⟨ids, hids⟩
    simp only [Scheme.encode, Scheme.encodeStr, (make_byte_ok h).kind] at hids
    cases hu : utf8Encode line with
    | error e => simp [hu] at hids
    | ok bs => exact exists_lit (utf8Encode_scalar hu)
  · rintro ⟨text, rfl⟩
    exact ⟨_, C08_byte_encode_utf8 h text⟩

theorem byte_decode_encode {s : Scheme} (h : ByteOK s) {t : Str} {bs : List Nat} (he : utf8Encode t = .ok bs) :
    s.decode (bs.map fun (b : Nat) => (b : Int)) =
      if (bs.map codeToStr).isEmpty then .ok [] else composeStr (bs.map codeToStr) := by
  have hb : ∀ b ∈ bs, b < 256 := by
    obtain ⟨bs', e1, e2⟩ := utf8Encode_ok t (utf8Encode_scalar he)
    rw [he] at e1; cases e1; exact e2
  simp only [Scheme.decode, h.namesOf bs hb, Scheme.decodeStr, h.kind]
  have := h.byteDecode_run bs hb [] []
  simp only [List.append_nil, List.nil_append] at this
  rw [this, byteDecode]

/-- C08, decoding: the round trip holds for texts without code points below 16.
Missing from the full statement: texts with such code points (TAB, LF, CR, ...), for which it is false. -/
theorem C08_byte_round_trip_partial {s : Scheme} (h : Scheme.make .byte [] = .ok s) (text : String)
    (h16 : ∀ c ∈ text.toList, 16 ≤ c.toNat) :
    ∃ ids, s.encode (lit text) = .ok ids ∧ s.decode ids = .ok (lit text) := by
  have hk := make_byte_ok h
  obtain ⟨bs, he, hb⟩ := utf8Encode_ok (lit text) (lit_scalar text)
  refine ⟨_, hk.encode he, ?_⟩
  have h16' : ∀ c ∈ lit text, 16 ≤ c := by
    intro c hc
    obtain ⟨d, hd, rfl⟩ := List.mem_map.1 hc
    exact h16 d hd
  have hge := utf8Encode_ge h16' he
  rw [byte_decode_encode hk he, composeStr_codes bs (fun b hb' => ⟨hge b hb', hb b hb'⟩), utf8Decode_encode he]

/-- C08 is false: a line feed cannot be decoded (ValueError) ... -/
theorem C08_byte_round_trip_refuted {s : Scheme} (h : Scheme.make .byte [] = .ok s) :
    s.encode (lit "\n") = .ok [10] ∧ s.decode [10] = .error .value := by
  have hk := make_byte_ok h
  have he : utf8Encode (lit "\n") = .ok [10] := by decide
  exact ⟨hk.encode he, (byte_decode_encode hk he).trans (by decide)⟩

/-- ... and other texts are decoded to a different text without any error: two control characters become 'A'. -/
theorem C08_byte_wrong_text_refuted {s : Scheme} (h : Scheme.make .byte [] = .ok s) :
    s.encode [4, 1] = .ok [4, 1] ∧ s.decode [4, 1] = .ok (lit "A") := by
  have hk := make_byte_ok h
  have he : utf8Encode [4, 1] = .ok [4, 1] := by decide
  exact ⟨hk.encode he, (byte_decode_encode hk he).trans (by decide)⟩

example : ∃ s, Scheme.make .byte [] = .ok s := make_byte_exists
example : utf8Encode (lit "aé€😀") = .ok [0x61, 0xC3, 0xA9, 0xE2, 0x82, 0xAC, 0xF0, 0x9F, 0x98, 0x80] := by decide
example : ∀ c ∈ "aé€😀 x".toList, 16 ≤ c.toNat := by decide

/-! ## C09 -/

/-- an item of a sequence: a text, or one of the two reserved tokens -/
inductive ByteItem where
  | text (t : String)
  | bos
  | eos

/-- ids of an item -/
def ByteItem.ids : ByteItem → List Int
  | .text t => (t.toList.flatMap String.utf8EncodeChar).map fun b => (b.toNat : Int)
  | .bos => [256]
  | .eos => [257]

/-- text of an item -/
def ByteItem.str : ByteItem → Str
  | .text t => lit t
  | .bos => lit "<s>"
  | .eos => lit "</s>"

/-- pieces of an item -/
def ByteItem.pieces : ByteItem → List Str
  | .text t => ((t.toList.flatMap String.utf8EncodeChar).map UInt8.toNat).map codeToStr
  | .bos => [lit "<s>"]
  | .eos => [lit "</s>"]

theorem byteDecode_items {s : Scheme} (h : ByteOK s) (items : List ByteItem)
    (h16 : ∀ t, ByteItem.text t ∈ items → ∀ c ∈ t.toList, 16 ≤ c.toNat) :
    ∀ (bs : List Nat) (t0 : Str), utf8Encode t0 = .ok bs → (∀ b ∈ bs, 16 ≤ b ∧ b < 256) →
      byteDecode s (items.flatMap ByteItem.pieces) (bs.map codeToStr) = .ok (t0 ++ items.flatMap ByteItem.str) := by
  induction items with
  | nil =>
    intro bs t0 he hb
    simp only [List.flatMap_nil, byteDecode, List.append_nil]
    rw [composeStr_codes bs hb, utf8Decode_encode he]
  | cons it items ih =>
    intro bs t0 he hb
    have ih' := ih (fun t ht => h16 t (by simp [ht]))
    have flush : (if (bs.map codeToStr).isEmpty = true then (.ok [] : Py Str) else composeStr (bs.map codeToStr)) = .ok t0 := by
      rw [composeStr_codes bs hb, utf8Decode_encode he]
    have ih0 := ih' [] [] rfl (by simp)
    cases it with
    | text t =>
      have ht := h16 t (by simp)
      have et : utf8Encode (lit t) = .ok ((t.toList.flatMap String.utf8EncodeChar).map UInt8.toNat) := utf8Encode_eq t.toList
      obtain ⟨x, hx, hx2⟩ := utf8Encode_ok _ (lit_scalar t)
      rw [et] at hx; cases hx
      have hge := utf8Encode_ge (t := lit t) (by
        intro c hc
        obtain ⟨d, hd, rfl⟩ := List.mem_map.1 hc
        exact ht d hd) et
      have := ih' (bs ++ (t.toList.flatMap String.utf8EncodeChar).map UInt8.toNat) (t0 ++ lit t) (utf8Encode_append he et) (by
        intro b hb'
        rcases List.mem_append.1 hb' with hb' | hb'
        · exact hb b hb'
        · exact ⟨hge b hb', hx2 b hb'⟩)
      rw [List.flatMap_cons, ByteItem.pieces, h.byteDecode_run _ hx2, ← List.map_append, this]
      simp [ByteItem.str]
    | bos =>
      simp only [List.map_nil, List.nil_append] at ih0
      rw [List.flatMap_cons, ByteItem.pieces, List.cons_append, List.nil_append, byteDecode, h.bos_reserved,
        if_pos rfl, flush]
      simp only [ih0]
      simp [ByteItem.str]
    | eos =>
      simp only [List.map_nil, List.nil_append] at ih0
      rw [List.flatMap_cons, ByteItem.pieces, List.cons_append, List.nil_append, byteDecode, h.eos_reserved,
        if_pos rfl, flush]
      simp only [ih0]
      simp [ByteItem.str]

theorem byte_items_names {s : Scheme} (hk : ByteOK s) (items : List ByteItem) :
    namesOf s.table (items.flatMap ByteItem.ids) = .ok (items.flatMap ByteItem.pieces) := by
  induction items with
  | nil => rfl
  | cons it items ih =>
    rw [List.flatMap_cons, List.flatMap_cons]
    refine namesOf_append _ _ _ _ _ ?_ ih
    cases it with
    | text t =>
      obtain ⟨x, hx, hx2⟩ := utf8Encode_ok _ (lit_scalar t)
      have et : utf8Encode (lit t) = .ok ((t.toList.flatMap String.utf8EncodeChar).map UInt8.toNat) := utf8Encode_eq t.toList
      rw [et] at hx; cases hx
      have := hk.namesOf _ hx2
      rw [List.map_map] at this
      exact this
    | bos =>
      have : pyIndex s.table ((256 : Nat) : Int) = .ok _ := pyIndex_some (by rw [hk.table]; exact byteVocab_get256)
      have e : (((256 : Nat) : Int)) = 256 := rfl
      rw [e] at this
      simp [ByteItem.ids, namesOf, this, ByteItem.pieces]
    | eos =>
      have : pyIndex s.table ((257 : Nat) : Int) = .ok _ := pyIndex_some (by rw [hk.table]; exact byteVocab_get257)
      have e : (((257 : Nat) : Int)) = 257 := rfl
      rw [e] at this
      simp [ByteItem.ids, namesOf, this, ByteItem.pieces]

/-- C09: decoding texts interleaved with the two reserved tokens in any arrangement gives the texts interleaved with
the literal names.  Missing from the full statement: texts with code points below 16 (see C08). -/
theorem C09_byte_separators_partial {s : Scheme} (h : Scheme.make .byte [] = .ok s) (items : List ByteItem)
    (h16 : ∀ t, ByteItem.text t ∈ items → ∀ c ∈ t.toList, 16 ≤ c.toNat) :
    s.decode (items.flatMap ByteItem.ids) = .ok (items.flatMap ByteItem.str) := by
  have hk := make_byte_ok h
  simp only [Scheme.decode, byte_items_names hk items, Scheme.decodeStr, hk.kind]
  simpa using byteDecode_items hk items h16 [] [] rfl (by simp)

/-- C09 is false as stated, for the same reason as C08: a text with a line feed between the two markers cannot be decoded. -/
theorem C09_byte_separators_refuted {s : Scheme} (h : Scheme.make .byte [] = .ok s) :
    s.decode (([.bos, .text "\n", .eos] : List ByteItem).flatMap ByteItem.ids) = .error .value := by
  have hk := make_byte_ok h
  have hn : namesOf s.table [256, 10, 257] = .ok [lit "<s>", codeToStr 10, lit "</s>"] := by
    have h1 : pyIndex s.table ((256 : Nat) : Int) = .ok _ := pyIndex_some (by rw [hk.table]; exact byteVocab_get256)
    have h2 : pyIndex s.table ((10 : Nat) : Int) = .ok _ := pyIndex_some (by rw [hk.table]; exact byteVocab_get (by omega))
    have h3 : pyIndex s.table ((257 : Nat) : Int) = .ok _ := pyIndex_some (by rw [hk.table]; exact byteVocab_get257)
    have e1 : ((256 : Nat) : Int) = 256 := rfl
    have e2 : ((10 : Nat) : Int) = 10 := rfl
    have e3 : ((257 : Nat) : Int) = 257 := rfl
    rw [e1] at h1; rw [e2] at h2; rw [e3] at h3
    simp [namesOf, h1, h2, h3]
  have hids : (([.bos, .text "\n", .eos] : List ByteItem).flatMap ByteItem.ids) = [256, 10, 257] := by decide
  rw [hids]
  simp only [Scheme.decode, hn, Scheme.decodeStr, hk.kind, byteDecode, hk.bos_reserved, hk.eos_reserved,
    hk.code_not_reserved (c := 10) (by omega), if_true, List.isEmpty_nil]
  have : composeStr ([] ++ [codeToStr 10]) = .error .value := by decide
  simp only [this, Bool.false_eq_true, if_false]
  simp

/-- C09: encoding never produces a reserved id (256, 257), whatever the text contains: every id is below 256. -/
theorem C09_byte_no_reserved_ids {s : Scheme} (h : Scheme.make .byte [] = .ok s) (line : Str) {ids : List Int}
    (he : s.encode line = .ok ids) : ∀ i ∈ ids, 0 ≤ i ∧ i < 256 := by
  obtain ⟨text, rfl⟩ := (C08_byte_encode_total h line).1 ⟨ids, he⟩
  rw [C08_byte_encode_utf8 h text] at he
  cases he
  intro i hi
  obtain ⟨b, _, rfl⟩ := List.mem_map.1 hi
  have := b.toNat_lt
  omega

/-- a text containing the literal `<s>` between real separators -/
example : ∀ t, ByteItem.text t ∈ [.bos, .text "a <s> é", .eos, .bos, .text "", .eos] → ∀ c ∈ t.toList, 16 ≤ c.toNat := by
  intro t ht
  simp at ht
  rcases ht with rfl | rfl <;> decide

end Verif
