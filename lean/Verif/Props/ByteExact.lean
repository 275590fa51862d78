import Verif.Props.Byte
import Verif.Lemmas.Replace
/-!
# Exactly the texts that the byte scheme restores (C08, C09)
-/

namespace Verif
open Spec

theorem utf8Char_head {c : Nat} {x : List Nat} (h : utf8Char c = .ok x) : (c < 128 ∧ x = [c]) ∨ (128 ≤ c ∧ ∃ b y, x = b :: y ∧ 128 ≤ b) := by
  simp only [utf8Char] at h
  split at h
  · cases h; left; exact ⟨by omega, rfl⟩
  · right
    refine ⟨by omega, ?_⟩
    split at h
    · cases h; exact ⟨_, _, rfl, by omega⟩
    · split at h
      · cases h
      · split at h
        · cases h; exact ⟨_, _, rfl, by omega⟩
        · split at h
          · cases h; exact ⟨_, _, rfl, by omega⟩
          · cases h

/-- the first character decoded is the first byte, or both are at least 128 -/
theorem utf8Decode_head (b : Nat) (r : List Nat) : ∃ d t, utf8Decode (b :: r) = d :: t ∧ ((b < 128 ∧ d = b ∧ t = utf8Decode r) ∨ (128 ≤ b ∧ 128 ≤ d)) := by
  by_cases hb : b < 128
  · have hs : utf8Step (b :: r) = (some (b, r), r) := by simp only [utf8Step, if_pos hb]
    exact ⟨b, _, utf8Decode_some hs, .inl ⟨hb, rfl, rfl⟩⟩
  · cases hs : utf8Step (b :: r) with
    | mk o r' =>
      cases o with
      | none => exact ⟨_, _, utf8Decode_none hs, .inr ⟨by omega, by decide⟩⟩
      | some p =>
        obtain ⟨c, r1⟩ := p
        refine ⟨c, _, utf8Decode_some hs, .inr ⟨by omega, ?_⟩⟩
        obtain ⟨x, hx, e, hn⟩ := utf8Step_some hs
        rcases utf8Char_head hx with ⟨h1, rfl⟩ | ⟨h1, _⟩
        · simp only [List.cons_append, List.nil_append, List.cons.injEq] at e
          omega
        · exact h1

/-- characters before others are decoded as themselves -/
theorem utf8Decode_append {p : Str} {bp : List Nat} (h : utf8Encode p = .ok bp) (r : List Nat) : utf8Decode (bp ++ r) = p ++ utf8Decode r := by
  induction p generalizing bp with
  | nil => cases h; rfl
  | cons c p ih =>
    have hsc := utf8Encode_scalar h c (by simp)
    obtain ⟨x, h1, _, _, h4⟩ := utf8Char_ok hsc
    simp only [utf8Encode, h1] at h
    cases hp : utf8Encode p with
    | error e => rw [hp] at h; cases h
    | ok y =>
      rw [hp] at h
      cases h
      obtain ⟨a, z, rfl, hs⟩ := h4 (y ++ r)
      rw [List.append_assoc, List.cons_append] at *
      rw [utf8Decode_some hs, ih hp]
      rfl

/-- hexadecimal digits that begin with `k` zeros give `k / 2` zero bytes -/
theorem fromHex_zeros : ∀ (k : Nat) (w : Str) (r : List Nat), w.head? ≠ some 48 → (∀ c ∈ w, ∃ d < 16, c = hexDigit d) →
    fromHex (List.replicate k 48 ++ w) = .ok r → ∃ r', r = List.replicate (k / 2) 0 ++ r' ∧ r'.head? ≠ some 0
  | 0, [], r, _, _, h => ⟨[], by cases h; rfl, by simp⟩
  | 0, [c], r, _, hd, h => by
    obtain ⟨d, hd', rfl⟩ := hd c (by simp)
    simp [fromHex, (hexVal_hexDigit d hd').2] at h
  | 0, c :: e :: w, r, h0, hd, h => by
    obtain ⟨c, hc, rfl⟩ := hd c (by simp)
    obtain ⟨e, he, rfl⟩ := hd e (by simp)
    have hc0 : c ≠ 0 := fun h => h0 (by rw [h]; rfl)
    simp only [List.replicate_zero, List.nil_append, fromHex, hexVal_hexDigit _ hc, hexVal_hexDigit _ he, Bool.false_eq_true, if_false] at h
    cases hf : fromHex w with
    | error x => rw [hf] at h; cases h
    | ok y => rw [hf] at h; cases h; exact ⟨_, rfl, by simp; omega⟩
  | 1, [], r, _, _, h => by simp [fromHex, isAsciiSpace] at h
  | 1, c :: w, r, h0, hd, h => by
    obtain ⟨c, hc, rfl⟩ := hd c (by simp)
    have hc0 : c ≠ 0 := fun h => h0 (by rw [h]; rfl)
    have e48 : (48 : Nat) = hexDigit 0 := rfl
    simp only [List.replicate_one, List.cons_append, List.nil_append, e48, fromHex, hexVal_hexDigit 0 (by omega), hexVal_hexDigit _ hc, Bool.false_eq_true, if_false] at h
    cases hf : fromHex w with
    | error x => rw [hf] at h; cases h
    | ok y => rw [hf] at h; cases h; exact ⟨_, rfl, by simp; omega⟩
  | k + 2, w, r, h0, hd, h => by
    have e48 : (48 : Nat) = hexDigit 0 := rfl
    simp only [List.replicate_succ, List.cons_append] at h
    rw [e48] at h
    simp only [fromHex, hexVal_hexDigit 0 (by omega), Bool.false_eq_true, if_false] at h
    rw [← e48] at h
    cases hf : fromHex (List.replicate k 48 ++ w) with
    | error x => rw [hf] at h; cases h
    | ok y =>
      rw [hf] at h
      cases h
      obtain ⟨r', h1, h2⟩ := fromHex_zeros k w y h0 hd hf
      exact ⟨r', by rw [h1, show (k + 2) / 2 = k / 2 + 1 by omega]; rfl, h2⟩

theorem codes_digits {bs : List Nat} (hb : ∀ b ∈ bs, b < 256) : ∀ c ∈ (bs.map codeToStr).flatten, ∃ d < 16, c = hexDigit d := by
  intro c hc
  obtain ⟨x, hx, hc⟩ := List.mem_flatten.1 hc
  obtain ⟨b, hb', rfl⟩ := List.mem_map.1 hx
  have := hb b hb'
  rw [codeToStr] at hc
  split at hc
  · exact ⟨b, by omega, by simpa using hc⟩
  · rcases List.mem_cons.1 hc with rfl | hc
    · exact ⟨_, by omega, rfl⟩
    · exact ⟨b % 16, by omega, by simpa using hc⟩

theorem hexDigit_zero {d : Nat} (hd : d < 16) (h : hexDigit d = 48) : d = 0 := hexDigit_inj hd (by omega) h

/-- a text that begins with a character below 16 is decoded to another text, whatever follows -/
theorem small_head {u : Str} {bu : List Nat} (he : utf8Encode u = .ok bu) {r : List Nat} (hr : fromHex (bu.map codeToStr).flatten = .ok r)
    {z z' : Str} (hz : z.head? ≠ some 0) {c : Nat} {q : Str} (hu : u = c :: q) (hc : c < 16) : utf8Decode r ++ z ≠ u ++ z' := by
  intro h
  have hlt : ∀ b ∈ bu, b < 256 := by
    obtain ⟨bs', e1, e2⟩ := utf8Encode_ok u (utf8Encode_scalar he)
    rw [he] at e1; cases e1; exact e2
  by_cases h0 : c = 0
  · subst h0
    -- the leading zeros
    obtain ⟨k, v, hk, hv, hkp⟩ : ∃ k v, u = List.replicate k 0 ++ v ∧ v.head? ≠ some 0 ∧ 0 < k := by
      have : ∀ u : Str, ∃ k v, u = List.replicate k 0 ++ v ∧ v.head? ≠ some 0 := by
        intro u
        induction u with
        | nil => exact ⟨0, [], rfl, by simp⟩
        | cons a u ih =>
          by_cases ha : a = 0
          · obtain ⟨k, v, h1, h2⟩ := ih
            exact ⟨k + 1, v, by rw [ha, h1]; rfl, h2⟩
          · exact ⟨0, a :: u, rfl, by simpa using ha⟩
      obtain ⟨k, v, h1, h2⟩ := this u
      refine ⟨k, v, h1, h2, Nat.pos_of_ne_zero fun hk => ?_⟩
      rw [hk] at h1
      exact h2 (by rw [← show u = v from h1, hu]; rfl)
    obtain ⟨bv, hbv⟩ : ∃ bv, utf8Encode v = .ok bv :=
      (utf8Encode_ok v fun c hc => utf8Encode_scalar he c (by rw [hk]; exact List.mem_append_right _ hc)).imp fun _ h => h.1
    have hz0 : utf8Encode (List.replicate k 0) = .ok (List.replicate k 0) := by
      clear * -
      induction k with
      | zero => rfl
      | succ k ih => rw [List.replicate_succ, utf8Encode, ih]; rfl
    have hbu : bu = List.replicate k 0 ++ bv := by
      have := utf8Encode_append hz0 hbv
      rw [← hk, he] at this
      exact Except.ok.inj this
    have hbv0 : (bv.map codeToStr).flatten.head? ≠ some 48 := by
      cases v with
      | nil => cases hbv; simp
      | cons a v =>
        have ha : a ≠ 0 := by simpa using hv
        have hsa := utf8Encode_scalar hbv a (by simp)
        obtain ⟨x, h1, _, _, _⟩ := utf8Char_ok hsa
        simp only [utf8Encode, h1] at hbv
        obtain ⟨b, y, hx, hb⟩ : ∃ b y, x = b :: y ∧ b ≠ 0 := by
          rcases utf8Char_head h1 with ⟨_, rfl⟩ | ⟨_, b, y, rfl, h2⟩
          · exact ⟨a, [], rfl, ha⟩
          · exact ⟨b, y, rfl, by omega⟩
        cases hw : utf8Encode v with
        | error e => rw [hw] at hbv; cases hbv
        | ok w =>
          rw [hw] at hbv
          cases hbv
          rw [hx] at hbu ⊢
          have hb256 := hlt b (by rw [hbu]; simp)
          simp only [List.cons_append, List.map_cons, List.flatten_cons]
          rw [codeToStr]
          split
          · intro h
            exact hb (hexDigit_zero (by omega) (by simpa using h))
          · intro h
            have := hexDigit_zero (d := b / 16) (by omega) (by simpa using h)
            omega
    have hd : ∀ c ∈ (bv.map codeToStr).flatten, ∃ d < 16, c = hexDigit d := codes_digits fun b hb => hlt b (by rw [hbu]; simp [hb])
    have hh : (bu.map codeToStr).flatten = List.replicate k 48 ++ (bv.map codeToStr).flatten := by
      rw [hbu]
      clear * -
      induction k with
      | zero => rfl
      | succ k ih => rw [List.replicate_succ, List.replicate_succ, List.cons_append, List.map_cons, List.flatten_cons, ih]; rfl
    rw [hh] at hr
    obtain ⟨r', h1, h2⟩ := fromHex_zeros k _ r hbv0 hd hr
    have hz1 : utf8Encode (List.replicate (k / 2) 0) = .ok (List.replicate (k / 2) 0) := by
      clear * -
      generalize k / 2 = k
      induction k with
      | zero => rfl
      | succ k ih => rw [List.replicate_succ, utf8Encode, ih]; rfl
    rw [h1, utf8Decode_append hz1, hk, List.append_assoc, List.append_assoc] at h
    have hsplit : List.replicate k (0 : Nat) = List.replicate (k / 2) 0 ++ List.replicate (k - k / 2) 0 := by
      rw [List.replicate_append_replicate]; congr 1; omega
    rw [hsplit, List.append_assoc] at h
    have h := List.append_cancel_left h
    have hpos : k - k / 2 = (k - k / 2 - 1) + 1 := by omega
    rw [hpos, List.replicate_succ] at h
    cases r' with
    | nil =>
      have : z = 0 :: (List.replicate (k - k / 2 - 1) 0 ++ (v ++ z')) := h
      exact hz (by rw [this]; rfl)
    | cons b r' =>
      obtain ⟨d, t, e, hcase⟩ := utf8Decode_head b r'
      rw [e] at h
      have hd0 : d = 0 := (List.cons.inj h).1
      have hb0 : b ≠ 0 := by simpa using h2
      rcases hcase with ⟨_, h3, _⟩ | ⟨_, h3⟩ <;> omega
  · subst hu
    have hsc := utf8Encode_scalar he c (by simp)
    have h1 : utf8Char c = .ok [c] := by rw [utf8Char, if_pos (by omega)]
    simp only [utf8Encode, h1] at he
    cases hq : utf8Encode q with
    | error e => rw [hq] at he; cases he
    | ok bq =>
      rw [hq] at he
      cases he
      simp only [List.cons_append, List.nil_append, List.map_cons, List.flatten_cons] at hr
      have hd := codes_digits (bs := bq) fun b hb => hlt b (by simp [hb])
      rw [codeToStr, if_pos hc] at hr
      cases hw : (bq.map codeToStr).flatten with
      | nil =>
        rw [hw] at hr
        simp [fromHex, (hexVal_hexDigit c hc).2] at hr
      | cons e w =>
        rw [hw] at hr hd
        obtain ⟨e, he', rfl⟩ := hd e (by simp)
        simp only [List.cons_append, List.nil_append, fromHex, hexVal_hexDigit _ hc, hexVal_hexDigit _ he', Bool.false_eq_true, if_false] at hr
        cases hf : fromHex w with
        | error x => rw [hf] at hr; cases hr
        | ok y =>
          rw [hf] at hr
          cases hr
          obtain ⟨d, t, e', hcase⟩ := utf8Decode_head (c * 16 + e) y
          rw [e'] at h
          have hd0 : d = c := (List.cons.inj h).1
          rcases hcase with ⟨_, h3, _⟩ | ⟨_, h3⟩ <;> omega

/-- bytes that are decoded to their text, whatever follows but a zero, are those of a text without characters below 16 -/
theorem compose_exact {t : Str} {bs : List Nat} (he : utf8Encode t = .ok bs) {a : Str} (ha : composeStr (bs.map codeToStr) = .ok a)
    {z z' : Str} (hz : z.head? ≠ some 0) (h : a ++ z = t ++ z') : ∀ c ∈ t, 16 ≤ c := by
  apply Decidable.byContradiction
  intro hn
  obtain ⟨p, c, q, rfl, hp, hc⟩ : ∃ p c q, t = p ++ c :: q ∧ (∀ x ∈ p, 16 ≤ x) ∧ c < 16 := by
    clear he ha h
    induction t with
    | nil => exact absurd (by simp) hn
    | cons x t ih =>
      by_cases hx : x < 16
      · exact ⟨[], x, t, rfl, by simp, hx⟩
      · obtain ⟨p, c, q, h1, h2, h3⟩ := ih (fun h => hn fun c hc => by
          rcases List.mem_cons.1 hc with rfl | hc
          · omega
          · exact h c hc)
        refine ⟨x :: p, c, q, by rw [h1]; rfl, fun y hy => ?_, h3⟩
        rcases List.mem_cons.1 hy with rfl | hy
        · omega
        · exact h2 y hy
  have hsc := utf8Encode_scalar he
  obtain ⟨bp, hbp, hbp2⟩ := utf8Encode_ok p fun c hc => hsc c (by simp [hc])
  obtain ⟨bu, hbu, _⟩ := utf8Encode_ok (c :: q) fun x hx => hsc x (List.mem_append_right _ hx)
  have := utf8Encode_append hbp hbu
  rw [he] at this
  cases this
  have hge := utf8Encode_ge hp hbp
  have hfh : ∀ bp : List Nat, (∀ b ∈ bp, 16 ≤ b ∧ b < 256) → ∀ w, fromHex ((bp.map codeToStr).flatten ++ w) =
      match fromHex w with | .ok r => .ok (bp ++ r) | .error e => .error e := by
    intro bp h w
    induction bp with
    | nil => simp only [List.map_nil, List.flatten_nil, List.nil_append]; cases fromHex w <;> rfl
    | cons b bp ih =>
      have hb := h b (by simp)
      rw [List.map_cons, List.flatten_cons, List.append_assoc, fromHex_code hb.1 hb.2, ih fun c hc => h c (by simp [hc])]
      cases fromHex w <;> rfl
  rw [composeStr, List.map_append, List.flatten_append, hfh bp fun b hb => ⟨hge b hb, hbp2 b hb⟩] at ha
  cases hr : fromHex (bu.map codeToStr).flatten with
  | error e => rw [hr] at ha; cases ha
  | ok r =>
    rw [hr] at ha
    cases ha
    rw [utf8Decode_append hbp, List.append_assoc, List.append_assoc] at h
    exact small_head hbu hr hz rfl hc (List.append_cancel_left h)

theorem flush_eq (ps : List Str) : (if ps.isEmpty = true then (.ok [] : Py Str) else composeStr ps) = composeStr ps := by
  cases ps with
  | nil => rfl
  | cons p ps => rfl

/-- C08, exact boundary: a text is restored if and only if it has no code point below 16. -/
theorem C08_byte_round_trip_iff {s : Scheme} (h : Scheme.make .byte [] = .ok s) (text : String) :
    (∃ ids, s.encode (lit text) = .ok ids ∧ s.decode ids = .ok (lit text)) ↔ ∀ c ∈ text.toList, 16 ≤ c.toNat := by
  constructor
  · rintro ⟨ids, h1, h2⟩ c hc
    have hk := make_byte_ok h
    obtain ⟨bs, he, _⟩ := utf8Encode_ok (lit text) (lit_scalar text)
    rw [hk.encode he] at h1
    cases h1
    rw [byte_decode_encode hk he, flush_eq] at h2
    exact compose_exact he h2 (z := []) (z' := []) (by simp) rfl c.toNat (List.mem_map.2 ⟨c, hc, rfl⟩)
  · exact C08_byte_round_trip_partial h text

theorem byteDecode_exact {s : Scheme} (h : ByteOK s) (items : List ByteItem) : ∀ (bs : List Nat) (t0 : Str), utf8Encode t0 = .ok bs →
    byteDecode s (items.flatMap ByteItem.pieces) (bs.map codeToStr) = .ok (t0 ++ items.flatMap ByteItem.str) →
    (∀ c ∈ t0, 16 ≤ c) ∧ ∀ t, ByteItem.text t ∈ items → ∀ c ∈ t.toList, 16 ≤ c.toNat := by
  induction items with
  | nil =>
    intro bs t0 he hd
    rw [List.flatMap_nil, byteDecode, flush_eq] at hd
    exact ⟨compose_exact he hd (z := []) (z' := []) (by simp) (by simp), by simp⟩
  | cons it items ih =>
    intro bs t0 he hd
    have sep : ∀ name : Str, name.head? ≠ some 0 → name ≠ [] → s.pieceReserved name = true →
        byteDecode s (name :: items.flatMap ByteItem.pieces) (bs.map codeToStr) = .ok (t0 ++ (name ++ items.flatMap ByteItem.str)) →
        (∀ c ∈ t0, 16 ≤ c) ∧ ∀ t, ByteItem.text t ∈ items → ∀ c ∈ t.toList, 16 ≤ c.toNat := by
      intro name hn hne hr hd
      rw [byteDecode, hr, if_pos rfl, flush_eq] at hd
      cases ha : composeStr (bs.map codeToStr) with
      | error e => rw [ha] at hd; cases hd
      | ok a =>
        rw [ha] at hd
        dsimp only at hd
        cases hb : byteDecode s (items.flatMap ByteItem.pieces) [] with
        | error e => rw [hb] at hd; cases hd
        | ok b =>
          rw [hb] at hd
          have hd := Except.ok.inj hd
          rw [List.append_assoc] at hd
          have h16 := compose_exact he ha (z := name ++ b) (z' := name ++ items.flatMap ByteItem.str) (by
            cases name with
            | nil => exact absurd rfl hne
            | cons c name => simpa using hn) hd
          have hbs : ∀ x ∈ bs, 16 ≤ x ∧ x < 256 := fun x hx => by
            obtain ⟨bs', e1, e2⟩ := utf8Encode_ok t0 (utf8Encode_scalar he)
            rw [he] at e1; cases e1
            exact ⟨utf8Encode_ge h16 he x hx, e2 x hx⟩
          have hat : a = t0 := by
            have := composeStr_codes bs hbs
            rw [flush_eq, ha, utf8Decode_encode he] at this
            exact Except.ok.inj this
          rw [hat] at hd
          have := ih [] [] rfl (by rw [List.map_nil, hb, List.nil_append, List.append_cancel_left (List.append_cancel_left hd)])
          exact ⟨h16, this.2⟩
    rw [List.flatMap_cons, List.flatMap_cons] at hd
    have hmem : ∀ {i : ByteItem} {t : String}, ByteItem.text t ∈ i :: items → ByteItem.text t = i ∨ ByteItem.text t ∈ items := fun h => List.mem_cons.1 h
    cases it with
    | text t =>
      have et : utf8Encode (lit t) = .ok ((t.toList.flatMap String.utf8EncodeChar).map UInt8.toNat) := utf8Encode_eq t.toList
      obtain ⟨x, hx, hx2⟩ := utf8Encode_ok _ (lit_scalar t)
      rw [et] at hx; cases hx
      rw [ByteItem.pieces, h.byteDecode_run _ hx2, ← List.map_append, ByteItem.str, ← List.append_assoc] at hd
      obtain ⟨h1, h2⟩ := ih _ _ (utf8Encode_append he et) hd
      refine ⟨fun c hc => h1 c (by simp [hc]), fun t' ht' => ?_⟩
      rcases hmem ht' with hm | hm
      · cases hm
        intro c hc
        exact h1 c.toNat (List.mem_append_right _ (List.mem_map.2 ⟨c, hc, rfl⟩))
      · exact h2 t' hm
    | bos =>
      obtain ⟨h1, h2⟩ := sep (lit "<s>") (by decide) (by decide) h.bos_reserved hd
      exact ⟨h1, fun t ht => (hmem ht).elim (fun h => by cases h) (h2 t)⟩
    | eos =>
      obtain ⟨h1, h2⟩ := sep (lit "</s>") (by decide) (by decide) h.eos_reserved hd
      exact ⟨h1, fun t ht => (hmem ht).elim (fun h => by cases h) (h2 t)⟩

/-- C09, exact boundary: texts interleaved with the two reserved tokens are restored if and only if no text has a code point below 16. -/
theorem C09_byte_separators_iff {s : Scheme} (h : Scheme.make .byte [] = .ok s) (items : List ByteItem) :
    s.decode (items.flatMap ByteItem.ids) = .ok (items.flatMap ByteItem.str) ↔ ∀ t, ByteItem.text t ∈ items → ∀ c ∈ t.toList, 16 ≤ c.toNat := by
  refine ⟨fun hd => ?_, C09_byte_separators_partial h items⟩
  have hk := make_byte_ok h
  simp only [Scheme.decode, byte_items_names hk items, Scheme.decodeStr, hk.kind] at hd
  exact (byteDecode_exact hk items [] [] rfl hd).2

/-- texts with zeros: two of them are decoded as one; U+FFFD is restored -/
example : (withScheme .byte [] fun s => s.decode [0, 0]) = .ok [0] ∧ (withScheme .byte [] fun s => s.decode [0, 0, 0, 0]) = .ok [0, 0] ∧
    (withScheme .byte [] fun s => s.decode [0xEF, 0xBF, 0xBD]) = .ok [0xFFFD] ∧
    (withScheme .byte [] fun s => s.decode [97, 0, 0, 256, 257]) = .ok (lit "a\x00<s></s>") := by decide +kernel

end Verif
