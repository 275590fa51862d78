import Verif.Spec.Hex
import Verif.Lemmas.Byte
import Verif.Lemmas.Replace
import Verif.Props.Codec
/-!
# Decoding arbitrary pieces and ids with the byte scheme (C104)
-/

namespace Verif
open Spec

theorem hexVal_iff {c x : Nat} : hexVal c = some x ↔ HexDigit c x := by
  constructor
  · intro h
    have key : ∀ c, c < 103 → ∀ x, x < 16 → hexVal c = some x → (lit "0123456789abcdef")[x]? = some c ∨ (lit "0123456789ABCDEF")[x]? = some c := by decide +kernel
    have hc : c < 103 ∧ x < 16 := by
      unfold hexVal at h
      split at h
      · cases h; omega
      · split at h
        · cases h; omega
        · split at h
          · cases h; omega
          · cases h
    exact key c hc.1 x hc.2 h
  · have key : ∀ x, x < 16 → (∀ c, (lit "0123456789abcdef")[x]? = some c → hexVal c = some x) ∧
        ∀ c, (lit "0123456789ABCDEF")[x]? = some c → hexVal c = some x := by
      have k2 : ∀ x, x < 16 → ((lit "0123456789abcdef")[x]?).map hexVal = some (some x) ∧ ((lit "0123456789ABCDEF")[x]?).map hexVal = some (some x) := by
        decide +kernel
      intro x hx
      refine ⟨fun c h => ?_, fun c h => ?_⟩
      · have := (k2 x hx).1; rw [h] at this; simpa using this
      · have := (k2 x hx).2; rw [h] at this; simpa using this
    have hl : (lit "0123456789abcdef").length = 16 ∧ (lit "0123456789ABCDEF").length = 16 := by decide
    rintro (h | h)
    · exact (key x (by have := (List.getElem?_eq_some_iff.1 h).1; omega)).1 c h
    · exact (key x (by have := (List.getElem?_eq_some_iff.1 h).1; omega)).2 c h

theorem isAsciiSpace_iff {c : Nat} : isAsciiSpace c = true ↔ c ∈ lit "\t\n\x0b\x0c\r " := by
  rw [show lit "\t\n\x0b\x0c\r " = [9, 10, 11, 12, 13, 32] by decide]
  simp only [isAsciiSpace, Bool.or_eq_true, Bool.and_eq_true, decide_eq_true_eq, beq_iff_eq, List.mem_cons, List.not_mem_nil, or_false]
  omega

theorem hexDigit_not_space {c x : Nat} (h : HexDigit c x) : isAsciiSpace c = false := by
  have := hexVal_iff.2 h
  by_contra hc
  have hc' : isAsciiSpace c = true := by simpa using hc
  simp only [isAsciiSpace, Bool.or_eq_true, Bool.and_eq_true, decide_eq_true_eq, beq_iff_eq] at hc'
  unfold hexVal at this
  split at this
  · omega
  · split at this
    · omega
    · split at this
      · omega
      · cases this

theorem fromHex_iff {s : Str} {bs : List Nat} : fromHex s = .ok bs ↔ Hex s bs := by
  constructor
  · induction s using fromHex.induct generalizing bs with
    | case1 => intro h; simp [fromHex] at h; subst h; exact .nil
    | case2 c hc => intro h; simp [fromHex, hc] at h; subst h; exact .space (isAsciiSpace_iff.1 hc) .nil
    | case3 c hc => intro h; simp [fromHex, hc] at h
    | case4 c d r hc ih =>
      intro h
      rw [fromHex, if_pos hc] at h
      exact .space (isAsciiSpace_iff.1 hc) (ih h)
    | case5 c d r hc x y hx hy bs' hr ih =>
      intro h
      rw [fromHex, if_neg hc] at h
      simp only [hx, hy, hr] at h
      cases h
      rw [Nat.mul_comm]
      exact .byte (hexVal_iff.1 (by assumption)) (hexVal_iff.1 (by assumption)) (ih hr)
    | case6 c d r hc x y hx hy e hr ih =>
      intro h
      rw [fromHex, if_neg hc] at h
      simp [hx, hy, hr] at h
    | case7 c d r hc hno =>
      intro h
      rw [fromHex, if_neg hc] at h
      split at h
      · rename_i a b ha hb; exact absurd hb (hno a b ha)
      · cases h
  · intro h
    induction h with
    | nil => rfl
    | @space c s bs hc hs ih =>
      have := isAsciiSpace_iff.2 hc
      cases s with
      | nil => simp only [fromHex] at ih ⊢; rw [if_pos this]; exact ih
      | cons d r => rw [fromHex, if_pos this]; exact ih
    | @byte c d x y s bs hx hy hs ih =>
      rw [fromHex, if_neg (by simp [hexDigit_not_space hx]), hexVal_iff.2 hx, hexVal_iff.2 hy]
      simp only [ih, Nat.mul_comm]

theorem fromHex_error {s : Str} {e : Exc} (h : fromHex s = .error e) : e = .value := by
  induction s using fromHex.induct with
  | case1 => simp [fromHex] at h
  | case2 c hc => simp [fromHex, hc] at h
  | case3 c hc => simp [fromHex, hc] at h; exact h.symm
  | case4 c d r hc ih => rw [fromHex, if_pos hc] at h; exact ih h
  | case5 c d r hc x y hx hy bs' hr ih =>
    rw [fromHex, if_neg hc] at h
    simp [hx, hy, hr] at h
  | case6 c d r hc x y hx hy e' hr ih =>
    rw [fromHex, if_neg hc] at h
    simp only [hx, hy, hr] at h
    cases h
    exact ih hr
  | case7 c d r hc hno =>
    rw [fromHex, if_neg hc] at h
    split at h
    · rename_i a b ha hb; exact absurd hb (hno a b ha)
    · cases h; rfl

/-- the buffer, whether empty or not -/
theorem flush_iff {buf : List Str} {t : Str} :
    (if buf.isEmpty then (.ok [] : Py Str) else composeStr buf) = .ok t ↔ ∃ bs, Hex buf.flatten bs ∧ Replaced bs t := by
  have key : (if buf.isEmpty then (.ok [] : Py Str) else composeStr buf) = composeStr buf := by
    cases buf with
    | nil => rfl
    | cons p ps => rfl
  rw [key, composeStr]
  cases hf : fromHex buf.flatten with
  | error e =>
    simp only [reduceCtorEq, false_iff, not_exists]
    rintro bs ⟨h, _⟩
    rw [← fromHex_iff, hf] at h
    cases h
  | ok bs =>
    simp only [Except.ok.injEq]
    constructor
    · rintro rfl; exact ⟨bs, fromHex_iff.1 hf, replaced_iff.2 rfl⟩
    · rintro ⟨bs', h, hr⟩
      rw [← fromHex_iff, hf] at h
      cases h
      exact (replaced_iff.1 hr).symm

theorem flush_error {buf : List Str} {e : Exc} (h : (if buf.isEmpty then (.ok [] : Py Str) else composeStr buf) = .error e) : e = .value := by
  split at h
  · cases h
  · rw [composeStr] at h
    split at h
    · rename_i e' he; cases h; exact fromHex_error he
    · cases h

theorem byteText_append {mark : Str → Prop} {buf : List Str} {m out : Str} {rest : List Str} (hb : ∀ p ∈ buf, ¬ mark p)
    (hm : mark m) : ByteText mark (buf ++ m :: rest) out ↔ ∃ t u, (∃ bs, Hex buf.flatten bs ∧ Replaced bs t) ∧ ByteText mark rest u ∧ out = t ++ m ++ u := by
  constructor
  · generalize hl : buf ++ m :: rest = l
    intro h
    cases h with
    | run hno _ _ => exact absurd hm (hno m (by rw [← hl]; simp))
    | @mark ps bs t m' rest' out hno hx hr hm' hrest =>
      have : buf = ps ∧ m :: rest = m' :: rest' := by
        rw [List.append_eq_append_iff] at hl
        rcases hl with ⟨a, h1, h2⟩ | ⟨a, h1, h2⟩
        · cases a with
          | nil => simp at h1 h2; exact ⟨h1.symm, by simpa using h2⟩
          | cons x a =>
            rw [List.cons_append] at h2
            cases h2
            exact absurd hm (hno m (by rw [h1]; simp))
        · cases a with
          | nil => simp only [List.append_nil] at h1; exact ⟨h1, h2.symm⟩
          | cons x a =>
            rw [List.cons_append] at h2
            cases h2
            exact absurd hm' (hb m' (by rw [h1]; simp))
      obtain ⟨rfl, h2⟩ := this
      cases h2
      exact ⟨t, out, ⟨bs, hx, hr⟩, hrest, rfl⟩
  · rintro ⟨t, u, ⟨bs, hx, hr⟩, hu, rfl⟩
    exact .mark hb hx hr hm hu

theorem byteDecode_iff {s : Scheme} {mark : Str → Prop} (hm : ∀ p, s.pieceReserved p = true ↔ mark p) (ps : List Str) :
    ∀ (buf : List Str), (∀ p ∈ buf, ¬ mark p) → (∀ t, byteDecode s ps buf = .ok t ↔ ByteText mark (buf ++ ps) t) ∧
      ∀ e, byteDecode s ps buf = .error e → e = .value := by
  induction ps with
  | nil =>
    intro buf hb
    rw [byteDecode, List.append_nil]
    refine ⟨fun t => ?_, fun e he => flush_error he⟩
    rw [flush_iff]
    constructor
    · rintro ⟨bs, h1, h2⟩; exact .run hb h1 h2
    · intro h
      cases h with
      | run _ h1 h2 => exact ⟨_, h1, h2⟩
      | mark _ _ _ h => exact absurd h (hb _ (by simp))
  | cons p ps ih =>
    intro buf hb
    rw [byteDecode]
    by_cases hp : s.pieceReserved p = true
    · rw [if_pos hp]
      have hp' := (hm p).1 hp
      obtain ⟨i1, i2⟩ := ih [] (by simp)
      cases hf : (if buf.isEmpty then (.ok [] : Py Str) else composeStr buf) with
      | error e =>
        refine ⟨fun t => ?_, fun e' he' => by cases he'; exact flush_error hf⟩
        simp only [reduceCtorEq, false_iff]
        rw [byteText_append hb hp']
        rintro ⟨t', u, h1, -, -⟩
        rw [← flush_iff, hf] at h1
        cases h1
      | ok a =>
        dsimp only
        cases hd : byteDecode s ps [] with
        | error e =>
          refine ⟨fun t => ?_, fun e' he' => by cases he'; exact i2 _ hd⟩
          simp only [reduceCtorEq, false_iff]
          rw [byteText_append hb hp']
          rintro ⟨t', u, -, h2, -⟩
          rw [← List.nil_append ps, ← i1, hd] at h2
          cases h2
        | ok b =>
          refine ⟨fun t => ?_, fun e' he' => by cases he'⟩
          rw [byteText_append hb hp']
          simp only [Except.ok.injEq]
          constructor
          · rintro rfl
            exact ⟨a, b, flush_iff.1 hf, by rw [← List.nil_append ps]; exact (i1 b).1 hd, rfl⟩
          · rintro ⟨t', u, h1, h2, rfl⟩
            rw [← flush_iff, hf] at h1
            cases h1
            rw [← List.nil_append ps, ← i1, hd] at h2
            cases h2
            rfl
    · rw [if_neg hp]
      have := ih (buf ++ [p]) (by
        intro q hq
        rcases List.mem_append.1 hq with hq | hq
        · exact hb q hq
        · rw [List.mem_singleton.1 hq, ← hm]; exact hp)
      simpa using this

theorem pieceReserved_iff {tbl : List Ty} {s : Scheme} (h : Scheme.make .byte tbl = .ok s) (p : Str) :
    s.pieceReserved p = true ↔ ∃ t ∈ s.table, t.name = p ∧ t.level = Level.reserved := by
  simp only [Scheme.make] at h
  obtain ⟨h1, -, h3, h4⟩ := mkInvertible_ok h
  rw [← h1] at h4
  rw [Scheme.pieceReserved, h3.get, Scheme.idxToStr]
  cases hi : (s.table.map (·.name)).idxOf? p with
  | none =>
    simp only [Bool.false_eq_true, false_iff]
    rintro ⟨t, ht, rfl, -⟩
    rw [List.idxOf?_eq_none_iff] at hi
    exact hi (List.mem_map.2 ⟨t, ht, rfl⟩)
  | some i =>
    have hg := idxOf?_some_get hi
    rw [List.getElem?_map] at hg
    cases hti : s.table[i]? with
    | none => rw [hti] at hg; cases hg
    | some t =>
      rw [hti] at hg
      simp only [Option.map_some, Option.some.injEq] at hg
      simp only [hti, Ty.isReserved, beq_iff_eq]
      constructor
      · intro hl; exact ⟨t, List.mem_of_getElem? hti, hg, hl⟩
      · rintro ⟨t', ht', he, hl⟩
        have : t' = t := List.inj_on_of_nodup_map h4 ht' (List.mem_of_getElem? hti) (he.trans hg.symm)
        exact this ▸ hl

/-- C104: whatever the vocabulary of a byte scheme, pieces are decoded as the specification says: the reserved names are copied, and each
longest run of other pieces is read as hexadecimal digits and decoded for itself. If a run is not made of pairs of digits (with white space
between pairs), the only outcome is ValueError. -/
theorem C104_pieces {tbl : List Ty} {s : Scheme} (h : Scheme.make .byte tbl = .ok s) (ps : List Str) :
    (∀ t, s.decodeStr ps = .ok t ↔ ByteText (fun p => ∃ e ∈ s.table, e.name = p ∧ e.level = Level.reserved) ps t) ∧
    ∀ e, s.decodeStr ps = .error e → e = .value := by
  have hk : s.kind = .byte := by
    simp only [Scheme.make] at h
    exact (mkInvertible_ok h).2.1
  have := byteDecode_iff (pieceReserved_iff h) ps [] (by simp)
  simpa only [Scheme.decodeStr, hk, List.nil_append] using this

theorem namesOf_range {tbl : List Ty} : ∀ {g : List Int}, (∀ i ∈ g, 0 ≤ i ∧ i < (tbl.length : Int)) → ∃ ns, namesOf tbl g = .ok ns
  | [], _ => ⟨[], rfl⟩
  | i :: g, h => by
    obtain ⟨ns, hns⟩ := namesOf_range (g := g) fun j hj => h j (by simp [hj])
    have hi := h i (by simp)
    obtain ⟨n, rfl⟩ := Int.eq_ofNat_of_zero_le hi.1
    have hn : n < tbl.length := by omega
    have : pyIndex tbl (n : Int) = .ok tbl[n] := by
      have e : ¬ (n : Int) < 0 := by omega
      simp only [pyIndex, if_neg e, Int.toNat_natCast, List.getElem?_eq_getElem hn]
    exact ⟨_, by rw [namesOf, this, hns]⟩

/-- C05 for the byte scheme: what was encoded is never refused for an index; only the UTF-8 decoding may fail (C01). -/
theorem C05_decode_encode_byte {tbl : List Ty} {s : Scheme} (h : Scheme.make .byte tbl = .ok s) {line : Str} {ids : List Int}
    (he : s.encode line = .ok ids) {e : Exc} (hd : s.decode ids = .error e) : e = .value := by
  have hr := C05_ids_in_range_byte h line he
  obtain ⟨ps, hps⟩ := namesOf_range hr
  rw [Scheme.decode, hps] at hd
  exact (C104_pieces h ps).2 e hd

theorem hex_digits_even : ∀ {s : Str}, (∀ c ∈ s, ∃ x, HexDigit c x) → ((∃ bs, Hex s bs) ↔ s.length % 2 = 0)
  | [], _ => ⟨fun _ => rfl, fun _ => ⟨[], .nil⟩⟩
  | [c], h => by
    obtain ⟨x, hx⟩ := h c (by simp)
    constructor
    · rintro ⟨bs, hb⟩
      cases hb with
      | space hc _ =>
        have := hexDigit_not_space hx
        rw [isAsciiSpace_iff.2 hc] at this
        cases this
    · intro h; simp at h
  | c :: d :: r, h => by
    obtain ⟨x, hx⟩ := h c (by simp)
    obtain ⟨y, hy⟩ := h d (by simp)
    have ih := hex_digits_even (s := r) fun c hc => h c (by simp [hc])
    rw [List.length_cons, List.length_cons, show (r.length + 1 + 1) % 2 = r.length % 2 by omega, ← ih]
    constructor
    · rintro ⟨bs, hb⟩
      cases hb with
      | space hc _ =>
        have := hexDigit_not_space hx
        rw [isAsciiSpace_iff.2 hc] at this
        cases this
      | byte _ _ hr => exact ⟨_, hr⟩
    · rintro ⟨bs, hb⟩
      exact ⟨_, .byte hx hy hb⟩

theorem codeToStr_digits {b : Nat} (hb : b < 256) : ∀ c ∈ codeToStr b, ∃ x, HexDigit c x := by
  intro c hc
  have key : ∀ d, d < 16 → ∃ x, HexDigit (hexDigit d) x := fun d hd => ⟨d, hexVal_iff.1 (hexVal_hexDigit d hd).1⟩
  rw [codeToStr] at hc
  split at hc
  · rename_i h; rw [List.mem_singleton.1 hc]; exact key b h
  · simp only [List.mem_cons, List.not_mem_nil, or_false] at hc
    rcases hc with rfl | rfl
    · exact key _ (by omega)
    · exact key _ (by omega)

theorem codes_length_mod (bs : List Nat) : ((bs.map codeToStr).flatten).length % 2 = (bs.countP (· < 16)) % 2 := by
  induction bs with
  | nil => rfl
  | cons b bs ih =>
    rw [List.map_cons, List.flatten_cons, List.length_append, codeToStr_length, List.countP_cons]
    by_cases h : b < 16
    · simp only [h, if_true, decide_true]; omega
    · simp only [h, if_false, decide_false, Bool.false_eq_true]; omega

theorem flush_codes {bs : List Nat} (hb : ∀ b ∈ bs, b < 256) :
    (∃ t, (if (bs.map codeToStr).isEmpty then (.ok [] : Py Str) else composeStr (bs.map codeToStr)) = .ok t) ↔ bs.countP (· < 16) % 2 = 0 := by
  rw [← codes_length_mod, ← hex_digits_even]
  · constructor
    · rintro ⟨t, h⟩
      obtain ⟨x, hx, -⟩ := flush_iff.1 h
      exact ⟨x, hx⟩
    · rintro ⟨x, hx⟩
      exact ⟨utf8Decode x, flush_iff.2 ⟨x, hx, replaced_iff.2 rfl⟩⟩
  · intro c hc
    obtain ⟨p, hp, hc⟩ := List.mem_flatten.1 hc
    obtain ⟨b, hb', rfl⟩ := List.mem_map.1 hp
    exact codeToStr_digits (hb b hb') c hc

theorem runIn_all {α : Type} {mark : α → Prop} {l r : List α} (h : ∀ x ∈ l, ¬ mark x) : RunIn mark l r ↔ r = l := by
  constructor
  · rintro ⟨a, b, rfl, -, ha, hb⟩
    have e1 : a = [] := by
      rcases List.eq_nil_or_concat a with rfl | ⟨a', x, rfl⟩
      · rfl
      · exact absurd (ha x (by simp)) (h x (by simp))
    have e2 : b = [] := by
      cases b with
      | nil => rfl
      | cons x b => exact absurd (hb x rfl) (h x (by simp))
    rw [e1, e2]; simp
  · rintro rfl
    exact ⟨[], [], by simp, h, by simp, by simp⟩

theorem runIn_mark {α : Type} {mark : α → Prop} {l r rest : List α} {m : α} (h : ∀ x ∈ l, ¬ mark x) (hm : mark m) :
    RunIn mark (l ++ m :: rest) r ↔ r = l ∨ RunIn mark rest r := by
  constructor
  · rintro ⟨a, b, e, hr, ha, hb⟩
    cases a with
    | nil =>
      left
      rw [List.nil_append, List.append_eq_append_iff] at e
      rcases e with ⟨c, h1, h2⟩ | ⟨c, h1, h2⟩
      · cases c with
        | nil => simpa using h1
        | cons x c =>
          rw [List.cons_append] at h2; cases h2
          exact absurd hm (hr _ (by rw [h1]; simp))
      · cases c with
        | nil => simpa using h1.symm
        | cons x c =>
          rw [h2] at hb
          exact absurd (hb x rfl) (h x (by rw [h1]; simp))
    | cons x a =>
      right
      -- the mark before `r` is not in `l`
      rw [List.append_assoc, List.append_eq_append_iff] at e
      rcases e with ⟨c, h1, h2⟩ | ⟨c, h1, h2⟩
      · cases c with
        | nil =>
          rw [List.append_nil] at h1
          obtain ⟨y, hy⟩ : ∃ y, (x :: a).getLast? = some y := ⟨_, List.getLast?_eq_some_getLast (List.cons_ne_nil x a)⟩
          exact absurd (ha y hy) (h y (by rw [← h1]; exact List.mem_of_getLast? hy))
        | cons y c =>
          rw [List.cons_append] at h2
          cases h2
          refine ⟨c, b, by simp, hr, fun z hz => ?_, hb⟩
          refine ha z ?_
          rw [h1]
          cases c with
          | nil => cases hz
          | cons w c => rw [List.getLast?_append, List.getLast?_cons_cons, hz]; rfl
      · obtain ⟨y, hy⟩ : ∃ y, (x :: a).getLast? = some y := ⟨_, List.getLast?_eq_some_getLast (List.cons_ne_nil x a)⟩
        exact absurd (ha y hy) (h y (by rw [h1]; exact List.mem_append_left _ (List.mem_of_getLast? hy)))
  · rintro (rfl | ⟨a, b, rfl, hr, ha, hb⟩)
    · exact ⟨[], m :: rest, by simp, h, by simp, fun x hx => by cases hx; exact hm⟩
    · refine ⟨l ++ m :: a, b, by simp, hr, fun x hx => ?_, hb⟩
      rw [List.getLast?_append] at hx
      cases a with
      | nil => simp at hx; exact hx ▸ hm
      | cons y a =>
        rw [List.getLast?_cons_cons] at hx
        cases hl : (y :: a).getLast? with
        | none => simp at hl
        | some z => rw [hl] at hx; cases hx; exact ha _ hl

/-- name of an id of the built-in vocabulary -/
def byteName (i : Nat) : Str := if i < 256 then codeToStr i else if i = 256 then lit "<s>" else lit "</s>"

theorem ByteOK.names_ids {s : Scheme} (h : ByteOK s) {ids : List Nat} (hi : ∀ i ∈ ids, i < 258) :
    Verif.namesOf s.table (ids.map fun i : Nat => (i : Int)) = .ok (ids.map byteName) := by
  induction ids with
  | nil => rfl
  | cons i ids ih =>
    have hg : ∃ t, s.table[i]? = some t ∧ t.name = byteName i := by
      rw [h.table, byteName]
      by_cases h1 : i < 256
      · exact ⟨_, byteVocab_get h1, by rw [if_pos h1]⟩
      · rw [if_neg h1]
        by_cases h2 : i = 256
        · subst h2; exact ⟨_, byteVocab_get256, rfl⟩
        · have h3 : i = 257 := by have := hi i (by simp); omega
          subst h3; exact ⟨_, byteVocab_get257, rfl⟩
    obtain ⟨t, ht, hn⟩ := hg
    simp only [List.map_cons, Verif.namesOf, pyIndex_some ht, ih (fun c hc => hi c (by simp [hc])), hn]

theorem ByteOK.ids_iff {s : Scheme} (h : ByteOK s) (ids : List Nat) (hi : ∀ i ∈ ids, i < 258) : ∀ bs : List Nat, (∀ b ∈ bs, b < 256) →
    ((∃ t, byteDecode s (ids.map byteName) (bs.map codeToStr) = .ok t) ↔
      ∀ r, RunIn (256 ≤ ·) (bs ++ ids) r → r.countP (· < 16) % 2 = 0) := by
  induction ids with
  | nil =>
    intro bs hb
    rw [List.map_nil, byteDecode, flush_codes hb, List.append_nil]
    simp only [runIn_all (mark := fun x : Nat => 256 ≤ x) (l := bs) fun x hx => by have := hb x hx; omega]
    exact ⟨fun h r hr => hr ▸ h, fun h => h bs rfl⟩
  | cons i ids ih =>
    intro bs hb
    have hi' : ∀ i ∈ ids, i < 258 := fun c hc => hi c (by simp [hc])
    by_cases h1 : i < 256
    · have e : byteDecode s ((i :: ids).map byteName) (bs.map codeToStr) = byteDecode s (ids.map byteName) ((bs ++ [i]).map codeToStr) := by
        rw [List.map_cons, show byteName i = codeToStr i by rw [byteName, if_pos h1], byteDecode, h.code_not_reserved h1, if_neg (by simp)]
        simp
      rw [e, ih hi' (bs ++ [i]) (by
        intro b hb'
        rcases List.mem_append.1 hb' with hb' | hb'
        · exact hb b hb'
        · rw [List.mem_singleton.1 hb']; exact h1)]
      simp
    · have hr : s.pieceReserved (byteName i) = true := by
        rw [byteName, if_neg h1]
        split
        · exact h.bos_reserved
        · exact h.eos_reserved
      have ih0 := ih hi' [] (by simp)
      rw [List.map_nil, List.nil_append] at ih0
      have step : (∃ t, byteDecode s ((i :: ids).map byteName) (bs.map codeToStr) = .ok t) ↔
          (∃ t, (if (bs.map codeToStr).isEmpty then (.ok [] : Py Str) else composeStr (bs.map codeToStr)) = .ok t) ∧
          ∃ t, byteDecode s (ids.map byteName) [] = .ok t := by
        rw [List.map_cons, byteDecode, if_pos hr]
        cases (if (bs.map codeToStr).isEmpty then (.ok [] : Py Str) else composeStr (bs.map codeToStr)) with
        | error e => simp
        | ok a => cases byteDecode s (ids.map byteName) [] <;> simp
      rw [step, flush_codes hb, ih0]
      simp only [runIn_mark (mark := fun x : Nat => 256 ≤ x) (l := bs) (m := i) (rest := ids) (fun x hx => by have := hb x hx; omega) (by omega)]
      constructor
      · rintro ⟨g1, g2⟩ r (rfl | hr)
        · exact g1
        · exact g2 r hr
      · intro g
        exact ⟨g bs (.inl rfl), fun r hr => g r (.inr hr)⟩

/-- C104: a sequence of ids of the built-in byte vocabulary is decoded without error exactly if every longest run of ids without the two
markers (256 and 257) has an even number of ids below 16 (bytes below 16 are written with one digit); otherwise decoding raises ValueError. -/
theorem C104_ids {s : Scheme} (h : Scheme.make .byte [] = .ok s) {ids : List Nat} (hi : ∀ i ∈ ids, i < 258) :
    ((∃ t, s.decode (ids.map fun i : Nat => (i : Int)) = .ok t) ↔ ∀ r, RunIn (256 ≤ ·) ids r → r.countP (· < 16) % 2 = 0) ∧
    ∀ e, s.decode (ids.map fun i : Nat => (i : Int)) = .error e → e = .value := by
  have hk := make_byte_ok h
  have e : s.decode (ids.map fun i : Nat => (i : Int)) = s.decodeStr (ids.map byteName) := by
    rw [Scheme.decode, hk.names_ids hi]
  rw [e]
  refine ⟨?_, (C104_pieces h _).2⟩
  have := hk.ids_iff ids hi [] (by simp)
  simpa only [Scheme.decodeStr, hk.kind, List.map_nil, List.nil_append] using this

/-- C104: byte ids of at least 16, whether they are UTF-8 or not, are decoded with replacement characters. -/
theorem C104_text {s : Scheme} (h : Scheme.make .byte [] = .ok s) {ids : List Nat} (hi : ∀ i ∈ ids, 16 ≤ i ∧ i < 256) (t : Str) :
    s.decode (ids.map fun i : Nat => (i : Int)) = .ok t ↔ Replaced ids t := by
  have hk := make_byte_ok h
  rw [Scheme.decode, hk.namesOf ids fun b hb => (hi b hb).2, replaced_iff]
  simp only [Scheme.decodeStr, hk.kind]
  have := hk.byteDecode_run ids (fun b hb => (hi b hb).2) [] []
  rw [List.append_nil, List.nil_append] at this
  rw [this, byteDecode, composeStr_codes ids hi]
  simp [eq_comm]

/-- upper case and white space are accepted between bytes; a lone digit is not; each run is decoded for itself, so a character cut by a
marker becomes two replacement characters -/
example : (match Scheme.make .byte [] with
    | .ok s => decide (s.decodeStr [lit "E", lit "2 ", lit "\t96", lit "81\n", lit "<s>", lit "41"] = .ok (0x2581 :: lit "<s>A") ∧
        s.decodeStr [lit "4 1"] = .error .value ∧ s.decodeStr [lit "\x1c"] = .error .value ∧
        s.decode [0xE2, 0x96, 257, 0x81] = .ok ([0xFFFD] ++ lit "</s>" ++ [0xFFFD]) ∧
        s.decode [10, 256, 10] = .error .value ∧ s.decode [0x41, 4, 1, 256, 0x42] = .ok (lit "AA<s>B"))
    | _ => false) = true := by decide +kernel

/-- the runs of `10 4 256 65` are `10 4` and `65` -/
example : ∀ r, RunIn (256 ≤ ·) [10, 4, 256, 65] r → r.countP (· < 16) % 2 = 0 := by
  intro r h
  rcases (runIn_mark (l := [10, 4]) (by decide) (by decide)).1 h with rfl | h
  · decide
  · rw [(runIn_all (by decide)).1 h]; decide

end Verif
