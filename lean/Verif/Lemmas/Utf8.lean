import Verif.Model.Utf8
/-! # UTF-8 and hexadecimal lemmas -/

namespace Verif

/-- a Unicode scalar value: the code points that UTF-8 can encode -/
def Scalar (c : Nat) : Prop := c < 0x110000 ∧ ¬ (0xD800 ≤ c ∧ c ≤ 0xDFFF)

theorem utf8Char_ok {c : Nat} (h : Scalar c) : ∃ bs, utf8Char c = .ok bs ∧ bs ≠ [] ∧ (∀ b ∈ bs, b < 256) ∧
    ∀ r, ∃ x y, bs = x :: y ∧ utf8Step (bs ++ r) = (some (c, r), r) := by
  obtain ⟨h1, h2⟩ := h
  unfold utf8Char
  by_cases a1 : c < 0x80
  · refine ⟨[c], by rw [if_pos a1], by simp, by simp; omega, fun r => ⟨c, [], rfl, ?_⟩⟩
    simp [utf8Step, a1]
  by_cases a2 : c < 0x800
  · refine ⟨[0xC0 + c / 64, 0x80 + c % 64], by rw [if_neg a1, if_pos a2], by simp, by simp; omega,
      fun r => ⟨_, _, rfl, ?_⟩⟩
    have e1 : ¬ (0xC0 + c / 64 < 0x80) := by omega
    have e2 : 0xC2 ≤ 0xC0 + c / 64 ∧ 0xC0 + c / 64 ≤ 0xDF := by omega
    have e3 : isCont (0x80 + c % 64) = true := by simp [isCont]; omega
    have e4 : (0xC0 + c / 64 - 0xC0) * 64 + (0x80 + c % 64 - 0x80) = c := by omega
    simp only [List.cons_append, List.nil_append, utf8Step]
    rw [if_neg e1, if_pos e2, if_pos e3, e4]
  by_cases a3 : c < 0x10000
  · refine ⟨[0xE0 + c / 4096, 0x80 + c / 64 % 64, 0x80 + c % 64], by rw [if_neg a1, if_neg a2, if_neg h2, if_pos a3],
      by simp, by simp; omega, fun r => ⟨_, _, rfl, ?_⟩⟩
    have e1 : ¬ (0xE0 + c / 4096 < 0x80) := by omega
    have e2 : ¬ (0xC2 ≤ 0xE0 + c / 4096 ∧ 0xE0 + c / 4096 ≤ 0xDF) := by omega
    have e3 : 0xE0 ≤ 0xE0 + c / 4096 ∧ 0xE0 + c / 4096 ≤ 0xEF := by omega
    have e4 : (if 0xE0 + c / 4096 = 0xE0 then 0xA0 else 0x80) ≤ 0x80 + c / 64 % 64 ∧
        0x80 + c / 64 % 64 ≤ (if 0xE0 + c / 4096 = 0xED then 0x9F else 0xBF) := by
      constructor <;> split <;> omega
    have e5 : isCont (0x80 + c % 64) = true := by simp [isCont]; omega
    have e6 : (0xE0 + c / 4096 - 0xE0) * 4096 + (0x80 + c / 64 % 64 - 0x80) * 64 + (0x80 + c % 64 - 0x80) = c := by omega
    simp only [List.cons_append, List.nil_append, utf8Step]
    rw [if_neg e1, if_neg e2, if_pos e3, if_pos e4, if_pos e5, e6]
  · refine ⟨[0xF0 + c / 262144, 0x80 + c / 4096 % 64, 0x80 + c / 64 % 64, 0x80 + c % 64],
      by rw [if_neg a1, if_neg a2, if_neg h2, if_neg a3, if_pos h1], by simp, by simp; omega, fun r => ⟨_, _, rfl, ?_⟩⟩
    have e1 : ¬ (0xF0 + c / 262144 < 0x80) := by omega
    have e2 : ¬ (0xC2 ≤ 0xF0 + c / 262144 ∧ 0xF0 + c / 262144 ≤ 0xDF) := by omega
    have e3 : ¬ (0xE0 ≤ 0xF0 + c / 262144 ∧ 0xF0 + c / 262144 ≤ 0xEF) := by omega
    have e3' : 0xF0 ≤ 0xF0 + c / 262144 ∧ 0xF0 + c / 262144 ≤ 0xF4 := by omega
    have e4 : (if 0xF0 + c / 262144 = 0xF0 then 0x90 else 0x80) ≤ 0x80 + c / 4096 % 64 ∧
        0x80 + c / 4096 % 64 ≤ (if 0xF0 + c / 262144 = 0xF4 then 0x8F else 0xBF) := by
      constructor <;> split <;> omega
    have e5 : isCont (0x80 + c % 64) = true := by simp [isCont]; omega
    have e5' : isCont (0x80 + c / 64 % 64) = true := by simp [isCont]; omega
    have e6 : (0xF0 + c / 262144 - 0xF0) * 262144 + (0x80 + c / 4096 % 64 - 0x80) * 4096 +
        (0x80 + c / 64 % 64 - 0x80) * 64 + (0x80 + c % 64 - 0x80) = c := by omega
    simp only [List.cons_append, List.nil_append, utf8Step]
    rw [if_neg e1, if_neg e2, if_neg e3, if_pos e3', if_pos e4, if_pos e5', if_pos e5, e6]

theorem utf8Char_error {c : Nat} (h : ¬ Scalar c) : utf8Char c = .error .unicode := by
  unfold Scalar at h
  unfold utf8Char
  by_cases a1 : c < 0x80
  · omega
  by_cases a2 : c < 0x800
  · omega
  rw [if_neg a1, if_neg a2]
  by_cases a3 : 0xD800 ≤ c ∧ c ≤ 0xDFFF
  · rw [if_pos a3]
  · rw [if_neg a3, if_neg (by omega), if_neg (by omega)]

/-- a step that decodes one character read exactly the encoding of that character -/
theorem utf8Step_some {bs r r' : List Nat} {c : Nat} (h : utf8Step bs = (some (c, r), r')) :
    ∃ x, utf8Char c = .ok x ∧ bs = x ++ r ∧ x ≠ [] := by
  cases bs with
  | nil => simp [utf8Step] at h
  | cons b0 t =>
    simp only [utf8Step] at h
    by_cases a1 : b0 < 0x80
    · rw [if_pos a1] at h
      simp only [Prod.mk.injEq, Option.some.injEq] at h
      obtain ⟨⟨rfl, rfl⟩, rfl⟩ := h
      exact ⟨[b0], by simp [utf8Char, a1], rfl, by simp⟩
    rw [if_neg a1] at h
    by_cases a2 : 0xC2 ≤ b0 ∧ b0 ≤ 0xDF
    · rw [if_pos a2] at h
      cases t with
      | nil => simp at h
      | cons b1 t1 =>
        simp only at h
        by_cases c1 : isCont b1 = true
        · rw [if_pos c1] at h
          simp only [Prod.mk.injEq, Option.some.injEq] at h
          obtain ⟨⟨rfl, rfl⟩, rfl⟩ := h
          simp only [isCont, Bool.and_eq_true, decide_eq_true_eq] at c1
          refine ⟨[b0, b1], ?_, rfl, by simp⟩
          unfold utf8Char
          rw [if_neg (by omega), if_pos (by omega)]
          have e1 : 0xC0 + ((b0 - 0xC0) * 64 + (b1 - 0x80)) / 64 = b0 := by omega
          have e2 : 0x80 + ((b0 - 0xC0) * 64 + (b1 - 0x80)) % 64 = b1 := by omega
          rw [e1, e2]
        · rw [if_neg c1] at h; simp at h
    rw [if_neg a2] at h
    by_cases a3 : 0xE0 ≤ b0 ∧ b0 ≤ 0xEF
    · rw [if_pos a3] at h
      cases t with
      | nil => simp at h
      | cons b1 t1 =>
        simp only at h
        by_cases c1 : (if b0 = 0xE0 then 0xA0 else 0x80) ≤ b1 ∧ b1 ≤ (if b0 = 0xED then 0x9F else 0xBF)
        · rw [if_pos c1] at h
          cases t1 with
          | nil => simp at h
          | cons b2 t2 =>
            simp only at h
            by_cases c2 : isCont b2 = true
            · rw [if_pos c2] at h
              simp only [Prod.mk.injEq, Option.some.injEq] at h
              obtain ⟨⟨rfl, rfl⟩, rfl⟩ := h
              simp only [isCont, Bool.and_eq_true, decide_eq_true_eq] at c2
              refine ⟨[b0, b1, b2], ?_, rfl, by simp⟩
              have f1 : (b0 = 0xE0 → 0xA0 ≤ b1) ∧ 0x80 ≤ b1 ∧ b1 ≤ 0xBF ∧ (b0 = 0xED → b1 ≤ 0x9F) := by
                obtain ⟨p, q⟩ := c1
                refine ⟨fun e => by rw [if_pos e] at p; exact p, ?_, ?_, fun e => by rw [if_pos e] at q; exact q⟩
                · split at p <;> omega
                · split at q <;> omega
              unfold utf8Char
              have e1 : 0xE0 + ((b0 - 0xE0) * 4096 + (b1 - 0x80) * 64 + (b2 - 0x80)) / 4096 = b0 := by omega
              have e2 : 0x80 + ((b0 - 0xE0) * 4096 + (b1 - 0x80) * 64 + (b2 - 0x80)) / 64 % 64 = b1 := by omega
              have e3 : 0x80 + ((b0 - 0xE0) * 4096 + (b1 - 0x80) * 64 + (b2 - 0x80)) % 64 = b2 := by omega
              rw [if_neg (by omega), if_neg (by omega), if_neg (by omega), if_pos (by omega), e1, e2, e3]
            · rw [if_neg c2] at h; simp at h
        · rw [if_neg c1] at h; simp at h
    rw [if_neg a3] at h
    by_cases a4 : 0xF0 ≤ b0 ∧ b0 ≤ 0xF4
    · rw [if_pos a4] at h
      cases t with
      | nil => simp at h
      | cons b1 t1 =>
        simp only at h
        by_cases c1 : (if b0 = 0xF0 then 0x90 else 0x80) ≤ b1 ∧ b1 ≤ (if b0 = 0xF4 then 0x8F else 0xBF)
        · rw [if_pos c1] at h
          cases t1 with
          | nil => simp at h
          | cons b2 t2 =>
            simp only at h
            by_cases c2 : isCont b2 = true
            · rw [if_pos c2] at h
              cases t2 with
              | nil => simp at h
              | cons b3 t3 =>
                simp only at h
                by_cases c3 : isCont b3 = true
                · rw [if_pos c3] at h
                  simp only [Prod.mk.injEq, Option.some.injEq] at h
                  obtain ⟨⟨rfl, rfl⟩, rfl⟩ := h
                  simp only [isCont, Bool.and_eq_true, decide_eq_true_eq] at c2 c3
                  refine ⟨[b0, b1, b2, b3], ?_, rfl, by simp⟩
                  have f1 : (b0 = 0xF0 → 0x90 ≤ b1) ∧ 0x80 ≤ b1 ∧ b1 ≤ 0xBF ∧ (b0 = 0xF4 → b1 ≤ 0x8F) := by
                    obtain ⟨p, q⟩ := c1
                    refine ⟨fun e => by rw [if_pos e] at p; exact p, ?_, ?_, fun e => by rw [if_pos e] at q; exact q⟩
                    · split at p <;> omega
                    · split at q <;> omega
                  unfold utf8Char
                  generalize hv : (b0 - 0xF0) * 262144 + (b1 - 0x80) * 4096 + (b2 - 0x80) * 64 + (b3 - 0x80) = v
                  have e1 : 0xF0 + v / 262144 = b0 := by omega
                  have e2 : 0x80 + v / 4096 % 64 = b1 := by omega
                  have e3 : 0x80 + v / 64 % 64 = b2 := by omega
                  have e4 : 0x80 + v % 64 = b3 := by omega
                  rw [if_neg (by omega), if_neg (by omega), if_neg (by omega), if_neg (by omega), if_pos (by omega),
                    e1, e2, e3, e4]
                · rw [if_neg c3] at h; simp at h
            · rw [if_neg c2] at h; simp at h
        · rw [if_neg c1] at h; simp at h
    · rw [if_neg a4] at h; simp at h

/-- one decoding step on a non-empty list either yields one char or a strictly shorter rest -/
theorem utf8Step_none {b : Nat} {t r : List Nat} (h : utf8Step (b :: t) = (none, r)) : r.length ≤ t.length := by
  simp only [utf8Step] at h
  repeat' split at h
  all_goals first
    | (simp only [Prod.mk.injEq, reduceCtorEq, false_and] at h; done)
    | (simp only [Prod.mk.injEq, true_and] at h; subst h; simp; try omega)

theorem utf8Encode_ok (s : Str) (h : ∀ c ∈ s, Scalar c) : ∃ bs, utf8Encode s = .ok bs ∧ (∀ b ∈ bs, b < 256) := by
  induction s with
  | nil => exact ⟨[], rfl, by simp⟩
  | cons c cs ih =>
    obtain ⟨x, hx, _, hx2, _⟩ := utf8Char_ok (h c (by simp))
    obtain ⟨y, hy, hy2⟩ := ih (fun d hd => h d (by simp [hd]))
    refine ⟨x ++ y, by simp [utf8Encode, hx, hy], ?_⟩
    intro b hb
    rcases List.mem_append.1 hb with hb | hb
    · exact hx2 b hb
    · exact hy2 b hb

theorem utf8Encode_scalar {s : Str} {bs : List Nat} (h : utf8Encode s = .ok bs) : ∀ c ∈ s, Scalar c := by
  induction s generalizing bs with
  | nil => simp
  | cons c cs ih =>
    by_cases hc : Scalar c
    · obtain ⟨x, hx, _⟩ := utf8Char_ok hc
      simp only [utf8Encode, hx] at h
      cases hy : utf8Encode cs with
      | error e => simp [hy] at h
      | ok y =>
        intro d hd
        rcases List.mem_cons.1 hd with rfl | hd
        · exact hc
        · exact ih hy d hd
    · simp [utf8Encode, utf8Char_error hc] at h

theorem utf8Encode_append {s t : Str} {x y : List Nat} (hx : utf8Encode s = .ok x) (hy : utf8Encode t = .ok y) :
    utf8Encode (s ++ t) = .ok (x ++ y) := by
  induction s generalizing x with
  | nil => simp [utf8Encode] at hx; subst hx; simpa using hy
  | cons c cs ih =>
    simp only [utf8Encode] at hx
    cases hc : utf8Char c with
    | error e => simp [hc] at hx
    | ok a =>
      cases hr : utf8Encode cs with
      | error e => simp [hc, hr] at hx
      | ok b =>
        simp only [hc, hr] at hx
        cases hx
        simp [utf8Encode, hc, ih hr]

theorem utf8DecAux_encode (s : Str) : ∀ (bs : List Nat) (k : Nat), utf8Encode s = .ok bs → bs.length ≤ k →
    utf8DecAux k bs = s := by
  induction s with
  | nil =>
    intro bs k h _
    simp [utf8Encode] at h
    subst h
    cases k <;> rfl
  | cons c cs ih =>
    intro bs k h hk
    have hsc := utf8Encode_scalar h c (by simp)
    obtain ⟨x, hx, hne, _, hstep⟩ := utf8Char_ok hsc
    simp only [utf8Encode, hx] at h
    cases hy : utf8Encode cs with
    | error e => simp [hy] at h
    | ok y =>
      simp only [hy] at h
      cases h
      obtain ⟨a, b, hab, hs⟩ := hstep y
      subst hab
      cases k with
      | zero => simp at hk
      | succ k =>
        simp only [List.cons_append] at hs ⊢
        rw [utf8DecAux, hs]
        simp only
        rw [ih y k hy (by simp at hk; omega)]

theorem utf8Decode_encode {s : Str} {bs : List Nat} (h : utf8Encode s = .ok bs) : utf8Decode bs = s :=
  utf8DecAux_encode s bs bs.length h (Nat.le_refl _)

/-- without replacement characters in the output, the input was the encoding of the output -/
theorem utf8DecAux_inv : ∀ (k : Nat) (bs : List Nat), bs.length ≤ k → 0xFFFD ∉ utf8DecAux k bs →
    utf8Encode (utf8DecAux k bs) = .ok bs := by
  intro k
  induction k with
  | zero => intro bs h _; simp at h; subst h; rfl
  | succ k ih =>
    intro bs hk hn
    cases bs with
    | nil => rfl
    | cons b t =>
      rw [utf8DecAux] at hn ⊢
      cases hs : utf8Step (b :: t) with
      | mk o r =>
        cases o with
        | none => simp [hs] at hn
        | some p =>
          obtain ⟨c, r'⟩ := p
          simp only [hs] at hn ⊢
          obtain ⟨x, hx, he, hne⟩ := utf8Step_some hs
          have hl : r'.length ≤ k := by
            have := congrArg List.length he
            have := List.length_pos_iff.2 hne
            simp at *; omega
          have := ih r' hl (fun hm => hn (List.mem_cons_of_mem _ hm))
          simp [utf8Encode, hx, this, he]

theorem utf8Decode_inv {bs : List Nat} (h : 0xFFFD ∉ utf8Decode bs) : utf8Encode (utf8Decode bs) = .ok bs :=
  utf8DecAux_inv _ _ (Nat.le_refl _) h

/-- agreement with the encoder of Lean's own library -/
theorem utf8Char_eq (c : Char) : utf8Char c.toNat = .ok ((String.utf8EncodeChar c).map UInt8.toNat) := by
  have hv : c.toNat < 0x110000 ∧ ¬ (0xD800 ≤ c.toNat ∧ c.toNat ≤ 0xDFFF) := by
    have := c.valid
    simp only [UInt32.isValidChar, Nat.isValidChar] at this
    simp only [Char.toNat]
    omega
  simp only [utf8Char, String.utf8EncodeChar]
  change _ = Except.ok (List.map _ (if c.toNat ≤ 0x7f then _ else _))
  generalize hn : c.toNat = v at *
  have hn' : c.val.toNat = v := hn
  rw [hn']
  by_cases a1 : v < 0x80
  · rw [if_pos a1, if_pos (by omega)]
    simp; omega
  by_cases a2 : v < 0x800
  · rw [if_neg a1, if_pos a2, if_neg (by omega), if_pos (by omega)]
    simp; omega
  rw [if_neg a1, if_neg a2, if_neg hv.2]
  by_cases a3 : v < 0x10000
  · rw [if_pos a3, if_neg (by omega), if_neg (by omega), if_pos (by omega)]
    simp; omega
  · rw [if_neg a3, if_pos hv.1, if_neg (by omega), if_neg (by omega), if_neg (by omega)]
    simp; omega

theorem utf8Encode_eq (s : List Char) : utf8Encode (s.map Char.toNat) = .ok ((s.flatMap String.utf8EncodeChar).map UInt8.toNat) := by
  induction s with
  | nil => rfl
  | cons c cs ih => simp [utf8Encode, utf8Char_eq, ih]

/-- the texts over scalar values are the texts of Lean strings -/
theorem exists_lit {s : Str} (h : ∀ c ∈ s, Scalar c) : ∃ str : String, lit str = s := by
  have : ∃ l : List Char, l.map Char.toNat = s := by
    induction s with
    | nil => exact ⟨[], rfl⟩
    | cons c cs ih =>
      obtain ⟨l, hl⟩ := ih (fun d hd => h d (by simp [hd]))
      have hc := h c (by simp)
      have hv : c.isValidChar := by
        simp only [Nat.isValidChar]
        unfold Scalar at hc
        omega
      refine ⟨Char.ofNatAux c hv :: l, ?_⟩
      rw [List.map_cons, hl]
      rfl
  obtain ⟨l, hl⟩ := this
  exact ⟨String.ofList l, by simp [lit, hl]⟩

theorem lit_scalar (str : String) : ∀ c ∈ lit str, Scalar c := by
  intro c hc
  obtain ⟨d, _, rfl⟩ := List.mem_map.1 hc
  have := d.valid
  simp only [UInt32.isValidChar, Nat.isValidChar] at this
  simp only [Scalar, Char.toNat]
  omega

/-! ## hexadecimal -/

theorem hexVal_hexDigit : ∀ d, d < 16 → hexVal (hexDigit d) = some d ∧ isAsciiSpace (hexDigit d) = false := by decide

theorem fromHex_code {b : Nat} (h1 : 16 ≤ b) (h2 : b < 256) (r : Str) :
    fromHex (codeToStr b ++ r) = match fromHex r with
      | .ok bs => .ok (b :: bs)
      | .error e => .error e := by
  have hb : codeToStr b = [hexDigit (b / 16), hexDigit (b % 16)] := by
    rw [codeToStr, if_neg (by omega)]
  obtain ⟨p, q⟩ := hexVal_hexDigit (b / 16) (by omega)
  obtain ⟨p', _⟩ := hexVal_hexDigit (b % 16) (by omega)
  rw [hb]
  simp only [List.cons_append, List.nil_append, fromHex, q, Bool.false_eq_true, if_false, p, p']
  have : b / 16 * 16 + b % 16 = b := by omega
  rw [this]
  rfl

theorem fromHex_codes (bs : List Nat) (h : ∀ b ∈ bs, 16 ≤ b ∧ b < 256) :
    fromHex (bs.map codeToStr).flatten = .ok bs := by
  induction bs with
  | nil => rfl
  | cons b bs ih =>
    have := h b (by simp)
    rw [List.map_cons, List.flatten_cons, fromHex_code this.1 this.2, ih (fun c hc => h c (by simp [hc]))]

/-- `fromHex` gives at most half as many bytes as digits -/
theorem fromHex_length : ∀ (s : Str) (bs : List Nat), fromHex s = .ok bs → 2 * bs.length ≤ s.length := by
  intro s
  induction s using fromHex.induct with
  | case1 => intro bs h; simp [fromHex] at h; subst h; simp
  | case2 c hc => intro bs h; simp [fromHex, hc] at h; subst h; simp
  | case3 c hc => intro bs h; simp [fromHex, hc] at h
  | case4 c d r hc ih =>
    intro bs h
    rw [fromHex, if_pos hc] at h
    have := ih bs h
    simp at *; omega
  | case5 c d r hc x y ihx ihy bs' hr ih =>
    intro bs h
    rw [fromHex, if_neg hc] at h
    simp only [ihx, ihy, hr] at h
    cases h
    have := ih bs' hr
    simp at *; omega
  | case6 c d r hc x y ihx ihy e hr ih =>
    intro bs h
    rw [fromHex, if_neg hc] at h
    simp [ihx, ihy, hr] at h
  | case7 c d r hc hno =>
    intro bs h
    rw [fromHex, if_neg hc] at h
    split at h
    · rename_i a b ha hb; exact absurd hb (hno a b ha)
    · cases h

theorem codeToStr_length (b : Nat) : (codeToStr b).length = if b < 16 then 1 else 2 := by
  rw [codeToStr]; split <;> rfl

theorem hexDigit_inj {a b : Nat} (ha : a < 16) (hb : b < 16) (h : hexDigit a = hexDigit b) : a = b := by
  have := (hexVal_hexDigit a ha).1
  rw [h, (hexVal_hexDigit b hb).1] at this
  simpa using this.symm

theorem codeToStr_inj {a b : Nat} (ha : a < 256) (hb : b < 256) (h : codeToStr a = codeToStr b) : a = b := by
  have hl := congrArg List.length h
  rw [codeToStr_length a, codeToStr_length b] at hl
  simp only [codeToStr] at h
  by_cases h1 : a < 16
  · by_cases h2 : b < 16
    · rw [if_pos h1, if_pos h2] at h
      exact hexDigit_inj h1 h2 (by simpa using h)
    · simp [h1, h2] at hl
  · by_cases h2 : b < 16
    · simp [h1, h2] at hl
    · rw [if_neg h1, if_neg h2] at h
      simp only [List.cons.injEq, and_true] at h
      have e1 := hexDigit_inj (by omega) (by omega) h.1
      have e2 := hexDigit_inj (by omega) (by omega) h.2
      omega

end Verif
