import Verif.Lemmas.Abugida
/-!
# Properties C67, C69, C75: rewriting of Devanagari text

Experimental scripts of the repository.  `Everywhere P line` (Verif/Spec/Abugida.lean): the condition holds at every position,
given the neighbouring characters.
-/

namespace Verif
open Spec

/-! ## C67 -/

/-- the expansion only inserts the marker -/
theorem uxDecode_encode (line : Str) : uxDecode (uxEncode line) = line.filter fun c => c != uxMarker := by
  induction line with
  | nil => rfl
  | cons c r ih =>
    rw [uxEncode]
    simp only [uxDecode] at ih ⊢
    split
    · simp [List.filter_cons, ih]
    · simp [List.filter_cons, ih]

/-- C67: decoding the expansion of a line restores it exactly when the marker U+22EE does not occur in it. -/
theorem C67_expansion (line : Str) : uxDecode (uxEncode line) = line ↔ 0x22EE ∉ line := by
  rw [uxDecode_encode, List.filter_eq_self]
  constructor
  · intro h hm
    have := h _ hm
    simp [uxMarker] at this
  · intro h c hc
    simp [uxMarker]
    rintro rfl
    exact h hc

/-- C67: the expansion puts the marker between any two adjacent consonants: no two consonants are adjacent in the result. -/
theorem C67_separates (line : Str) : Everywhere (fun prev c _ => ∀ p, prev = some p → ¬ (Consonant p ∧ Consonant c)) (uxEncode line) := by
  have hk : ∀ c, isDevaConsonant c = true ↔ Consonant c := by
    intro c; simp [isDevaConsonant, Consonant]
  have hm : ¬ Consonant uxMarker := by simp [Consonant, uxMarker]
  rw [everywhere_iff]
  have hhead : ∀ l, (uxEncode l).head? = l.head? := by
    intro l; cases l with
    | nil => rfl
    | cons c r => rw [uxEncode]; split <;> rfl
  have key : ∀ (l : Str) (prev : Option Nat), (∀ p c, prev = some p → l.head? = some c → ¬ (Consonant p ∧ Consonant c)) →
      okAt (fun prev c _ => ∀ p, prev = some p → ¬ (Consonant p ∧ Consonant c)) prev (uxEncode l) := by
    intro l
    induction l with
    | nil => intro _ _; simp [uxEncode, okAt]
    | cons c r ih =>
      intro prev hp
      rw [uxEncode]
      split
      · refine ⟨fun p h => hp p c h rfl, ?_, ih _ ?_⟩
        · rintro p _ ⟨_, h⟩; exact hm h
        · rintro p d ⟨⟩ _ ⟨h, _⟩; exact hm h
      · rename_i hcond
        refine ⟨fun p h => hp p c h rfl, ih _ ?_⟩
        rintro p d ⟨⟩ hd ⟨h1, h2⟩
        cases r with
        | nil => simp at hd
        | cons x r =>
          simp at hd
          subst hd
          simp [nextIs, (hk c).2 h1, (hk x).2 h2] at hcond
  exact key line none (by simp)

/-- C67: and nowhere else; in the expansion of a line without the marker every marker stands between two consonants. -/
theorem C67_between {line : Str} (hm : 0x22EE ∉ line) :
    Everywhere (fun prev c next => c = 0x22EE → ∃ p n, prev = some p ∧ next = some n ∧ Consonant p ∧ Consonant n) (uxEncode line) := by
  have hk : ∀ c, isDevaConsonant c = true → Consonant c := by
    intro c; simp [isDevaConsonant, Consonant]
  rw [everywhere_iff]
  generalize (none : Option Nat) = prev
  induction line generalizing prev with
  | nil => simp [uxEncode, okAt]
  | cons c r ih =>
    have hc : c ≠ 0x22EE := fun h => hm (by simp [h])
    have hr : 0x22EE ∉ r := fun h => hm (by simp [h])
    rw [uxEncode]
    split
    · rename_i hcond
      simp only [Bool.and_eq_true] at hcond
      refine ⟨fun h => absurd h hc, fun _ => ?_, ih hr _⟩
      cases r with
      | nil => simp [nextIs] at hcond
      | cons d r =>
        refine ⟨c, d, rfl, ?_, hk c hcond.1, hk d hcond.2⟩
        rw [uxEncode]; split <;> rfl
    · exact ⟨fun h => absurd h hc, ih hr _⟩

theorem uxEncode_mem {l : Str} {c : Nat} (h : c ∈ uxEncode l) : c ∈ l ∨ c = uxMarker := by
  induction l with
  | nil => simp [uxEncode] at h
  | cons d r ih =>
    rw [uxEncode] at h
    split at h
    · simp only [List.mem_cons] at h ⊢
      rcases h with h | h | h
      · exact .inl (.inl h)
      · exact .inr h
      · exact (ih h).imp .inr id
    · simp only [List.mem_cons] at h ⊢
      rcases h with h | h
      · exact .inl (.inl h)
      · exact (ih h).imp .inr id

/-- C67, whole files: the command and its inverse restore the lines of files without the marker. -/
theorem C67_file {text : Str} {ls : List Str} (h : Lines text ls) (hm : ∀ l ∈ ls, 0x22EE ∉ l) :
    uxMain true (uxMain false text) = ls.flatMap (· ++ [10]) := by
  refine rewriteFile_twice h (fun l hl => ?_) (fun l hl => (C67_expansion l).2 (hm l hl))
  have := lines_noBreak h l hl
  constructor
  · intro hc; rcases uxEncode_mem hc with h1 | h1; exacts [this.1 h1, absurd h1 (by decide)]
  · intro hc; rcases uxEncode_mem hc with h1 | h1; exacts [this.2 h1, absurd h1 (by decide)]

example : uxEncode (lit "समय") = lit "स⋮म⋮य" ∧ uxDecode (lit "स⋮म⋮य") = lit "समय" ∧ uxEncode (lit "हिन्दी") = lit "हिन्दी" := by decide
example : uxMain true (uxMain false (lit "समय\r\nहिन्दी")) = lit "समय\nहिन्दी\n" := by decide
example : uxDecode (uxEncode (lit "a⋮b")) = lit "ab" := by decide

/-! ## C69 -/

/-- C69, exact extent: encoding and decoding restores a line iff the marker U+E000 does not occur in it, every virama follows a
consonant and is followed by a consonant, a blank or nothing, and no vowel sign begins a word.  Missing from the full statement: the
other lines, for which it is false. -/
theorem C69_restored_partial (line : Str) : hindi.decode (hindi.encode line) = line ↔
    0xE000 ∉ line ∧ Everywhere (fun prev c next => ViramaOK prev c next ∧ SignOK prev c) line := by
  rw [decode_encode_iff hindi_lawful, everywhere_iff]
  have : (fun prev c next => ViramaOK prev c next ∧ SignOK prev c) = hindi.Local := by
    funext prev c next
    exact propext (hindi_local prev c next).symm
  rw [this]
  rfl

/-- an encoded line has no line break if the line has none -/
theorem hindi_enc_noBreak {l : Str} (h : NoBreak l) : NoBreak (hindi.encode l) := by
  have key : ∀ (l : Str) (p : Option Nat) (c : Nat), c ∈ hindi.enc p l → c ∈ l ∨ 0x900 ≤ c := by
    intro l
    induction l with
    | nil => simp [Abugida.enc]
    | cons d r ih =>
      intro p c hc
      rw [Abugida.enc.eq_def] at hc
      simp only [List.mem_append] at hc
      rcases hc with hc | hc
      · split at hc
        · simp at hc
        · split at hc
          · simp only [List.mem_cons] at hc
            rcases hc with rfl | hc
            · exact .inl (by simp)
            · split at hc
              · simp at hc
              · simp at hc; subst hc; exact .inr (by decide)
          · split at hc
            · simp only [List.mem_cons] at hc
              rcases hc with rfl | hc
              · exact .inl (by simp)
              · split at hc
                · simp at hc; subst hc; exact .inr (by decide)
                · simp at hc
            · split at hc
              · rename_i hf
                obtain ⟨_, _, _, v, h1, h2, _⟩ := hindi_lawful.form d hf
                rw [h1] at hc
                simp at hc
                subst hc
                rw [hindi_vowel_iff] at h2
                exact .inr (by omega)
              · simp at hc; subst hc; exact .inl (by simp)
      · exact (ih _ c hc).imp (by simp +contextual) id
  constructor
  · intro hc; rcases key _ _ _ hc with h1 | h1; exacts [h.1 h1, absurd h1 (by decide)]
  · intro hc; rcases key _ _ _ hc with h1 | h1; exacts [h.2 h1, absurd h1 (by decide)]

/-- C69, whole files: the command and its inverse restore the lines of files whose lines meet the conditions. -/
theorem C69_file_partial {text : Str} {ls : List Str} (h : Lines text ls)
    (hm : ∀ l ∈ ls, 0xE000 ∉ l ∧ Everywhere (fun prev c next => ViramaOK prev c next ∧ SignOK prev c) l) :
    abMain true (abMain false text) = ls.flatMap (· ++ [10]) :=
  rewriteFile_twice h (fun l hl => hindi_enc_noBreak (lines_noBreak h l hl)) (fun l hl => (C69_restored_partial l).2 (hm l hl))

/-- C69 is false: the virama before a danda is lost. -/
theorem C69_virama_refuted : hindi.decode (hindi.encode (lit "जगत्।")) = lit "जगत।" ∧ lit "जगत्।" ≠ lit "जगत।" := by
  refine ⟨?_, by decide⟩
  simp only [Abugida.decode, Abugida.encode]
  have h := dec_enc hindi_lawful (lit "जगत्।") (by decide) none none (fun h => h)
  rw [h]
  decide

/-- C69: the issue documented at the top of the script ("गए becomes गे") does not occur any more. -/
example : hindi.decode (hindi.encode (lit "गए")) = lit "गए" := by
  rw [C69_restored_partial]
  refine ⟨by decide, ?_⟩
  rw [everywhere_iff]
  simp [okAt, lit, ViramaOK, SignOK, VowelSign]

/-- a line with conjuncts, signs, internal vowels and a final virama meets the conditions -/
example : hindi.decode (hindi.encode (lit "हिन्दी भाषा गए जगत्")) = lit "हिन्दी भाषा गए जगत्" := by
  rw [C69_restored_partial]
  refine ⟨by decide, ?_⟩
  rw [everywhere_iff]
  simp [okAt, lit, ViramaOK, SignOK, VowelSign, Consonant, Blank]
example : hindi.encode (lit "हिन्दी गए") = [0x939, 0x907, 0x928, 0x926, 0x908, 32, 0x917, 0x905, 0x90F, 0xE000] := by decide

/-! ## C75 -/

/-- C75, exact extent of the lite variant: a line is restored iff every virama follows a consonant and is followed by a consonant, a
blank or nothing, and the letter अ does not follow a consonant.  Missing from the full statement: the other lines, for which it is
false. -/
theorem C75_lite_partial (line : Str) : hindi.liteDec (hindi.liteEnc line) = line ↔
    Everywhere (fun prev c next => ViramaOK prev c next ∧ (c = 0x905 → ∀ p, prev = some p → ¬ Consonant p)) line := by
  have h := liteRT_fix hindi_lawful _ line (Nat.le_refl _) none (Or.inl (by simp))
  rw [Abugida.liteRT] at h
  rw [h, everywhere_iff]
  have : (fun prev c next => ViramaOK prev c next ∧ (c = 0x905 → ∀ p, prev = some p → ¬ Consonant p)) = hindi.LocalLite := by
    funext prev c next
    apply propext
    have h1 := hindi_local prev c next
    have hcl : hindi.closes next = true ↔ ∀ n, next = some n → Consonant n ∨ Blank n := by
      cases next with
      | none => simp [Abugida.closes]
      | some n => simp [Abugida.closes, hindi_cons_iff, abSpace_iff, or_comm]
    simp only [Abugida.LocalLite, ViramaOK, hcl, hindi_cons_iff, Bool.eq_false_iff, ne_eq]
    rfl
  rw [this]

/-- C75 is false: the letter अ after a consonant is lost. -/
theorem C75_lite_refuted : hindi.liteDec (hindi.liteEnc (lit "गअ")) = lit "ग" := by decide

example : hindi.liteDec (hindi.liteEnc (lit "हिन्दी भाषा गए जगत्")) = lit "हिन्दी भाषा गए जगत्" := by decide
example : hindi.liteEnc (lit "समय") = lit "सअमअयअ" := by decide

end Verif
