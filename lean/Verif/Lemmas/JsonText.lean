import Verif.Spec.JsonText
import Verif.Lemmas.Str
/-! # Lemmas: printed JSON is read back -/

namespace Verif
open Spec

theorem readString_char (c : Nat) (r : Str) : readString (jsonChar c ++ r) = (readString r).map fun p => (c :: p.1, p.2) := by
  unfold jsonChar
  split
  · subst c; simp [readString, unescape]
  split
  · subst c; simp [readString, unescape]
  split
  · subst c; simp [readString, unescape]
  split
  · subst c; simp [readString, unescape]
  split
  · subst c; simp [readString, unescape]
  split
  · subst c; simp [readString, unescape]
  split
  · subst c; simp [readString, unescape]
  split
  · rename_i h
    have hc : c ∈ List.range 32 := List.mem_range.2 h
    have key : ∀ c ∈ List.range 32, hexNum 48 = some 0 ∧ hexNum (hexDigit (c / 16)) = some (c / 16) ∧ hexNum (hexDigit (c % 16)) = some (c % 16) := by decide
    obtain ⟨h1, h2, h3⟩ := key c hc
    simp only [List.cons_append, List.nil_append, readString, h1, h2, h3]
    congr 1
    funext p
    simp
    omega
  · rename_i h1 h2 _ _ _ _ _ h3
    simp only [List.cons_append, List.nil_append]
    rw [readString.eq_def]
    split
    · simp_all
    · simp_all
    · simp_all
    · simp_all
    · rename_i h
      simp only [List.cons.injEq] at h
      obtain ⟨rfl, rfl⟩ := h
      rw [if_neg h3]

theorem readString_print (s r : Str) : readString (s.flatMap jsonChar ++ 34 :: r) = some (s, r) := by
  induction s with
  | nil => simp [readString]
  | cons c s ih => rw [List.flatMap_cons, List.append_assoc, readString_char, ih]; rfl

theorem intStr_isNum (i : Int) : ∀ c ∈ intStr i, isNum c = true := by
  intro c hc
  have key : ∀ c, 48 ≤ c → c ≤ 57 → isNum c = true := by intro c h1 h2; simp [isNum, h1, h2]
  simp only [intStr] at hc
  split at hc
  · rcases List.mem_cons.1 hc with rfl | hc
    · rfl
    · exact key c (natStr_digits _ c hc).1 (natStr_digits _ c hc).2
  · exact key c (natStr_digits _ c hc).1 (natStr_digits _ c hc).2

theorem isNum_range {c : Nat} (h : isNum c = true) : 45 ≤ c ∧ c ≤ 57 := by
  simp [isNum] at h; omega

theorem skipBlank_cons {c : Nat} (h : ¬ (c = 32 ∨ c = 9 ∨ c = 10 ∨ c = 13)) (r : Str) : skipBlank (c :: r) = c :: r := by
  simp only [skipBlank, List.dropWhile_cons]
  rw [if_neg (by simpa using h)]

theorem skipBlank_space (r : Str) : skipBlank (32 :: r) = skipBlank r := by
  simp [skipBlank]

theorem readValue_space (n : Nat) (r : Str) : readValue n (32 :: r) = readValue n r := by
  cases n with
  | zero => rfl
  | succ n => rw [readValue, readValue, skipBlank_space]

theorem readItems_space (n : Nat) (r : Str) : readItems n (32 :: r) = readItems n r := by
  cases n with
  | zero => rfl
  | succ n => rw [readItems, readItems, readValue_space]

/-- the first character of a printed value -/
theorem print_head (v : JTree) : ∃ c r, v.print = c :: r ∧ (c = 34 ∨ c = 91 ∨ isNum c = true) := by
  cases v with
  | int i =>
    rw [JTree.print]
    cases h : intStr i with
    | nil => exact absurd h (intStr_ne_nil i)
    | cons c r => exact ⟨c, r, rfl, Or.inr (Or.inr (intStr_isNum i c (by simp [h])))⟩
  | str s => exact ⟨_, _, by rw [JTree.print]; rfl, Or.inl rfl⟩
  | arr l => exact ⟨_, _, by rw [JTree.print]; rfl, Or.inr (Or.inl rfl)⟩

theorem skipBlank_print (v : JTree) (r : Str) : skipBlank (v.print ++ r) = v.print ++ r := by
  obtain ⟨c, t, h, hc⟩ := print_head v
  rw [h, List.cons_append, skipBlank_cons]
  rcases hc with rfl | rfl | hc
  · decide
  · decide
  · have := isNum_range hc; omega

theorem items_head (v : JTree) (l : List JTree) (r : Str) : ∃ t, printItems (v :: l) ++ r = v.print ++ t := by
  cases l with
  | nil => exact ⟨r, by rw [printItems]⟩
  | cons w l => exact ⟨44 :: 32 :: printItems (w :: l) ++ r, by rw [printItems]; simp⟩

mutual
theorem readValue_print : ∀ (v : JTree) (n : Nat) (r : Str), 2 * v.print.length + 1 ≤ n → (∀ c ∈ r.head?, isNum c = false) →
    readValue n (v.print ++ r) = some (v, r)
  | _, 0, _, hn, _ => by omega
  | .int i, n + 1, r, hn, hr => by
    obtain ⟨c, t, h, hc⟩ := print_head (.int i)
    have hc' : isNum c = true := intStr_isNum i c (by rw [JTree.print] at h; simp [h])
    have hcr := isNum_range hc'
    have h1 : (intStr i ++ r).takeWhile isNum = intStr i := by
      rw [List.takeWhile_append_of_pos (intStr_isNum i)]
      cases r with
      | nil => simp
      | cons d r => rw [List.takeWhile_cons, if_neg (by simp [hr d (by simp)])]; simp
    have h2 : (intStr i ++ r).dropWhile isNum = r := by
      rw [List.dropWhile_append_of_pos (intStr_isNum i)]
      cases r with
      | nil => simp
      | cons d r => rw [List.dropWhile_cons, if_neg (by simp [hr d (by simp)])]
    rw [readValue, skipBlank_print]
    rw [show (JTree.int i).print = intStr i by rw [JTree.print]] at h ⊢
    split
    · rename_i h'; rw [h] at h'; simp at h'; omega
    · rename_i h'; rw [h] at h'; simp at h'; omega
    · rename_i h' _ ; rw [h1, h2, pyInt_intStr]
  | .str s, n + 1, r, hn, hr => by
    rw [readValue, skipBlank_print, JTree.print]
    simp only [List.cons_append, List.append_assoc, List.nil_append, readString_print]
    rfl
  | .arr [], n + 1, r, hn, hr => by
    rw [readValue, skipBlank_print, JTree.print, printItems]
    simp [skipBlank]
  | .arr (v :: l), n + 1, r, hn, hr => by
    rw [readValue, skipBlank_print]
    rw [JTree.print] at hn ⊢
    have hlen : 2 * (printItems (v :: l)).length + 2 ≤ n := by simp at hn; omega
    have ih := readItems_print v l n r hlen
    obtain ⟨t, ht⟩ := items_head v l (93 :: r)
    obtain ⟨c, t', h, hc⟩ := print_head v
    simp only [List.cons_append, List.append_assoc, List.nil_append]
    rw [ht, skipBlank_print, ← ht]
    split
    · rename_i h'
      rw [ht, h] at h'
      simp at h'
      rcases hc with rfl | rfl | hc
      · omega
      · omega
      · have := isNum_range hc; omega
    · rw [ih]; rfl
theorem readItems_print : ∀ (v : JTree) (l : List JTree) (n : Nat) (r : Str), 2 * (printItems (v :: l)).length + 2 ≤ n →
    readItems n (printItems (v :: l) ++ 93 :: r) = some (v :: l, r)
  | v, _, 0, _, hn => by omega
  | v, [], n + 1, r, hn => by
    rw [printItems] at hn ⊢
    rw [readItems, readValue_print v n (93 :: r) (by omega) (by simp [isNum])]
    simp [skipBlank]
  | v, w :: l, n + 1, r, hn => by
    rw [printItems] at hn ⊢
    have e : v.print ++ 44 :: 32 :: printItems (w :: l) ++ 93 :: r = v.print ++ 44 :: 32 :: (printItems (w :: l) ++ 93 :: r) := by simp
    rw [e, readItems, readValue_print v n _ (by simp at hn; omega) (by simp [isNum])]
    simp only
    rw [skipBlank_cons (by decide)]
    simp only
    rw [readItems_space, readItems_print w l n r (by simp at hn; omega)]
    rfl
end

/-- a printed value is read back -/
theorem readJson_print (v : JTree) : readJson v.print = some v := by
  have := readValue_print v (2 * v.print.length + 2) [] (by omega) (by simp)
  rw [List.append_nil] at this
  rw [readJson, this]
  simp [skipBlank]

theorem jsonChar_ge (c : Nat) : ∀ d ∈ jsonChar c, 32 ≤ d := by
  intro d hd
  unfold jsonChar at hd
  repeat' split at hd
  all_goals try (simp at hd; omega)
  rename_i h
  have key : ∀ c ∈ List.range 32, 32 ≤ hexDigit (c / 16) ∧ 32 ≤ hexDigit (c % 16) := by decide
  have := key c (List.mem_range.2 h)
  simp at hd
  omega

mutual
/-- no control characters are printed -/
theorem JTree.print_ge : ∀ (v : JTree), ∀ c ∈ v.print, 32 ≤ c
  | .int i => by
    intro c hc
    rw [JTree.print] at hc
    have := intStr_chars i c hc
    omega
  | .str s => by
    intro c hc
    rw [JTree.print] at hc
    simp only [List.cons_append, List.mem_cons, List.mem_append, List.mem_flatMap, List.not_mem_nil, or_false] at hc
    rcases hc with rfl | ⟨x, _, hx⟩ | rfl
    · omega
    · exact jsonChar_ge x c hx
    · omega
  | .arr l => by
    intro c hc
    rw [JTree.print] at hc
    simp only [List.cons_append, List.mem_cons, List.mem_append, List.not_mem_nil, or_false] at hc
    rcases hc with rfl | hc | rfl
    · omega
    · exact printItems_ge l c hc
    · omega
theorem printItems_ge : ∀ (l : List JTree), ∀ c ∈ printItems l, 32 ≤ c
  | [] => by intro c hc; rw [printItems] at hc; simp at hc
  | [v] => by intro c hc; rw [printItems] at hc; exact v.print_ge c hc
  | v :: w :: l => by
    intro c hc
    rw [printItems] at hc
    simp only [List.mem_append, List.mem_cons] at hc
    rcases hc with hc | rfl | rfl | hc
    · exact v.print_ge c hc
    · omega
    · omega
    · exact printItems_ge (w :: l) c hc
end

end Verif
