import Verif.Model.Json
import Verif.Lemmas.File
/-! # The concrete JSON codec meets the laws -/

namespace Verif

theorem untilQuote_append {s : Str} (h : 34 ∉ s) (r : Str) : untilQuote (s ++ 34 :: r) = some (s, r) := by
  induction s with
  | nil => simp [untilQuote]
  | cons c s ih =>
    simp only [List.mem_cons, not_or] at h
    rw [List.cons_append, untilQuote, if_neg (Ne.symm h.1), ih h.2]

/-- value without quote -/
def JVal.OK : JVal → Prop
  | .str s => ∀ c ∈ s, 97 ≤ c ∧ c ≤ 122 ∨ 46 ≤ c ∧ c ≤ 57
  | .int _ => True

theorem parseVal_print {v : JVal} (hv : v.OK) {r : Str} (hr : r = [] ∨ ∃ r', r = 44 :: r') :
    parseVal (v.print ++ r) = some (v, r) := by
  cases v with
  | str s =>
    have : untilQuote (s ++ [34] ++ r) = some (s, r) := by
      rw [List.append_assoc]
      exact untilQuote_append (fun hc => by have := hv 34 hc; omega) r
    simp only [JVal.print, List.cons_append, parseVal, this]
  | int i =>
    have hne := intStr_ne_nil i
    have hch := intStr_chars i
    have hdig : ∀ c ∈ intStr i, c ≠ 34 ∧ c ≠ 44 := by
      intro c hc
      unfold intStr at hc
      split at hc
      · rcases List.mem_cons.1 hc with rfl | hc
        · decide
        · have := natStr_digits _ c hc; omega
      · have := natStr_digits _ c hc; omega
    have htw : (intStr i ++ r).takeWhile (· != 44) = intStr i := by
      rw [List.takeWhile_append_of_pos (fun c hc => by simpa using (hdig c hc).2)]
      rcases hr with rfl | ⟨r', rfl⟩ <;> simp
    have hdw : (intStr i ++ r).dropWhile (· != 44) = r := by
      rw [List.dropWhile_append_of_pos (fun c hc => by simpa using (hdig c hc).2)]
      rcases hr with rfl | ⟨r', rfl⟩ <;> simp
    simp only [JVal.print]
    unfold parseVal
    split
    · rename_i r' heq
      cases hi : intStr i with
      | nil => exact absurd hi hne
      | cons c s =>
        rw [hi, List.cons_append] at heq
        injection heq with a _
        exact absurd a (hdig c (by simp [hi])).1
    · rw [htw, hdw, pyInt_intStr]

theorem parseEntries_print : ∀ (es : List (Str × JVal)), es ≠ [] → (∀ e ∈ es, 34 ∉ e.1 ∧ e.2.OK) → ∀ n, es.length ≤ n →
    parseEntries n (printEntries es) = some es := by
  intro es
  induction es with
  | nil => intro h; exact absurd rfl h
  | cons e es ih =>
    intro _ h n hn
    obtain ⟨k, v⟩ := e
    cases n with
    | zero => simp at hn
    | succ n =>
    have hk := (h (k, v) (by simp)).1
    have hv := (h (k, v) (by simp)).2
    cases es with
    | nil =>
      have h1 : untilQuote (k ++ 34 :: 58 :: 32 :: (v.print ++ [])) = some (k, 58 :: 32 :: (v.print ++ [])) := untilQuote_append hk _
      have h2 := parseVal_print hv (r := []) (Or.inl rfl)
      simp only [List.append_nil] at h1 h2
      have e : printEntries [(k, v)] = 34 :: (k ++ 34 :: 58 :: 32 :: v.print) := by simp [printEntries]
      rw [e]
      simp only [parseEntries, h1, h2]
    | cons e' es =>
      have e : printEntries ((k, v) :: e' :: es) = 34 :: (k ++ 34 :: 58 :: 32 :: (v.print ++ 44 :: 32 :: printEntries (e' :: es))) := by
        simp [printEntries]
      have h1 : untilQuote (k ++ 34 :: 58 :: 32 :: (v.print ++ 44 :: 32 :: printEntries (e' :: es))) = _ := untilQuote_append hk _
      have h2 := parseVal_print hv (r := 44 :: 32 :: printEntries (e' :: es)) (Or.inr ⟨_, rfl⟩)
      have h3 := ih (by simp) (fun e he => h e (by simp [he])) n (by simp at hn ⊢; omega)
      rw [e]
      simp only [parseEntries, h1, h2, h3]

theorem print_chars {v : JVal} (hv : v.OK) : ∀ c ∈ v.print, 32 ≤ c ∧ c ≤ 126 := by
  cases v with
  | str s =>
    intro c hc
    simp only [JVal.print, List.cons_append, List.mem_cons, List.mem_append, List.not_mem_nil, or_false] at hc
    rcases hc with rfl | hc | rfl
    · omega
    · have := hv c hc; omega
    · omega
  | int i => intro c hc; have := intStr_chars i c hc; omega

theorem printEntries_chars : ∀ (es : List (Str × JVal)), (∀ e ∈ es, (∀ c ∈ e.1, 32 ≤ c ∧ c ≤ 126) ∧ e.2.OK) →
    ∀ c ∈ printEntries es, 32 ≤ c ∧ c ≤ 126 := by
  intro es
  induction es with
  | nil => simp [printEntries]
  | cons e es ih =>
    intro h c hc
    obtain ⟨k, v⟩ := e
    obtain ⟨hk, hv⟩ := h (k, v) (by simp)
    have hvc := print_chars hv
    cases es with
    | nil =>
      simp only [printEntries, List.cons_append, List.mem_cons, List.mem_append, List.not_mem_nil, or_false] at hc
      rcases hc with rfl | (hc | rfl | rfl | rfl) | hc
      · omega
      · exact hk c hc
      · omega
      · omega
      · omega
      · exact hvc c hc
    | cons e' es =>
      simp only [printEntries, List.cons_append, List.mem_cons, List.mem_append, List.not_mem_nil, or_false] at hc
      rcases hc with rfl | (((hc | rfl | rfl | rfl) | hc) | rfl | rfl) | hc
      · omega
      · exact hk c hc
      · omega
      · omega
      · omega
      · exact hvc c hc
      · omega
      · omega
      · exact ih (fun e he => h e (by simp [he])) c hc

theorem entries_ok {h : Header} (hh : h.Plain) : ∀ e ∈ h.entries, (∀ c ∈ e.1, 32 ≤ c ∧ c ≤ 126) ∧ 34 ∉ e.1 ∧ e.2.OK := by
  intro e he
  simp only [Header.entries, List.mem_cons, List.mem_append] at he
  rcases he with rfl | (he | he) | he
  · exact ⟨by decide, by decide, by simp only [JVal.OK]; decide⟩
  · cases hs : h.scheme with
    | none => rw [hs] at he; simp at he
    | some s =>
      rw [hs] at he; simp only [List.mem_singleton] at he; subst he
      exact ⟨(by decide : ∀ c ∈ lit "scheme", 32 ≤ c ∧ c ≤ 126), (by decide : 34 ∉ lit "scheme"), fun c hc => Or.inl (hh.2 s hs c hc)⟩
  · cases hs : h.maxLevel with
    | none => rw [hs] at he; simp at he
    | some s => rw [hs] at he; simp only [List.mem_singleton] at he; subst he; exact ⟨(by decide : ∀ c ∈ lit "max_level", 32 ≤ c ∧ c ≤ 126), (by decide : 34 ∉ lit "max_level"), trivial⟩
  · cases hs : h.lineCount with
    | none => rw [hs] at he; simp at he
    | some s => rw [hs] at he; simp only [List.mem_singleton] at he; subst he; exact ⟨(by decide : ∀ c ∈ lit "line_count", 32 ≤ c ∧ c ≤ 126), (by decide : 34 ∉ lit "line_count"), trivial⟩

theorem ofEntries_entries {h : Header} (hh : h.Plain) : Header.ofEntries h.entries = h := by
  have e1 : (lit "version" == lit "scheme") = false := by decide
  have e2 : (lit "version" == lit "max_level") = false := by decide
  have e3 : (lit "version" == lit "line_count") = false := by decide
  have e4 : (lit "max_level" == lit "scheme") = false := by decide
  have e5 : (lit "line_count" == lit "scheme") = false := by decide
  have e6 : (lit "scheme" == lit "max_level") = false := by decide
  have e7 : (lit "line_count" == lit "max_level") = false := by decide
  have e8 : (lit "scheme" == lit "line_count") = false := by decide
  have e9 : (lit "max_level" == lit "line_count") = false := by decide
  obtain ⟨a, s, m, l⟩ := h
  have ha : a = true := hh.1
  subst ha
  cases s <;> cases m <;> cases l <;>
    simp [Header.ofEntries, Header.entries, getStr, getInt, e1, e2, e3, e4, e5, e6, e7, e8, e9]

theorem length_le_printEntries : ∀ es : List (Str × JVal), es.length ≤ (printEntries es).length := by
  intro es
  induction es with
  | nil => simp
  | cons e es ih =>
    obtain ⟨k, v⟩ := e
    cases es with
    | nil => simp [printEntries]
    | cons e' es => simp [printEntries] at ih ⊢; omega

/-- The laws assumed of `json` hold for the concrete codec. -/
theorem pyJson_laws : JsonLaws pyJson where
  round := by
    intro h hh
    have hp : parseEntries (printEntries h.entries ++ [125]).length (printEntries h.entries ++ [125]).dropLast = some h.entries := by
      rw [List.dropLast_concat]
      apply parseEntries_print _ (by simp [Header.entries]) (fun e he => (entries_ok hh e he).2)
      have := length_le_printEntries h.entries
      simp; omega
    simp only [pyJson, List.cons_append, List.getLast?_concat, if_true, hp, ofEntries_entries hh]
  shape := fun h _ => ⟨_, rfl⟩
  ascii := by
    intro h hh c hc
    simp only [pyJson, List.cons_append, List.mem_cons, List.mem_append, List.not_mem_nil, or_false] at hc
    rcases hc with rfl | hc | rfl
    · omega
    · exact printEntries_chars _ (fun e he => ⟨(entries_ok hh e he).1, (entries_ok hh e he).2.2⟩) c hc
    · omega

end Verif
