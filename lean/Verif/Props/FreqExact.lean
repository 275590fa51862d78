import Verif.Props.Accept
import Verif.Props.Persist
import Verif.Lemmas.Chars
import Verif.Lemmas.Db
/-!
# Property C31: exactly which frequency tables come back from their file
-/

namespace Verif
open Spec

theorem readFreqRows_keys : ∀ (lines : List Str) (d d' : Dict Str Int), (∀ l ∈ lines, 10 ∉ l) → readFreqRows d lines = .ok d' →
    ∀ k ∈ Dict.keys d', k ∈ Dict.keys d ∨ (9 ∉ k ∧ 10 ∉ k ∧ strip k = k)
  | [], d, d', _, h, k, hk => by
    rw [readFreqRows] at h
    cases h
    exact Or.inl hk
  | line :: lines, d, d', hl, h, k, hk => by
    rw [readFreqRows] at h
    split at h
    · rename_i t f hs
      split at h
      · cases h
      · rename_i n hn
        rcases readFreqRows_keys lines _ d' (fun l h => hl l (by simp [h])) h k hk with hk | hk
        · rcases (Dict.mem_keys_set _ _ _ _).1 hk with hk | rfl
          · exact Or.inl hk
          · right
            obtain ⟨t', f', e, h9, _, h3, _⟩ := (freqRow_iff (line := line) (p := (strip t, n))).2 ⟨t, f, hs, rfl, hn⟩
            have h3 : strip t' = strip t := trimmed_iff.1 h3
            have hsub : ∀ c ∈ strip t, c ∈ t' := fun c hc => mem_of_mem_strip (h3 ▸ hc)
            refine ⟨fun hc => h9 (hsub _ hc), fun hc => hl line (by simp) ?_, strip_strip t⟩
            rw [e]
            simp [hsub _ hc]
        · exact Or.inr hk
    · cases h

/-- C31, exactly: the frequencies written by `write_stats` are the frequencies read by `read_term_freqs` if and only if no term has a tab or a line feed, begins with
white space or ends with white space. -/
theorem C31_iff {J : Json} (hJ : JsonLaws J) {stats : Dict Str Int} (hnd : (stats.map (·.1)).Nodup) (n : Int) :
    (∃ d, readTermFreqs J (fileLines (writeStats J stats (some n))) = .ok (d, n) ∧ d.Perm stats) ↔
      ∀ p ∈ stats, 9 ∉ p.1 ∧ 10 ∉ p.1 ∧ (∀ c, p.1.head? = some c → isWhite c = false) ∧ ∀ c, p.1.getLast? = some c → isWhite c = false := by
  constructor
  · rintro ⟨d, hr, hp⟩ p hm
    have hlines : ∀ l ∈ fileLines (writeStats J stats (some n)), 10 ∉ l := by
      intro l hl hc
      have := splitOn_pieces _ l (mem_fileLines hl) 10 hc
      simp at this
    have hk : p.1 ∈ Dict.keys d := List.mem_map.2 ⟨p, hp.symm.subset hm, rfl⟩
    have key : ∀ ls : List Str, (∀ l ∈ ls, l ∈ fileLines (writeStats J stats (some n))) → readFreqRows [] ls = .ok d → 9 ∉ p.1 ∧ 10 ∉ p.1 ∧ strip p.1 = p.1 := by
      intro ls hls h
      rcases readFreqRows_keys ls [] d (fun l hl => hlines l (hls l hl)) h p.1 hk with h | h
      · cases h
      · exact h
    have h : 9 ∉ p.1 ∧ 10 ∉ p.1 ∧ strip p.1 = p.1 := by
      generalize hg : fileLines (writeStats J stats (some n)) = lines at hr key
      match lines, hr, key with
      | [], hr, key =>
        rw [readTermFreqs] at hr
        cases hr
        cases hk
      | l0 :: ls, hr, key =>
        rw [readTermFreqs] at hr
        dsimp only at hr
        split at hr
        · split at hr
          · cases hr
          · rename_i h
            cases hr
            exact key ls (fun l h => by simp [h]) h
        · split at hr
          · cases hr
          · rename_i h
            cases hr
            exact key (l0 :: ls) (fun l h => h) h
    refine ⟨h.1, h.2.1, fun c hc => ?_, fun c hc => ?_⟩
    · rw [← h.2.2] at hc
      exact white_false.2 (strip_head c hc)
    · rw [← h.2.2] at hc
      exact white_false.2 (strip_last c hc)
  · intro h
    obtain ⟨d, h1, h2, _⟩ := C31_stats_round_trip hJ hnd (fun p hp => ⟨(h p hp).1, (h p hp).2.1,
      strip_eq_self (fun c hc => white_false.1 ((h p hp).2.2.1 c hc)) fun c hc => white_false.1 ((h p hp).2.2.2 c hc)⟩) n
    exact ⟨d, h1, h2⟩

-- a term with inner white space and a carriage return comes back, one that ends with a space does not
example : (∃ d, readTermFreqs pyJson (fileLines (writeStats pyJson [(lit "a b", 3), (lit "c\rd", 7)] (some 2))) = .ok (d, 2) ∧ d.Perm [(lit "a b", 3), (lit "c\rd", 7)]) ∧
    ¬ ∃ d, readTermFreqs pyJson (fileLines (writeStats pyJson [(lit "a ", 3)] (some 2))) = .ok (d, 2) ∧ d.Perm [(lit "a ", 3)] := by
  refine ⟨(C31_iff pyJson_laws (by decide) 2).2 ?_, fun h => ?_⟩
  · intro p hp
    simp only [List.mem_cons, List.not_mem_nil, or_false] at hp
    rcases hp with rfl | rfl
    · refine ⟨by decide, by decide, ?_, ?_⟩ <;> intro c hc <;> cases hc <;> decide
    · refine ⟨by decide, by decide, ?_, ?_⟩ <;> intro c hc <;> cases hc <;> decide
  · have := ((C31_iff pyJson_laws (by decide) 2).1 h (lit "a ", 3) (by simp)).2.2.2 32 (by decide)
    exact absurd this (by decide)

end Verif
