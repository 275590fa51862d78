import Verif.Props.Order
/-!
# C32 with a coverage: learning from a frequency file and from the text
-/

namespace Verif
open Spec

theorem map_zipIdx_fields (l : List (Str × Int)) (lv : Int) : ∀ i : Nat,
    (((l.zipIdx i).map fun (p, i) => ({ name := p.1, level := lv, idx := i + 6, freq := p.2, kids := [] } : Ty)).map fun t => (t.freq, t.level)) =
      l.map fun p => (p.2, lv) := by
  induction l with
  | nil => intro i; rfl
  | cons p l ih => intro i; simp only [List.zipIdx_cons, List.map_cons, ih]

/-- C32 with any coverage, in any arithmetic: learning from the file written for the counts of a corpus, in any order, and learning from the corpus
both refuse the coverage, or give vocabularies with the same reserved types (so `<unk>` stands for as many words), the same frequencies and
levels; a word of one that is missing in the other is at most as frequent as any word kept there. -/
theorem C32_coverage {J : Json} (hJ : JsonLaws J) {A : Acc} (data : List Str) {stats : Dict Str Int}
    (hst : stats.Perm (termFrequencies .word data).1) (vs mf : Int) (cov : Option A.F) :
    (learnRaw A .word data vs mf cov = .error .assertion ∧
      learnFromStats J A (fileLines (writeStats J stats (some data.length))) vs mf cov = .error .assertion) ∨
    ∃ v v', learnRaw A .word data vs mf cov = .ok v ∧
      learnFromStats J A (fileLines (writeStats J stats (some data.length))) vs mf cov = .ok v' ∧
      v.take 6 = v'.take 6 ∧ v.map (fun t => (t.freq, t.level)) = v'.map (fun t => (t.freq, t.level)) ∧
      (∀ t ∈ v.drop 6, t.name ∉ names v' → ∀ u ∈ v'.drop 6, t.freq ≤ u.freq) ∧
      (∀ t ∈ v'.drop 6, t.name ∉ names v → ∀ u ∈ v.drop 6, t.freq ≤ u.freq) := by
  have hnd0 := termFrequencies_nodup .word data
  have hpos := termFrequencies_pos .word data
  have hcnt := termFrequencies_count .word data
  have htok : ∀ p ∈ (termFrequencies .word data).1, IsToken p.1 := by
    rintro ⟨n, f⟩ hp
    rw [hcnt, mem_count_nil] at hp
    obtain ⟨l, _, hl⟩ := List.mem_flatMap.1 hp.1
    exact split_isToken hl
  have hnd : (Dict.keys stats).Nodup := (hst.map _).nodup_iff.2 hnd0
  obtain ⟨d, hr, hd, _⟩ := C31_stats_round_trip hJ hnd (fun p hp => by
    have ht := htok p (hst.subset hp)
    refine ⟨fun hc => ?_, fun hc => ?_, strip_token ht⟩
    · have := ht.2 9 hc; exact absurd this (by decide)
    · have := ht.2 10 hc; exact absurd this (by decide)) (data.length : Int)
  have hdp : (termFrequencies .word data).1.Perm d := (hd.trans hst).symm
  have hndd : (Dict.keys d).Nodup := (hdp.map _).nodup_iff.1 hnd0
  have e1 : learnRaw A .word data vs mf cov = getInitVocab A Level.word (termFrequencies .word data).1 cov (some (data.length : Int)) mf vs := rfl
  have e2 : learnFromStats J A (fileLines (writeStats J stats (some data.length))) vs mf cov =
      getInitVocab A Level.word d cov (some (data.length : Int)) mf vs := by
    simp only [learnFromStats, hr]
  rw [e1, e2]
  rcases getInitVocab_same (A := A) (level := Level.word) hdp hnd0 hpos cov (some (data.length : Int)) mf vs with h | ⟨j, R, h0, h1, h2⟩
  · exact Or.inl h
  right
  have hc1 := C15_contract hnd0 hpos h1
  have hc2 := C15_contract hndd (fun p hp => hpos p (hdp.symm.subset hp)) h2
  refine ⟨_, _, h1, h2, by rw [List.take_left' h0, List.take_left' h0], ?_, ?_, ?_⟩
  · rw [List.map_append, List.map_append, map_zipIdx_fields, map_zipIdx_fields]
    congr 1
    have hs := sortByFreq_same (popReserved_perm hdp hnd0)
    have := congrArg (fun l : List Int => (l.take j).map fun f => (f, Level.word)) hs
    simpa only [← List.map_take, List.map_map, Function.comp_def] using this
  · intro t ht hn u hu
    exact hc2.best (t.name, t.freq) (hdp.subset (hc1.counted t ht).1) hn u hu
  · intro t ht hn u hu
    exact hc1.best (t.name, t.freq) (hdp.symm.subset (hc2.counted t ht).1) hn u hu

/-- two thirds of "b a b c a b" are covered by b and a; learned alike from a table in another order -/
example : learnRaw accExact .word [lit "b a b", lit "c a b"] 0 1 (some (2, 3)) =
    learnFromStats pyJson accExact (fileLines (writeStats pyJson [(lit "a", 2), (lit "c", 1), (lit "b", 3)] (some 2))) 0 1 (some (2, 3)) ∧
    (outcome (learnRaw accExact .word [lit "b a b", lit "c a b"] 0 1 (some (2, 3)))).toOption.map (fun v => v.drop 6) =
      some [(lit "b", 3), (lit "a", 2)] := by decide +kernel
/-- a coverage above 1 is refused -/
example : learnRaw accExact .word [lit "b a b"] 0 1 (some (3, 2)) = .error .assertion := by decide +kernel

end Verif
