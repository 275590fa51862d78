import Verif.Props.Occurs
import Verif.Props.Depth
/-!
# Property C101: texts from which BPE schemes can be built
-/

namespace Verif
open Spec

/-- types of a learned vocabulary that were not made by merging are the reserved ones or single characters -/
theorem learned_single {ord : Nat → List Nat → List Nat} (hord : ∀ i l, (ord i l).Perm l) {A : Acc} {data : List Str} {toks : List (List Str)}
    (ht : List.Forall₂ Tokens data toks) {vs mf : Int} {cov : Option A.F} {minEv : Int} {vocab : List Ty}
    (hv : ∀ c, cov = some c → A.valid c = true) (h : bpeLearn ord A data vs mf cov minEv = .ok vocab) {t : Ty} (htm : t ∈ vocab) (hk : t.kids = []) :
    t.name ∈ special ∨ ∃ c, t.name = [c] := by
  obtain ⟨tf, cf, v0, C, k, C', t1, t2, t3, t4, t5, t6, t7⟩ := C20_text hord ht hv h
  obtain ⟨new, e, hnew⟩ := run_append t6
  have htv : t ∈ v0 := by
    rw [e] at htm
    exact (List.mem_append.1 htm).resolve_right fun h => hnew t h hk
  rw [← List.take_append_drop 6 v0] at htv
  rcases List.mem_append.1 htv with hn | hn
  · left
    have := congrArg (List.map (·.1)) t4.reserved
    rw [List.map_map] at this
    have e : names (v0.take 6) = special := this
    rw [← e]
    exact List.mem_map.2 ⟨t, hn, rfl⟩
  · right
    obtain ⟨c, e, _⟩ := (t3 _ _).1 (t4.counted t hn).1
    exact ⟨c, e⟩

/-- C101, as far as it holds, from the text: if every word, with two more characters, fits in the free frames, as well as the reserved names do, then whatever BPE
learns from the text, with any size and threshold (and no coverage limit), makes a scheme, which can be saved and loaded. -/
theorem C101_text_partial {ord : Nat → List Nat → List Nat} (hord : ∀ i l, (ord i l).Perm l) {A : Acc} {data : List Str} {toks : List (List Str)}
    (ht : List.Forall₂ Tokens data toks) {q n : Nat} (hq : 2 ≤ q) (h6 : q * 6 ≤ n) (hw : ∀ w ∈ toks.flatten, q * (w.length + 2) ≤ n)
    {vs mf minEv : Int} {vocab : List Ty} (h : bpeLearn ord A data vs mf none minEv = .ok vocab) :
    ∃ s, Scheme.make .bpe vocab = .ok s ∧ Scheme.makeDeep q n .bpe vocab = .ok s ∧ ∀ J text, loadScheme J text = .ok s → loadSchemeDeep q n J text = .ok s := by
  have hv : ∀ c, (none : Option A.F) = some c → A.valid c = true := by simp
  obtain ⟨s, hs, _⟩ := C19_bpe_accepted hord hv h
  have hfit : ∀ t ∈ vocab, q * (t.name.length + 1) ≤ n := by
    intro t htm
    by_cases hk : t.kids = []
    · refine le_trans (Nat.mul_le_mul_left q ?_) h6
      have h5 : ∀ m ∈ special, m.length + 1 ≤ 6 := by decide
      rcases learned_single hord ht hv h htm hk with h1 | ⟨c, h1⟩
      · exact h5 _ h1
      · rw [h1]; simp
    · obtain ⟨⟨w, hwm, hi⟩, _⟩ := C126_plain hord ht h htm hk
      have := hi.length_le
      rw [List.length_append, List.length_singleton] at this
      exact le_trans (Nat.mul_le_mul_left q (by omega)) (hw w hwm)
  refine ⟨s, hs, (C101_fits_partial hq hs).1 hfit, fun J text hl => (C101_load_partial hq hl).1 (Or.inr ?_)⟩
  rw [(make_bpe_ok hs).1]
  exact hfit

theorem known_length (ns : List Str) (w : Str) : (w.flatMap (known ns)).length ≤ 5 * w.length := by
  induction w with
  | nil => simp
  | cons c w ih =>
    have : (known ns c).length ≤ 5 := by
      unfold known
      split
      · simp
      · decide
    rw [List.flatMap_cons, List.length_append, List.length_cons]
    omega

/-- C101 with a coverage limit: characters left out count as the five characters of `<unk>`. -/
theorem C101_coverage_partial {ord : Nat → List Nat → List Nat} (hord : ∀ i l, (ord i l).Perm l) {A : Acc} {data : List Str} {toks : List (List Str)}
    (ht : List.Forall₂ Tokens data toks) {q n : Nat} (hq : 2 ≤ q) (h6 : q * 6 ≤ n) (hw : ∀ w ∈ toks.flatten, q * (5 * w.length + 6) ≤ n)
    {vs mf : Int} {cov : Option A.F} {minEv : Int} {vocab : List Ty} (hv : ∀ c, cov = some c → A.valid c = true) (h : bpeLearn ord A data vs mf cov minEv = .ok vocab) :
    ∃ s, Scheme.make .bpe vocab = .ok s ∧ Scheme.makeDeep q n .bpe vocab = .ok s ∧ ∀ J text, loadScheme J text = .ok s → loadSchemeDeep q n J text = .ok s := by
  obtain ⟨s, hs, _⟩ := C19_bpe_accepted hord hv h
  have hfit : ∀ t ∈ vocab, q * (t.name.length + 1) ≤ n := by
    intro t htm
    by_cases hk : t.kids = []
    · refine le_trans (Nat.mul_le_mul_left q ?_) h6
      have h5 : ∀ m ∈ special, m.length + 1 ≤ 6 := by decide
      rcases learned_single hord ht hv h htm hk with h1 | ⟨c, h1⟩
      · exact h5 _ h1
      · rw [h1]; simp
    · obtain ⟨⟨w, hwm, hi⟩, _⟩ := C126_occurs hord ht hv h htm hk
      have h1 := hi.length_le
      have h2 := known_length (names vocab) (w ++ [0x2581])
      rw [List.length_append, List.length_singleton] at h2
      exact le_trans (Nat.mul_le_mul_left q (by omega)) (hw w hwm)
  refine ⟨s, hs, (C101_fits_partial hq hs).1 hfit, fun J text hl => (C101_load_partial hq hl).1 (Or.inr ?_)⟩
  rw [(make_bpe_ok hs).1]
  exact hfit

/-- with 12 free frames, two for each level, words of up to 4 characters do -/
example : (bpeLearn ordId accExact [lit "abab abab"] 0 1 none 2).isOk = false ∧ (bpeLearn ordId accExact [lit "abab abab abb"] 0 1 none 2).isOk = true ∧
    (∀ w ∈ [lit "abab", lit "abab", lit "abb"], 2 * (w.length + 2) ≤ 12) ∧
    ((bpeLearn ordId accExact [lit "abab abab abb"] 0 1 none 2).bind fun v => Scheme.makeDeep 2 12 .bpe v).isOk = true := by decide +kernel

end Verif
