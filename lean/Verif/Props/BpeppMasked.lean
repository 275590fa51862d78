import Verif.Props.Bpepp
import Verif.Props.Masked
/-!
# Property C84 with rare characters left out

With `char_min_freq` above 1 the rare characters become `<unk>`; what learning depends on is the text in which they are one and the same
character.
-/

namespace Verif
open Spec

/-- number of times a character occurs in the words of a text that are seen `wordMin` times or more -/
def Spec.usedCount (wordMin : Int) (words : List Str) (c : Nat) : Nat :=
  (words.filter fun w => decide (wordMin ≤ words.count w)).flatten.count c

/-- the word with every character that is used less than `charMin` times replaced by 0x110000, which is no character; U+2581 stays -/
def Spec.rareMasked (wordMin charMin : Int) (words : List Str) (w : Str) : Str :=
  w.map fun c => if c = 0x2581 ∨ charMin ≤ usedCount wordMin words c then c else 0x110000

theorem chCount_used {words : List Str} {tf : List (Str × Int)} (hnd : (tf.map (·.1)).Nodup) {wordMin : Int}
    (htf : ∀ n f, (n, f) ∈ tf ↔ n ∈ words ∧ f = words.count n ∧ wordMin ≤ f) {c : Nat} (hc : c ≠ SP) :
    chCount tf c = (usedCount wordMin words c : Nat) := by
  have h := sum_counted (P := words.filter fun w => decide (wordMin ≤ words.count w)) hnd (fun n f => by
    rw [htf, List.mem_filter]
    constructor
    · rintro ⟨h1, h2, h3⟩
      subst h2
      refine ⟨⟨h1, by simpa using h3⟩, ?_⟩
      rw [List.count_filter (by simpa using h3)]
    · rintro ⟨⟨h1, h2⟩, h3⟩
      have h4 := List.count_filter (p := fun w => decide (wordMin ≤ words.count w)) (l := words) (a := n) h2
      rw [h4] at h3
      subst h3
      exact ⟨h1, rfl, by simpa using h2⟩) (fun w => (w ++ [0x2581]).count c)
  rw [chCount, usedCount, List.count_flatten]
  refine h.trans ?_
  congr 2
  refine List.map_congr_left fun w _ => ?_
  rw [List.count_append, List.count_eq_zero_of_not_mem (a := c) (l := [0x2581]) (fun h => hc (List.mem_singleton.1 h)), Nat.add_zero]

/-- C84 for any options: if no word used for learning, with the characters rarer than `char_min_freq` replaced by one and the same character and
ended by U+2581, contains a block three times in a row, then
* with size -1 the initial vocabulary is returned,
* with another size not above that of the initial vocabulary an AssertionError is raised,
* otherwise the table of a BPE run is returned, which ends at the requested size or when no pair reaches the threshold, or a ValueError is
  raised because all words have become single symbols.
Missing: words with such blocks (see `C84_hahaha_refuted`, `C84_masked_refuted`). -/
theorem C84_masked_partial {ord : Nat → List Nat → List Nat} (hord : ∀ i l, (ord i l).Perm l) {lines : List Str} {toks : List (List Str)}
    (ht : List.Forall₂ Tokens lines toks) {minEv charMin wordMin : Int} (vs : Int) (hmin : 1 ≤ minEv) (hcm : 1 ≤ charMin) (hwm : 1 ≤ wordMin)
    (hsome : ∃ w ∈ toks.flatten, wordMin ≤ toks.flatten.count w)
    (hfree : ∀ w ∈ toks.flatten, wordMin ≤ toks.flatten.count w → ∀ b : Str, b ≠ [] →
      ¬ (b ++ b ++ b) <:+: rareMasked wordMin charMin toks.flatten w ++ [0x2581]) :
    ∃ (tf cf : List (Str × Int)) (v0 : List Ty) (C : Corpus),
      (∀ n f, (n, f) ∈ tf ↔ n ∈ toks.flatten ∧ f = toks.flatten.count n ∧ wordMin ≤ f) ∧ (tf.map (·.1)).Nodup ∧
      (∀ n f, (n, f) ∈ cf ↔ ∃ c, n = [c] ∧ f = chCount tf c ∧ 0 < f) ∧ VocabContract Level.char charMin cf v0 ∧
      (∀ p ∈ cf, charMin ≤ p.2 → p.1 ∈ names v0) ∧ List.Forall₂ (CodedWord v0) tf C ∧
      ((vs = -1 ∧ ppSubwords ord (ppCounts lines) vs minEv charMin wordMin = .ok v0) ∨
       (vs ≠ -1 ∧ vs ≤ v0.length ∧ ppSubwords ord (ppCounts lines) vs minEv charMin wordMin = .error .assertion) ∨
       ((v0.length : Int) < vs ∧ ∃ (k : Nat) (C' : Corpus) (v' : List Ty), RunMax minEv Level.subword C v0 k C' v' ∧
        ((ppSubwords ord (ppCounts lines) vs minEv charMin wordMin = .ok v' ∧ ((v'.length : Int) = vs ∨ ∀ q, pairCount C' q < minEv)) ∨
         (ppSubwords ord (ppCounts lines) vs minEv charMin wordMin = .error .value ∧ (v'.length : Int) < vs ∧ ∀ s ∈ C', ∃ c, s.1 = [c])))) := by
  obtain ⟨t1, t2, t3⟩ := ppCounts_spec ht
  obtain ⟨tf1, cf, v0, C, a1, a2, a3, a4, a5, a6, a7, a8, a9, a10⟩ :=
    ppSubwords_cases (ord := ord) t1 t3 (vs := vs) (minEv := minEv) hcm hwm
  have htf : ∀ n f, (n, f) ∈ tf1 ↔ n ∈ toks.flatten ∧ f = toks.flatten.count n ∧ wordMin ≤ f := by
    intro n f; rw [a1, t2]; tauto
  have hkept : ∀ c, [c] ∈ names v0 ↔ c = SP ∨ charMin ≤ usedCount wordMin toks.flatten c := by
    intro c
    by_cases hc : c = SP
    · subst hc
      simp [contract_sp a4]
    · rw [← chCount_used a2 htf hc]
      simp only [hc, false_or]
      constructor
      · intro hm
        obtain ⟨t, htm, hn⟩ := List.mem_map.1 hm
        rw [← List.take_append_drop 6 v0] at htm
        rcases List.mem_append.1 htm with h | h
        · have h1 : (t.name, t.level, t.kids) ∈ (v0.take 6).map (fun t => (t.name, t.level, t.kids)) := List.mem_map.2 ⟨t, h, rfl⟩
          rw [a4.reserved, hn] at h1
          simp [lit] at h1
          exact absurd h1.1 hc
        · obtain ⟨d, e1, e2, _⟩ := (a3 _ _).1 (a4.counted t h).1
          have := a4.frequent t h
          rw [hn] at e1
          cases e1
          omega
      · intro hm
        exact a5 ([c], chCount tf1 c) ((a3 _ _).2 ⟨c, rfl, rfl, by omega⟩) hm
  have hcube : CubeFree C := by
    refine masked_cubeFree a7 (contract_unk_name a4) (contract_sp a4) ?_
    rintro ⟨n, f⟩ hp
    obtain ⟨h1, h2, h3⟩ := (htf n f).1 hp
    subst h2
    have e : masked v0 n = rareMasked wordMin charMin toks.flatten n := by
      unfold masked rareMasked
      refine List.map_congr_left fun c _ => ?_
      simp only [hkept]
      rfl
    rw [e]
    exact hfree n h1 h3
  have hne : C ≠ [] := by
    rintro rfl
    obtain ⟨w, hw, hc⟩ := hsome
    have := (htf w _).2 ⟨hw, rfl, hc⟩
    cases a7
    simp at this
  refine ⟨tf1, cf, v0, C, htf, a2, a3, a4, a5, a7, ?_⟩
  rw [a10]
  by_cases h1 : vs = -1
  · exact .inl ⟨h1, if_pos h1⟩
  · rw [if_neg h1]
    by_cases hlen : (v0.length : Int) < vs
    · right; right
      obtain ⟨k, C', v', hk, hrun, hres⟩ := C83_cube_free_partial hord hmin Level.subword (vs - v0.length) hne a8 a4.indexed a4.distinct a9 hcube
      have hv' : v'.length = v0.length + k := by
        obtain ⟨new, e, hl, _⟩ := hrun.shape
        rw [e, List.length_append, hl]
      refine ⟨hlen, k, C', v', hrun, ?_⟩
      rw [if_pos hlen]
      rcases hres with ⟨h1, h2⟩ | ⟨h1, h2, h3⟩
      · exact Or.inl ⟨h1, h2.imp (fun h => by omega) id⟩
      · exact Or.inr ⟨h1, by omega, h3⟩
    · exact .inr (.inl ⟨h1, by omega, if_neg hlen⟩)

/-- "xa" and "ya" with the characters seen once left out: both are `<unk>` "a" for the learner -/
example : rareMasked 1 2 [lit "xa", lit "ya"] (lit "xa") = [0x110000, 97] ∧
    outcome (ppSubwords ordId (ppCounts [lit "xa ya"]) 9 2 2 1) =
      .ok [(lit "<pad>", -1), (lit "<unk>", -1), (lit "<s>", -1), (lit "</s>", -1), (lit "<cls>", -1), ([SP], -1), (lit "a", 2),
        (lit "<unk>a", 2), (lit "<unk>a▁", 2)] := by decide +kernel
/-- size 5 is refused -/
example : outcome (ppSubwords ordId (ppCounts [lit "xa ya"]) 5 2 2 1) = .error .assertion := by decide +kernel

/-- That no word itself contains a block three times in a row is not enough: "xayaza" has none, but with x, y and z left out it is `<unk>` "a" three
times, and learning raises an AssertionError. -/
theorem C84_masked_refuted : (∀ b : Str, b ≠ [] → ¬ (b ++ b ++ b) <:+: lit "xayaza" ++ [0x2581]) ∧
    outcome (ppSubwords ordId (ppCounts [lit "xayaza"]) 12 1 2 1) = .error .assertion := by
  exact ⟨cube_check (by decide +kernel), by decide +kernel⟩

end Verif
