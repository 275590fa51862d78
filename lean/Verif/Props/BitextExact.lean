import Verif.Props.Spark
/-!
# Property C76: exactly which runs of nlcodec-bitextdb store the pairs
-/

namespace Verif
open Spec

/-- C76, exactly: `nlcodec-bitextdb` ends without an exception if and only if the files have the same number of lines, some pair is kept (C63), no partition of the kept pairs
is empty (C66), and the directory is new or empty; then it has stored the pairs (`C76_bitext_partial`). -/
theorem C76_iff {cl : Cluster Nat} (hcl : cl.Lawful) {ord : List (Nat × Str × Str) → List (Nat × Str × Str)} (ho : ∀ l, (ord l).Perm l)
    {part : List (Nat × List (List Int)) → List (List (Nat × List (List Int)))} (hpart : ∀ l, (part l).flatten.Perm l) {src tgt : List Str}
    {srcLen tgtLen : Nat} {srcTok tgtTok : Str → List Int} {cut : Bool}
    (hvs : ∀ s ∈ src, ∀ v ∈ srcTok s, v.natAbs ≤ 2 ^ 53) (hvt : ∀ t ∈ tgt, ∀ v ∈ tgtTok t, v.natAbs ≤ 2 ^ 53)
    (hsize : src.length * (srcLen + tgtLen) < 2 ^ 64) {numParts : Int} {dir : Dir Nat} :
    (bitextMain cl ord part src tgt cut srcLen tgtLen srcTok tgtTok numParts dir).res = .ok () ↔
      src.length = tgt.length ∧ (∃ i x y c, PairAt src tgt srcTok tgtTok i x y ∧ Columns cut srcLen tgtLen x y c) ∧
      (∀ rows, readRawBitextTok ord src tgt cut srcLen tgtLen srcTok tgtTok = .ok rows → ∀ ps, ps = part (rows.map fun r => (r.1, [r.2.1, r.2.2])) →
        ∀ c ∈ (if 0 < numParts then cl.repart numParts.toNat ps else ps), c ≠ []) ∧
      (dir = none ∨ dir = some []) := by
  constructor
  · intro h
    have hlen : src.length = tgt.length := by
      by_contra hn
      rw [bitextMain, C63_unequal_refused ord hn] at h
      cases h
    have hne : ∃ i x y c, PairAt src tgt srcTok tgtTok i x y ∧ Columns cut srcLen tgtLen x y c := by
      by_contra hn
      rw [bitextMain, C63_nothing_left_refuted ord ho hlen cut srcLen tgtLen srcTok tgtTok ?_] at h
      · cases h
      intro i x y hp
      cases cut with
      | true => exact absurd ⟨i, x, y, _, hp, rfl⟩ hn
      | false =>
        refine ⟨rfl, fun hc => hn ⟨i, x, y, _, hp, rfl, ?_, ?_⟩⟩ <;> omega
    have hdir : dir = none ∨ dir = some [] := by
      by_contra hd
      rw [bitextMain] at h
      split at h
      · cases h
      · rw [C66_occupied_refused _ _ _ _ _ hd] at h
        cases h
    refine ⟨hlen, hne, ?_, hdir⟩
    rintro rows hr ps rfl c hc rfl
    obtain ⟨⟨e, he⟩, _⟩ := C66_empty_partition_refuted hcl [lit "x", lit "y"] (parts := part (rows.map fun r => (r.1, [r.2.1, r.2.2]))) (repartition := numParts) hc
      (maxParts := 1000) (by omega) (overwrite := false) (dir := dir) (Or.inr hdir)
    rw [bitextMain, hr] at h
    dsimp only at h
    rw [he] at h
    cases h
  · rintro ⟨hlen, hne, hfull, hdir⟩
    exact (C76_bitext_partial hcl ho hpart hlen hne hvs hvt hsize hfull hdir).1

-- one pair is left of three, in one partition; with two partitions the run fails
example : (bitextMain exCluster List.reverse (fun l => [l]) [lit "abc", [], lit "d"] [lit "xy", lit "z", lit "z"] false 2 2 exTok exTok 1 none).res = .ok () ∧
    (bitextMain exCluster List.reverse (fun l => [l]) [lit "abc", [], lit "d"] [lit "xy", lit "z", lit "z"] false 2 2 exTok exTok 2 none).res ≠ .ok () := by
  decide +kernel

end Verif
