import Verif.Props.Batch
/-!
# Property C46: sizes of the batches of equal length, exactly
-/

namespace Verif
open Spec

variable {κ : Type} [DecidableEq κ]

omit [DecidableEq κ] in
theorem chain_dropLast {ρ : Type} {n : ρ → Int} {maxToks m : Nat} {gs : List (List ρ)} (hc : gs.IsChain (ClosedBy n maxToks fun g => moreThan g.length (some m)))
    (hlen : ∀ g ∈ gs, g.length ≤ m + 1) (hroom : ∀ r ∈ gs.flatten, ((m : Int) + 1) * n r ≤ maxToks) (hpos : ∀ r ∈ gs.flatten, 0 ≤ n r) :
    ∀ g ∈ gs.dropLast, g.length = m + 1 := by
  induction hc with
  | nil => simp
  | singleton => simp
  | @cons_cons g g' gs hcl _ ih =>
    intro x hx
    rw [List.dropLast_cons_of_ne_nil (by simp)] at hx
    rcases List.mem_cons.1 hx with rfl | hx
    swap
    · exact ih (fun g h => hlen g (by simp [h])) (fun r h => hroom r (by simp only [List.flatten_cons] at h ⊢; simp only [List.mem_append] at h ⊢; tauto))
        (fun r h => hpos r (by simp only [List.flatten_cons] at h ⊢; simp only [List.mem_append] at h ⊢; tauto)) x hx
    have hle := hlen x (by simp)
    obtain ⟨r, hr, h | h⟩ := hcl
    swap
    · simp only [moreThan, decide_eq_true_eq] at h; omega
    obtain ⟨s, hs, hlt⟩ := h
    have hsm : s ∈ (x :: g' :: gs).flatten := by
      rcases List.mem_cons.1 hs with rfl | hs
      · have := List.mem_of_mem_head? hr
        simp [this]
      · simp [hs]
    have h1 := hroom s hsm
    have h2 := hpos s hsm
    by_contra hne
    have h3 : ((x.length : Int) + 1) ≤ m + 1 := by omega
    have := mul_le_mul_of_nonneg_right h3 h2
    omega

/-- C46, exactly: when `max_sents + 1` of the longest records have room within `max_toks`, every batch of equal-length batching but the last has exactly
`max_sents + 1` records; so the limit `max_sents` is kept exactly if no more than `max_sents` records have to be put into batches. -/
theorem C46_eq_len_iff {bufSize : Nat} {ns : List Str} (hns : ns.Nodup) {recs : List (κ × List (List Int))} {db : Db κ}
    (h : Db.create bufSize ns recs = .ok db) {maxToks m : Nat} (hroom : ∀ r ∈ recs, ∀ c ∈ r.2, (m + 1) * c.length ≤ maxToks)
    {ord : List κ → List κ} (hord : ∀ l, (ord l).Perm l) {shuf : List (κ × Int) → List (κ × Int)} (hshuf : ∀ l, (shuf l).Perm l)
    (hsome : ∃ r ∈ recs, ∀ c ∈ r.2, c ≠ []) :
    ∃ ids, db.eqBatchIds maxToks (some m) ord shuf = .ok ids ∧ (∀ b ∈ ids.dropLast, b.length = m + 1) ∧
      ((∀ b ∈ ids, b.length ≤ m) ↔ recs.countP (fun r => decide (∀ c ∈ r.2, c ≠ [])) ≤ m) := by
  have hd := dbCreate_ok hns h
  have hfull : ∀ r : κ × List (List Int), fullRec r = decide (∀ c ∈ r.2, c ≠ []) := by
    intro r
    rw [fullRec, Bool.eq_iff_iff]
    simp
  have hlong : ∀ r ∈ recs, ((m : Int) + 1) * longest r ≤ maxToks ∧ 0 ≤ longest r := by
    intro r hr
    by_cases h0 : r.2 = []
    · simp [longest, lensOf, h0, listMax]
    obtain ⟨c, hc, e⟩ := List.mem_map.1 (listMax_mem (l := lensOf r) (by simpa [lensOf] using h0))
    rw [longest, ← e]
    have := hroom r hr c hc
    constructor
    · exact_mod_cast this
    · omega
  obtain ⟨_, s2⟩ := eqBatchIds_spec hns hd maxToks (some m) hord hshuf
  have hn : recs.filter fullRec ≠ [] := by
    obtain ⟨r, hr, hf⟩ := hsome
    have : r ∈ recs.filter fullRec := List.mem_filter.2 ⟨hr, by rw [hfull]; simpa using hf⟩
    exact List.ne_nil_of_mem this
  rcases s2 hn with ⟨gs, g1, g2, _, _, g5, g6⟩ | ⟨_, r, hr, hlt⟩
  swap
  · obtain ⟨h1, h2⟩ := hlong r (List.mem_filter.1 hr).1
    nlinarith
  have hmem : ∀ r ∈ gs.flatten, r ∈ recs := fun r hr => (List.mem_filter.1 (g2.mem_iff.1 hr)).1
  have hlast := chain_dropLast g6 (fun g hg => (g5 g hg).2.2 m rfl) (fun r hr => (hlong r (hmem r hr)).1) (fun r hr => (hlong r (hmem r hr)).2)
  have hcount : gs.flatten.length = recs.countP (fun r => decide (∀ c ∈ r.2, c ≠ [])) := by
    rw [g2.length_eq, List.countP_eq_length_filter]
    congr 2
    exact funext hfull
  refine ⟨_, g1, ?_, ?_⟩
  · intro b hb
    rw [← List.map_dropLast] at hb
    obtain ⟨g, hg, rfl⟩ := List.mem_map.1 hb
    rw [List.length_map]
    exact hlast g hg
  · rw [← hcount]
    constructor
    · intro hle
      clear * - hle hlast
      match gs, hle, hlast with
      | [], _, _ => simp
      | [g], hle, _ => simpa using hle
      | g :: g' :: gs, hle, hlast =>
        have h1 := hlast g (by simp)
        have h2 := hle (g.map (·.1)) (by simp)
        rw [List.length_map] at h2
        omega
    · intro hle b hb
      obtain ⟨g, hg, rfl⟩ := List.mem_map.1 hb
      rw [List.length_map]
      exact le_trans (List.sublist_flatten_of_mem hg).length_le hle

/-- three records with `max_sents = 1`: a batch of two and one of one record; a single record keeps the limit -/
example : (∀ r ∈ [((0 : Nat), [[(1 : Int)]]), (1, [[2]]), (2, [[3]])], ∀ c ∈ r.2, (1 + 1) * c.length ≤ 100) ∧
    [((0 : Nat), [[(1 : Int)]]), (1, [[2]]), (2, [[3]])].countP (fun r => decide (∀ c ∈ r.2, c ≠ [])) = 3 ∧
    (Db.create 4 [lit "x"] [((0 : Nat), [[(1 : Int)]]), (1, [[2]]), (2, [[3]])]).bind (fun db => db.eqBatchIds 100 (some 1) id id) = .ok [[0, 1], [2]] ∧
    (Db.create 4 [lit "x"] [((0 : Nat), [[(1 : Int)]]), (1, [[]])]).bind (fun db => db.eqBatchIds 100 (some 1) id id) = .ok [[0]] := by decide +kernel

end Verif
