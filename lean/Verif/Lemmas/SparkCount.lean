import Mathlib.Data.List.Dedup
import Verif.Model.Spark
import Verif.Lemmas.Learn
import Verif.Lemmas.Str
import Verif.Lemmas.Dict
import Verif.Lemmas.Multipart
/-! # Lemmas for distributed counting -/

namespace Verif
open Spec

/-- what Spark guarantees of a reduction: each value of a key is used once, and the result has one entry per key -/
structure Reduction.Lawful {κ υ : Type} (R : Reduction κ υ) : Prop where
  tree : ∀ k vs, vs ≠ [] → (R.tree k vs).leaves.Perm vs
  ord : ∀ l, (R.ord l).Perm l

theorem RTree.eval_sum (t : RTree Int) : t.eval (· + ·) = t.leaves.sum := by
  induction t with
  | leaf a => simp [RTree.eval, RTree.leaves]
  | node l r h1 h2 => simp [RTree.eval, RTree.leaves, h1, h2]

theorem sum_perm {l l' : List Int} (h : l.Perm l') : l.sum = l'.sum := by
  induction h with
  | nil => rfl
  | cons a _ ih => simp [ih]
  | swap a b l => simp only [List.sum_cons]; omega
  | trans _ _ h1 h2 => exact h1.trans h2

variable {κ : Type} [DecidableEq κ]

theorem reduceByKey_sum {R : Reduction κ Int} (hR : R.Lawful) (pairs : List (κ × Int)) :
    (Dict.keys (reduceByKey (· + ·) R pairs)).Nodup ∧
    ∀ k f, (k, f) ∈ reduceByKey (· + ·) R pairs ↔ k ∈ pairs.map (·.1) ∧ f = ((pairs.filter fun p => p.1 == k).map (·.2)).sum := by
  have hp := hR.ord ((pairs.map (·.1)).dedup.map fun k => (k, (R.tree k ((pairs.filter fun p => p.1 == k).map (·.2))).eval (· + ·)))
  constructor
  · rw [reduceByKey, Dict.keys, (hp.map _).nodup_iff, List.map_map]
    simpa [Function.comp_def] using List.nodup_dedup _
  · intro k f
    rw [reduceByKey, hp.mem_iff, List.mem_map]
    have he : ∀ k ∈ pairs.map (·.1), (R.tree k ((pairs.filter fun p => p.1 == k).map (·.2))).eval (· + ·) =
        ((pairs.filter fun p => p.1 == k).map (·.2)).sum := by
      intro k hk
      rw [RTree.eval_sum]
      apply sum_perm
      apply hR.tree
      obtain ⟨p, hp, rfl⟩ := List.mem_map.1 hk
      intro h
      have : p ∈ pairs.filter fun q => q.1 == p.1 := by simp [hp]
      rw [List.map_eq_nil_iff] at h
      rw [h] at this
      simp at this
    constructor
    · rintro ⟨k', hk, h⟩
      rw [List.mem_dedup] at hk
      injection h with h1 h2
      subst h1
      exact ⟨hk, by rw [← h2, he _ hk]⟩
    · rintro ⟨hk, rfl⟩
      exact ⟨k, List.mem_dedup.2 hk, by rw [he _ hk]⟩

theorem get?_iff_mem {υ : Type} {d : Dict κ υ} (hn : (Dict.keys d).Nodup) {k : κ} {v : υ} : Dict.get? d k = some v ↔ (k, v) ∈ d := by
  constructor
  · intro h
    induction d with
    | nil => simp at h
    | cons p d ih =>
      obtain ⟨a, b⟩ := p
      rw [Dict.get?_cons] at h
      split at h
      · rename_i e; cases h; simp [e]
      · exact List.mem_cons_of_mem _ (ih (List.nodup_cons.1 hn).2 h)
  · exact fun h => Dict.get?_of_mem hn h

/-- ones are summed to the number of occurrences -/
theorem ones_sum (ws : List κ) (k : κ) : ((((ws.map fun w => (w, (1 : Int))).filter fun p => p.1 == k).map (·.2)).sum) = (ws.count k : Int) := by
  induction ws with
  | nil => rfl
  | cons w ws ih =>
    rw [List.map_cons, List.filter_cons, List.count_cons]
    split
    · rename_i h; simp only [List.map_cons, List.sum_cons, ih]; omega
    · rename_i h; rw [ih]; simp

/-- counting with a reduction -/
theorem reduce_ones {R : Reduction κ Int} (hR : R.Lawful) (ws : List κ) :
    (Dict.keys (reduceByKey (· + ·) R (ws.map fun w => (w, (1 : Int))))).Nodup ∧
    ∀ k f, (k, f) ∈ reduceByKey (· + ·) R (ws.map fun w => (w, (1 : Int))) ↔ k ∈ ws ∧ f = (ws.count k : Int) := by
  obtain ⟨h1, h2⟩ := reduceByKey_sum hR (ws.map fun w => (w, (1 : Int)))
  refine ⟨h1, fun k f => ?_⟩
  rw [h2, ones_sum]
  simp

/-- members of a dictionary of counts without the tag -/
theorem mem_erase_iff {υ : Type} {d : Dict κ υ} (hn : (Dict.keys d).Nodup) (t k : κ) (v : υ) : (k, v) ∈ Dict.erase d t ↔ (k, v) ∈ d ∧ k ≠ t := by
  have hn' := Dict.nodup_keys_erase hn t
  rw [← get?_iff_mem hn', Dict.get?_erase_cases hn, ← get?_iff_mem hn]
  split
  · rename_i h; simp [h]
  · rename_i h; simp [Ne.symm h]

/-- characters of counted words -/
theorem chars_sum {wf : List (Str × Int)} {ws : List Str} (hn : (wf.map (·.1)).Nodup) (hw : ∀ w f, (w, f) ∈ wf ↔ w ∈ ws ∧ f = (ws.count w : Int)) (c : Nat) :
    (((wf.flatMap fun r => r.1.map fun ch => (([ch] : Str), r.2)).filter fun p => p.1 == [c]).map (·.2)).sum = ((ws.flatten.count c : Nat) : Int) := by
  have h1 : ∀ wf : List (Str × Int), (((wf.flatMap fun r => r.1.map fun ch => (([ch] : Str), r.2)).filter fun p => p.1 == [c]).map (·.2)).sum =
      (wf.map fun r => (r.1.count c : Int) * r.2).sum := by
    intro wf
    induction wf with
    | nil => rfl
    | cons r wf ih =>
      rw [List.flatMap_cons, List.filter_append, List.map_append, List.sum_append, ih, List.map_cons, List.sum_cons]
      congr 1
      clear ih
      generalize r.1 = w
      induction w with
      | nil => simp
      | cons a w ih =>
        rw [List.map_cons, List.filter_cons, List.count_cons]
        by_cases h : a = c
        · subst h
          simp only [beq_self_eq_true, if_true, List.map_cons, List.sum_cons, ih, Nat.cast_add, Nat.cast_one]
          rw [Int.add_mul]; omega
        · simp [h, ih]
  rw [h1]
  have h2 : wf.Perm (ws.dedup.map fun w => (w, (ws.count w : Int))) := by
    have e : (wf.map (·.1)).Perm ws.dedup := by
      rw [List.perm_ext_iff_of_nodup hn (List.nodup_dedup _)]
      intro w
      rw [List.mem_dedup, List.mem_map]
      constructor
      · rintro ⟨⟨w', f⟩, h, rfl⟩; exact ((hw _ _).1 h).1
      · intro h; exact ⟨(w, _), (hw w _).2 ⟨h, rfl⟩, rfl⟩
    have e2 := e.map fun w => (w, (ws.count w : Int))
    rw [List.map_map] at e2
    refine List.Perm.trans (List.Perm.of_eq ?_) e2
    conv_lhs => rw [← List.map_id wf]
    apply List.map_congr_left
    rintro ⟨w, f⟩ h
    simp [((hw _ _).1 h).2]
  rw [sum_perm (h2.map _), List.map_map]
  clear h1 h2 hw hn
  -- the sum over distinct words of occurrences times characters
  have h3 : ∀ (D : List Str), D.Nodup → (∀ w ∈ ws, w ∈ D) → (D.map fun w => (w.count c : Int) * (ws.count w : Int)).sum = ((ws.flatten.count c : Nat) : Int) := by
    intro D hD
    induction ws with
    | nil => intro _; simp
    | cons v ws ih =>
      intro hm
      rw [List.flatten_cons, List.count_append, Nat.cast_add, ← ih (fun w hw => hm w (by simp [hw]))]
      clear ih
      have hv := hm v (by simp)
      clear hm
      induction D with
      | nil => simp at hv
      | cons d D ihD =>
        rw [List.nodup_cons] at hD
        rw [List.map_cons, List.map_cons, List.sum_cons, List.sum_cons, List.count_cons]
        by_cases h : v = d
        · subst h
          have : (D.map fun w => (w.count c : Int) * ((v :: ws).count w : Int)) = D.map fun w => (w.count c : Int) * (ws.count w : Int) := by
            apply List.map_congr_left
            intro w hw
            rw [List.count_cons_of_ne]
            rintro rfl
            exact hD.1 hw
          rw [this]
          simp only [beq_self_eq_true, if_true, Nat.cast_add, Nat.cast_one, Int.mul_add]
          omega
        · have := ihD hD.2 ((List.mem_cons.1 hv).resolve_left h)
          rw [this]
          simp only [beq_iff_eq, h, if_false, Nat.add_zero]
          omega
  exact h3 ws.dedup (List.nodup_dedup _) (fun w hw => List.mem_dedup.2 hw)

end Verif
