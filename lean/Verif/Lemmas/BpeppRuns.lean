import Verif.Model.Bpepp
import Verif.Spec.Bpepp
/-! # Runs of equal symbols -/

namespace Verif
open Spec

theorem runs_exist (s : List Nat) : ∃ rs, Runs rs s := by
  induction s with
  | nil => exact ⟨[], by simp [Runs, unrun]⟩
  | cons x s ih =>
    obtain ⟨rs, h1, h2, h3⟩ := ih
    cases rs with
    | nil =>
      refine ⟨[(x, 1)], by simp, by simp, ?_⟩
      simp [unrun] at h3 ⊢; exact h3
    | cons r rs =>
      obtain ⟨y, n⟩ := r
      by_cases hy : x = y
      · subst hy
        refine ⟨(x, n + 1) :: rs, ?_, ?_, ?_⟩
        · intro r hr
          rcases List.mem_cons.1 hr with rfl | hr
          · exact Nat.succ_pos n
          · exact h1 r (by simp [hr])
        · cases rs with
          | nil => simp
          | cons r' rs => simp only [List.isChain_cons_cons] at h2 ⊢; exact h2
        · simp only [unrun, List.flatMap_cons] at h3 ⊢
          rw [List.replicate_succ, List.cons_append, h3]
      · refine ⟨(x, 1) :: (y, n) :: rs, ?_, ?_, ?_⟩
        · intro r hr
          rcases List.mem_cons.1 hr with rfl | hr
          · exact Nat.one_pos
          · exact h1 r hr
        · simp only [List.isChain_cons_cons]; exact ⟨hy, h2⟩
        · simp only [unrun, List.flatMap_cons] at h3 ⊢
          rw [h3]; rfl

/-- the symbols kept after the first one -/
def sqTail (prev n : Nat) (r : List Nat) : List Nat := ((r.zip (ppBuffer prev n r)).filter fun p => decide (p.2 ≤ 2)).map (·.1)

theorem sqTail_cons (prev n x : Nat) (r : List Nat) : sqTail prev n (x :: r) =
    (if (if x = prev then n + 1 else 1) ≤ 2 then [x] else []) ++ sqTail x (if x = prev then n + 1 else 1) r := by
  simp only [sqTail, ppBuffer, List.zip_cons_cons, List.filter_cons]
  split <;> split <;> simp_all

theorem ppReplaceTrouble_cons (x : Nat) (r : List Nat) : ppReplaceTrouble (x :: r) = x :: sqTail x 1 r := by
  simp [ppReplaceTrouble, sqTail]

theorem sqTail_run (x : Nat) : ∀ (k n : Nat) (t : List Nat), t.head? ≠ some x →
    sqTail x n (List.replicate k x ++ t) = List.replicate (min k (2 - n)) x ++ (match t with | [] => [] | y :: t' => y :: sqTail y 1 t') := by
  intro k
  induction k with
  | zero =>
    intro n t ht
    cases t with
    | nil => simp [sqTail]
    | cons y t =>
      have hy : y ≠ x := by simpa using ht
      simp [sqTail_cons, hy]
  | succ k ih =>
    intro n t ht
    rw [List.replicate_succ, List.cons_append, sqTail_cons, if_pos rfl, ih (n + 1) t ht, ← List.append_assoc]
    congr 1
    by_cases hn : n + 1 ≤ 2
    · rw [if_pos hn, show min (k + 1) (2 - n) = min k (2 - (n + 1)) + 1 by omega, List.replicate_succ]; rfl
    · rw [if_neg hn, show min (k + 1) (2 - n) = 0 by omega, show min k (2 - (n + 1)) = 0 by omega]; rfl

theorem unrun_head (rs : List (Nat × Nat)) (h : ∀ r ∈ rs, 0 < r.2) : (unrun rs).head? = rs.head?.map (·.1) := by
  cases rs with
  | nil => rfl
  | cons r rs =>
    have := h r (by simp)
    obtain ⟨n, hn⟩ : ∃ n, r.2 = n + 1 := ⟨r.2 - 1, by omega⟩
    simp [unrun, hn, List.replicate_succ]

theorem ppReplaceTrouble_runs : ∀ (rs : List (Nat × Nat)), (∀ r ∈ rs, 0 < r.2) → rs.IsChain (fun r r' => r.1 ≠ r'.1) →
    ppReplaceTrouble (unrun rs) = unrun (rs.map fun r => (r.1, min r.2 2)) := by
  intro rs
  induction rs with
  | nil => intro _ _; rfl
  | cons r rs ih =>
    intro h1 h2
    obtain ⟨x, n⟩ := r
    have hn := h1 (x, n) (by simp)
    simp only at hn
    obtain ⟨k, rfl⟩ : ∃ k, n = k + 1 := ⟨n - 1, by omega⟩
    have h1' : ∀ r ∈ rs, 0 < r.2 := fun r hr => h1 r (by simp [hr])
    have h2' : rs.IsChain (fun r r' => r.1 ≠ r'.1) := by
      cases rs with
      | nil => simp
      | cons r' rs => simp only [List.isChain_cons_cons] at h2; exact h2.2
    have hx : (unrun rs).head? ≠ some x := by
      rw [unrun_head rs h1']
      cases rs with
      | nil => simp
      | cons r' rs =>
        simp only [List.isChain_cons_cons] at h2
        simp only [List.head?_cons, Option.map_some, ne_eq, Option.some.injEq]
        exact fun e => h2.1 e.symm
    have e0 : unrun ((x, k + 1) :: rs) = x :: (List.replicate k x ++ unrun rs) := by
      simp [unrun, List.replicate_succ]
    have e1 : unrun (((x, k + 1) :: rs).map fun r => (r.1, min r.2 2)) =
        List.replicate (min (k + 1) 2) x ++ unrun (rs.map fun r => (r.1, min r.2 2)) := by simp [unrun]
    rw [e0, e1, ppReplaceTrouble_cons, sqTail_run x k 1 _ hx, ← ih h1' h2']
    rw [show min (k + 1) 2 = min k (2 - 1) + 1 by omega, List.replicate_succ, List.cons_append]
    congr 2
    cases hu : unrun rs with
    | nil => rfl
    | cons y t => simp only [ppReplaceTrouble_cons]

theorem ppTroublesome_iff (s : List Nat) : ppTroublesome s = true ↔ ∃ x, [x, x, x] <:+: s := by
  induction s with
  | nil => simp [ppTroublesome]
  | cons a s ih =>
    have shortF : ∀ l : List Nat, l.length < 3 → ¬ ∃ x, [x, x, x] <:+: l := by
      rintro l hl ⟨x, hx⟩
      have := hx.length_le
      simp at this; omega
    match s, ih with
    | [], _ => simpa [ppTroublesome] using shortF [a] (by simp)
    | [b], _ => simpa [ppTroublesome] using shortF [a, b] (by simp)
    | b :: c :: r, ih =>
      simp only [ppTroublesome, Bool.or_eq_true, Bool.and_eq_true, beq_iff_eq, ih]
      constructor
      · rintro (⟨rfl, rfl⟩ | ⟨x, hx⟩)
        · exact ⟨c, [], r, by simp⟩
        · exact ⟨x, hx.trans (List.suffix_cons _ _).isInfix⟩
      · rintro ⟨x, hx⟩
        rw [List.infix_cons_iff] at hx
        rcases hx with hx | hx
        · left
          rw [List.cons_prefix_cons, List.cons_prefix_cons, List.cons_prefix_cons] at hx
          exact ⟨hx.2.2.1.symm.trans hx.2.1, hx.2.1.symm.trans hx.1⟩
        · exact Or.inr ⟨x, hx⟩

theorem runs_le_of_not_troublesome {rs : List (Nat × Nat)} {s : List Nat} (h : unrun rs = s) (ht : ppTroublesome s = false) :
    ∀ r ∈ rs, r.2 ≤ 2 := by
  intro r hr
  by_contra hn
  have : ppTroublesome s = true := by
    rw [ppTroublesome_iff]
    refine ⟨r.1, ?_⟩
    obtain ⟨A, B, rfl⟩ := List.append_of_mem hr
    obtain ⟨n, hn'⟩ : ∃ n, r.2 = 3 + n := ⟨r.2 - 3, by omega⟩
    refine ⟨unrun A, List.replicate n r.1 ++ unrun B, ?_⟩
    rw [← h]
    simp [unrun, hn', List.replicate_add, List.replicate_succ]
  rw [ht] at this; cases this

/-- without three equal symbols in a row nothing is replaced -/
theorem ppReplaceTrouble_id {s : List Nat} (ht : ppTroublesome s = false) : ppReplaceTrouble s = s := by
  obtain ⟨rs, h1, h2, h3⟩ := runs_exist s
  have hle := runs_le_of_not_troublesome h3 ht
  rw [← h3, ppReplaceTrouble_runs rs h1 h2]
  congr 1
  conv_rhs => rw [← List.map_id rs]
  apply List.map_congr_left
  intro r hr
  have := hle r hr
  simp [min_eq_left this]

theorem ppReplaceTrouble_ne_nil {s : List Nat} (h : s ≠ []) : ppReplaceTrouble s ≠ [] := by
  cases s with
  | nil => exact absurd rfl h
  | cons x r => rw [ppReplaceTrouble_cons]; simp

theorem mem_ppReplaceTrouble {s : List Nat} {c : Nat} (h : c ∈ ppReplaceTrouble s) : c ∈ s := by
  cases s with
  | nil => exact h
  | cons x r =>
    simp only [ppReplaceTrouble, List.mem_map, List.mem_filter] at h
    obtain ⟨⟨y, k⟩, ⟨h1, _⟩, rfl⟩ := h
    exact (List.of_mem_zip h1).1

/-- replacing troubles gives sequences without troubles -/
theorem not_troublesome_replace (s : List Nat) : ppTroublesome (ppReplaceTrouble s) = false := by
  obtain ⟨rs, h1, h2, h3⟩ := runs_exist s
  rw [← h3, ppReplaceTrouble_runs rs h1 h2]
  clear h3
  by_contra hne
  rw [Bool.not_eq_false, ppTroublesome_iff] at hne
  obtain ⟨x, hx⟩ := hne
  clear s
  induction rs with
  | nil => simp [unrun] at hx
  | cons r rs ih =>
    have h2' : rs.IsChain (fun r r' => r.1 ≠ r'.1) := by
      cases rs with
      | nil => simp
      | cons r' rs => simp only [List.isChain_cons_cons] at h2; exact h2.2
    have ih' := ih (fun r hr => h1 r (by simp [hr])) h2'
    have e1 : unrun ((r :: rs).map fun r => (r.1, min r.2 2)) =
        List.replicate (min r.2 2) r.1 ++ unrun (rs.map fun r => (r.1, min r.2 2)) := by simp [unrun]
    rw [e1] at hx
    have hh : (unrun (rs.map fun r => (r.1, min r.2 2))).head? ≠ some r.1 := by
      rw [unrun_head]
      · cases rs with
        | nil => simp
        | cons r' rs =>
          simp only [List.isChain_cons_cons] at h2
          simp only [List.map_cons, List.head?_cons, Option.map_some, ne_eq, Option.some.injEq]
          exact fun e => h2.1 e.symm
      · intro q hq
        obtain ⟨q', hq', rfl⟩ := List.mem_map.1 hq
        have := h1 q' (by simp [hq'])
        simp only; omega
    generalize unrun (rs.map fun r => (r.1, min r.2 2)) = t at *
    have h0 := h1 r (by simp)
    have hk : min r.2 2 = 1 ∨ min r.2 2 = 2 := by omega
    rcases hk with hk | hk
    · rw [hk] at hx
      simp only [List.replicate_one, List.singleton_append, List.infix_cons_iff] at hx
      rcases hx with hx | hx
      · obtain ⟨u, hu⟩ := hx
        simp only [List.cons_append, List.nil_append, List.cons.injEq] at hu
        exact hh (by rw [← hu.2, hu.1]; rfl)
      · exact ih' hx
    · rw [hk] at hx
      simp only [List.replicate_succ, List.replicate_zero, List.cons_append, List.nil_append, List.infix_cons_iff] at hx
      rcases hx with hx | hx | hx
      · obtain ⟨u, hu⟩ := hx
        simp only [List.cons_append, List.nil_append, List.cons.injEq] at hu
        exact hh (by rw [← hu.2.2, hu.1]; rfl)
      · obtain ⟨u, hu⟩ := hx
        simp only [List.cons_append, List.nil_append, List.cons.injEq] at hu
        exact hh (by rw [← hu.2, hu.1]; rfl)
      · exact ih' hx

/-- what the index is built from -/
def squeezed (seqs : List (List Nat × Int)) : List (List Nat × Int) := seqs.map fun s => (ppReplaceTrouble s.1, s.2)

/-- with `troubles='replace'` the index is that of the squeezed sequences -/
theorem ppCreateIndex_replace : ∀ (seqs : List (List Nat × Int)) (first : Bool) (I : Index),
    ppCreateIndex .replace first seqs I = createIndex first (squeezed seqs) I := by
  intro seqs
  induction seqs with
  | nil => intro first I; rfl
  | cons s seqs ih =>
    obtain ⟨seq, freq⟩ := s
    intro first I
    by_cases hne : seq = []
    · subst hne
      simp only [ppCreateIndex, squeezed, List.map_cons, createIndex, ppReplaceTrouble, if_true]
      split
      · rfl
      · exact ih _ _
    · have h2 := ppReplaceTrouble_ne_nil hne
      have e : squeezed ((seq, freq) :: seqs) = (ppReplaceTrouble seq, freq) :: squeezed seqs := rfl
      rw [e]
      simp only [ppCreateIndex, createIndex, hne, h2, if_false]
      by_cases ht : ppTroublesome seq = true
      · simp only [ht, if_true]
        split
        · rename_i he; rw [he]
        · rename_i he; rw [he]; exact ih _ _
      · have ht' : ppTroublesome seq = false := by simpa using ht
        simp only [ht', Bool.false_eq_true, if_false, ppReplaceTrouble_id ht']
        split
        · rename_i he; rw [he]
        · rename_i he; rw [he]; exact ih _ _

end Verif
