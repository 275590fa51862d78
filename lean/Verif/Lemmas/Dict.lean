import Verif.Py.Basic
import Mathlib.Data.List.Nodup
/-! # Lemmas on insertion-ordered dictionaries -/

namespace Verif.Dict
variable {κ υ : Type} [DecidableEq κ]

@[simp] theorem get?_nil (k : κ) : get? ([] : Dict κ υ) k = none := rfl

theorem get?_cons (k' : κ) (v : υ) (d : Dict κ υ) (k : κ) :
    get? ((k', v) :: d) k = if k' = k then some v else get? d k := rfl

theorem get?_set (d : Dict κ υ) (k : κ) (v : υ) (k' : κ) :
    get? (set d k v) k' = if k = k' then some v else get? d k' := by
  induction d with
  | nil => simp [set, get?]
  | cons p d ih =>
    obtain ⟨a, b⟩ := p
    by_cases h : a = k
    · subst h; by_cases h' : a = k' <;> simp [set, get?, h']
    · by_cases h' : k = k'
      · subst h'; simp [set, get?, h, ih]
      · simp [set, get?, h, ih, h']

@[simp] theorem get?_set_self (d : Dict κ υ) (k : κ) (v : υ) : get? (set d k v) k = some v := by
  simp [get?_set]

theorem get?_set_ne (d : Dict κ υ) {k k' : κ} (v : υ) (h : k ≠ k') : get? (set d k v) k' = get? d k' := by
  simp [get?_set, h]

theorem get?_eq_none_iff (d : Dict κ υ) (k : κ) : get? d k = none ↔ k ∉ keys d := by
  induction d with
  | nil => simp [keys]
  | cons p d ih =>
    obtain ⟨a, b⟩ := p
    by_cases h : a = k
    · subst h; simp [get?, keys]
    · simp only [get?, h, if_false, ih, keys, List.map_cons, List.mem_cons, not_or]
      exact ⟨fun h2 => ⟨fun e => h e.symm, h2⟩, fun h2 => h2.2⟩

theorem isSome_get?_iff (d : Dict κ υ) (k : κ) : (get? d k).isSome = true ↔ k ∈ keys d := by
  have := get?_eq_none_iff d k
  cases h : get? d k with
  | none => simp [h] at this; simp [this]
  | some v => simp [h] at this; simp [this]

theorem mem_iff (d : Dict κ υ) (k : κ) : mem d k = true ↔ k ∈ keys d := isSome_get?_iff d k

theorem keys_set (d : Dict κ υ) (k : κ) (v : υ) :
    keys (set d k v) = if k ∈ keys d then keys d else keys d ++ [k] := by
  induction d with
  | nil => simp [set, keys]
  | cons p d ih =>
    obtain ⟨a, b⟩ := p
    by_cases h : a = k
    · subst h; simp [set, keys]
    · have : k ≠ a := fun e => h e.symm
      simp only [set, h, if_false]
      simp only [keys, List.map_cons] at ih ⊢
      rw [ih]
      by_cases hk : k ∈ List.map (fun x => x.1) d
      · simp [hk]
      · simp [hk, this]

theorem nodup_keys_set {d : Dict κ υ} (h : (keys d).Nodup) (k : κ) (v : υ) : (keys (set d k v)).Nodup := by
  rw [keys_set]
  split
  · exact h
  · rename_i hk
    rw [List.nodup_append]
    refine ⟨h, by simp, ?_⟩
    intro a ha b hb
    simp at hb; subst hb
    intro e; subst e; exact hk ha

theorem length_set (d : Dict κ υ) (k : κ) (v : υ) :
    (set d k v).length = if k ∈ keys d then d.length else d.length + 1 := by
  have hl : ∀ d : Dict κ υ, (keys d).length = d.length := fun d => List.length_map _
  have := congrArg List.length (keys_set d k v)
  rw [hl] at this
  rw [this]
  by_cases h : k ∈ keys d
  · rw [if_pos h, if_pos h, hl]
  · rw [if_neg h, if_neg h, List.length_append, hl]; rfl

theorem mem_of_get? {d : Dict κ υ} {k : κ} {v : υ} (h : get? d k = some v) : (k, v) ∈ d := by
  induction d with
  | nil => simp at h
  | cons p d ih =>
    obtain ⟨a, b⟩ := p
    by_cases ha : a = k
    · subst ha; simp [get?] at h; simp [h]
    · simp [get?, ha] at h; exact List.mem_cons_of_mem _ (ih h)

theorem get?_of_mem {d : Dict κ υ} (hn : (keys d).Nodup) {k : κ} {v : υ} (h : (k, v) ∈ d) : get? d k = some v := by
  induction d with
  | nil => simp at h
  | cons p d ih =>
    obtain ⟨a, b⟩ := p
    simp only [keys, List.map_cons, List.nodup_cons] at hn
    rcases List.mem_cons.1 h with h | h
    · cases h; simp [get?]
    · have : a ≠ k := fun e => hn.1 (by rw [e]; exact List.mem_map.2 ⟨_, h, rfl⟩)
      simp [get?, this, ih hn.2 h]

theorem get?_eq_some_iff {d : Dict κ υ} (hn : (keys d).Nodup) (k : κ) (v : υ) : get? d k = some v ↔ (k, v) ∈ d :=
  ⟨mem_of_get?, get?_of_mem hn⟩

theorem keys_erase_subset (d : Dict κ υ) (k a : κ) (h : a ∈ keys (erase d k)) : a ∈ keys d := by
  induction d with
  | nil => simp [erase, keys] at h
  | cons p d ih =>
    obtain ⟨b, c⟩ := p
    simp only [erase] at h
    split at h
    · simp [keys] at h ⊢; exact Or.inr h
    · simp [keys] at h ⊢
      rcases h with h | h
      · exact Or.inl h
      · have := ih (by simpa [keys] using h)
        exact Or.inr (by simpa [keys] using this)

theorem nodup_keys_erase {d : Dict κ υ} (h : (keys d).Nodup) (k : κ) : (keys (erase d k)).Nodup := by
  induction d with
  | nil => simp [erase, keys]
  | cons p d ih =>
    obtain ⟨b, c⟩ := p
    simp only [keys, List.map_cons, List.nodup_cons] at h
    simp only [erase]
    split
    · exact h.2
    · simp only [keys, List.map_cons, List.nodup_cons]
      exact ⟨fun hm => h.1 (keys_erase_subset d k b hm), ih h.2⟩

theorem get?_erase {d : Dict κ υ} (h : (keys d).Nodup) (k k' : κ) :
    get? (erase d k) k' = if k = k' then none else get? d k' := by
  induction d with
  | nil => simp [erase]
  | cons p d ih =>
    obtain ⟨b, c⟩ := p
    simp only [keys, List.map_cons, List.nodup_cons] at h
    by_cases hb : b = k
    · subst hb
      simp only [erase, if_true]
      by_cases hk : b = k'
      · subst hk; simp; exact (get?_eq_none_iff d b).2 h.1
      · simp [get?, hk]
    · simp only [erase, hb, if_false, get?_cons, ih h.2]
      by_cases hk : b = k'
      · subst hk; simp; exact fun e => hb e.symm
      · simp [hk]

theorem length_erase_of_mem {d : Dict κ υ} {k : κ} (h : k ∈ keys d) : (erase d k).length + 1 = d.length := by
  induction d with
  | nil => simp [keys] at h
  | cons p d ih =>
    obtain ⟨b, c⟩ := p
    by_cases hb : b = k
    · subst hb; simp [erase]
    · have : k ∈ keys d := by
        simp [keys] at h ⊢
        rcases h with h | h
        · exact absurd h.symm hb
        · exact h
      simp [erase, hb, ih this]

/-! ## counters -/

theorem get?_incr (d : Dict κ Int) (k : κ) (n : Int) (k' : κ) :
    get? (incr d k n) k' = if k = k' then some ((get? d k).getD 0 + n) else get? d k' := get?_set _ _ _ _

/-- value of a counter at a key (0 when absent), as `Counter.__getitem__` does -/
def cnt (d : Dict κ Int) (k : κ) : Int := (get? d k).getD 0

theorem cnt_incr (d : Dict κ Int) (k : κ) (n : Int) (k' : κ) :
    cnt (incr d k n) k' = cnt d k' + if k = k' then n else 0 := by
  simp only [cnt, get?_incr]
  split
  · rename_i h; subst h; simp
  · simp

theorem cnt_count [BEq κ] [LawfulBEq κ] (d : Dict κ Int) (xs : List κ) (k : κ) :
    cnt (count d xs) k = cnt d k + (xs.count k : Nat) := by
  induction xs generalizing d with
  | nil => simp [count]
  | cons x xs ih =>
    have : count d (x :: xs) = count (incr d x 1) xs := rfl
    rw [this, ih, cnt_incr, List.count_cons]
    by_cases h : x = k
    · subst h; simp; omega
    · simp [h]

theorem nodup_keys_incr {d : Dict κ Int} (h : (keys d).Nodup) (k : κ) (n : Int) : (keys (incr d k n)).Nodup :=
  nodup_keys_set h _ _

theorem nodup_keys_count {d : Dict κ Int} (h : (keys d).Nodup) (xs : List κ) : (keys (count d xs)).Nodup := by
  induction xs generalizing d with
  | nil => exact h
  | cons x xs ih => exact ih (nodup_keys_incr h x 1)

theorem mem_keys_incr (d : Dict κ Int) (k : κ) (n : Int) (a : κ) : a ∈ keys (incr d k n) ↔ a ∈ keys d ∨ a = k := by
  simp only [incr, keys_set]
  split
  · rename_i h
    exact ⟨Or.inl, fun h2 => h2.elim id (fun e => e ▸ h)⟩
  · simp

theorem mem_keys_count (d : Dict κ Int) (xs : List κ) (a : κ) : a ∈ keys (count d xs) ↔ a ∈ keys d ∨ a ∈ xs := by
  induction xs generalizing d with
  | nil => simp [count]
  | cons x xs ih =>
    have : count d (x :: xs) = count (incr d x 1) xs := rfl
    rw [this, ih, mem_keys_incr, List.mem_cons]
    tauto

end Verif.Dict
