import Verif.Model.Scheme
import Verif.Lemmas.Dict
/-! # Lemmas on the prefix trie -/

namespace Verif
namespace Trie
variable {α : Type}

/-- data found at a string -/
def lookup (s : Str) (t : Trie α) : Option α := (t.find s).bind (·.data)

@[simp] theorem find_nil (t : Trie α) : t.find [] = some t := rfl

theorem find_cons (c : Nat) (cs : Str) (t : Trie α) : t.find (c :: cs) = (t.child c).bind (find cs) := rfl

theorem find_append (s r : Str) (t : Trie α) : t.find (s ++ r) = (t.find s).bind (find r) := by
  induction s generalizing t with
  | nil => rfl
  | cons c cs ih =>
    simp only [List.cons_append, find_cons]
    cases t.child c with
    | none => rfl
    | some k => simp [ih]

theorem child_empty (c : Nat) : (empty : Trie α).child c = none := rfl

theorem lookup_empty (s : Str) : (empty : Trie α).lookup s = none := by
  cases s <;> rfl

theorem find_empty_isSome (s : Str) : ((empty : Trie α).find s).isSome = true ↔ s = [] := by
  cases s <;> simp [find, child_empty]

theorem child_insert (c c' : Nat) (cs : Str) (d : α) (t : Trie α) :
    (t.insert (c :: cs) d).child c' = if c = c' then some (insert cs d ((t.child c).getD empty)) else t.child c' := by
  simp [insert, child, Dict.get?_set]

theorem data_insert_cons (c : Nat) (cs : Str) (d : α) (t : Trie α) : (t.insert (c :: cs) d).data = t.data := rfl

theorem lookup_insert (w s : Str) (d : α) (t : Trie α) :
    (t.insert w d).lookup s = if w = s then some d else t.lookup s := by
  induction w generalizing s t with
  | nil =>
    cases s with
    | nil => simp [lookup, insert]
    | cons c cs => simp [lookup, insert, find_cons, child]
  | cons c cs ih =>
    cases s with
    | nil => simp [lookup, data_insert_cons]
    | cons c' cs' =>
      simp only [lookup, find_cons, child_insert]
      by_cases h : c = c'
      · subst h
        have := ih cs' ((t.child c).getD empty)
        simp only [lookup] at this
        simp only [if_true, Option.bind_some, this, List.cons.injEq, true_and]
        cases hc : t.child c with
        | none =>
          have h0 : ((empty : Trie α).find cs').bind (·.data) = none := lookup_empty cs'
          simp [h0]
        | some k => simp
      · simp [h]

theorem find_insert_isSome (w s : Str) (d : α) (t : Trie α) :
    ((t.insert w d).find s).isSome = true ↔ (t.find s).isSome = true ∨ s <+: w := by
  induction w generalizing s t with
  | nil =>
    cases s with
    | nil => simp
    | cons c cs => simp [insert, find_cons, child]
  | cons c cs ih =>
    cases s with
    | nil => simp
    | cons c' cs' =>
      simp only [find_cons, child_insert]
      by_cases h : c = c'
      · subst h
        simp only [if_true, Option.bind_some, ih, List.cons_prefix_cons, true_and]
        cases hc : t.child c with
        | none =>
          simp only [Option.getD_none, find_empty_isSome, Option.bind_none, Option.isSome_none]
          constructor
          · rintro (h | h)
            · subst h; exact Or.inr (List.nil_prefix)
            · exact Or.inr h
          · rintro (h | h)
            · simp at h
            · exact Or.inr h
        | some k => simp
      · have : ¬ c' = c := fun e => h e.symm
        simp [h, List.cons_prefix_cons, this]

end Trie

/-- last type of the table with the given name -/
def lastNamed (table : List Ty) (s : Str) : Option Ty := (table.filter (fun t => t.name = s)).getLast?

theorem lookup_foldl (table : List Ty) (root : Trie Ty) (s : Str) :
    (table.foldl (fun root t => root.insert t.name t) root).lookup s = (lastNamed table s).or (root.lookup s) := by
  induction table generalizing root with
  | nil => rfl
  | cons t ts ih =>
    rw [List.foldl_cons, ih, Trie.lookup_insert]
    by_cases h : t.name = s
    · simp only [h, if_true, lastNamed, List.filter_cons, decide_true]
      rw [List.getLast?_cons]
      cases hl : (List.filter (fun t => decide (t.name = s)) ts).getLast? <;> simp
    · simp [h, lastNamed]

/-- the trie maps a string to the last type with that name -/
theorem lookup_buildTrie (table : List Ty) (s : Str) : (buildTrie table).lookup s = lastNamed table s := by
  rw [buildTrie, lookup_foldl, Trie.lookup_empty]; simp

theorem find_foldl_isSome (table : List Ty) (root : Trie Ty) (s : Str) :
    ((table.foldl (fun root t => root.insert t.name t) root).find s).isSome = true ↔
      (root.find s).isSome = true ∨ ∃ t ∈ table, s <+: t.name := by
  induction table generalizing root with
  | nil => simp
  | cons t ts ih =>
    rw [List.foldl_cons, ih, Trie.find_insert_isSome]
    simp only [List.mem_cons, exists_eq_or_imp]
    tauto

theorem find_buildTrie_isSome (table : List Ty) (s : Str) :
    ((buildTrie table).find s).isSome = true ↔ s = [] ∨ ∃ t ∈ table, s <+: t.name := by
  rw [buildTrie, find_foldl_isSome, Trie.find_empty_isSome]

theorem lastNamed_some {table : List Ty} {s : Str} {t : Ty} (h : lastNamed table s = some t) : t ∈ table ∧ t.name = s := by
  have := List.mem_of_getLast? h
  simpa using this

theorem lastNamed_none {table : List Ty} {s : Str} (h : lastNamed table s = none) : ∀ t ∈ table, t.name ≠ s := by
  intro t ht e
  have : table.filter (fun t => t.name = s) = [] := List.getLast?_eq_none_iff.1 h
  have := List.filter_eq_nil_iff.1 this t ht
  simp [e] at this

end Verif
