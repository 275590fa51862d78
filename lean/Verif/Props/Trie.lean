import Verif.Lemmas.TrieCount
import Verif.Spec.Table
import Mathlib.Data.List.Infix
import Verif.Props.Codec
/-!
# Properties of the prefix trie (C33)
-/

namespace Verif
open Spec

/-- C33: after building from any list of types, a string is found iff some type has that name, and then the last such type is
found. -/
theorem C33_lookup (table : List Ty) (s : Str) :
    ((buildTrie table).find s).bind (·.data) = (table.filter fun t => t.name = s).getLast? := lookup_buildTrie table s

/-- C33: a node exists (`get_node(s, create_missing=False)` does not raise) iff the string is a prefix of a name, or empty. -/
theorem C33_nodes (table : List Ty) (s : Str) :
    ((buildTrie table).find s).isSome = true ↔ s = [] ∨ ∃ n ∈ names table, s <+: n := by
  rw [find_buildTrie_isSome]
  simp [names]

/-- C33: `data_node_count` is the number of distinct names. -/
theorem C33_data_count (table : List Ty) : (buildTrie table).dataCount = (names table).dedup.length := by
  rw [← Trie.dpaths_length.1]
  refine List.Perm.length_eq ((List.perm_ext_iff_of_nodup (Trie.dpaths_nodup.1 _ (WF_buildTrie table)) (List.nodup_dedup _)).2 ?_)
  intro s
  rw [Trie.mem_dpaths.1 _ (WF_buildTrie table), lookup_buildTrie, List.mem_dedup]
  constructor
  · intro h
    obtain ⟨t, ht⟩ := Option.isSome_iff_exists.1 h
    obtain ⟨a, b⟩ := lastNamed_some ht
    exact List.mem_map.2 ⟨t, a, b⟩
  · intro h
    obtain ⟨t, a, b⟩ := List.mem_map.1 h
    cases hl : lastNamed table s with
    | none => exact absurd b (lastNamed_none hl t a)
    | some u => rfl

/-- C33: `size` is one more than the number of distinct non-empty prefixes of the names. -/
theorem C33_size (table : List Ty) :
    (buildTrie table).size = 1 + (((names table).flatMap List.inits).filter fun p => !p.isEmpty).dedup.length := by
  rw [← Trie.paths_length.1]
  have hp : (buildTrie table).paths.Perm ([] :: (((names table).flatMap List.inits).filter fun p => !p.isEmpty).dedup) := by
    refine (List.perm_ext_iff_of_nodup (Trie.paths_nodup.1 _ (WF_buildTrie table)) (List.nodup_cons.2 ⟨?_, List.nodup_dedup _⟩)).2 ?_
    · simp
    · intro s
      rw [Trie.mem_paths.1 _ (WF_buildTrie table), C33_nodes, List.mem_cons, List.mem_dedup, List.mem_filter, List.mem_flatMap]
      simp only [List.mem_inits, List.isEmpty_iff, Bool.not_eq_true', ← Bool.not_eq_true]
      by_cases h : s = [] <;> simp [h]
  rw [hp.length_eq, List.length_cons]
  omega

example : (buildTrie (exTable Level.subword ["ab", "a", "abc", "ab"])).dataCount = 9 ∧
    (buildTrie (exTable Level.subword ["ab", "a", "abc", "ab"])).size = 23 := by decide +kernel

end Verif
