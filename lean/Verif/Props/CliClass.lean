import Verif.Props.Cli
import Verif.Lemmas.Abugida
import Verif.Lemmas.Chars
import Verif.Lemmas.Batch
/-!
# C62: exactly the files that `encode` followed by `decode` restores with a class scheme
-/

namespace Verif
open Spec

theorem keepLines_rows : ∀ rows : List Str, (∀ r ∈ rows, 10 ∉ r) → keepLines (rows.flatMap (· ++ [10])) = rows.map (· ++ [10])
  | [], _ => rfl
  | r :: rows, h => by
    rw [List.flatMap_cons, List.append_assoc, List.singleton_append, keepLines_append (h r (by simp)),
      keepLines_rows rows (fun r hr => h r (by simp [hr]))]
    rfl

theorem strip_sub {l : Str} {c : Nat} (h : c ∈ strip l) : c ∈ l := by
  obtain ⟨g, t, h1, _⟩ := strip_decomp l
  rw [h1]
  simp [h]

/-- lines are told apart by the line feeds -/
theorem rows_inj : ∀ {xs ys : List Str}, xs.length = ys.length → (∀ y ∈ ys, 10 ∉ y) →
    xs.flatMap (· ++ [10]) = ys.flatMap (· ++ [10]) → xs = ys := by
  intro xs ys hlen hy h
  have hcount : ∀ zs : List Str, (zs.flatMap (· ++ [10])).count 10 = zs.length + (zs.map (List.count 10)).sum := by
    intro zs
    induction zs with
    | nil => rfl
    | cons z zs ih => simp only [List.flatMap_cons, List.count_append, ih, List.length_cons, List.map_cons, List.sum_cons, List.count_singleton_self]; omega
  have hy0 : (ys.map (List.count 10)).sum = 0 := by
    rw [List.sum_eq_zero]
    intro n hn
    obtain ⟨y, hm, rfl⟩ := List.mem_map.1 hn
    exact List.count_eq_zero.2 (hy y hm)
  have hx0 : (xs.map (List.count 10)).sum = 0 := by
    have h1 := hcount xs
    have h2 := hcount ys
    rw [h, h2] at h1
    omega
  have hx : ∀ x ∈ xs, 10 ∉ x := by
    intro x hm
    have : x.count 10 ≤ (xs.map (List.count 10)).sum := List.single_le_sum (by simp) _ (List.mem_map.2 ⟨x, hm, rfl⟩)
    exact List.count_eq_zero.1 (by omega)
  have a := keepLines_rows xs hx
  have b := keepLines_rows ys hy
  rw [h, b] at a
  exact (List.map_injective_iff.2 (fun p q e => by simpa using e) a).symm

/-- what comes back when neither command fails -/
theorem cli_back {s : Scheme} {b : Bool} {text : Str} {wss : List (List Str)}
    (h : List.Forall₂ (fun i ws => encodeLine s b i = .ok (join [32] ws) ∧ ∀ w ∈ ws, IsToken w) (inpLines text) wss) {out res : Str}
    (h1 : cliEncode s b text = (out, none)) (h2 : cliDecode s b out = (res, none)) :
    ∃ ds : List Str, res = ds.flatMap (· ++ [10]) ∧ List.Forall₂ (fun ws d => decodeLine s b (join [32] ws ++ [10]) = .ok d) wss ds := by
  have hf : List.Forall₂ (fun a r => encodeLine s b a = .ok r) (inpLines text) (wss.map (join [32])) := by
    rw [List.forall₂_map_right_iff]
    exact h.imp fun _ _ h => h.1
  have ht : ∀ ws ∈ wss, ∀ w ∈ ws, IsToken w := by
    clear h1 h2 hf
    intro ws hm
    obtain ⟨_, _, _, h⟩ := mem_of_forall₂_right h ws hm
    exact h
  rw [cliEncode, genMap_all hf] at h1
  cases h1
  rw [cliDecode] at h2
  change writeLines (genMap (decodeLine s b) none (inpLines ((wss.map (join [32])).flatMap (· ++ [10])))) = _ at h2
  rw [inpLines_rows _ (by
    intro r hr
    obtain ⟨ws, hm, rfl⟩ := List.mem_map.1 hr
    exact join_noBreak (ht ws hm))] at h2
  rcases (genMap_spec (decodeLine s b) none ((wss.map (join [32])).map (· ++ [10]))).2 with ⟨_, h3⟩ | ⟨_, _, e, _, h3⟩
  · refine ⟨_, (congrArg Prod.fst h2).symm, ?_⟩
    rw [List.forall₂_map_left_iff, List.forall₂_map_left_iff] at h3
    exact h3
  · have := congrArg Prod.snd h2
    simp only [writeLines] at this
    rw [h3] at this
    cases this

/-- C62, class scheme, index mode, exactly: a file comes back line by line (without surrounding whitespace) if and only if each line is a label of the
table.  A line that is not becomes the id -1, which is read back as the last label. -/
theorem C62_class_idx_iff {tbl : List Ty} {s : Scheme} (h : Scheme.make .clasz tbl = .ok s) {text : Str} {ls : List Str} (hl : Lines text ls) :
    (∃ out, cliEncode s true text = (out, none) ∧ cliDecode s true out = (ls.flatMap fun l => strip l ++ [10], none)) ↔
      ∀ l ∈ ls, strip l ∈ names tbl := by
  refine ⟨?_, fun hc => C62_class_idx_partial h hl hc⟩
  rintro ⟨out, h1, h2⟩
  obtain ⟨e1, e2, e3, _⟩ := mkInvertible_ok (k := .clasz) h
  have henc : ∀ i : Str, encodeLine s true i = .ok (join [32] [intStr (s.idOf (strip i))]) := by
    intro i
    simp only [encodeLine, if_true, Scheme.encode, Scheme.encodeStr, e2]
    rw [idsOf_eq (by rw [e2]; decide) e3]
    rfl
  obtain ⟨ds, h3, h4⟩ := cli_back (wss := (inpLines text).map fun i => [intStr (s.idOf (strip i))]) (by
    rw [List.forall₂_map_right_iff]
    exact List.forall₂_same.2 fun i _ => ⟨henc i, by simp [intStr_isToken]⟩) h1 h2
  have hd : ds = ls.map strip := by
    apply rows_inj
    · have := h4.length_eq
      rw [List.length_map] at this
      rw [← this, List.length_map, (inpLines_spec hl).length_eq]
    · intro y hy
      obtain ⟨l, hm, rfl⟩ := List.mem_map.1 hy
      exact fun hx => (lines_noBreak hl l hm).1 (strip_sub hx)
    · rw [← h3, List.flatMap_map]
  intro l hm
  obtain ⟨ws, hws, h5⟩ := mem_of_forall₂_right h4 (strip l) (by rw [hd]; exact List.mem_map.2 ⟨l, hm, rfl⟩)
  obtain ⟨i, _, rfl⟩ := List.mem_map.1 hws
  have hsp : split (join [32] [intStr (s.idOf (strip i))] ++ [10]) = [intStr (s.idOf (strip i))] := by
    rw [split_nl, split_join_space (by simp [intStr_isToken])]
  have hp : pyInts [intStr (s.idOf (strip i))] = .ok [s.idOf (strip i)] := pyInts_intStr [_]
  simp only [decodeLine, if_true, hsp, hp, Scheme.decode] at h5
  cases hn : namesOf s.table [s.idOf (strip i)] with
  | error e => rw [hn] at h5; cases h5
  | ok ns =>
    rw [hn] at h5
    simp only [namesOf] at hn
    cases hx : pyIndex s.table (s.idOf (strip i)) with
    | error e => rw [hx] at hn; cases hn
    | ok t =>
      rw [hx] at hn
      cases hn
      simp only [Scheme.decodeStr, e2, join, Except.ok.injEq] at h5
      rw [← h5, ← e1]
      exact List.mem_map.2 ⟨t, pyIndex_mem hx, rfl⟩

/-- C62, class scheme, piece mode, all texts: the words of each line come back joined by commas. -/
theorem C62_class_str {tbl : List Ty} {s : Scheme} (h : Scheme.make .clasz tbl = .ok s) {text : Str} {ls : List Str} {wss : List (List Str)}
    (hl : Lines text ls) (hw : List.Forall₂ Tokens ls wss) :
    ∃ out, cliEncode s false text = (out, none) ∧ cliDecode s false out = (wss.flatMap fun ws => List.intercalate [44] ws ++ [10], none) := by
  have hk := (mkInvertible_ok (k := .clasz) h).2.1
  have hf : List.Forall₂ (fun a r => encodeLine s false a = .ok r) (inpLines text) (ls.map strip) := by
    rw [List.forall₂_map_right_iff]
    refine (inpLines_spec hl).flip.imp fun i l hi => ?_
    simp [encodeLine, Scheme.encodeStr, hk, strip_nl_of hi, join]
  refine ⟨_, by rw [cliEncode, genMap_all hf]; rfl, ?_⟩
  rw [cliDecode, inpLines_rows _ (by
    intro r hr
    obtain ⟨l, hm, rfl⟩ := List.mem_map.1 hr
    exact ⟨fun hx => (lines_noBreak hl l hm).1 (strip_sub hx), fun hx => (lines_noBreak hl l hm).2 (strip_sub hx)⟩)]
  have hg : List.Forall₂ (fun a d => decodeLine s false a = .ok d) ((ls.map strip).map (· ++ [10])) (wss.map (List.intercalate [44])) := by
    rw [List.map_map, List.forall₂_map_left_iff, List.forall₂_map_right_iff]
    refine hw.imp fun l ws hlw => ?_
    have : split (strip l ++ [10]) = ws := by rw [split_nl, split_strip, split_of_tokens hlw]
    simp [decodeLine, this, Scheme.decodeStr, hk, join_eq_intercalate]
  rw [genMap_all hg]
  simp [writeLines, List.flatMap_map]

/-- C62, class scheme, piece mode, exactly: a file comes back if and only if each line is blank or one word. -/
theorem C62_class_str_iff {tbl : List Ty} {s : Scheme} (h : Scheme.make .clasz tbl = .ok s) {text : Str} {ls : List Str} (hl : Lines text ls) :
    (∃ out, cliEncode s false text = (out, none) ∧ cliDecode s false out = (ls.flatMap fun l => strip l ++ [10], none)) ↔
      ∀ l ∈ ls, strip l = [] ∨ IsToken (strip l) := by
  refine ⟨?_, fun hc => C62_class_str_partial h hl hc⟩
  rintro ⟨out, h1, h2⟩
  obtain ⟨out', h3, h4⟩ := C62_class_str h hl (wss := ls.map split) (by
    rw [List.forall₂_map_right_iff]; exact List.forall₂_same.2 fun l _ => tokens_split l)
  rw [h1] at h3
  cases h3
  rw [h2] at h4
  have hd : ls.map (fun l => List.intercalate [44] (split l)) = ls.map strip := by
    apply rows_inj
    · simp
    · intro y hy
      obtain ⟨l, hm, rfl⟩ := List.mem_map.1 hy
      exact fun hx => (lines_noBreak hl l hm).1 (strip_sub hx)
    · have := congrArg Prod.fst h4
      simp only [List.flatMap_map] at this ⊢
      exact this.symm
  intro l hm
  have hl' : List.intercalate [44] (split l) = strip l := List.map_inj_left.1 hd l hm
  by_cases he : strip l = []
  · exact .inl he
  · refine .inr (isToken_iff.2 ⟨he, ?_⟩)
    intro c hc
    rw [← hl', ← join_eq_intercalate] at hc
    rcases mem_join hc with hc | ⟨w, hw, hc⟩
    · simp at hc
      subst hc
      decide
    · exact (isToken_iff.1 (split_isToken hw)).2 c hc

/-- an unknown label comes back as the last one -/
example : (withScheme .clasz [⟨lit "New York", 0, 0, 1, []⟩, ⟨lit "Paris", 0, 1, 1, []⟩] fun s =>
    .ok (cliDecode s true (cliEncode s true (lit "Rome\n New York\n")).1)) = .ok (lit "Paris\nNew York\n", none) := by decide +kernel
example : (withScheme .clasz [⟨lit "New York", 0, 0, 1, []⟩, ⟨lit "Paris", 0, 1, 1, []⟩] fun s =>
    .ok (cliDecode s false (cliEncode s false (lit "Rome\n New  York\n")).1)) = .ok (lit "Rome\nNew,York\n", none) := by decide +kernel
example : Lines (lit "Rome\n New York\n") [lit "Rome", lit " New York"] :=
  Lines.lf (l := lit "Rome") (r := lit " New York\n") (by decide) (Lines.lf (l := lit " New York") (r := []) (by decide) .nil)

end Verif
