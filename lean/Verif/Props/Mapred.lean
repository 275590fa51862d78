import Verif.Lemmas.Mapred
import Verif.Props.Multipart
import Verif.Props.Codec
/-!
# Properties of map-reduce and parallel encoding (C53 - C56)
-/

namespace Verif

/-- `ps` pairs up the stream two by two; an odd last item is paired with the default -/
inductive Spec.Paired {V : Type} (default : V) : List V → List (V × V) → Prop where
  | nil : Paired default [] []
  | odd (a : V) : Paired default [a] [(a, default)]
  | pair (a b : V) {l : List V} {ps : List (V × V)} : Paired default l ps → Paired default (a :: b :: l) ((a, b) :: ps)

open Spec

/-! ## C53 -/

theorem pairLoop_even {V : Type} (default : V) (throw : Bool) : ∀ (l : List V) (st : PairSt V), st.idx % 2 = 0 → (throw = false ∨ 2 ≤ st.idx + l.length) →
    ∃ ps, pairLoop default throw st l = (ps, none) ∧ Paired default l ps
  | [], st, he, h => by
    refine ⟨[], ?_, .nil⟩
    have : st.finish default throw = .stop := by
      simp only [PairSt.finish]
      rcases h with rfl | h
      · simp [he]
      · simp only [List.length_nil] at h
        rw [if_neg (by simp; omega), if_neg (by simp; omega), if_neg (by omega)]
    simp only [pairLoop, this]
  | [a], st, he, h => by
    refine ⟨[(a, default)], ?_, .odd a⟩
    have h1 : ((st.idx + 1) % 2 = 0) = False := by simp; omega
    have : (PairSt.mk (st.idx + 1) a).finish default throw = .last (a, default) := by
      simp only [PairSt.finish]
      rcases h with rfl | h
      · simp; omega
      · simp only [List.length_cons, List.length_nil] at h
        rw [if_neg (by simp), if_neg (by simp; omega), if_pos (by omega)]
    simp only [pairLoop, PairSt.feed, h1, if_false, this]
    rfl
  | a :: b :: l, st, he, h => by
    have h1 : ((st.idx + 1) % 2 = 0) = False := by simp; omega
    have h2 : ((st.idx + 1 + 1) % 2 = 0) = True := by simp; omega
    obtain ⟨ps, h3, h4⟩ := pairLoop_even default throw l ⟨st.idx + 1 + 1, b⟩ (by simp only; omega) (by
      rcases h with h | h
      · exact Or.inl h
      · right; simp only [List.length_cons] at h ⊢; omega)
    refine ⟨(a, b) :: ps, ?_, .pair a b h4⟩
    simp only [pairLoop, PairSt.feed, h1, h2, if_false, if_true, h3]
    rfl

/-- C53: without `throw_singleton`, or with two items or more, the items are paired in order, the odd last one with the default, and no
exception is raised. -/
theorem C53_pairs {V : Type} (none_ default : V) (throw : Bool) (l : List V) (h : throw = false ∨ 2 ≤ l.length) :
    ∃ ps, pairSubsequent none_ default throw l = (ps, none) ∧ Paired default l ps :=
  pairLoop_even default throw l ⟨0, none_⟩ rfl (by rcases h with h | h <;> [exact Or.inl h; (right; simp only; omega)])

/-- C53: with `throw_singleton` an empty stream raises an assertion, a single item an exception with that item; nothing is yielded. -/
theorem C53_throw {V : Type} (none_ default : V) : pairSubsequent none_ default true [] = ([], some .assertion) ∧
    ∀ a, pairSubsequent none_ default true [a] = ([], some (.singleton a)) :=
  ⟨rfl, fun _ => rfl⟩

/-- the pairs are determined by the stream, and together are the stream -/
theorem C53_flat {V : Type} {default : V} {l : List V} {ps : List (V × V)} (h : Paired default l ps) :
    (ps.flatMap fun p => [p.1, p.2]) = l ++ (if l.length % 2 = 1 then [default] else []) := by
  induction h with
  | nil => rfl
  | odd a => rfl
  | @pair a b l ps _ ih =>
    have : (l.length + 1 + 1) % 2 = l.length % 2 := by omega
    simp [ih, this]

example : pairSubsequent 0 99 false [1, 2, 3] = ([(1, 2), (3, 99)], none) ∧ pairSubsequent 0 99 true [1, 2, 3] = ([(1, 2), (3, 99)], none) ∧
    pairSubsequent 0 99 false [1] = ([(1, 99)], none) ∧ pairSubsequent 0 99 false [] = ([], none) ∧
    pairSubsequent 0 99 true [1, 2] = ([(1, 2)], none) := by decide

/-! ## C54 -/

/-- C54: for an associative function with the default as right identity, the lazy reducer ends and returns the fold from left to right. -/
theorem C54_fold {V : Type} (none_ : V) (f : V → V → V) (dflt : V) (hassoc : ∀ a b c, f (f a b) c = f a (f b c)) (hid : ∀ a, f a dflt = a)
    (a : V) (l : List V) : ireduce none_ f dflt (a :: l) = .ok (l.foldl f a) := by
  have hfold : ∀ (l : List V) (x y : V), l.foldl f (f x y) = f x (l.foldl f y) := by
    intro l
    induction l with
    | nil => intro x y; rfl
    | cons z l ih => intro x y; simp only [List.foldl_cons]; rw [← ih, hassoc]
  have hk : Keeps (fun (_ : Unit) (live : List (V × List V)) => ∀ p ∈ live, ∃ x xs, p.2 = x :: xs ∧ p.1 = xs.foldl f x)
      (fun _ a b => ((), f a b)) (fun _ b => ((), b)) dflt := by
    refine ⟨fun h hp p hm => h p (hp.mem_iff.2 hm), ?_, ?_, ?_⟩
    · intro s a b p q L h x hx
      rcases List.mem_cons.1 hx with rfl | hx
      · obtain ⟨x1, xs1, e1, e2⟩ := h (a, p) (by simp)
        obtain ⟨y1, ys1, e3, e4⟩ := h (b, q) (by simp)
        simp only at e1 e2 e3 e4
        refine ⟨x1, xs1 ++ y1 :: ys1, by simp [e1, e3], ?_⟩
        simp only [e2, e4, List.foldl_append, List.foldl_cons]
        exact (hfold _ _ _).symm
      · exact h x (by simp [hx])
    · intro s a p L h x hx
      rcases List.mem_cons.1 hx with rfl | hx
      · obtain ⟨x1, xs1, e1, e2⟩ := h (a, p) (by simp)
        exact ⟨x1, xs1, e1, by simp only [hid]; exact e2⟩
      · exact h x (by simp [hx])
    · intro s b L h x hx
      rcases List.mem_cons.1 hx with rfl | hx
      · exact ⟨b, [], rfl, rfl⟩
      · exact h x hx
  obtain ⟨s1, v, h1, h2⟩ := mapReduce_spec none_ hk (input := a :: l) (by simp) (s := ()) (by simp)
  obtain ⟨x, xs, e1, e2⟩ := h2 (v, a :: l) (by simp)
  simp only [List.cons.injEq] at e1
  obtain ⟨rfl, rfl⟩ := e1
  simp only at e2
  simp only [ireduce, h1, e2]

/-- C54: an empty stream raises AssertionError. -/
theorem C54_empty {V : Type} (none_ : V) (f : V → V → V) (dflt : V) : ireduce none_ f dflt [] = .error .assertion := by
  simp only [ireduce, mapReduce_nil]

/-- what is needed for other functions: the way the items are bracketed -/
example : ireduce 0 (fun a b : Nat => a * 10 + b) 0 [1, 2, 3] = .ok (12 * 10 + 30) := by decide
example : ireduce [] (· ++ ·) [] [[1], [2, 3], [], [4], [5]] = .ok [1, 2, 3, 4, 5] := by decide
example : (∀ a b c : List Nat, (a ++ b) ++ c = a ++ (b ++ c)) ∧ ∀ a : List Nat, a ++ [] = a := by simp

/-! ## C55 -/

/-- the number of times a word is a token of the lines, given the tokens of each line -/
def Spec.occurrences (toks : List (List Str)) (w : Str) : Nat := (toks.map fun l => l.count w).sum

/-- the dictionary has exactly the words that occur, with their numbers of occurrences -/
def Spec.ExactCounts (toks : List (List Str)) (d : Dict Str Int) : Prop :=
  (Dict.keys d).Nodup ∧ ∀ w, Dict.get? d w = if occurrences toks w = 0 then none else some (occurrences toks w : Int)

theorem counts_exact {d : Dict Str Int} {lines : List Str} (h : Counts d lines) {toks : List (List Str)} (ht : List.Forall₂ Tokens lines toks) :
    ExactCounts toks d := by
  have ho : ∀ w, occ lines w = occurrences toks w := by
    intro w
    clear h
    induction ht with
    | nil => rfl
    | cons h _ ih =>
      simp only [occ, occurrences, List.map_cons, List.sum_cons] at ih ⊢
      rw [ih, split_of_tokens h]
  refine ⟨h.1, fun w => ?_⟩
  rw [← ho]
  have h1 := h.2.1 w
  have h2 := h.2.2 w
  cases hg : Dict.get? d w with
  | none =>
    have : w ∉ Dict.keys d := (Dict.get?_eq_none_iff d w).1 hg
    rw [h2] at this
    rw [if_pos (by omega)]
  | some v =>
    have : w ∈ Dict.keys d := by rw [← Dict.isSome_get?_iff, hg]; rfl
    rw [h2] at this
    rw [if_neg (by omega)]
    simp only [Dict.cnt, hg, Option.getD_some] at h1
    rw [h1]

/-- C55: run in one process, dictionaries merged in place: the result has the number of occurrences of every word in all lines; the
default dictionary, and every dictionary that was there before, is unchanged. -/
theorem C55_in_place (none_ dflt : Nat) (h0 : Heap) (hd : h0[dflt]? = some []) {lines : List Str} (hne : lines ≠ []) {toks : List (List Str)}
    (ht : List.Forall₂ Tokens lines toks) :
    ∃ h r d, wordCounter none_ dflt h0 lines = (h, .ok r) ∧ h[r]? = some d ∧ ExactCounts toks d ∧ r ≠ dflt ∧ ∀ i, i < h0.length → h[i]? = h0[i]? := by
  have hdl := (List.getElem?_eq_some_iff.1 hd).1
  obtain ⟨h, r, h1, h2⟩ := mapReduce_spec none_ (heap_keeps hdl) hne (s := h0) ⟨hd, fun _ _ => rfl, by simp, by simp⟩
  obtain ⟨g1, d, g2, g3⟩ := h2.refs (r, lines) (by simp)
  simp only at g1
  exact ⟨h, r, d, h1, g2, counts_exact g3 ht, by omega, h2.old⟩

/-- C55: the same with several processes, where dictionaries are copied. -/
theorem C55_processes {lines : List Str} (hne : lines ≠ []) {toks : List (List Str)} (ht : List.Forall₂ Tokens lines toks) :
    ∃ d, wordCounterProc lines = .ok d ∧ ExactCounts toks d := by
  have hk : Keeps (fun (_ : Unit) (live : List (Dict Str Int × List Str)) => ∀ p ∈ live, Counts p.1 p.2)
      (fun _ a b => ((), mergeFreqs a b)) (fun _ b => ((), wordCountLine b)) [] := by
    refine ⟨fun h hp p hm => h p (hp.mem_iff.2 hm), ?_, ?_, ?_⟩
    · intro s a b p q L h x hx
      rcases List.mem_cons.1 hx with rfl | hx
      · exact (h (a, p) (by simp)).mergeFreqs (h (b, q) (by simp))
      · exact h x (by simp [hx])
    · intro s a p L h x hx
      rcases List.mem_cons.1 hx with rfl | hx
      · have := (h (a, p) (by simp)).mergeFreqs Counts.nil
        simpa using this
      · exact h x (by simp [hx])
    · intro s b L h x hx
      rcases List.mem_cons.1 hx with rfl | hx
      · exact Counts.line b
      · exact h x hx
  obtain ⟨s1, v, h1, h2⟩ := mapReduce_spec [] hk hne (s := ()) (by simp)
  exact ⟨v, by simp only [wordCounterProc, h1], counts_exact (h2 (v, lines) (by simp)) ht⟩

/-- C55: merging adds pointwise, whichever dictionary is kept. -/
theorem C55_merge {d e : Dict Str Int} (hd : (Dict.keys d).Nodup) (he : (Dict.keys e).Nodup) (w : Str) :
    (Dict.get? (mergeFreqs d e) w).getD 0 = (Dict.get? d w).getD 0 + (Dict.get? e w).getD 0 := by
  have h1 := cnt_mergeInto e d he w
  have h2 := cnt_mergeInto d e hd w
  simp only [Dict.cnt] at h1 h2
  unfold mergeFreqs
  split
  · omega
  · exact h1

example : wordCounterProc [lit "a b a", [], lit "b", lit "c b"] = .ok [(lit "a", 2), (lit "b", 3), (lit "c", 1)] ∧
    (wordCounter 0 0 [[]] [lit "a b a", [], lit "b", lit "c b", lit "c"]).1[0]? = some [] ∧
    wordCounterProc [] = .error .assertion := by decide +kernel

/-! ## C56 -/

/-- C56: for every completion order of the chunks, chunk size and at least two processes, if no line fails the results come in
the order of the lines. -/
theorem C56_ordered {α β : Type} {mapper : α → Py β} {h : α → β} {l : List α} (hl : ∀ a ∈ l, mapper a = .ok (h a)) {nCpus chunksize : Int}
    (hn : 2 ≤ nCpus) (hc : 1 ≤ chunksize) {done : List (Nat × Py (List β)) → List (Nat × Py (List β))} (hd : ∀ r, (done r).Perm r) :
    parallelMap mapper l nCpus chunksize done = ⟨l.map h, none⟩ := by
  obtain ⟨cs, h1, h2⟩ := C40_slices hc l
  have hcs : cs.map (mapChunk mapper) = (cs.map (List.map h)).map Except.ok := by
    rw [List.map_map]
    refine List.map_congr_left fun c hc => ?_
    exact mapChunk_ok fun a ha => hl a (by rw [← h2.1]; exact List.mem_flatten.2 ⟨c, hc, ha⟩)
  simp only [parallelMap, show (¬ 1 < nCpus) = False by simp; omega, if_false, show (chunksize < 1) = False by simp; omega, h1]
  rw [imap_items (cs.map (mapChunk mapper)) (by rw [List.length_map]; exact hd _), hcs, imapOut_ok, ← List.map_flatten, h2.1]

/-- C56: for every codec and mapper: the output is the list of sequential results when there is one. -/
theorem C56_sequential {α β : Type} {mapper : α → Py β} {l : List α} {out : List β} (hl : List.Forall₂ (fun a b => mapper a = .ok b) l out)
    {nCpus chunksize : Int} (hn : 2 ≤ nCpus) (hc : 1 ≤ chunksize) {done : List (Nat × Py (List β)) → List (Nat × Py (List β))}
    (hd : ∀ r, (done r).Perm r) : parallelMap mapper l nCpus chunksize done = ⟨out, none⟩ := by
  cases l with
  | nil =>
    cases hl
    have hs : slices chunksize ([] : List α) = .ok [] := by
      simp [slices, slicesLoop, show ¬ chunksize < 0 by omega]
    simp only [parallelMap, show (¬ 1 < nCpus) = False by simp; omega, if_false, show (chunksize < 1) = False by simp; omega, hs,
      List.length_nil, List.range_zero, List.map_nil, List.zip_nil_left, (hd []).eq_nil]
    rfl
  | cons a l =>
    cases hl with
    | @cons _ b _ bs h1 h2 =>
      let h : α → β := fun a => match mapper a with | .ok b => b | .error _ => b
      have hall : List.Forall₂ (fun a b => mapper a = .ok b) (a :: l) (b :: bs) := .cons h1 h2
      have hmap : (a :: l).map h = b :: bs := by
        have : ∀ {l : List α} {bs : List β}, List.Forall₂ (fun a b => mapper a = .ok b) l bs → l.map h = bs := by
          intro l bs hf
          induction hf with
          | nil => rfl
          | cons h3 _ ih => simp only [List.map_cons, ih, h, h3]
        exact this hall
      rw [← hmap]
      refine C56_ordered (fun x hx => ?_) hn hc hd
      obtain ⟨i, hi, rfl⟩ := List.mem_iff_getElem.1 hx
      have h3 := (List.forall₂_iff_get.1 hall).2 i hi (by rw [← hall.length_eq]; exact hi)
      simp only [List.get_eq_getElem] at h3
      simp only [h, h3]

/-- C56: for word, character and BPE schemes every line can be encoded, so `encode_parallel` gives the encodings in order. -/
theorem C56_encode {k : Kind} (hk : k = .word ∨ k = .char ∨ k = .bpe) {tbl : List Ty} {s : Scheme} (hs : Scheme.make k tbl = .ok s)
    (hi : Indexed tbl) (lines : List Str) {nCpus : Int} (hn : 2 ≤ nCpus)
    {done : List (Nat × Py (List (List Int))) → List (Nat × Py (List (List Int)))} (hd : ∀ r, (done r).Perm r) :
    ∃ out, parallelMap s.encode lines nCpus 1000 done = ⟨out, none⟩ ∧ List.Forall₂ (fun line ids => s.encode line = .ok ids) lines out := by
  have he : ∀ line, ∃ ids, s.encode line = .ok ids := fun line => by
    obtain ⟨ids, _, h, _⟩ := C05_decode_encode_total hk hs hi line
    exact ⟨ids, h⟩
  choose h hh using he
  refine ⟨lines.map h, C56_ordered (fun a _ => hh a) hn (by omega) hd, ?_⟩
  rw [List.forall₂_map_right_iff]
  exact List.forall₂_same.2 fun a _ => hh a

/-- C56: one process is refused. -/
theorem C56_one_process {α β : Type} (mapper : α → Py β) (l : List α) {nCpus : Int} (hn : nCpus ≤ 1) (chunksize : Int)
    (done : List (Nat × Py (List β)) → List (Nat × Py (List β))) : parallelMap mapper l nCpus chunksize done = ⟨[], some .assertion⟩ := by
  simp only [parallelMap, show ¬ 1 < nCpus by omega, not_false_eq_true, if_true]

theorem imapOut_error {α β : Type} {mapper : α → Py β} : ∀ cs : List (List α), (∃ c ∈ cs, ∃ a ∈ c, ∃ e, mapper a = .error e) →
    ∃ e, (imapOut (cs.map (mapChunk mapper))).exc = some e ∧ (∃ a ∈ cs.flatten, mapper a = .error e)
  | [], h => by obtain ⟨c, hc, _⟩ := h; simp at hc
  | c :: cs, h => by
    have hchunk : ∀ c : List α, (∃ bs, mapChunk mapper c = .ok bs ∧ ∀ a ∈ c, ∃ b, mapper a = .ok b) ∨ ∃ e, mapChunk mapper c = .error e ∧ ∃ a ∈ c, mapper a = .error e := by
      intro c
      induction c with
      | nil => exact Or.inl ⟨[], rfl, by simp⟩
      | cons a c ih =>
        cases hm : mapper a with
        | error e => exact Or.inr ⟨e, by simp only [mapChunk, hm], a, by simp, hm⟩
        | ok b =>
          rcases ih with ⟨bs, i1, i2⟩ | ⟨e, i1, a', i2, i3⟩
          · refine Or.inl ⟨b :: bs, by simp only [mapChunk, hm, i1], ?_⟩
            intro x hx
            rcases List.mem_cons.1 hx with rfl | hx
            · exact ⟨b, hm⟩
            · exact i2 x hx
          · exact Or.inr ⟨e, by simp only [mapChunk, hm, i1], a', by simp [i2], i3⟩
    rcases hchunk c with ⟨bs, i1, i2⟩ | ⟨e, i1, a, i2, i3⟩
    · simp only [List.map_cons, imapOut, i1]
      obtain ⟨e, h1, a, h2, h3⟩ := imapOut_error (mapper := mapper) cs (by
        obtain ⟨c', hc', a, ha, e, he⟩ := h
        rcases List.mem_cons.1 hc' with rfl | hc'
        · obtain ⟨b, hb⟩ := i2 a ha
          rw [hb] at he; cases he
        · exact ⟨c', hc', a, ha, e, he⟩)
      exact ⟨e, h1, a, by simp [h2], h3⟩
    · refine ⟨e, by simp only [List.map_cons, imapOut, i1], a, by simp [i2], i3⟩

/-- C56: a line that fails is not lost: its exception, or that of another failing line, is raised. -/
theorem C56_exception {α β : Type} {mapper : α → Py β} {l : List α} (hl : ∃ a ∈ l, ∃ e, mapper a = .error e) {nCpus chunksize : Int}
    (hn : 2 ≤ nCpus) (hc : 1 ≤ chunksize) {done : List (Nat × Py (List β)) → List (Nat × Py (List β))} (hd : ∀ r, (done r).Perm r) :
    ∃ e, (parallelMap mapper l nCpus chunksize done).exc = some e ∧ ∃ a ∈ l, mapper a = .error e := by
  obtain ⟨cs, h1, h2⟩ := C40_slices hc l
  simp only [parallelMap, show (¬ 1 < nCpus) = False by simp; omega, if_false, show (chunksize < 1) = False by simp; omega, h1]
  rw [imap_items (cs.map (mapChunk mapper)) (by rw [List.length_map]; exact hd _)]
  obtain ⟨a, ha, e, he⟩ := hl
  rw [← h2.1] at ha ⊢
  obtain ⟨c, hc, hac⟩ := List.mem_flatten.1 ha
  exact imapOut_error cs ⟨c, hc, a, hac, e, he⟩

/-- chunks of two, finished in reverse order -/
example : parallelMap (fun n : Nat => if n = 9 then .error .value else .ok (n * n)) [1, 2, 3, 4, 5] 2 2 List.reverse = ⟨[1, 4, 9, 16, 25], none⟩ ∧
    parallelMap (fun n : Nat => if n = 9 then .error .value else .ok (n * n)) [1, 2, 3, 9, 5] 2 2 List.reverse = ⟨[1, 4], some .value⟩ := by decide

end Verif
