import Verif.Lemmas.BpeIndex
import Verif.Props.Learn
/-! # From words to sequences of codes -/

namespace Verif
open Spec

theorem preparedFreqs_eq {tf : Dict Str Int} (hnd : (Dict.keys tf).Nodup) : preparedFreqs tf = tf.map fun p => (p.1 ++ [SP], p.2) := by
  have set_new : ∀ (d : Dict Str Int) (k : Str) (v : Int), k ∉ Dict.keys d → Dict.set d k v = d ++ [(k, v)] := by
    intro d k v
    induction d with
    | nil => intro _; rfl
    | cons x d ih =>
      intro h
      simp only [Dict.keys, List.map_cons, List.mem_cons, not_or] at h
      simp only [Dict.set]
      rw [if_neg (Ne.symm h.1), ih h.2]; rfl
  have gen : ∀ (l : Dict Str Int) (d : Dict Str Int), (Dict.keys l).Nodup → (∀ p ∈ l, p.1 ++ [SP] ∉ Dict.keys d) →
      l.foldl (fun d p => Dict.set d (prepareWord p.1) p.2) d = d ++ l.map fun p => (p.1 ++ [SP], p.2) := by
    intro l
    induction l with
    | nil => intro d _ _; simp
    | cons x l ih =>
      intro d hn hd
      have hn' := List.nodup_cons.1 hn
      rw [List.foldl_cons, show prepareWord x.1 = x.1 ++ [SP] from rfl, set_new d _ _ (hd x (by simp)), ih _ hn'.2, List.map_cons, List.append_assoc]
      · rfl
      · intro p hp
        have hne : p.1 ≠ x.1 := fun e => hn'.1 (List.mem_map.2 ⟨p, hp, e⟩)
        simp only [Dict.keys, List.map_append, List.mem_append, List.map_cons, List.map_nil, List.mem_singleton, not_or]
        refine ⟨hd p (by simp [hp]), ?_⟩
        intro e
        exact hne (List.append_cancel_right e)
  have := gen tf [] hnd (by simp [Dict.keys])
  simpa [preparedFreqs] using this

theorem cnt_foldl_incr (f : Int) : ∀ (w : Str) (d : Dict Str Int) (k : Str),
    Dict.cnt (w.foldl (fun d c => Dict.incr d [c] f) d) k = Dict.cnt d k + f * ((w.map fun c => [c]).count k : Int) := by
  intro w
  induction w with
  | nil => intro d k; simp
  | cons c w ih =>
    intro d k
    rw [List.foldl_cons, ih, Dict.cnt_incr, List.map_cons, List.count_cons]
    simp only [beq_iff_eq]
    push_cast
    split <;> ring

theorem keys_foldl_incr (f : Int) : ∀ (w : Str) (d : Dict Str Int), (Dict.keys d).Nodup →
    (Dict.keys (w.foldl (fun d c => Dict.incr d [c] f) d)).Nodup ∧
    ∀ k, k ∈ Dict.keys (w.foldl (fun d c => Dict.incr d [c] f) d) ↔ k ∈ Dict.keys d ∨ ∃ c ∈ w, k = [c] := by
  intro w
  induction w with
  | nil => intro d h; exact ⟨h, by simp⟩
  | cons c w ih =>
    intro d h
    obtain ⟨h1, h2⟩ := ih (Dict.incr d [c] f) (Dict.nodup_keys_incr h _ _)
    refine ⟨h1, fun k => ?_⟩
    rw [List.foldl_cons, h2, Dict.mem_keys_incr]
    simp only [List.mem_cons, exists_eq_or_imp]
    tauto

theorem count_map_single (w : Str) (c : Nat) : (w.map fun x => [x]).count [c] = w.count c := by
  induction w with
  | nil => rfl
  | cons x w ih => rw [List.map_cons, List.count_cons, List.count_cons, ih]; simp

theorem chCount_cons (x : Str × Int) (tf : List (Str × Int)) (c : Nat) :
    chCount (x :: tf) c = x.2 * ((x.1 ++ [SP]).count c : Int) + chCount tf c := by
  unfold chCount; rw [List.map_cons, List.sum_cons]; rfl

theorem charFreqs_spec {tf : List (Str × Int)} (hpos : ∀ p ∈ tf, 1 ≤ p.2) :
    (Dict.keys (charFreqs (tf.map fun p => (p.1 ++ [SP], p.2)))).Nodup ∧
    ∀ n f, (n, f) ∈ charFreqs (tf.map fun p => (p.1 ++ [SP], p.2)) ↔ ∃ c, n = [c] ∧ f = chCount tf c ∧ 0 < f := by
  have gen : ∀ (l : List (Str × Int)) (d : Dict Str Int), (Dict.keys d).Nodup →
      let r := (l.map fun p => (p.1 ++ [SP], p.2)).foldl (fun d p => p.1.foldl (fun d c => Dict.incr d [c] p.2) d) d
      (Dict.keys r).Nodup ∧ (∀ k, k ∈ Dict.keys r ↔ k ∈ Dict.keys d ∨ ∃ p ∈ l, ∃ c ∈ p.1 ++ [SP], k = [c]) ∧
      ∀ c, Dict.cnt r [c] = Dict.cnt d [c] + chCount l c := by
    intro l
    induction l with
    | nil => intro d h; exact ⟨h, by simp, by simp [chCount]⟩
    | cons p l ih =>
      intro d h
      obtain ⟨k1, k2⟩ := keys_foldl_incr p.2 (p.1 ++ [SP]) d h
      obtain ⟨h1, h2, h3⟩ := ih _ k1
      refine ⟨h1, fun k => ?_, fun c => ?_⟩
      · simp only [List.map_cons, List.foldl_cons]
        rw [h2, k2]
        simp only [List.mem_cons, exists_eq_or_imp]
        exact or_assoc
      · simp only [List.map_cons, List.foldl_cons]
        rw [h3, cnt_foldl_incr, count_map_single]
        rw [chCount_cons]
        ring
  obtain ⟨h1, h2, h3⟩ := gen tf [] (by simp [Dict.keys])
  have e : charFreqs (tf.map fun p => (p.1 ++ [SP], p.2)) = (tf.map fun p => (p.1 ++ [SP], p.2)).foldl
    (fun d p => p.1.foldl (fun d c => Dict.incr d [c] p.2) d) [] := rfl
  rw [e]
  refine ⟨h1, fun n f => ?_⟩
  have hposc : ∀ p ∈ tf, ∀ c ∈ p.1 ++ [SP], 0 < chCount tf c := by
    intro p hp c hc
    clear h1 h2 h3 gen e
    induction tf with
    | nil => simp at hp
    | cons x tf ih =>
      have hnn : ∀ l : List (Str × Int), (∀ p ∈ l, 1 ≤ p.2) → 0 ≤ chCount l c := by
        intro l
        induction l with
        | nil => intro _; simp [chCount]
        | cons y l ih =>
          intro hl
          have h1 := ih (fun p hp => hl p (by simp [hp]))
          have h2 := mul_nonneg (le_trans (by decide) (hl y (by simp))) (Int.natCast_nonneg ((y.1 ++ [SP]).count c))
          rw [chCount_cons]
          omega
      have e : chCount (x :: tf) c = x.2 * ((x.1 ++ [SP]).count c : Int) + chCount tf c := chCount_cons x tf c
      rcases List.mem_cons.1 hp with rfl | hp
      · have h1 := hnn tf (fun p hp => hpos p (by simp [hp]))
        have h2 := List.count_pos_iff.2 hc
        have h3 : (0 : Int) < p.2 * ((p.1 ++ [SP]).count c : Int) := by
          apply mul_pos
          · have := hpos p (by simp); omega
          · omega
        rw [e]; omega
      · have h1 := ih (fun p hp => hpos p (by simp [hp])) hp
        have h2 := mul_nonneg (le_trans (by decide) (hpos x (by simp))) (Int.natCast_nonneg ((x.1 ++ [SP]).count c))
        rw [e]; omega
  rw [← Dict.get?_eq_some_iff h1]
  constructor
  · intro hg
    have hk := (Dict.isSome_get?_iff _ n).1 (by rw [hg]; rfl)
    rcases (h2 n).1 hk with h4 | ⟨p, hp, c, hc, rfl⟩
    · simp [Dict.keys] at h4
    · have h5 := h3 c
      rw [cnt_of_get? hg] at h5
      simp [Dict.cnt] at h5
      exact ⟨c, rfl, h5, h5 ▸ hposc p hp c hc⟩
  · rintro ⟨c, rfl, h4, h5⟩
    have hc0 := h3 c
    simp only [Dict.cnt, Dict.get?_nil, Option.getD_none, zero_add] at hc0
    cases hg : Dict.get? ((tf.map fun p => (p.1 ++ [SP], p.2)).foldl (fun d p => p.1.foldl (fun d c => Dict.incr d [c] p.2) d) []) [c] with
    | none => rw [hg] at hc0; simp at hc0; omega
    | some f' => rw [hg] at hc0; simp at hc0; rw [hc0, h4]

/-- `revIdx` maps names to positions -/
theorem revIdx_spec {v : List Ty} (hi : Indexed v) (hn : (names v).Nodup) :
    (revIdx v).length = v.length ∧ ∀ n i, Dict.get? (revIdx v) n = some i ↔ ∃ t, v[i]? = some t ∧ t.name = n := by
  have gen : ∀ (l : List Ty) (d : Dict Str Nat), (l.map (·.name)).Nodup → (∀ t ∈ l, t.name ∉ Dict.keys d) →
      (l.foldl (fun d t => Dict.set d t.name t.idx) d).length = d.length + l.length ∧
      ∀ n i, Dict.get? (l.foldl (fun d t => Dict.set d t.name t.idx) d) n = some i ↔ Dict.get? d n = some i ∨ ∃ t ∈ l, t.name = n ∧ t.idx = i := by
    intro l
    induction l with
    | nil => intro d _ _; simp
    | cons t l ih =>
      intro d hl hd
      simp only [List.map_cons, List.nodup_cons] at hl
      have ht := hd t (by simp)
      obtain ⟨h1, h2⟩ := ih (Dict.set d t.name t.idx) hl.2 (by
        intro t' ht' hm
        rw [Dict.keys_set, if_neg ht] at hm
        rcases List.mem_append.1 hm with hm | hm
        · exact hd t' (by simp [ht']) hm
        · simp at hm
          exact hl.1 (hm ▸ List.mem_map.2 ⟨t', ht', rfl⟩))
      constructor
      · rw [List.foldl_cons, h1, Dict.length_set, if_neg ht, List.length_cons]; omega
      · intro n i
        rw [List.foldl_cons, h2, Dict.get?_set]
        by_cases hnt : t.name = n
        · subst hnt
          rw [if_pos rfl, (Dict.get?_eq_none_iff d t.name).2 ht]
          simp
        · rw [if_neg hnt]
          simp [hnt]
  obtain ⟨h1, h2⟩ := gen v [] hn (by simp [Dict.keys])
  refine ⟨by unfold revIdx; simpa using h1, fun n i => ?_⟩
  have := h2 n i
  simp only [Dict.get?_nil, reduceCtorEq, false_or] at this
  unfold revIdx
  rw [this]
  constructor
  · rintro ⟨t, ht, rfl, rfl⟩
    obtain ⟨j, hj⟩ := List.getElem?_of_mem ht
    have := hi j t hj
    subst this
    exact ⟨t, hj, rfl⟩
  · rintro ⟨t, ht, rfl⟩
    exact ⟨t, List.mem_of_getElem? ht, rfl, hi i t ht⟩

theorem learnCodes_nil (ord : Nat → List Nat → List Nat) (v : List Ty) (n : Nat) (minEv level : Int) :
    ∃ e, learnCodes ord [] v n minEv level = .error e := by
  unfold learnCodes bpeInit
  split
  · exact ⟨_, rfl⟩
  · rename_i I h
    exfalso
    split at h
    · simp at h
    · cases hc : checkIdx 0 v with
      | error e => rw [hc] at h; simp at h
      | ok u =>
        rw [hc] at h
        simp only [createIndex] at h
        simp [validateIndex, Dict.keys, pyMax] at h

/-- a word with the end marker is not the name of a type -/
theorem prepared_not_name {cf : List (Str × Int)} {v0 : List Ty} (hv0 : VocabContract Level.char 1 cf v0)
    (hcf : ∀ n f, (n, f) ∈ cf → ∃ c, n = [c]) {w : Str} (hw : w ≠ []) : w ++ [SP] ∉ names v0 := by
  intro hm
  have hlen : 2 ≤ (w ++ [SP]).length := by
    have := List.length_pos_of_ne_nil hw
    simp; omega
  obtain ⟨t, ht, hn⟩ := List.mem_map.1 hm
  rw [← List.take_append_drop 6 v0] at ht
  rcases List.mem_append.1 ht with ht | ht
  · have h1 : t.name ∈ ((v0.take 6).map (fun t => (t.name, t.level, t.kids))).map (·.1) := by
      simp only [List.map_map, List.mem_map]; exact ⟨t, ht, rfl⟩
    rw [hv0.reserved, hn] at h1
    have h2 : ∀ r ∈ reservedNames, 2 ≤ r.length → r.getLast? ≠ some SP := by decide
    exact h2 (w ++ [SP]) h1 hlen (by simp)
  · obtain ⟨c, hc⟩ := hcf _ _ (hv0.counted t ht).1
    rw [hn] at hc
    rw [hc] at hlen
    simp at hlen

theorem contract_unk {level mf : Int} {tf : List (Str × Int)} {v : List Ty} (h : VocabContract level mf tf v) :
    ∃ t, v[1]? = some t ∧ t.name = unkName := by
  have := congrArg (fun l => l[1]?) h.reserved
  simp only [List.getElem?_map, List.getElem?_take_of_lt (by decide : 1 < 6)] at this
  cases hv : v[1]? with
  | none => rw [hv] at this; simp at this
  | some t =>
    rw [hv] at this
    simp at this
    exact ⟨t, rfl, this.1⟩

/-- `learn_subwords` is `learn_codes` on the coded words -/
theorem learnSubwords_eq {tf : Dict Str Int} (hnd : (Dict.keys tf).Nodup) (hpos : ∀ p ∈ tf, 1 ≤ p.2)
    (hw : ∀ p ∈ tf, p.1 ≠ []) {init : Dict Str Int → Py (List Ty)} {cf : Dict Str Int} {v0 : List Ty} {vs minEv : Int}
    (hcf : cf = charFreqs (tf.map fun p => (p.1 ++ [SP], p.2)))
    (hv : init cf = .ok v0) (hv0 : VocabContract Level.char 1 cf v0) (hvs : 0 < vs) :
    ∃ C, List.Forall₂ (CodedWord v0) tf C ∧ (∀ s ∈ C, s.1 ≠ [] ∧ 0 < s.2) ∧ (∀ s ∈ C, ∀ c ∈ s.1, c < v0.length) ∧
      ∀ ord, learnSubwords ord tf vs minEv init = if (v0.length : Int) < vs then
        learnCodes ord C v0 (vs - v0.length).toNat minEv Level.subword else .error .assertion := by
  obtain ⟨hcnd, hcmem⟩ := charFreqs_spec hpos
  rw [← hcf] at hcnd hcmem
  obtain ⟨hlen, hrev⟩ := revIdx_spec hv0.indexed hv0.distinct
  obtain ⟨tu, htu, hun⟩ := contract_unk hv0
  have hgu : Dict.get? (revIdx v0) unkName = some 1 := (hrev _ _).2 ⟨tu, htu, hun⟩
  have hone : 1 < v0.length := (List.getElem?_eq_some_iff.1 htu).1
  have hcodes : ∀ p ∈ tf, wordCodes (revIdx v0) 1 (p.1 ++ [SP]) = (p.1 ++ [SP]).map fun c => (Dict.get? (revIdx v0) [c]).getD 1 := by
    intro p hp
    have hnn := prepared_not_name hv0 (fun n f h => (by obtain ⟨c, hc, _⟩ := (hcmem n f).1 h; exact ⟨c, hc⟩)) (hw p hp)
    have : Dict.get? (revIdx v0) (p.1 ++ [SP]) = none := by
      cases hg : Dict.get? (revIdx v0) (p.1 ++ [SP]) with
      | none => rfl
      | some i =>
        obtain ⟨t, ht, hn⟩ := (hrev _ _).1 hg
        exact absurd (List.mem_map.2 ⟨t, List.mem_of_getElem? ht, hn⟩) hnn
    simp only [wordCodes, this]
  have hcode : ∀ c, CodeOf v0 c ((Dict.get? (revIdx v0) [c]).getD 1) := by
    intro c
    cases hg : Dict.get? (revIdx v0) [c] with
    | none =>
      right
      refine ⟨?_, rfl⟩
      intro hm
      obtain ⟨t, ht, hn⟩ := List.mem_map.1 hm
      obtain ⟨i, hi⟩ := List.getElem?_of_mem ht
      have := (hrev [c] i).2 ⟨t, hi, hn⟩
      rw [hg] at this; simp at this
    | some i => left; exact (hrev _ _).1 hg
  have hlt : ∀ c i, CodeOf v0 c i → i < v0.length := by
    rintro c i (⟨t, ht, _⟩ | ⟨_, rfl⟩)
    · exact (List.getElem?_eq_some_iff.1 ht).1
    · exact hone
  refine ⟨(tf.map fun p => (p.1 ++ [SP], p.2)).map fun p => (wordCodes (revIdx v0) 1 p.1, p.2), ?_, ?_, ?_, ?_⟩
  · rw [List.map_map]
    have : ∀ l : List (Str × Int), (∀ p ∈ l, p ∈ tf) →
        List.Forall₂ (CodedWord v0) l (l.map ((fun p => (wordCodes (revIdx v0) 1 p.1, p.2)) ∘ fun p => (p.1 ++ [SP], p.2))) := by
      intro l
      induction l with
      | nil => intro _; exact .nil
      | cons p l ih =>
        intro hl
        refine .cons ⟨rfl, ?_⟩ (ih (fun p hp => hl p (by simp [hp])))
        simp only [Function.comp]
        rw [hcodes p (hl p (by simp))]
        rw [List.forall₂_map_right_iff]
        exact List.forall₂_same.2 (fun c _ => hcode c)
    exact this tf (fun p hp => hp)
  · intro s hs
    rw [List.map_map] at hs
    obtain ⟨p, hp, rfl⟩ := List.mem_map.1 hs
    simp only [Function.comp]
    rw [hcodes p hp]
    refine ⟨by simp, ?_⟩
    have := hpos p hp
    omega
  · intro s hs c hc
    rw [List.map_map] at hs
    obtain ⟨p, hp, rfl⟩ := List.mem_map.1 hs
    simp only [Function.comp] at hc
    rw [hcodes p hp] at hc
    obtain ⟨x, _, rfl⟩ := List.mem_map.1 hc
    exact hlt _ _ (hcode x)
  · intro ord
    have h1 : ¬ vs = -1 := by omega
    simp only [learnSubwords, preparedFreqs_eq hnd, ← hcf, hv, h1, if_false, learnCodesOf, hlen, ne_eq, not_true_eq_false, hgu]
    by_cases h2 : (v0.length : Int) < vs
    · simp [h2]
    · simp [h2]

/-- term frequencies of words: distinct keys, positive counts, tokens -/
theorem termFrequencies_word (data : List Str) : (Dict.keys (termFrequencies .word data).1).Nodup ∧
    (∀ p ∈ (termFrequencies .word data).1, 1 ≤ p.2) ∧ ∀ p ∈ (termFrequencies .word data).1, p.1 ≠ [] := by
  refine ⟨termFrequencies_nodup _ _, ?_, ?_⟩
  · rintro ⟨n, f⟩ hp
    rw [termFrequencies_count, mem_count_nil] at hp
    have := List.count_pos_iff.2 hp.1
    simp only [hp.2]; omega
  · rintro ⟨n, f⟩ hp
    rw [termFrequencies_count, mem_count_nil] at hp
    obtain ⟨l, _, hl⟩ := List.mem_flatMap.1 hp.1
    simp only [learnPieces] at hl
    exact (split_isToken hl).1

end Verif
