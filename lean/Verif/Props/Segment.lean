import Verif.Props.Names
import Verif.Props.Restore
/-!
# Property C93: encoding and the segmentation found by learning

Learning replaces pairs in order; encoding takes the longest name at each position.  The two agree on words that became one type,
but not in general.
-/

namespace Verif
open Spec

/-- the merges of a table, in the order in which they were learned: the two parts and the new symbol -/
def Spec.merges (v : List Ty) : List ((Nat × Nat) × Nat) :=
  v.filterMap fun t => match t.kids with
    | [ta, tb] => some ((ta.idx, tb.idx), t.idx)
    | _ => none

/-- `s'` is `s` with every pair of the list replaced everywhere, one after the other -/
inductive Spec.Applies : List ((Nat × Nat) × Nat) → List Nat → List Nat → Prop
  | nil (s : List Nat) : Applies [] s s
  | cons {p : Nat × Nat} {r : Nat} {ms : List ((Nat × Nat) × Nat)} {s s1 s' : List Nat} : Replaces p.1 p.2 r s s1 → pairOcc p s1 = 0 →
      Applies ms s1 s' → Applies ((p, r) :: ms) s s'

/-- what learning leaves of the word `w`: its characters and the end marker, merged -/
def Spec.Learned (v : List Ty) (w : Str) (seg : List Nat) : Prop :=
  ∃ s, List.Forall₂ (CodeOf v) (w ++ [0x2581]) s ∧ Applies (merges v) s seg

theorem merges_append (v w : List Ty) : merges (v ++ w) = merges v ++ merges w := List.filterMap_append

theorem run_applies {minEv level : Int} {C C' : Corpus} {v v' : List Ty} {k : Nat} (h : Run minEv level C v k C' v') : Indexed v →
    ∃ ms, merges v' = merges v ++ ms ∧ List.Forall₂ (fun s t => t.2 = s.2 ∧ Applies ms s.1 t.1) C C' := by
  induction h with
  | refl C v => exact fun _ => ⟨[], by simp, List.forall₂_same.2 fun s _ => ⟨rfl, .nil _⟩⟩
  | @step C Cm C' v v' k p ta tb hb hm ha hb2 hmer hr ih =>
    intro hi
    have hi' : Indexed (v ++ [mergedType v ta tb level (pairCount C p)]) := by
      intro i t ht
      by_cases hlt : i < v.length
      · rw [List.getElem?_append_left hlt] at ht; exact hi i t ht
      · rw [List.getElem?_append_right (by omega)] at ht
        obtain ⟨h1, h2⟩ := List.getElem?_eq_some_iff.1 ht
        simp only [List.length_singleton] at h1
        have e : i = v.length := by omega
        subst e
        simp only [Nat.sub_self, List.getElem_cons_zero] at h2
        rw [← h2]; rfl
    obtain ⟨ms, e, hf⟩ := ih hi'
    refine ⟨(p, v.length) :: ms, ?_, ?_⟩
    · rw [e, merges_append, List.append_assoc]
      simp [merges, mergedType, hi _ _ ha, hi _ _ hb2]
    · unfold Merged at hmer
      clear e ih hb hm hr hi'
      induction hmer generalizing C' with
      | nil => cases hf; exact .nil
      | @cons s t C Cm hst _ ih =>
        cases hf with
        | @cons _ u _ D hu hf => exact .cons ⟨hu.1.trans hst.1.symm, .cons hst.2.1 hst.2.2 hu.2⟩ (ih hf)

/-- C93: `Learned` is what learning leaves.  The table is learned by a run (see C20) from the corpus of the words of the text to a corpus
whose sequences are, word by word, the learned segmentations; at that point the table has the size asked for or the best pair is too
rare. -/
theorem C93_corpus {ord : Nat → List Nat → List Nat} (hord : ∀ i l, (ord i l).Perm l) {A : Acc} {data : List Str}
    {vs mf : Int} {cov : Option A.F} {minEv : Int} {vocab : List Ty} {toks : List (List Str)}
    (ht : List.Forall₂ Tokens data toks) (hv : ∀ c, cov = some c → A.valid c = true)
    (h : bpeLearn ord A data vs mf cov minEv = .ok vocab) :
    ∃ (tf : List (Str × Int)) (v0 : List Ty) (C : Corpus) (k : Nat) (C' : Corpus),
      (∀ n f, (n, f) ∈ tf ↔ n ∈ toks.flatten ∧ f = toks.flatten.count n) ∧ List.Forall₂ (CodedWord v0) tf C ∧
      Run minEv Level.subword C v0 k C' vocab ∧ List.Forall₂ (fun p t => t.2 = p.2 ∧ Learned vocab p.1 t.1) tf C' ∧
      ((vocab.length : Int) = effSize vs minEv ∨ ∃ p, IsBest C' p ∧ pairCount C' p < minEv) := by
  obtain ⟨tf, cf, v0, C, k, C', h1, hnd, h2, h3, h4, h5, hst⟩ := C20_text hord ht hv h
  refine ⟨tf, v0, C, k, C', h1, h4, h5, ?_, hst⟩
  obtain ⟨ms, e, hf⟩ := run_applies h5 h3.indexed
  have h0 : merges v0 = [] := by
    unfold merges
    rw [List.filterMap_eq_nil_iff]
    intro t htm
    have : t.kids = [] := by
      rw [← List.take_append_drop 6 v0] at htm
      rcases List.mem_append.1 htm with hm | hm
      · have g1 : (t.name, t.level, t.kids) ∈ (v0.take 6).map (fun t => (t.name, t.level, t.kids)) := List.mem_map.2 ⟨t, hm, rfl⟩
        rw [h3.reserved] at g1
        have g2 : ∀ y ∈ ([(lit "<pad>", -1, []), (lit "<unk>", -1, []), (lit "<s>", -1, []), (lit "</s>", -1, []),
          (lit "<cls>", -1, []), ([0x2581], -1, [])] : List (Str × Int × List Ty)), y.2.2 = [] := by decide
        exact g2 _ g1
      · exact (h3.counted t hm).2.2
    simp [this]
  rw [h0, List.nil_append] at e
  obtain ⟨new, e2, _, hnew⟩ := h5.shape
  have hne := (C22_text hord hv h).2.2.2.1
  have hcode : ∀ c i, CodeOf v0 c i → CodeOf vocab c i := by
    rintro c i (⟨t, g1, g2⟩ | ⟨g1, rfl⟩)
    · left
      exact ⟨t, by rw [e2, List.getElem?_append_left (List.getElem?_eq_some_iff.1 g1).1]; exact g1, g2⟩
    · refine Or.inr ⟨?_, rfl⟩
      rw [e2]
      simp only [names, List.map_append, List.mem_append, not_or]
      refine ⟨g1, fun hm => ?_⟩
      obtain ⟨t, hm, hn⟩ := List.mem_map.1 hm
      obtain ⟨j, hj⟩ := List.getElem?_of_mem hm
      obtain ⟨_, _, _, _, ja, jb, ta, tb, _, _, g3, g4, _, g5⟩ := hnew j t hj
      have n1 := List.length_pos_iff.2 (hne ta (List.mem_of_getElem? g3))
      have n2 := List.length_pos_iff.2 (hne tb (List.mem_of_getElem? g4))
      rw [hn] at g5
      have := congrArg List.length g5
      simp only [List.length_singleton, List.length_append] at this
      omega
  clear h1 h5 hnd h2 hst
  induction h4 generalizing C' with
  | nil => cases hf; exact .nil
  | @cons p s tf C hps _ ih =>
    cases hf with
    | @cons _ t _ D hst hf =>
      exact .cons ⟨hst.1.trans hps.1, s.1, hps.2.imp fun c i hci => hcode c i hci, e ▸ hst.2⟩ (ih _ hf)

theorem replaces_textOf {v : List Ty} {a b r : Nat} {ta tb t : Ty} (ha : v[a]? = some ta) (hb : v[b]? = some tb) (hr : v[r]? = some t)
    (hn : t.name = ta.name ++ tb.name) {x x' : List Nat} (h : Replaces a b r x x') : textOf v x' = textOf v x := by
  induction h with
  | nil => rfl
  | keep c h ih => unfold textOf at ih ⊢; rw [List.flatMap_cons, List.flatMap_cons, ih]
  | pair h ih =>
    unfold textOf at ih ⊢
    rw [List.flatMap_cons, List.flatMap_cons, List.flatMap_cons, ih, ha, hb, hr]
    simp [hn]

theorem applies_textOf {v : List Ty} (hi : Indexed v) (hk : ∀ (i : Nat) (t : Ty), v[i]? = some t → t.kids = [] ∨ ∃ ja jb ta tb, ja < i ∧ jb < i ∧
      v[ja]? = some ta ∧ v[jb]? = some tb ∧ t.kids = [ta, tb] ∧ t.name = ta.name ++ tb.name)
    {ms : List ((Nat × Nat) × Nat)} (hms : ∀ m ∈ ms, m ∈ merges v) {s s' : List Nat} (h : Applies ms s s') : textOf v s' = textOf v s := by
  induction h with
  | nil => rfl
  | @cons p r ms s s1 s' h1 _ _ ih =>
    rw [ih fun m hm => hms m (by simp [hm])]
    have hm := hms (p, r) (by simp)
    unfold merges at hm
    rw [List.mem_filterMap] at hm
    obtain ⟨t, htv, ht⟩ := hm
    obtain ⟨i, hit⟩ := List.getElem?_of_mem htv
    rcases hk i t hit with h0 | ⟨ja, jb, ta, tb, _, _, g1, g2, g3, g4⟩
    · simp [h0] at ht
    · simp only [g3, Option.some.injEq, Prod.mk.injEq] at ht
      obtain ⟨⟨rfl, rfl⟩, rfl⟩ := ht
      have e1 := hi _ _ g1
      have e2 := hi _ _ g2
      have e3 := hi _ _ hit
      refine replaces_textOf (ta := ta) (tb := tb) (t := t) ?_ ?_ ?_ g4 h1
      · simp only [e1]; exact g1
      · simp only [e2]; exact g2
      · rw [e3]; exact hit

/-- C93, as far as it holds, for a table learned from text and a word of known characters (without white space) that learning
leaves as `i :: rest`: the first piece of the encoding is at least as long as the type `i`; and if nothing but `i` is left, the
encoding is that one piece, with the id `i` if names are distinct (see C73).  Missing: equality in other cases (`C93_refuted`). -/
theorem C93_first_partial {ord : Nat → List Nat → List Nat} (hord : ∀ i l, (ord i l).Perm l) {A : Acc} {data : List Str}
    {vs mf : Int} {cov : Option A.F} {minEv : Int} {vocab : List Ty} (hv : ∀ c, cov = some c → A.valid c = true)
    (h : bpeLearn ord A data vs mf cov minEv = .ok vocab) {s : Scheme} (hs : Scheme.make .bpe vocab = .ok s)
    {w : Str} (hw : Tokens w [w]) (hknown : ∀ c ∈ w, [c] ∈ names vocab) {i : Nat} {rest : List Nat} (hl : Learned vocab w (i :: rest)) :
    ∃ (t : Ty) (p : Str) (ps : List Str), vocab[i]? = some t ∧ s.encodeStr w = .ok (p :: ps) ∧ t.name.length ≤ p.length ∧
      (rest = [] → p = t.name ∧ ps = [] ∧ ((names vocab).Nodup → s.encode w = .ok [(i : Int)])) := by
  obtain ⟨hidx, _, hres, hne, hk⟩ := C22_text hord hv h
  obtain ⟨codes, hc, hap⟩ := hl
  have hsp : [SP] ∈ names vocab := (List.take_sublist 6 _).subset (by rw [hres]; decide)
  have hknown' : ∀ c ∈ w ++ [SP], [c] ∈ names vocab := by
    intro c hc
    rcases List.mem_append.1 hc with hc | hc
    · exact hknown c hc
    · simp only [List.mem_singleton] at hc; subst hc; exact hsp
  have htext : textOf vocab (i :: rest) = w ++ [SP] := by
    rw [applies_textOf hidx hk (fun m hm => hm) hap]
    exact (codes_name hc hknown').2
  obtain ⟨out, hg, he, hei⟩ := bpe_encode_spec hs hidx w
  have hbt : bpeText w = w ++ [SP] := by
    rw [bpeText, split_strip, split_of_tokens hw, join_eq_intercalate]; simp
  rw [hbt] at hg
  have hlen : codes.length = w.length + 1 := by rw [← hc.length_eq]; simp
  -- every symbol left is a type of the table
  have hmem : ∀ {ms : List ((Nat × Nat) × Nat)} {x y : List Nat}, Applies ms x y → (∀ m ∈ ms, m ∈ merges vocab) →
      (∀ j ∈ x, j < vocab.length) → ∀ j ∈ y, j < vocab.length := by
    intro ms x y hxy
    induction hxy with
    | nil => intro _ hx; exact hx
    | @cons p r ms a b c h1 _ _ ih =>
      intro hms hx
      refine ih (fun m hm => hms m (by simp [hm])) ?_
      intro j hj
      rcases h1.mem j hj with h2 | rfl
      · exact hx j h2
      · have hm := hms (p, j) (by simp)
        unfold merges at hm
        rw [List.mem_filterMap] at hm
        obtain ⟨t, htv, ht⟩ := hm
        obtain ⟨n, hn⟩ := List.getElem?_of_mem htv
        have : t.idx = j := by
          split at ht
          · simp only [Option.some.injEq, Prod.mk.injEq] at ht; exact ht.2
          · cases ht
        rw [hidx n t hn] at this
        subst this
        exact (List.getElem?_eq_some_iff.1 hn).1
  have hcodes : ∀ j ∈ codes, j < vocab.length := by
    intro j hj
    obtain ⟨c, hcm, hcj⟩ := mem_of_forall₂_right hc j hj
    rcases hcj with ⟨t, ht, _⟩ | ⟨hno, _⟩
    · exact (List.getElem?_eq_some_iff.1 ht).1
    · exact absurd (hknown' c hcm) hno
  obtain ⟨t, ht⟩ : ∃ t, vocab[i]? = some t := by
    have := hmem hap (fun m hm => hm) hcodes i (by simp)
    exact ⟨_, List.getElem?_eq_getElem this⟩
  have htn : t.name ∈ names vocab := List.mem_map.2 ⟨t, List.mem_of_getElem? ht, rfl⟩
  have hpre : t.name <+: w ++ [SP] := by
    rw [← htext]
    exact ⟨textOf vocab rest, by simp [textOf, ht]⟩
  have hno : t.name ≠ [] := hne t (List.mem_of_getElem? ht)
  have hlist : w ++ [SP] ≠ [] := by simp
  generalize hW : w ++ [SP] = W at *
  refine ⟨t, ?_⟩
  cases hg with
  | nil => exact absurd rfl hlist
  | @unk c r out hno' hg' => exact absurd hpre (hno' _ htn hno)
  | @tok p r out hp0 hp1 hp2 hg' =>
    have hle := hp2 t.name htn hpre
    refine ⟨p, out.map fun o => o.getD unkName, ht, by simpa using he, hle, ?_⟩
    rintro rfl
    have hwhole : t.name = p ++ r := by rw [← htext]; simp [textOf, ht]
    have hr : r = [] := by
      have := congrArg List.length hwhole
      rw [List.length_append] at this
      exact List.eq_nil_of_length_eq_zero (by omega)
    subst hr
    rw [List.append_nil] at hwhole
    have hout : out = [] := hg'.unique .nil
    subst hout
    refine ⟨hwhole.symm, rfl, fun hnd => ?_⟩
    rw [hei]
    simp only [List.map_cons, List.map_nil, Option.getD_some, Except.ok.injEq, List.cons.injEq, and_true]
    rw [← hwhole]
    have h1 := (make_bpe_ok hs).1
    have hi' : s.idxToStr.idxOf? t.name = some i := by
      rw [Scheme.idxToStr, h1]
      change (names vocab).idxOf? t.name = some i
      have hg : (names vocab)[i]? = some t.name := by simp [names, ht]
      obtain ⟨hlt, hge⟩ := List.getElem?_eq_some_iff.1 hg
      rw [List.idxOf?_eq_some_iff]
      refine ⟨hlt, hge, fun j hj hje => ?_⟩
      have := (List.Nodup.getElem_inj_iff hnd).1 (hje.trans hge.symm)
      omega
    simp only [Scheme.idOf, hi']

/-- text from which "ab" and "bc" are learned, with "abc" made of "a" and "bc▁" -/
def segData : List Str := [lit "bc bc bc abd abe abc"]

/-- C93 is false: in "bc bc bc abd abe abc" the word "abc" is learned as "a bc▁", but it is encoded as "ab c ▁", with more pieces. -/
theorem C93_refuted : ∃ v s, bpeLearn ordId accExact segData 14 1 none 2 = .ok v ∧ Scheme.make .bpe v = .ok s ∧ (names v).Nodup ∧
    Learned v (lit "abc") [8, 12] ∧ (∀ seg, Learned v (lit "abc") seg → seg = [8, 12]) ∧ s.encode (lit "abc") = .ok [13, 7, 5] ∧
    s.encodeStr (lit "abc") = .ok [lit "ab", lit "c", lit "▁"] := by
  have hev : (match bpeLearn ordId accExact segData 14 1 none 2 with
      | .error _ => false
      | .ok v => decide (merges v = [((6, 7), 11), ((11, 5), 12), ((8, 6), 13)]) && decide ((names v).Nodup) &&
        decide ((names v)[5]? = some [0x2581] ∧ (names v)[6]? = some (lit "b") ∧ (names v)[7]? = some (lit "c") ∧ (names v)[8]? = some (lit "a")) &&
        (match Scheme.make .bpe v with
          | .error _ => false
          | .ok s => decide (s.encode (lit "abc") = .ok [13, 7, 5]) && decide (s.encodeStr (lit "abc") = .ok [lit "ab", lit "c", lit "▁"]))) =
        true := by decide +kernel
  cases hb : bpeLearn ordId accExact segData 14 1 none 2 with
  | error e => simp [hb] at hev
  | ok v =>
    simp only [hb, Bool.and_eq_true, decide_eq_true_eq] at hev
    obtain ⟨⟨⟨h1, h2⟩, h3, h4, h5, h6⟩, h7⟩ := hev
    cases hs : Scheme.make .bpe v with
    | error e => simp [hs] at h7
    | ok s =>
      simp only [hs, Bool.and_eq_true, decide_eq_true_eq] at h7
      have code : ∀ {i c : Nat}, (names v)[i]? = some [c] → CodeOf v c i := by
        intro i c h
        simp only [names, List.getElem?_map, Option.map_eq_some_iff] at h
        exact Or.inl h
      have hcodes : List.Forall₂ (CodeOf v) (lit "abc" ++ [0x2581]) [8, 6, 7, 5] :=
        .cons (code h6) (.cons (code h4) (.cons (code h5) (.cons (code h3) .nil)))
      have r1 : Replaces 6 7 11 [8, 6, 7, 5] [8, 11, 5] := .keep 8 (.pair (.keep 5 .nil))
      have r2 : Replaces 11 5 12 [8, 11, 5] [8, 12] := .keep 8 (.pair .nil)
      have r3 : Replaces 8 6 13 [8, 12] [8, 12] := .keep 8 (.keep 12 .nil)
      refine ⟨v, s, rfl, hs, h2, ⟨_, hcodes, ?_⟩, ?_, h7⟩
      · rw [h1]
        exact .cons r1 rfl (.cons r2 rfl (.cons r3 rfl (.nil _)))
      · rintro seg ⟨cs, hcs, hap⟩
        have : cs = [8, 6, 7, 5] := by
          have key : ∀ {w : Str} {a b : List Nat}, List.Forall₂ (CodeOf v) w a → List.Forall₂ (CodeOf v) w b → a = b := by
            intro w a b k1
            induction k1 generalizing b with
            | nil => intro k2; cases k2; rfl
            | cons k _ ih =>
              intro k2
              cases k2 with
              | cons k' k2 => rw [codeOf_unique h2 k k', ih k2]
          exact key hcs hcodes
        subst this
        rw [h1] at hap
        cases hap with
        | cons q1 z1 hap =>
          cases q1.unique (by decide) (by decide) z1 r1 rfl
          cases hap with
          | cons q2 z2 hap =>
            cases q2.unique (by decide) (by decide) z2 r2 rfl
            cases hap with
            | cons q3 z3 hap =>
              cases q3.unique (by decide) (by decide) z3 r3 rfl
              cases hap
              rfl

/-- in the same text "bc" is learned as one type, and encoded as such -/
example : ∃ v s, bpeLearn ordId accExact segData 14 1 none 2 = .ok v ∧ Scheme.make .bpe v = .ok s ∧ s.encode (lit "bc") = .ok [12] := by
  have hev : (match bpeLearn ordId accExact segData 14 1 none 2 with
      | .error _ => false
      | .ok v => (match Scheme.make .bpe v with
          | .error _ => false
          | .ok s => decide (s.encode (lit "bc") = .ok [12]))) = true := by decide +kernel
  cases hb : bpeLearn ordId accExact segData 14 1 none 2 with
  | error e => simp [hb] at hev
  | ok v =>
    simp only [hb] at hev
    cases hs : Scheme.make .bpe v with
    | error e => simp [hs] at hev
    | ok s => simp only [hs, decide_eq_true_eq] at hev; exact ⟨v, s, rfl, hs, hev⟩

end Verif
