import Verif.Props.LearnCli
/-!
# Properties C80 and C81: text a model was learned from; words encoded one by one
-/

namespace Verif
open Spec

/-! ## C80 -/

/-- a term that is frequent enough is in the vocabulary if there is no limit or enough room -/
theorem kept_all {A : Acc} {level : Int} {tf : Dict Str Int} {lc : Option Int} {mf vs : Int} {vocab : List Ty} (hnd : (Dict.keys tf).Nodup)
    (hpos : ∀ p ∈ tf, 1 ≤ p.2) (h : getInitVocab A level tf none lc mf vs = .ok vocab) (hmf : mf ≤ 1)
    (hvs : vs ≤ 0 ∨ 6 + (tf.length : Int) ≤ vs) {p : Str × Int} (hp : p ∈ tf) : p.1 ∈ names vocab := by
  by_contra hout
  have hc := C15_contract hnd hpos h
  have h1 := hpos p hp
  rcases C15_complete hnd h hp hout with h2 | ⟨h2, h3⟩
  · omega
  · rcases hvs with h4 | h4
    · omega
    · have h5 := h3 (by omega)
      have hsub : ((vocab.drop 6).map (·.name)) ⊆ (Dict.keys tf).erase p.1 := by
        intro n hn
        obtain ⟨t, ht, rfl⟩ := List.mem_map.1 hn
        have hne : t.name ≠ p.1 := fun e => hout (e ▸ List.mem_map.2 ⟨t, List.mem_of_mem_drop ht, rfl⟩)
        exact (List.mem_erase_of_ne hne).2 (List.mem_map.2 ⟨_, (hc.counted t ht).1, rfl⟩)
      have hnd2 : ((vocab.drop 6).map (·.name)).Nodup := by
        rw [List.map_drop]; exact hc.distinct.sublist (List.drop_sublist _ _)
      have hl := (List.subperm_of_subset hnd2 hsub).length_le
      have hk : p.1 ∈ Dict.keys tf := List.mem_map.2 ⟨p, hp, rfl⟩
      rw [List.length_erase_of_mem hk] at hl
      have : (Dict.keys tf).length = tf.length := by simp [Dict.keys]
      rw [List.length_map, List.length_drop, this] at hl
      have := List.length_pos_of_mem hp
      omega

theorem tf_length {k : Kind} (data : List Str) (toks : List (List Str)) (ht : List.Forall₂ Tokens data toks) (hk : k = .word ∨ k = .char) {P : List Str}
    (hP : P = toks.flatMap (fun ws => if k = .word then ws else (List.intercalate [0x2581] ws).map fun c => [c])) :
    (termFrequencies k data).1.length = P.dedup.length := by
  have hc := C15_counts data toks ht hk
  rw [← hP] at hc
  have h1 : ((termFrequencies k data).1.map (·.1)).Nodup := termFrequencies_nodup k data
  have : ((termFrequencies k data).1.map (·.1)).Perm P.dedup := by
    rw [List.perm_ext_iff_of_nodup h1 (List.nodup_dedup _)]
    intro n
    rw [List.mem_map, List.mem_dedup]
    constructor
    · rintro ⟨⟨m, f⟩, hm, rfl⟩; exact ((hc m f).1 hm).1
    · intro hn; exact ⟨(n, _), (hc n _).2 ⟨hn, rfl⟩, rfl⟩
  simpa using this.length_eq

theorem mem_intercalate_of_mem {w : Str} {ws : List Str} {c : Nat} (hw : w ∈ ws) (hc : c ∈ w) (sep : Str) : c ∈ List.intercalate sep ws := by
  induction ws with
  | nil => simp at hw
  | cons v ws ih =>
    cases ws with
    | nil => simp only [List.mem_singleton] at hw; subst hw; simpa using hc
    | cons u ws =>
      rw [List.intercalate_cons_cons]
      rcases List.mem_cons.1 hw with rfl | hw
      · simp [hc]
      · simp [ih hw]

theorem chCount_nonneg {tf : List (Str × Int)} (hp : ∀ p ∈ tf, 1 ≤ p.2) (c : Nat) : 0 ≤ chCount tf c := by
  induction tf with
  | nil => simp [chCount]
  | cons p tf ih =>
    rw [chCount_cons]
    have h1 := hp p (by simp)
    have h2 := ih fun q hq => hp q (by simp [hq])
    have : 0 ≤ p.2 * ((p.1 ++ [SP]).count c : Int) := by positivity
    omega

theorem chCount_pos_of_mem {tf : List (Str × Int)} (hp : ∀ p ∈ tf, 1 ≤ p.2) {q : Str × Int} (hq : q ∈ tf) {c : Nat} (hc : c ∈ q.1) :
    0 < chCount tf c := by
  induction tf with
  | nil => simp at hq
  | cons p tf ih =>
    rw [chCount_cons]
    have h1 := hp p (by simp)
    have h2 := chCount_nonneg (fun q hq => hp q (by simp [hq]) : ∀ q ∈ tf, 1 ≤ q.2) c
    rcases List.mem_cons.1 hq with rfl | hq
    · have h3 : 0 < (q.1 ++ [SP]).count c := List.count_pos_iff.2 (by simp [hc])
      have : 0 < q.2 * ((q.1 ++ [SP]).count c : Int) := by positivity
      omega
    · have h3 := ih (fun q hq => hp q (by simp [hq])) hq
      have : 0 ≤ p.2 * ((p.1 ++ [SP]).count c : Int) := by positivity
      omega

/-- C80: a word vocabulary learned from a text (no coverage cut, `min_freq` at most 1, no size limit or room for all words) restores
every line of that text up to white space. -/
theorem C80_word (A : Acc) {data : List Str} {toks : List (List Str)} (ht : List.Forall₂ Tokens data toks) {vs mf : Int} (hmf : mf ≤ 1)
    (hvs : vs ≤ 0 ∨ 6 + (toks.flatten.dedup.length : Int) ≤ vs) :
    ∃ vocab s, learnRaw A .word data vs mf none = .ok vocab ∧ Scheme.make .word vocab = .ok s ∧
      List.Forall₂ (fun line ws => ∃ ids, s.encode line = .ok ids ∧ s.decode ids = .ok (List.intercalate [32] ws)) data toks := by
  obtain ⟨vocab, s, h1, h2, _⟩ := C19_learned_accepted A .word (by decide) data vs mf none (by simp)
  refine ⟨vocab, s, h1, h2, ?_⟩
  have hcnt := C15_counts (k := .word) data toks ht (Or.inl rfl)
  have hflat : toks.flatMap (fun ws => if Kind.word = .word then ws else (List.intercalate [0x2581] ws).map fun c => [c]) = toks.flatten := by
    simp [List.flatMap_id']
  have hlen := tf_length (k := .word) data toks ht (Or.inl rfl) hflat.symm
  rw [hflat] at hcnt
  have hk : ∀ w ∈ toks.flatten, w ∈ names vocab := by
    intro w hw
    have hmem := (hcnt w _).2 ⟨hw, rfl⟩
    exact kept_all (A := A) (termFrequencies_word data).1 (termFrequencies_word data).2.1 h1 hmf (by rw [hlen]; exact hvs) hmem
  clear hcnt hlen hflat hvs h1
  induction ht with
  | nil => exact .nil
  | cons hl _ ih =>
    refine .cons (C01_word_lossless h2 hl fun w hw => hk w ?_) (ih fun w hw => hk w ?_)
    · simp [hw]
    · rw [List.flatten_cons]; exact List.mem_append_right _ hw

/-- C80 for characters; the text must not contain the space marker U+2581, which is decoded as a space. -/
theorem C80_char (A : Acc) {data : List Str} {toks : List (List Str)} (ht : List.Forall₂ Tokens data toks)
    (hsp : ∀ ws ∈ toks, ∀ w ∈ ws, SP ∉ w) {vs mf : Int} (hmf : mf ≤ 1)
    (hvs : vs ≤ 0 ∨ 7 + (toks.flatten.flatten.dedup.length : Int) ≤ vs) :
    ∃ vocab s, learnRaw A .char data vs mf none = .ok vocab ∧ Scheme.make .char vocab = .ok s ∧
      List.Forall₂ (fun line ws => ∃ ids, s.encode line = .ok ids ∧ s.decode ids = .ok (List.intercalate [32] ws)) data toks := by
  obtain ⟨vocab, s, h1, h2, _⟩ := C19_learned_accepted A .char (by decide) data vs mf none (by simp)
  refine ⟨vocab, s, h1, h2, ?_⟩
  have hcnt := C15_counts (k := .char) data toks ht (Or.inr rfl)
  have hlen := tf_length (k := .char) data toks ht (Or.inr rfl) rfl
  simp only [reduceCtorEq, if_false] at hcnt hlen
  have hpos : ∀ p ∈ (termFrequencies .char data).1, 1 ≤ p.2 := counted_pos .char data
  have hle : (termFrequencies .char data).1.length ≤ 1 + toks.flatten.flatten.dedup.length := by
    rw [hlen]
    have hsub : (toks.flatMap fun ws => (List.intercalate [0x2581] ws).map fun c => [c]).dedup ⊆
        ([SP] :: toks.flatten.flatten.dedup.map fun c => [c]) := by
      intro n hn
      rw [List.mem_dedup] at hn
      obtain ⟨ws, hws, hn⟩ := List.mem_flatMap.1 hn
      obtain ⟨c, hc, rfl⟩ := List.mem_map.1 hn
      rw [← join_eq_intercalate] at hc
      rcases mem_join hc with hc | ⟨w, hw, hc⟩
      · rw [List.mem_singleton.1 hc]; exact List.mem_cons_self
      · refine List.mem_cons_of_mem _ (List.mem_map.2 ⟨c, ?_, rfl⟩)
        rw [List.mem_dedup]
        exact List.mem_flatten.2 ⟨w, List.mem_flatten.2 ⟨ws, hws, hw⟩, hc⟩
    have := (List.subperm_of_subset (List.nodup_dedup _) hsub).length_le
    simp only [List.length_cons, List.length_map] at this
    omega
  have hk : ∀ ws ∈ toks, ∀ w ∈ ws, ∀ c ∈ w, [c] ∈ names vocab ∧ c ≠ SP := by
    intro ws hws w hw c hc
    refine ⟨?_, fun e => hsp ws hws w hw (e ▸ hc)⟩
    have hin : [c] ∈ toks.flatMap fun ws => (List.intercalate [0x2581] ws).map fun c => [c] := by
      refine List.mem_flatMap.2 ⟨ws, hws, List.mem_map.2 ⟨c, ?_, rfl⟩⟩
      exact mem_intercalate_of_mem hw hc _
    exact kept_all (A := A) (termFrequencies_nodup .char data) hpos h1 hmf (by omega) ((hcnt [c] _).2 ⟨hin, rfl⟩)
  clear hcnt hlen hvs h1 hle hsp hpos
  induction ht with
  | nil => exact .nil
  | cons hl _ ih =>
    exact .cons (C02_char_lossless h2 hl (hk _ List.mem_cons_self)) (ih fun ws hws => hk ws (List.mem_cons_of_mem _ hws))

/-- C80 for BPE: whatever was learned (no coverage cut) restores every line of the text it was learned from, up to white space; the text
must not contain the space marker. -/
theorem C80_bpe {ord : Nat → List Nat → List Nat} (hord : ∀ i l, (ord i l).Perm l) {A : Acc} {data : List Str} {toks : List (List Str)}
    (ht : List.Forall₂ Tokens data toks) (hsp : ∀ ws ∈ toks, ∀ w ∈ ws, SP ∉ w) {vs mf minEv : Int} {vocab : List Ty}
    (h : bpeLearn ord A data vs mf none minEv = .ok vocab) :
    ∃ s, Scheme.make .bpe vocab = .ok s ∧
      List.Forall₂ (fun line ws => ∃ ids, s.encode line = .ok ids ∧ s.decode ids = .ok (List.intercalate [32] ws)) data toks := by
  have hv : ∀ c, (none : Option A.F) = some c → A.valid c = true := by simp
  obtain ⟨s, hs, _⟩ := C19_bpe_accepted hord hv h
  refine ⟨s, hs, ?_⟩
  obtain ⟨t1, t2, t3⟩ := termFrequencies_word data
  obtain ⟨cf, v0, C, c1, c2, c3, c4, c5, c6, c0, c7⟩ := bpeLearnTf_cases (ord := ord) t1 t2 t3 (lc := (termFrequencies .word data).2)
    (vs := vs) (mf := mf) (minEv := minEv) hv
  have hcpos : ∀ p ∈ cf, 1 ≤ p.2 := by
    rintro ⟨n, f⟩ hp
    obtain ⟨c, _, _, h⟩ := (c2 n f).1 hp
    exact h
  have hsub : ∀ n ∈ names v0, n ∈ names vocab := by
    intro n hn
    simp only [bpeLearn] at h
    rw [c7] at h
    split at h
    · obtain ⟨k, C', hk, hrun, _⟩ := C20_merges hord c5 c3.indexed c3.distinct c6 h
      obtain ⟨new, e, _⟩ := hrun.shape
      rw [e, names, List.map_append]
      exact List.mem_append_left _ hn
    · simp at h
  have hk : ∀ ws ∈ toks, ∀ w ∈ ws, ∀ c ∈ w, [c] ∈ names vocab ∧ c ≠ SP := by
    intro ws hws w hw c hc
    refine ⟨hsub _ ?_, fun e => hsp ws hws w hw (e ▸ hc)⟩
    have hmem := (C15_counts (k := .word) data toks ht (Or.inl rfl) w _).2
      ⟨List.mem_flatMap.2 ⟨ws, hws, by simpa using hw⟩, rfl⟩
    have hp : 0 < chCount (termFrequencies .word data).1 c := chCount_pos_of_mem t2 hmem hc
    exact kept_all c1 hcpos c0 (le_refl _) (Or.inl (by decide)) ((c2 [c] _).2 ⟨c, rfl, rfl, hp⟩)
  have hi := (C22_text hord hv h).1
  clear hsub hcpos c7 c0 c6 c5 c4 c3 c2 c1 h hsp t1 t2 t3
  induction ht with
  | nil => exact .nil
  | cons hl _ ih =>
    exact .cons (C04_bpe_lossless hs hi hl (hk _ List.mem_cons_self)) (ih fun ws hws => hk ws (List.mem_cons_of_mem _ hws))

/-- C80 through the disk: learn, save, load the file, and the loaded scheme restores the text. -/
theorem C80_disk {J : Json} (hJ : JsonLaws J) (A : Acc) {k : Kind} (hk : k = .word ∨ k = .char) {data : List Str} (hd : Decoded data)
    {toks : List (List Str)} (ht : List.Forall₂ Tokens data toks) (hsp : k = .char → ∀ ws ∈ toks, ∀ w ∈ ws, SP ∉ w) {vs mf : Int} (hmf : mf ≤ 1)
    (hvs : vs ≤ 0 ∨ (if k = .word then 6 + (toks.flatten.dedup.length : Int) else 7 + (toks.flatten.flatten.dedup.length : Int)) ≤ vs) :
    ∃ vocab s text s', learnRaw A k data vs mf none = .ok vocab ∧ Scheme.make k vocab = .ok s ∧ s.save J = .ok text ∧ loadScheme J text = .ok s' ∧
      List.Forall₂ (fun line ws => ∃ ids, s'.encode line = .ok ids ∧ s'.decode ids = .ok (List.intercalate [32] ws)) data toks := by
  obtain ⟨v, s, text, h1, h2, _, h4, h5⟩ := C77_learned hJ A (k := k) (by tauto) hd vs mf none (by simp)
  refine ⟨v, s, text, s, h1, h2, h4, h5, ?_⟩
  rcases hk with rfl | rfl
  · obtain ⟨v', s', g1, g2, g3⟩ := C80_word A ht (vs := vs) hmf (by simpa using hvs)
    rw [h1] at g1; cases g1; rw [h2] at g2; cases g2; exact g3
  · obtain ⟨v', s', g1, g2, g3⟩ := C80_char A ht (hsp rfl) (vs := vs) hmf (by simpa using hvs)
    rw [h1] at g1; cases g1; rw [h2] at g2; cases g2; exact g3

theorem C80_disk_bpe {J : Json} (hJ : JsonLaws J) {ord : Nat → List Nat → List Nat} (hord : ∀ i l, (ord i l).Perm l) {A : Acc} {data : List Str}
    (hd : Decoded data) {toks : List (List Str)} (ht : List.Forall₂ Tokens data toks) (hsp : ∀ ws ∈ toks, ∀ w ∈ ws, SP ∉ w) {vs mf minEv : Int}
    {vocab : List Ty} (h : bpeLearn ord A data vs mf none minEv = .ok vocab) :
    ∃ s text s', Scheme.make .bpe vocab = .ok s ∧ s.save J = .ok text ∧ loadScheme J text = .ok s' ∧
      List.Forall₂ (fun line ws => ∃ ids, s'.encode line = .ok ids ∧ s'.decode ids = .ok (List.intercalate [32] ws)) data toks := by
  obtain ⟨s, text, h1, _, h3, h4⟩ := C77_learned_bpe hJ hord hd (by simp) h
  obtain ⟨s', g1, g2⟩ := C80_bpe hord ht hsp h
  rw [h1] at g1; cases g1
  exact ⟨s, text, s, h1, h3, h4, g2⟩

/-- the corner in which the size limit is exactly the number of words -/
example : (match learnRaw accExact .word [lit "b a", lit " c  b"] 9 1 none with
    | .error _ => false
    | .ok v => decide ((withScheme .word v fun s => (s.encode (lit " c  b")).bind s.decode) = .ok (lit "c b"))) = true := by decide +kernel

/-! ## C81 -/

/-- names in which the space marker, if at all, is the last character -/
def Spec.MarkerLast (n : Str) : Prop := SP ∉ n.dropLast

theorem prefix_of_longer {a b c : Str} (h : a <+: b ++ c) (hl : a.length ≤ b.length) : a <+: b :=
  List.prefix_of_prefix_length_le h (List.prefix_append _ _) hl

/-- a name in which the marker is last does not extend beyond the end of a text that ends with the marker -/
theorem markerLast_prefix {n t y : Str} (hn : MarkerLast n) (h : n <+: t ++ y) (ht : t.getLast? = some SP) : n <+: t := by
  by_cases hl : n.length ≤ t.length
  · exact prefix_of_longer h hl
  · exfalso
    have h1 : t <+: n := List.prefix_of_prefix_length_le (List.prefix_append _ _) h (by omega)
    obtain ⟨z, rfl⟩ := h1
    have hz : z ≠ [] := by rintro rfl; simp at hl
    apply hn
    rw [List.dropLast_append_of_ne_nil hz]
    exact List.mem_append_left _ (List.mem_of_getLast? ht)

theorem greedy_append {names : List Str} (hn : ∀ n ∈ names, MarkerLast n) {t y : Str} {o1 o2 : List (Option Str)} (h1 : Greedy names t o1)
    (ht : t = [] ∨ t.getLast? = some SP) (h2 : Greedy names y o2) : Greedy names (t ++ y) (o1 ++ o2) := by
  induction h1 with
  | nil => exact h2
  | @tok w r out hw hm hbest hr ih =>
    have hlast : (w ++ r).getLast? = some SP := by
      rcases ht with ht | ht
      · simp [hw] at ht
      · exact ht
    have hr' : r = [] ∨ r.getLast? = some SP := by
      by_cases h : r = []
      · exact .inl h
      · rw [List.getLast?_append_of_ne_nil _ h] at hlast; exact .inr hlast
    rw [List.append_assoc, List.cons_append]
    refine .tok hw hm (fun w' hw' hp => hbest w' hw' (markerLast_prefix (hn w' hw') (by rw [List.append_assoc]; exact hp) hlast)) (ih hr')
  | @unk c r out hno hr ih =>
    have hlast : (c :: r).getLast? = some SP := by
      rcases ht with ht | ht
      · simp at ht
      · exact ht
    have hr' : r = [] ∨ r.getLast? = some SP := by
      cases r with
      | nil => exact .inl rfl
      | cons d r => rw [List.getLast?_cons_cons] at hlast; exact .inr hlast
    rw [List.cons_append, List.cons_append]
    exact .unk (fun w hw hne hp => hno w hw hne (markerLast_prefix (hn w hw) hp hlast)) (ih hr')

/-- C81, for any table: if the space marker occurs in names only as the last character, the encoding of a line is the concatenation of the
encodings of its words. -/
theorem C81_table {tbl : List Ty} {s : Scheme} (h : Scheme.make .bpe tbl = .ok s) (hi : Indexed tbl) (hn : ∀ n ∈ names tbl, MarkerLast n)
    {line : Str} {ws : List Str} (hw : Tokens line ws) (hne : ws ≠ []) :
    ∃ idss, List.Forall₂ (fun w ids => s.encode w = .ok ids) ws idss ∧ s.encode line = .ok idss.flatten := by
  obtain ⟨out, hg, _, he⟩ := bpe_encode_spec h hi line
  have htext : bpeText line = (ws.map (· ++ [SP])).flatten := by
    rw [bpeText, split_strip, split_of_tokens hw, join_eq_intercalate]
    clear hg he hw
    induction ws with
    | nil => exact absurd rfl hne
    | cons w ws ih =>
      cases ws with
      | nil => simp
      | cons v ws =>
        rw [List.intercalate_cons_cons, List.map_cons, List.flatten_cons, ← ih (by simp)]; simp only [List.append_assoc]
  have hword : ∀ w ∈ ws, bpeText w = w ++ [SP] := by
    intro w hw'
    have htok : IsToken w := by
      have := split_isToken (s := line) (w := w); rw [split_of_tokens hw] at this; exact this hw'
    rw [bpeText, strip_token htok, split_token htok]; rfl
  have key : ∀ l : List Str, (∀ w ∈ l, bpeText w = w ++ [SP]) → ∃ outs, List.Forall₂ (fun w o => Greedy (names tbl) (w ++ [SP]) o ∧
      s.encode w = .ok (o.map fun o => s.idOf (o.getD unkName))) l outs ∧ Greedy (names tbl) (l.map (· ++ [SP])).flatten outs.flatten := by
    intro l
    induction l with
    | nil => intro _; exact ⟨[], .nil, .nil⟩
    | cons w l ih =>
      intro hl
      obtain ⟨outs, i1, i2⟩ := ih fun v hv => hl v (by simp [hv])
      obtain ⟨o, g1, _, g3⟩ := bpe_encode_spec h hi w
      rw [hl w (by simp)] at g1
      exact ⟨o :: outs, .cons ⟨g1, g3⟩ i1, greedy_append hn g1 (.inr (by simp)) i2⟩
  obtain ⟨outs, k1, k2⟩ := key ws hword
  rw [htext] at hg
  have := hg.unique k2
  subst this
  refine ⟨outs.map fun o => o.map fun o => s.idOf (o.getD unkName), ?_, ?_⟩
  · rw [List.forall₂_map_right_iff]
    exact k1.imp fun _ _ h => h.2
  · rw [he, List.map_flatten]

/-- a sequence of symbols in which only the last symbol may have the marker in its name, and only as last character -/
def MarkedSeq (v : List Ty) : List Nat → Prop
  | [] => True
  | [x] => ∀ t, v[x]? = some t → MarkerLast t.name
  | x :: y :: r => (∀ t, v[x]? = some t → SP ∉ t.name) ∧ MarkedSeq v (y :: r)

theorem MarkedSeq.cons {v : List Ty} {x : Nat} {s : List Nat} (hs : s ≠ []) : MarkedSeq v (x :: s) ↔ (∀ t, v[x]? = some t → SP ∉ t.name) ∧ MarkedSeq v s := by
  cases s with
  | nil => exact absurd rfl hs
  | cons y r => rfl

theorem MarkedSeq.last {v : List Ty} {x : Nat} {s : List Nat} (h : MarkedSeq v (x :: s)) : ∀ t, v[x]? = some t → MarkerLast t.name := by
  cases s with
  | nil => exact h
  | cons y r => exact fun t ht hm => h.1 t ht (List.dropLast_subset _ hm)

theorem Spec.Replaces.nil_iff {a b r : Nat} {s t : List Nat} (h : Replaces a b r s t) : s = [] ↔ t = [] := by
  cases h <;> simp

theorem markerLast_append {a b : Str} (ha : SP ∉ a) (hb : MarkerLast b) : MarkerLast (a ++ b) := by
  unfold MarkerLast at *
  by_cases h : b = []
  · subst h; rw [List.append_nil]; exact fun hm => ha (List.dropLast_subset _ hm)
  · rw [List.dropLast_append_of_ne_nil h, List.mem_append]; tauto

theorem MarkedSeq.replaces {v : List Ty} {ta tb : Ty} {a b : Nat} {level f : Int} (ha : v[a]? = some ta) (hb : v[b]? = some tb) {s t : List Nat}
    (h : Replaces a b v.length s t) (hc : ∀ c ∈ s, c < v.length) (hm : MarkedSeq v s) : MarkedSeq (v ++ [mergedType v ta tb level f]) t := by
  have hold : ∀ x, x < v.length → (v ++ [mergedType v ta tb level f])[x]? = v[x]? := fun x hx => List.getElem?_append_left hx
  induction h with
  | nil => trivial
  | @keep x s t hr ih =>
    by_cases hs : s = []
    · subst hs
      have : t = [] := hr.nil_iff.1 rfl
      subst this
      intro u hu
      rw [hold x (hc x (by simp))] at hu
      exact hm u hu
    · have ht : t ≠ [] := fun e => hs (hr.nil_iff.2 e)
      rw [MarkedSeq.cons hs] at hm
      rw [MarkedSeq.cons ht, hold x (hc x (by simp))]
      exact ⟨hm.1, ih (fun c h => hc c (by simp [h])) hm.2⟩
  | @pair s t hr ih =>
    rw [MarkedSeq.cons (by simp)] at hm
    have hnew : (v ++ [mergedType v ta tb level f])[v.length]? = some (mergedType v ta tb level f) := by simp
    by_cases hs : s = []
    · subst hs
      have : t = [] := hr.nil_iff.1 rfl
      subst this
      intro u hu
      rw [hnew] at hu
      cases hu
      exact markerLast_append (hm.1 ta ha) (hm.2 tb hb)
    · have ht : t ≠ [] := fun e => hs (hr.nil_iff.2 e)
      rw [MarkedSeq.cons hs] at hm
      rw [MarkedSeq.cons ht, hnew]
      refine ⟨?_, ih (fun c h => hc c (by simp [h])) hm.2.2⟩
      intro u hu
      cases hu
      simp only [mergedType, List.mem_append, not_or]
      exact ⟨hm.1 ta ha, hm.2.1 tb hb⟩

theorem Spec.Replaces.bound {a b r n : Nat} {s t : List Nat} (h : Replaces a b r s t) (hr : r < n) (hc : ∀ c ∈ s, c < n) : ∀ c ∈ t, c < n := by
  induction h with
  | nil => exact hc
  | keep x _ ih =>
    intro c hc'
    rcases List.mem_cons.1 hc' with rfl | hc'
    · exact hc _ (by simp)
    · exact ih (fun c h => hc c (by simp [h])) c hc'
  | pair _ ih =>
    intro c hc'
    rcases List.mem_cons.1 hc' with rfl | hc'
    · exact hr
    · exact ih (fun c h => hc c (by simp [h])) c hc'

theorem pairOcc_marked {v : List Ty} {p : Nat × Nat} {s : List Nat} (hp : pairOcc p s ≠ 0) (hm : MarkedSeq v s) :
    (∀ t, v[p.1]? = some t → SP ∉ t.name) ∧ ∀ t, v[p.2]? = some t → MarkerLast t.name := by
  induction s with
  | nil => simp [pairOcc] at hp
  | cons x s ih =>
    cases s with
    | nil => simp [pairOcc] at hp
    | cons y r =>
      by_cases h : (x, y) = p
      · subst h; exact ⟨hm.1, hm.2.last⟩
      · refine ih ?_ hm.2
        simp only [pairOcc, h, if_false] at hp
        simpa [pairOcc] using hp

theorem pairCount_occ {C : Corpus} {p : Nat × Nat} (h : 0 < pairCount C p) : ∃ s ∈ C, pairOcc p s.1 ≠ 0 := by
  by_contra hc
  push Not at hc
  have : pairCount C p = 0 := by
    unfold pairCount
    rw [List.map_congr_left (g := fun _ => (0 : Int)) (fun s hs => by rw [hc s hs, Int.mul_zero])]
    simp
  omega

theorem Spec.Run.markers {minEv level : Int} {C C' : Corpus} {v v' : List Ty} {k : Nat} (h : Run minEv level C v k C' v')
    (hc : ∀ s ∈ C, ∀ c ∈ s.1, c < v.length) (hs : ∀ s ∈ C, MarkedSeq v s.1) (hv : ∀ n ∈ names v, MarkerLast n) : ∀ n ∈ names v', MarkerLast n := by
  induction h with
  | refl => exact hv
  | @step C C1 C' v v' n p ta tb hb hm ha hb2 hmer hr ih =>
    have hback : ∀ t ∈ C1, ∃ s ∈ C, Replaces p.1 p.2 v.length s.1 t.1 := by
      clear hr ih hb hm hc hs
      unfold Merged at hmer
      induction hmer with
      | nil => simp
      | cons h1 _ ih =>
        intro t ht
        rcases List.mem_cons.1 ht with rfl | ht
        · exact ⟨_, List.mem_cons_self, h1.2.1⟩
        · obtain ⟨s, g1, g2⟩ := ih t ht
          exact ⟨s, List.mem_cons_of_mem _ g1, g2⟩
    apply ih
    · intro t ht c hc'
      obtain ⟨s, g1, g2⟩ := hback t ht
      rw [List.length_append, List.length_singleton]
      exact g2.bound (by omega) (fun c h => Nat.lt_succ_of_lt (hc s g1 c h)) c hc'
    · intro t ht
      obtain ⟨s, g1, g2⟩ := hback t ht
      exact MarkedSeq.replaces ha hb2 g2 (hc s g1) (hs s g1)
    · intro n hn
      rw [names, List.map_append, List.mem_append] at hn
      rcases hn with hn | hn
      · exact hv n hn
      · simp only [List.map_cons, List.map_nil, List.mem_singleton] at hn
        subst hn
        obtain ⟨s, hs1, hs2⟩ := pairCount_occ hb.1
        obtain ⟨g1, g2⟩ := pairOcc_marked hs2 (hs s hs1)
        exact markerLast_append (g1 ta ha) (g2 tb hb2)

theorem codedWord_marked {v : List Ty} (hv : ∀ n ∈ names v, MarkerLast n) (hunk : ∀ t, v[1]? = some t → SP ∉ t.name) {w : Str} (hw : SP ∉ w) {s : List Nat}
    (h : List.Forall₂ (CodeOf v) (w ++ [SP]) s) : MarkedSeq v s := by
  induction w generalizing s with
  | nil =>
    cases h with
    | cons h1 h2 =>
      cases h2
      exact fun t ht => hv _ (List.mem_map.2 ⟨t, List.mem_of_getElem? ht, rfl⟩)
  | cons c w ih =>
    cases h with
    | @cons _ x _ r h1 h2 =>
      have hne : r ≠ [] := by
        rintro rfl; have := h2.length_eq; simp at this
      rw [MarkedSeq.cons hne]
      refine ⟨?_, ih (fun h => hw (by simp [h])) h2⟩
      rcases h1 with ⟨t, ht, hn⟩ | ⟨_, rfl⟩
      · intro u hu
        rw [ht] at hu
        cases hu
        rw [hn, List.mem_singleton]
        rintro e; exact hw (by simp [e])
      · exact hunk

/-- in a vocabulary learned from a text without the space marker, the marker is only the last character of a name -/
theorem learned_markers {ord : Nat → List Nat → List Nat} (hord : ∀ i l, (ord i l).Perm l) {A : Acc} {data : List Str} {toks : List (List Str)}
    (ht : List.Forall₂ Tokens data toks) (hsp : ∀ ws ∈ toks, ∀ w ∈ ws, SP ∉ w) {vs mf minEv : Int} {cov : Option A.F}
    (hv : ∀ c, cov = some c → A.valid c = true) {vocab : List Ty} (h : bpeLearn ord A data vs mf cov minEv = .ok vocab) :
    ∀ n ∈ names vocab, MarkerLast n := by
  obtain ⟨t1, t2, t3⟩ := termFrequencies_word data
  obtain ⟨cf, v0, C, c1, c2, c3, c4, c5, c6, c0, c7⟩ := bpeLearnTf_cases (ord := ord) t1 t2 t3 (lc := (termFrequencies .word data).2)
    (vs := vs) (mf := mf) (minEv := minEv) hv
  simp only [bpeLearn] at h
  rw [c7] at h
  split at h
  · obtain ⟨k, C', hk, hrun, _⟩ := C20_merges hord c5 c3.indexed c3.distinct c6 h
    have hres := c3.reserved
    have hv0 : ∀ n ∈ names v0, MarkerLast n := by
      intro n hn
      obtain ⟨t, ht, rfl⟩ := List.mem_map.1 hn
      rw [← List.take_append_drop 6 v0, List.mem_append] at ht
      rcases ht with ht | ht
      · have : (t.name, t.level, t.kids) ∈ (v0.take 6).map fun t => (t.name, t.level, t.kids) := List.mem_map.2 ⟨t, ht, rfl⟩
        rw [hres] at this
        simp only [List.mem_cons, Prod.mk.injEq, List.not_mem_nil, or_false] at this
        unfold MarkerLast
        rcases this with h | h | h | h | h | h <;> rw [h.1] <;> decide
      · obtain ⟨c, hc, _⟩ := (c2 _ _).1 (c3.counted t ht).1
        rw [hc]; simp [MarkerLast]
    have hunk : ∀ t, v0[1]? = some t → SP ∉ t.name := by
      intro t ht
      have h1 := congrArg (·[1]?) hres
      simp only [List.getElem?_map, List.getElem?_take] at h1
      rw [if_pos (by omega), ht] at h1
      simp at h1
      rw [h1.1]; decide
    refine hrun.markers c6 ?_ hv0
    have hwords : ∀ p ∈ (termFrequencies .word data).1, SP ∉ p.1 := by
      rintro ⟨n, f⟩ hp
      have := ((C15_counts (k := .word) data toks ht (Or.inl rfl) n f).1 hp).1
      obtain ⟨ws, g1, g2⟩ := List.mem_flatMap.1 this
      exact hsp ws g1 n (by simpa using g2)
    clear hrun hk h c7 c0 c6 c5 c2 c1 t1 t2 t3
    revert hwords
    generalize (termFrequencies .word data).1 = tf at c4
    intro hwords
    induction c4 with
    | nil => simp
    | cons h1 _ ih =>
      intro s hs
      rcases List.mem_cons.1 hs with rfl | hs
      · exact codedWord_marked hv0 hunk (hwords _ List.mem_cons_self) h1.2
      · exact ih (fun p hp => hwords p (List.mem_cons_of_mem _ hp)) s hs
  · simp at h

/-- C81: with a BPE vocabulary learned from a text without the space marker U+2581, every line is encoded word by word: its encoding is the
concatenation of the encodings of its words. -/
theorem C81_learned {ord : Nat → List Nat → List Nat} (hord : ∀ i l, (ord i l).Perm l) {A : Acc} {data : List Str} {toks : List (List Str)}
    (ht : List.Forall₂ Tokens data toks) (hsp : ∀ ws ∈ toks, ∀ w ∈ ws, SP ∉ w) {vs mf minEv : Int} {cov : Option A.F}
    (hv : ∀ c, cov = some c → A.valid c = true) {vocab : List Ty} (h : bpeLearn ord A data vs mf cov minEv = .ok vocab) :
    ∃ s, Scheme.make .bpe vocab = .ok s ∧ ∀ line ws, Tokens line ws → ws ≠ [] →
      ∃ idss, List.Forall₂ (fun w ids => s.encode w = .ok ids) ws idss ∧ s.encode line = .ok idss.flatten := by
  obtain ⟨s, hs, _⟩ := C19_bpe_accepted hord hv h
  exact ⟨s, hs, fun line ws hw hne => C81_table hs (C22_text hord hv h).1 (learned_markers hord ht hsp hv h) hw hne⟩

/-- the words `ab` and `b` encoded on their own and in a line -/
example : (match bpeLearn ordId accExact [lit "ab ab b cd"] 0 1 none 2 with
    | .error _ => false
    | .ok v => decide (v.length = 12) && decide ((withScheme .bpe v fun s => s.encode (lit "ab b a")) =
        (withScheme .bpe v fun s => s.encode (lit "ab")).bind fun x => (withScheme .bpe v fun s => s.encode (lit "b")).bind fun y =>
        (withScheme .bpe v fun s => s.encode (lit "a")).bind fun z => .ok (x ++ y ++ z))) = true := by decide +kernel

/-- C81 needs a text without U+2581: learned from `a▁b`, the line `a b` is one type, while `a` and `b` are encoded by two or more. -/
theorem C81_marker_needed : (match bpeLearn ordId accExact [[97, SP, 98, 32, 97, SP, 98, 32, 99]] 0 1 none 2 with
    | .error _ => false
    | .ok v => decide ((withScheme .bpe v fun s => s.encode (lit "a b")) = .ok [11]) &&
      decide ((withScheme .bpe v fun s => s.encode (lit "a")) ≠ .ok []) && decide ((withScheme .bpe v fun s => s.encode (lit "b")) ≠ .ok [])) = true := by
  decide +kernel

end Verif
