import Verif.Props.Occurs
import Verif.Props.RestoreExact
import Verif.Props.Unknown
/-!
# Property C131: encoding the decoded text again

BPEScheme and CharScheme: encode(decode(encode(line))) (nlcodec/codec.py).
-/

namespace Verif
open Spec

/-- a beginning without "<" of the decoded text is a beginning of the text -/
theorem greedy_prefix {ns : List Str} {t : Str} {out : List (Option Str)} (h : Greedy ns t out) :
    ∀ p : Str, 60 ∉ p → p <+: (out.map fun o => o.getD unkName).flatten → p <+: t := by
  induction h with
  | nil => intro p _ hp; simpa using hp
  | @tok w r out _ _ _ _ ih =>
    intro p h60 hp
    simp only [List.map_cons, List.flatten_cons, Option.getD_some] at hp
    by_cases hl : p.length ≤ w.length
    · exact (List.prefix_of_prefix_length_le hp (List.prefix_append _ _) hl).trans (List.prefix_append _ _)
    · obtain ⟨q, rfl⟩ := List.prefix_of_prefix_length_le (List.prefix_append w _) hp (by omega)
      rw [List.prefix_append_right_inj] at hp ⊢
      exact ih q (fun h => h60 (List.mem_append_right _ h)) hp
  | @unk c r out _ _ _ =>
    intro p h60 hp
    cases p with
    | nil => exact List.nil_prefix
    | cons d p =>
      have : unkName = 60 :: lit "unk>" := by decide
      simp only [List.map_cons, List.flatten_cons, Option.getD_none, this, List.cons_append, List.cons_prefix_cons] at hp
      exact absurd (by simp [hp.1]) h60

/-- if only reserved names have a "<", the decoded text is segmented into the pieces it was made of -/
theorem greedy_again {ns : List Str} (hns : ∀ n ∈ ns, 60 ∈ n → n ∈ special) (hu : unkName ∈ ns) {t : Str} {out : List (Option Str)} (h : Greedy ns t out) :
    Greedy ns (out.map fun o => o.getD unkName).flatten (out.map fun o => some (o.getD unkName)) := by
  have hhead : ∀ m ∈ special, 60 ∈ m → ∃ r, m = 60 :: r := by
    have : ∀ m ∈ special, 60 ∈ m → m = 60 :: m.tail := by decide
    exact fun m h1 h2 => ⟨_, this m h1 h2⟩
  have hpre : ∀ m ∈ special, ∀ k ∈ special, 60 ∈ m → 60 ∈ k → m <+: k → m = k := by decide
  have long : ∀ w r' n, w ∈ ns → w ≠ [] → n ∈ ns → 60 ∈ n → n <+: w ++ r' → n.length ≤ w.length := by
    intro w r' n hw hw0 hn h60 hp
    by_contra hl
    have hwn : w <+: n := List.prefix_of_prefix_length_le (List.prefix_append w r') hp (by omega)
    obtain ⟨m, rfl⟩ := hhead n (hns n hn h60) h60
    cases w with
    | nil => exact hw0 rfl
    | cons d w =>
      have h60w : 60 ∈ d :: w := by simp [(List.cons_prefix_cons.1 hwn).1]
      have := hpre _ (hns _ hw h60w) _ (hns _ hn h60) h60w h60 hwn
      rw [this] at hl
      exact hl (Nat.le_refl _)
  induction h with
  | nil => exact .nil
  | @tok w r out hw0 hw hmax hr ih =>
    simp only [List.map_cons, List.flatten_cons, Option.getD_some]
    refine .tok hw0 hw (fun n hn hp => ?_) ih
    by_cases h60 : 60 ∈ n
    · exact long w _ n hw hw0 hn h60 hp
    · refine hmax n hn (greedy_prefix (.tok hw0 hw hmax hr) n h60 ?_)
      simpa only [List.map_cons, List.flatten_cons, Option.getD_some] using hp
  | @unk c r out hno hr ih =>
    simp only [List.map_cons, List.flatten_cons, Option.getD_none]
    refine .tok (by decide) hu (fun n hn hp => ?_) ih
    by_cases h60 : 60 ∈ n
    · exact long unkName _ n hu (by decide) hn h60 hp
    · cases n with
      | nil => simp
      | cons d n =>
        have : unkName = 60 :: lit "unk>" := by decide
        rw [this, List.cons_append, List.cons_prefix_cons] at hp
        exact absurd (by simp [hp.1]) h60

/-- some characters other than U+2581 are replaced by `<unk>` -/
inductive Masked : Str → Str → Prop where
  | nil : Masked [] []
  | keep {c : Nat} {r r' : Str} : Masked r r' → Masked (c :: r) (c :: r')
  | mask {c : Nat} {r r' : Str} : c ≠ SP → Masked r r' → Masked (c :: r) (unkName ++ r')

theorem Masked.append_left (w : Str) {r r' : Str} (h : Masked r r') : Masked (w ++ r) (w ++ r') := by
  induction w with
  | nil => exact h
  | cons c w ih => exact .keep ih

theorem Masked.append_inv {a b f : Str} (h : Masked (a ++ b) f) : ∃ x y, f = x ++ y ∧ Masked a x ∧ Masked b y := by
  induction a generalizing f with
  | nil => exact ⟨[], f, rfl, .nil, h⟩
  | cons c a ih =>
    rw [List.cons_append] at h
    cases h with
    | keep h =>
      obtain ⟨x, y, rfl, hx, hy⟩ := ih h
      exact ⟨c :: x, y, rfl, .keep hx, hy⟩
    | mask hc h =>
      obtain ⟨x, y, rfl, hx, hy⟩ := ih h
      exact ⟨unkName ++ x, y, by simp, .mask hc hx, hy⟩

theorem Masked.single {f : Str} (h : Masked [SP] f) : f = [SP] := by
  cases h with
  | keep h => cases h; rfl
  | mask hc _ => exact absurd rfl hc

theorem Masked.token {w f : Str} (h : Masked w f) (hw : IsToken w ∧ SP ∉ w) : IsToken f ∧ SP ∉ f := by
  have hu : (∀ c ∈ unkName, isWhite c = false) ∧ SP ∉ unkName := by decide
  have key : (∀ c ∈ w, isWhite c = false) → SP ∉ w → (∀ c ∈ f, isWhite c = false) ∧ SP ∉ f := by
    clear hw
    induction h with
    | nil => exact fun _ _ => by simp
    | keep _ ih =>
      intro h1 h2
      obtain ⟨a, b⟩ := ih (fun c hc => h1 c (by simp [hc])) (fun hc => h2 (by simp [hc]))
      refine ⟨fun d hd => ?_, fun hd => ?_⟩
      · rcases List.mem_cons.1 hd with rfl | hd
        · exact h1 _ (by simp)
        · exact a d hd
      · rcases List.mem_cons.1 hd with hd | hd
        · exact h2 (by simp [hd])
        · exact b hd
    | mask _ _ ih =>
      intro h1 h2
      obtain ⟨a, b⟩ := ih (fun c hc => h1 c (by simp [hc])) (fun hc => h2 (by simp [hc]))
      refine ⟨fun d hd => ?_, fun hd => ?_⟩
      · rcases List.mem_append.1 hd with hd | hd
        · exact hu.1 d hd
        · exact a d hd
      · rcases List.mem_append.1 hd with hd | hd
        · exact hu.2 hd
        · exact b hd
  obtain ⟨a, b⟩ := key hw.1.2 hw.2
  refine ⟨⟨?_, a⟩, b⟩
  intro hf
  subst hf
  have hw0 := hw.1.1
  generalize he : ([] : Str) = e at h
  cases h with
  | nil => exact hw0 rfl
  | keep _ => cases he
  | mask _ _ =>
    have : unkName ≠ [] := by decide
    exact this (List.append_eq_nil_iff.1 he.symm).1

/-- masking words joined by U+2581 gives words joined by U+2581 -/
theorem Masked.words {ws : List Str} (hw : ∀ w ∈ ws, IsToken w ∧ SP ∉ w) {f : Str} (h : Masked (List.intercalate [SP] ws ++ [SP]) f) :
    ∃ vs : List Str, (∀ v ∈ vs, IsToken v ∧ SP ∉ v) ∧ f = List.intercalate [SP] vs ++ [SP] := by
  suffices hs : ∀ g, Masked (List.intercalate [SP] ws) g → ∃ vs : List Str, (∀ v ∈ vs, IsToken v ∧ SP ∉ v) ∧ vs.length = ws.length ∧ g = List.intercalate [SP] vs by
    obtain ⟨x, y, rfl, hx, hy⟩ := h.append_inv
    obtain ⟨vs, a, _, b⟩ := hs x hx
    exact ⟨vs, a, by rw [b, hy.single]⟩
  clear h f
  induction ws with
  | nil =>
    intro g hg
    have : List.intercalate [SP] ([] : List Str) = [] := rfl
    rw [this] at hg
    cases hg
    exact ⟨[], by simp, rfl, rfl⟩
  | cons w ws ih => cases ws with
    | nil =>
      intro g hg
      have e : ∀ v : Str, List.intercalate [SP] [v] = v := fun v => by simp
      rw [e] at hg
      refine ⟨[g], ?_, rfl, (e g).symm⟩
      intro v hv
      rw [List.mem_singleton.1 hv]
      exact hg.token (hw w (by simp))
    | cons v vs =>
      intro g hg
      rw [List.intercalate_cons_cons, List.append_assoc] at hg
      obtain ⟨x, y, rfl, hx, hy⟩ := hg.append_inv
      obtain ⟨y1, y2, rfl, hy1, hy2⟩ := hy.append_inv
      obtain ⟨us, a, b, rfl⟩ := ih (fun u hu => hw u (by simp [hu])) y2 hy2
      cases us with
      | nil => simp at b
      | cons u us =>
        refine ⟨x :: u :: us, ?_, by simpa using b, ?_⟩
        · intro z hz
          rcases List.mem_cons.1 hz with rfl | hz
          · exact hx.token (hw w (by simp))
          · exact a z hz
        · rw [List.intercalate_cons_cons, hy1.single, List.append_assoc]

theorem greedy_masked {ns : List Str} (hsp : [SP] ∈ ns) {t : Str} {out : List (Option Str)} (h : Greedy ns t out) :
    Masked t (out.map fun o => o.getD unkName).flatten := by
  induction h with
  | nil => exact .nil
  | @tok w r out _ _ _ _ ih =>
    simp only [List.map_cons, List.flatten_cons, Option.getD_some]
    exact ih.append_left w
  | @unk c r out hno _ ih =>
    simp only [List.map_cons, List.flatten_cons, Option.getD_none]
    refine .mask ?_ ih
    rintro rfl
    exact hno [SP] hsp (by simp) ⟨r, rfl⟩

/-- the encoding is stable if the text that is segmented consists of words without U+2581, each ended by one -/
theorem stable_of_words {tbl : List Ty} {s : Scheme} (h : Scheme.make .bpe tbl = .ok s) (hi : Indexed tbl) (hns : ∀ n ∈ names tbl, 60 ∈ n → n ∈ special) {line : Str}
    {ws : List Str} (hws : ∀ w ∈ ws, IsToken w ∧ SP ∉ w) (htext : bpeText line = List.intercalate [SP] ws ++ [SP]) :
    ∃ ids txt, s.encode line = .ok ids ∧ s.decode ids = .ok txt ∧ s.encode txt = .ok ids := by
  obtain ⟨h1, h2, h3, h4, h5, h6⟩ := make_bpe_ok h
  obtain ⟨ids, ps, a, b, c⟩ := bpe_decode_encode h hi line
  obtain ⟨out, hg, he, hen⟩ := bpe_encode_spec h hi line
  rw [he] at b
  cases b
  have hmem1 : unkName ∈ names tbl := by
    obtain ⟨t, ht, hn⟩ := validateReserved_ok h4 1 (by omega)
    exact List.mem_map.2 ⟨t, List.mem_of_getElem? ht, by rw [hn]; rfl⟩
  have hmem5 : [SP] ∈ names tbl := by
    obtain ⟨t, ht, hn⟩ := validateReserved_ok h4 5 (by omega)
    exact List.mem_map.2 ⟨t, List.mem_of_getElem? ht, by rw [hn]; rfl⟩
  have hm := greedy_masked hmem5 hg
  rw [htext] at hm
  obtain ⟨vs, hvs, hf⟩ := hm.words hws
  have hdec : s.decode ids = .ok (join [32] vs) := by
    simp only [Scheme.decode, c, Scheme.decodeStr, h2]
    rw [hf, ← join_eq_intercalate]
    have : replaceCh SP 32 (join [SP] vs ++ [SP]) = join [32] vs ++ [32] := by
      have := replaceCh_join vs (fun w hwm c hcw => fun e => (hvs w hwm).2 (e ▸ hcw))
      simp only [replaceCh] at this ⊢
      rw [List.map_append, this]
      rfl
    rw [this, strip_intercalate fun v hv => (hvs v hv).1]
  refine ⟨ids, _, a, hdec, ?_⟩
  obtain ⟨out2, hg2, _, hen2⟩ := bpe_encode_spec h hi (join [32] vs)
  have e2 : bpeText (join [32] vs) = (out.map fun o => o.getD unkName).flatten := by
    rw [bpeText, split_strip, split_join_space fun v hv => (hvs v hv).1, join_eq_intercalate, hf]
  rw [e2] at hg2
  have := hg2.unique (greedy_again hns hmem1 hg)
  rw [hen2, this, ← a, hen, List.map_map]
  rfl

/-- C131, BPE: if only reserved names have a "<", a line without U+2581, with known and unknown characters alike, is encoded to ids whose text has the same
encoding again: an unknown character becomes `<unk>`, which is read as one token. Missing: vocabularies with other names with "<", see `C131_bpe_refuted`; for lines
with U+2581 see `C131_bpe_iff`. -/
theorem C131_bpe_partial {tbl : List Ty} {s : Scheme} (h : Scheme.make .bpe tbl = .ok s) (hi : Indexed tbl) (hns : ∀ n ∈ names tbl, 60 ∈ n → n ∈ special) {line : Str}
    {ws : List Str} (hw : Tokens line ws) (hsp : ∀ w ∈ ws, 0x2581 ∉ w) :
    ∃ ids txt, s.encode line = .ok ids ∧ s.decode ids = .ok txt ∧ s.encode txt = .ok ids := by
  refine stable_of_words h hi hns (ws := ws) (fun w hww => ⟨split_isToken (by rw [split_of_tokens hw]; exact hww), hsp w hww⟩) ?_
  rw [bpeText, split_strip, split_of_tokens hw, join_eq_intercalate]

theorem intercalate_flatMap (x : Nat) (ws : List Str) (hne : ws ≠ []) : List.intercalate [x] ws ++ [x] = ws.flatMap (· ++ [x]) := by
  induction ws with
  | nil => exact absurd rfl hne
  | cons w ws ih => cases ws with
    | nil => simp
    | cons v vs =>
      rw [List.intercalate_cons_cons, List.flatMap_cons, ← ih (by simp)]
      simp

/-- a beginning that is followed by U+2581 consists of whole words -/
theorem flatMap_prefix {us : List Str} (hu : ∀ u ∈ us, SP ∉ u) {w b : Str} (h : us.flatMap (· ++ [SP]) = w ++ SP :: b) :
    ∃ us1 us2, us = us1 ++ us2 ∧ us1 ≠ [] ∧ w = List.intercalate [SP] us1 ∧ b = us2.flatMap (· ++ [SP]) := by
  induction us generalizing w with
  | nil => simp at h
  | cons u us ih =>
    rw [List.flatMap_cons, List.append_assoc, List.singleton_append] at h
    rcases List.append_eq_append_iff.1 h with ⟨c, h1, h2⟩ | ⟨c, h1, h2⟩
    · cases c with
      | nil =>
        simp only [List.append_nil] at h1
        simp only [List.nil_append, List.cons.injEq, true_and] at h2
        exact ⟨[u], us, rfl, by simp, by simp [h1], h2.symm⟩
      | cons d c =>
        simp only [List.cons_append, List.cons.injEq] at h2
        obtain ⟨rfl, h2⟩ := h2
        obtain ⟨us1, us2, rfl, h4, h5, h6⟩ := ih (fun v hv => hu v (by simp [hv])) h2
        refine ⟨u :: us1, us2, rfl, by simp, ?_, h6⟩
        obtain ⟨v, vs, rfl⟩ := List.exists_cons_of_ne_nil h4
        rw [h1, h5, List.intercalate_cons_cons]
        simp
    · cases c with
      | nil =>
        simp only [List.append_nil] at h1
        simp only [List.nil_append, List.cons.injEq, true_and] at h2
        exact ⟨[u], us, rfl, by simp, by simp [h1], h2⟩
      | cons d c =>
        simp only [List.cons_append, List.cons.injEq] at h2
        exact absurd (by rw [h1, ← h2.1]; simp) (hu u (by simp))

theorem Masked.append_inv' {t x y : Str} (h : Masked t (x ++ SP :: y)) : ∃ a b, t = a ++ SP :: b ∧ Masked a x ∧ Masked b y := by
  have hu : SP ∉ unkName := by decide
  generalize hf : x ++ SP :: y = f at h
  induction h generalizing x with
  | nil => simp at hf
  | @keep c r r' hr ih =>
    cases x with
    | nil =>
      simp only [List.nil_append, List.cons.injEq] at hf
      obtain ⟨rfl, rfl⟩ := hf
      exact ⟨[], r, rfl, .nil, hr⟩
    | cons d x =>
      simp only [List.cons_append, List.cons.injEq] at hf
      obtain ⟨rfl, hf⟩ := hf
      obtain ⟨a, b, rfl, ha, hb⟩ := ih hf
      exact ⟨d :: a, b, rfl, .keep ha, hb⟩
  | @mask c r r' hc hr ih =>
    rcases List.append_eq_append_iff.1 hf with ⟨z, h1, h2⟩ | ⟨z, h1, h2⟩
    · cases z with
      | nil =>
        simp only [List.append_nil] at h1
        simp only [List.nil_append] at h2
        obtain ⟨a, b, rfl, ha, hb⟩ := ih (x := []) h2
        refine ⟨c :: a, b, rfl, ?_, hb⟩
        have := Masked.mask hc ha
        rwa [List.append_nil, h1] at this
      | cons d z =>
        simp only [List.cons_append, List.cons.injEq] at h2
        exact absurd (by rw [h1, ← h2.1]; simp) hu
    · obtain ⟨a, b, rfl, ha, hb⟩ := ih (x := z) h2.symm
      exact ⟨c :: a, b, rfl, by rw [h1]; exact .mask hc ha, hb⟩

theorem Masked.no_sp {a x : Str} (h : Masked a x) (hx : SP ∉ x) : SP ∉ a := by
  induction h with
  | nil => simp
  | keep _ ih =>
    rw [List.mem_cons, not_or] at hx ⊢
    exact ⟨hx.1, ih hx.2⟩
  | mask hc _ ih =>
    rw [List.mem_append, not_or] at hx
    rw [List.mem_cons, not_or]
    exact ⟨fun e => hc e.symm, ih hx.2⟩

/-- if masking gives words each ended by U+2581, it was applied to such words -/
theorem Masked.unwords {vs : List Str} (hv : ∀ v ∈ vs, v ≠ [] ∧ SP ∉ v) {t : Str} (h : Masked t (vs.flatMap (· ++ [SP]))) :
    ∃ us : List Str, (∀ u ∈ us, u ≠ [] ∧ SP ∉ u) ∧ t = us.flatMap (· ++ [SP]) := by
  induction vs generalizing t with
  | nil =>
    generalize hf : ([] : List Str).flatMap (· ++ [SP]) = f at h
    cases h with
    | nil => exact ⟨[], by simp, rfl⟩
    | keep _ => simp at hf
    | mask _ _ =>
      have : unkName ≠ [] := by decide
      simp [this] at hf
  | cons v vs ih =>
    rw [List.flatMap_cons, List.append_assoc, List.singleton_append] at h
    obtain ⟨a, b, rfl, ha, hb⟩ := h.append_inv'
    obtain ⟨us, h1, rfl⟩ := ih (fun u hu => hv u (by simp [hu])) hb
    refine ⟨a :: us, ?_, by simp⟩
    intro u hu
    rcases List.mem_cons.1 hu with rfl | hu
    · refine ⟨?_, ha.no_sp (hv v (by simp)).2⟩
      rintro rfl
      cases ha
      exact (hv [] (by simp)).1 rfl
    · exact h1 u hu

/-- C131, BPE, all lines: if only reserved names have a "<", the encoding of the decoded text is the same if and only if every word consists of non-empty parts joined by
single characters U+2581, that is, this character is nowhere at the beginning or end of a word nor next to another one. -/
theorem C131_bpe_iff {tbl : List Ty} {s : Scheme} (h : Scheme.make .bpe tbl = .ok s) (hi : Indexed tbl) (hns : ∀ n ∈ names tbl, 60 ∈ n → n ∈ special) {line : Str}
    {ws : List Str} (hw : Tokens line ws) :
    (∃ ids txt, s.encode line = .ok ids ∧ s.decode ids = .ok txt ∧ s.encode txt = .ok ids) ↔
      ∀ w ∈ ws, ∃ us : List Str, us ≠ [] ∧ (∀ u ∈ us, u ≠ [] ∧ 0x2581 ∉ u) ∧ w = List.intercalate [0x2581] us := by
  have hws : ∀ w ∈ ws, IsToken w := fun w hww => split_isToken (by rw [split_of_tokens hw]; exact hww)
  have htext : bpeText line = List.intercalate [SP] ws ++ [SP] := by rw [bpeText, split_strip, split_of_tokens hw, join_eq_intercalate]
  have memic : ∀ (us : List Str) (u : Str), u ∈ us → ∀ c ∈ u, c ∈ List.intercalate [SP] us := by
    intro us u hu c hc
    induction us with
    | nil => simp at hu
    | cons v vs ih => cases vs with
      | nil => simp [List.mem_singleton.1 hu ▸ hc]
      | cons x xs =>
        rw [List.intercalate_cons_cons]
        rcases List.mem_cons.1 hu with rfl | hu
        · simp [hc]
        · simp [ih hu]
  constructor
  · rintro ⟨ids, txt, e1, e2, e3⟩
    by_cases hne : ws = []
    · simp [hne]
    obtain ⟨h1, h2, h3, h4, h5, h6⟩ := make_bpe_ok h
    have hmem5 : [SP] ∈ names tbl := by
      obtain ⟨t, ht, hn⟩ := validateReserved_ok h4 5 (by omega)
      exact List.mem_map.2 ⟨t, List.mem_of_getElem? ht, by rw [hn]; rfl⟩
    obtain ⟨out, hg, he, _⟩ := bpe_encode_spec h hi line
    obtain ⟨out2, hg2, he2, _⟩ := bpe_encode_spec h hi txt
    obtain ⟨ids', ps, a, b, c⟩ := bpe_decode_encode h hi line
    obtain ⟨ids2, ps2, a2, b2, c2⟩ := bpe_decode_encode h hi txt
    rw [e1] at a
    cases a
    rw [e3] at a2
    cases a2
    rw [c] at c2
    cases c2
    rw [he] at b
    rw [he2] at b2
    have hflat : (out2.map fun o => o.getD unkName).flatten = (out.map fun o => o.getD unkName).flatten := by
      rw [Except.ok.inj b, Except.ok.inj b2]
    have hm := greedy_masked hmem5 hg
    have hm2 := greedy_masked hmem5 hg2
    rw [hflat] at hm2
    have hps : ps = out.map fun o => o.getD unkName := (Except.ok.inj b).symm
    simp only [Scheme.decode, c, Scheme.decodeStr, h2, hps] at e2
    have htx : ∀ v ∈ split txt, IsToken v ∧ SP ∉ v := by
      intro v hv
      refine ⟨split_isToken hv, fun hsp => ?_⟩
      rw [← Except.ok.inj e2, split_strip] at hv
      have hc := mem_of_mem_split hv hsp
      rw [replaceCh, List.mem_map] at hc
      obtain ⟨d, _, hd⟩ := hc
      by_cases hds : d = SP
      · simp [hds, SP] at hd
      · simp [hds] at hd
    rw [bpeText, split_strip, join_eq_intercalate] at hm2
    obtain ⟨vs, hvs, hf⟩ := hm2.words htx
    rw [hf, htext, intercalate_flatMap SP ws hne] at hm
    have hvne : vs ≠ [] := by
      rintro rfl
      obtain ⟨w, ws', rfl⟩ := List.exists_cons_of_ne_nil hne
      have e : List.intercalate [SP] ([] : List Str) ++ [SP] = [] ++ SP :: [] := rfl
      rw [e] at hm
      obtain ⟨x, y, hxy, hx, hy⟩ := hm.append_inv'
      generalize hz : ([] : Str) = z at hx hy
      have hx0 : x = [] := by
        cases hx with
        | nil => rfl
        | keep _ => cases hz
        | mask _ _ =>
          have : unkName ≠ [] := by decide
          exact absurd (List.append_eq_nil_iff.1 hz.symm).1 this
      have hy0 : y = [] := by
        cases hy with
        | nil => rfl
        | keep _ => cases hz
        | mask _ _ =>
          have : unkName ≠ [] := by decide
          exact absurd (List.append_eq_nil_iff.1 hz.symm).1 this
      have hw0 : w ≠ [] := (hws w (by simp)).1
      have := congrArg List.length hxy
      have hl := List.length_pos_iff.2 hw0
      simp [hx0, hy0] at this
      omega
    rw [intercalate_flatMap SP vs hvne] at hm
    obtain ⟨us, hus, e⟩ := hm.unwords fun v hv => ⟨(hvs v hv).1.1, (hvs v hv).2⟩
    clear * - hus e
    induction ws generalizing us with
    | nil => simp
    | cons w ws ih =>
      rw [List.flatMap_cons, List.append_assoc, List.singleton_append] at e
      obtain ⟨us1, us2, rfl, h1, h2, h3⟩ := flatMap_prefix (fun u hu => (hus u hu).2) e.symm
      intro v hv
      rcases List.mem_cons.1 hv with rfl | hv
      · exact ⟨us1, h1, fun u hu => hus u (by simp [hu]), h2⟩
      · exact ih us2 (fun u hu => hus u (by simp [hu])) h3 v hv
  · intro hall
    by_cases hne : ws = []
    · exact stable_of_words h hi hns (ws := ws) (by simp [hne]) htext
    have : ∃ uss : List Str, uss ≠ [] ∧ (∀ u ∈ uss, IsToken u ∧ SP ∉ u) ∧ ws.flatMap (· ++ [SP]) = uss.flatMap (· ++ [SP]) := by
      clear htext hw
      induction ws with
      | nil => exact absurd rfl hne
      | cons w ws ih =>
        obtain ⟨us, u1, u2, u3⟩ := hall w (by simp)
        have ht : ∀ u ∈ us, IsToken u ∧ SP ∉ u := fun u hu => ⟨⟨(u2 u hu).1, fun c hc => (hws w (by simp)).2 c (by rw [u3]; exact memic us u hu c hc)⟩, (u2 u hu).2⟩
        have e0 : w ++ [SP] = us.flatMap (· ++ [SP]) := by rw [← intercalate_flatMap SP us u1, u3]; rfl
        by_cases hn : ws = []
        · subst hn
          exact ⟨us, u1, ht, by simp [← e0]⟩
        · obtain ⟨uss, v1, v2, v3⟩ := ih (fun w hw => hws w (by simp [hw])) (fun w hw => hall w (by simp [hw])) hn
          refine ⟨us ++ uss, by simp [u1], ?_, by rw [List.flatMap_cons, List.flatMap_append, v3, e0]⟩
          intro u hu
          rcases List.mem_append.1 hu with hu | hu
          · exact ht u hu
          · exact v2 u hu
    obtain ⟨uss, v1, v2, v3⟩ := this
    refine stable_of_words h hi hns v2 ?_
    rw [htext, intercalate_flatMap SP ws hne, v3, intercalate_flatMap SP uss v1]

/-- C131 for every BPE vocabulary learned without coverage limit from a text without "<" -/
theorem C131_learned {ord : Nat → List Nat → List Nat} (hord : ∀ i l, (ord i l).Perm l) {A : Acc} {data : List Str} {toks : List (List Str)}
    (ht : List.Forall₂ Tokens data toks) (hlt : ∀ ws ∈ toks, ∀ w ∈ ws, 60 ∉ w) {vs mf minEv : Int} {vocab : List Ty}
    (h : bpeLearn ord A data vs mf none minEv = .ok vocab) :
    ∃ s, Scheme.make .bpe vocab = .ok s ∧ ∀ line ws, Tokens line ws → (∀ w ∈ ws, 0x2581 ∉ w) →
      ∃ ids txt, s.encode line = .ok ids ∧ s.decode ids = .ok txt ∧ s.encode txt = .ok ids := by
  have hv : ∀ c, (none : Option A.F) = some c → A.valid c = true := by simp
  obtain ⟨s, hs, _⟩ := C19_bpe_accepted hord hv h
  exact ⟨s, hs, fun line ws hw hsp => C131_bpe_partial hs (C22_text hord hv h).1 (learned_lt hord ht hlt h) hw hsp⟩

/-- replacing unknown characters by `<unk>` makes a text longer -/
theorem known_longer (ns : List Str) (t : Str) : t.length ≤ (t.flatMap (known ns)).length ∧ ((t.flatMap (known ns)).length = t.length → ∀ c ∈ t, [c] ∈ ns) := by
  induction t with
  | nil => simp
  | cons c t ih =>
    rw [List.flatMap_cons, List.length_append, List.length_cons]
    by_cases hc : [c] ∈ ns
    · have : known ns c = [c] := if_pos hc
      rw [this, List.length_singleton]
      refine ⟨by omega, fun e d hd => ?_⟩
      rcases List.mem_cons.1 hd with rfl | hd
      · exact hc
      · exact ih.2 (by omega) d hd
    · have : known ns c = lit "<unk>" := if_neg hc
      have h5 : (lit "<unk>").length = 5 := by decide
      rw [this, h5]
      exact ⟨by omega, fun e => by omega⟩

/-- C131, characters: a line without U+2581 has the same encoding after decoding if and only if all its characters are known: `<unk>` is read as five characters. -/
theorem C131_char_iff {tbl : List Ty} {s : Scheme} (h : Scheme.make .char tbl = .ok s) {line : Str} {ws : List Str} (hw : Tokens line ws) (hsp : ∀ w ∈ ws, 0x2581 ∉ w) :
    (∃ ids txt, s.encode line = .ok ids ∧ s.decode ids = .ok txt ∧ s.encode txt = .ok ids) ↔ ∀ w ∈ ws, ∀ c ∈ w, [c] ∈ names tbl := by
  have hs := h
  obtain ⟨h1, h2, h3, h4, h5⟩ := make_char_ok h
  have enc : ∀ l, s.encode l = .ok ((join [SP] (split l)).map fun c => s.idOf [c]) := by
    intro l
    simp only [Scheme.encode, Scheme.encodeStr, h2]
    rw [idsOf_eq (by rw [h2]; decide) h3, List.map_map]
    rfl
  have hws : ∀ w ∈ ws, IsToken w := fun w hww => split_isToken (by rw [split_of_tokens hw]; exact hww)
  have hmem5 : [SP] ∈ names tbl := by
    obtain ⟨t, ht, hn⟩ := validateReserved_ok h5 5 (by omega)
    exact List.mem_map.2 ⟨t, List.mem_of_getElem? ht, by rw [hn]; rfl⟩
  have hk5 : known (names tbl) SP = [SP] := if_pos hmem5
  have hu : ∀ c ∈ lit "<unk>", c ≠ SP := by decide
  obtain ⟨ids, e1, e2⟩ := C02_char_round_trip hs hw
  have htxt : ((List.intercalate [SP] ws).flatMap fun c => if c = SP then [32] else if [c] ∈ names tbl then [c] else lit "<unk>") =
      join [32] (ws.map fun w => w.flatMap (known (names tbl))) := by
    have e : (fun c => if c = SP then [32] else if [c] ∈ names tbl then [c] else lit "<unk>") = fun c => replaceCh SP 32 (known (names tbl) c) := by
      funext c
      by_cases hc : c = SP
      · subst hc; rw [hk5]; rfl
      · rw [if_neg hc, known]
        split
        · simp [replaceCh, hc]
        · decide
    have := replaceCh_join (ws.map fun w => w.flatMap (known (names tbl))) (by
      intro w' hw' c hcw
      obtain ⟨w, hwm, rfl⟩ := List.mem_map.1 hw'
      obtain ⟨d, hd, hcd⟩ := List.mem_flatMap.1 hcw
      rw [known] at hcd
      split at hcd
      · rw [List.mem_singleton.1 hcd]; rintro rfl; exact hsp w hwm hd
      · exact hu c hcd)
    rw [e, ← this, ← flatMap_join _ _ hk5, ← join_eq_intercalate]
    simp only [replaceCh, List.map_flatMap]
  rw [htxt] at e2
  have hre : split (join [32] (ws.map fun w => w.flatMap (known (names tbl)))) = ws.map fun w => w.flatMap (known (names tbl)) :=
    split_join_space fun w' hw' => by
      obtain ⟨w, hwm, rfl⟩ := List.mem_map.1 hw'
      exact known_token (hws w hwm)
  constructor
  · rintro ⟨ids', txt, a, b, c⟩ w hwm ch hch
    rw [e1] at a
    cases a
    rw [e2] at b
    cases b
    rw [← e1, enc, enc, hre, split_of_tokens hw, ← flatMap_join _ _ hk5] at c
    have hl := congrArg List.length (Except.ok.inj c)
    rw [List.length_map, List.length_map] at hl
    refine (known_longer (names tbl) _).2 hl ch ?_
    rw [join_eq_intercalate]
    clear * - hwm hch
    induction ws with
    | nil => simp at hwm
    | cons v vs ih => cases vs with
      | nil => simp [List.mem_singleton.1 hwm ▸ hch]
      | cons u us =>
        rw [List.intercalate_cons_cons]
        rcases List.mem_cons.1 hwm with rfl | hwm
        · simp [hch]
        · simp [ih hwm]
  · intro hall
    have hid : (ws.map fun w => w.flatMap (known (names tbl))) = ws := by
      conv_rhs => rw [← List.map_id ws]
      refine List.map_congr_left fun w hwm => ?_
      have := hall w hwm
      clear * - this
      induction w with
      | nil => rfl
      | cons c w ih =>
        have hc : known (names tbl) c = [c] := if_pos (this c (by simp))
        rw [List.flatMap_cons, hc, ih fun d hd => this d (by simp [hd])]
        rfl
    rw [hid] at e2 hre
    refine ⟨ids, _, e1, e2, ?_⟩
    rw [enc, hre, ← e1, enc, split_of_tokens hw]

/-- C131 is false for BPE without the condition: with "a<" in the vocabulary the text of "a?" is read as "a<" and unknown characters -/
theorem C131_bpe_refuted : ∃ (tbl : List Ty) (s : Scheme), Scheme.make .bpe tbl = .ok s ∧ s.encode (lit "a?") = .ok [6, 1, 5] ∧ s.decode [6, 1, 5] = .ok (lit "a<unk>") ∧
    s.encode (lit "a<unk>") = .ok [7, 1, 1, 1, 1, 5] := by
  refine ⟨exTable Level.subword ["a", "a<"], ?_⟩
  have h1 : (withScheme .bpe (exTable Level.subword ["a", "a<"]) fun s => s.encode (lit "a?")) = .ok [6, 1, 5] := by decide +kernel
  have h2 : (withScheme .bpe (exTable Level.subword ["a", "a<"]) fun s => s.decode [6, 1, 5]) = .ok (lit "a<unk>") := by decide +kernel
  have h3 : (withScheme .bpe (exTable Level.subword ["a", "a<"]) fun s => s.encode (lit "a<unk>")) = .ok [7, 1, 1, 1, 1, 5] := by decide +kernel
  simp only [withScheme] at h1 h2 h3
  cases hm : Scheme.make .bpe (exTable Level.subword ["a", "a<"]) with
  | error e => simp [hm] at h1
  | ok s =>
    simp only [hm] at h1 h2 h3
    exact ⟨s, rfl, h1, h2, h3⟩

/-- unknown characters next to and between known ones; only the reserved names of this vocabulary have "<" -/
example : ((withScheme .bpe (exTable Level.subword ["a", "b", "ab", "b▁"]) fun s => s.encode (lit " xab  a<y")) = .ok [1, 8, 5, 6, 1, 1, 5]) ∧
    ((withScheme .bpe (exTable Level.subword ["a", "b", "ab", "b▁"]) fun s => s.decode [1, 8, 5, 6, 1, 1, 5]) = .ok (lit "<unk>ab a<unk><unk>")) ∧
    ((withScheme .bpe (exTable Level.subword ["a", "b", "ab", "b▁"]) fun s => s.encode (lit "<unk>ab a<unk><unk>")) = .ok [1, 8, 5, 6, 1, 1, 5]) ∧
    ∀ n ∈ names (exTable Level.subword ["a", "b", "ab", "b▁"]), 60 ∈ n → n ∈ special := by decide +kernel

/-- both sides of `C131_bpe_iff`: a single U+2581 within a word, and two of them -/
example : ((withScheme .bpe (exTable Level.subword ["a", "b"]) fun s => s.encode (lit "a▁b")) = .ok [6, 5, 7, 5]) ∧
    ((withScheme .bpe (exTable Level.subword ["a", "b"]) fun s => s.encode (lit "a b")) = .ok [6, 5, 7, 5]) ∧
    ((withScheme .bpe (exTable Level.subword ["a", "b"]) fun s => s.encode (lit "a▁▁b")) = .ok [6, 5, 5, 7, 5]) ∧
    ((withScheme .bpe (exTable Level.subword ["a", "b"]) fun s => s.decode [6, 5, 5, 7, 5]) = .ok (lit "a  b")) ∧
    lit "a▁b" = List.intercalate [0x2581] [lit "a", lit "b"] := by decide +kernel

/-- the hypotheses of `C131_learned` hold for "ab ab b" -/
example : (bpeLearn ordId accExact [lit "ab ab b"] 10 1 none 1).isOk = true ∧ ∀ ws ∈ [[lit "ab", lit "ab", lit "b"]], ∀ w ∈ ws, 60 ∉ w := by decide +kernel

/-- a character scheme: known characters only, and an unknown one -/
example : ((withScheme .char (exTable Level.char ["a", "b"]) fun s => s.encode (lit "b a")) = .ok [7, 5, 6]) ∧
    ((withScheme .char (exTable Level.char ["a", "b"]) fun s => s.encode (lit "x")) = .ok [1]) ∧
    ((withScheme .char (exTable Level.char ["a", "b"]) fun s => s.encode (lit "<unk>")) = .ok [1, 1, 1, 1, 1]) := by decide +kernel

end Verif
