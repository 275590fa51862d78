import Verif.Lemmas.Cost
import Verif.Props.Codec
/-!
# Property C103: how much work `BPEScheme.encode_str` does for a line

The loop (nlcodec/codec.py:477-493) walks down the trie and, at the end of each walk, copies the rest of the
text by a slice.  C103 says that the work is linear in the line.  It is true of the rounds of the loop, for a
vocabulary with names of bounded length, and false of the characters copied.
-/

namespace Verif
open Spec

theorem greedy_len {ns : List Str} {s : Str} {out : List (Option Str)} (h : Greedy ns s out) :
    out.length ≤ s.length ∧ ∀ o ∈ out, 1 ≤ pieceLen o := by
  induction h with
  | nil => simp
  | @tok w r out hw _ _ _ ih =>
    have : 0 < w.length := List.length_pos_iff.2 hw
    refine ⟨by simp; omega, ?_⟩
    intro o ho
    rcases List.mem_cons.1 ho with rfl | ho
    · exact this
    · exact ih.2 o ho
  | unk _ _ ih =>
    refine ⟨by simp; omega, ?_⟩
    intro o ho
    rcases List.mem_cons.1 ho with rfl | ho
    · exact Nat.le_refl 1
    · exact ih.2 o ho

theorem starts_length (out : List (Option Str)) : ∀ s : Str, (starts out s).length = out.length := by
  induction out with
  | nil => intro s; rfl
  | cons o os ih => intro s; simp [starts, ih]

theorem greedy_rounds_ge {ns : List Str} {s : Str} {out : List (Option Str)} (h : Greedy ns s out) :
    s.length ≤ ((starts out s).map fun r => reach ns r + 1).sum := by
  induction h with
  | nil => simp [starts]
  | @tok w r out hw hm hl _ ih =>
    have : w.length ≤ reach ns (w ++ r) := by
      rw [le_reach (by simp)]
      exact .inr ⟨w, hm, by simp⟩
    simp only [starts, pieceLen, List.drop_left, List.map_cons, List.sum_cons, List.length_append]
    omega
  | @unk c r out hno _ ih =>
    simp only [starts, pieceLen, List.drop_one, List.tail_cons, List.map_cons, List.sum_cons, List.length_cons]
    omega

theorem rounds_le {ns : List Str} {L : Nat} (hL : ∀ n ∈ ns, n.length ≤ L) (l : List Str) :
    (l.map fun r => reach ns r + 1).sum ≤ (L + 1) * l.length := by
  induction l with
  | nil => simp
  | cons a l ih =>
    have := reach_le_names (s := a) hL
    simp only [List.map_cons, List.sum_cons, List.length_cons, Nat.mul_add, Nat.mul_one]
    omega

theorem starts_le {out : List (Option Str)} : ∀ s : Str, (∀ o ∈ out, 1 ≤ pieceLen o) →
    2 * ((starts out s).tail.map List.length).sum ≤ s.length * (s.length - 1) ∧
    ((∀ o ∈ out, pieceLen o = 1) → out.length = s.length →
      2 * ((starts out s).tail.map List.length).sum = s.length * (s.length - 1)) := by
  have all : ∀ s : Str, (∀ o ∈ out, 1 ≤ pieceLen o) →
      2 * ((starts out s).map List.length).sum ≤ s.length * (s.length + 1) ∧
      ((∀ o ∈ out, pieceLen o = 1) → out.length = s.length →
        2 * ((starts out s).map List.length).sum = s.length * (s.length + 1)) := by
    induction out with
    | nil =>
      intro s _
      refine ⟨by simp [starts], ?_⟩
      intro _ h
      simp at h
      simp [starts, ← h]
    | cons o os ih =>
      intro s ho
      have h1 := ho o (by simp)
      obtain ⟨ia, ib⟩ := ih (s.drop (pieceLen o)) (fun o' h' => ho o' (by simp [h']))
      have hd : (s.drop (pieceLen o)).length = s.length - pieceLen o := by simp
      simp only [starts, List.map_cons, List.sum_cons]
      cases hs : s.length with
      | zero =>
        rw [hd, hs] at ia
        refine ⟨by simp at ia ⊢; exact ia, ?_⟩
        intro _ h
        simp at h
      | succ n =>
        have hle : s.length - pieceLen o ≤ n := by omega
        have hm : (s.length - pieceLen o) * (s.length - pieceLen o + 1) ≤ n * (n + 1) := Nat.mul_le_mul hle (by omega)
        rw [hd] at ia
        have e : (n + 1) * (n + 1 + 1) = n * (n + 1) + 2 * (n + 1) := by
          rw [Nat.mul_comm n, ← Nat.mul_comm (n + 1) 2, ← Nat.mul_add]
        refine ⟨by omega, ?_⟩
        intro h1' h2'
        have hp := h1' o (by simp)
        have := ib (fun o' h' => h1' o' (by simp [h'])) (by rw [hd, hp]; simp at h2'; omega)
        rw [hd, hp, hs] at this
        simp only [Nat.add_sub_cancel] at this
        rw [hp]
        omega
  intro s ho
  cases out with
  | nil =>
    refine ⟨by simp [starts], ?_⟩
    intro _ h
    simp at h
    simp [starts, ← h]
  | cons o os =>
    obtain ⟨a, b⟩ := all s ho
    simp only [starts, List.map_cons, List.sum_cons, List.tail_cons] at a b ⊢
    have e : s.length * (s.length + 1) = s.length * (s.length - 1) + 2 * s.length := by
      cases hs : s.length with
      | zero => simp
      | succ n => rw [Nat.add_sub_cancel, ← Nat.mul_comm (n + 1) 2, ← Nat.mul_add]
    exact ⟨by omega, fun h1 h2 => by have := b h1 h2; omega⟩

/-- C103: the work of the loop, exactly.  With the greedy segmentation of the text, each piece costs one round
for each character of the longest agreement of the remaining text with a name, and one more; and all that
remains after the piece is copied. -/
theorem C103_work {tbl : List Ty} {s : Scheme} (h : Scheme.make .bpe tbl = .ok s) {line : Str} {ws : List Str}
    (hw : Tokens line ws) {out : List (Option Str)} (hg : Greedy (names tbl) (List.intercalate [SP] ws ++ [SP]) out) :
    (bpeWork s line).rounds =
        ((starts out (List.intercalate [SP] ws ++ [SP])).map fun r => reach (names tbl) r + 1).sum ∧
      (bpeWork s line).copied = ((starts out (List.intercalate [SP] ws ++ [SP])).tail.map List.length).sum := by
  obtain ⟨_, _, _, _, h5, h6⟩ := make_bpe_ok h
  have ht : bpeText line = List.intercalate [SP] ws ++ [SP] := by
    rw [bpeText, split_strip, split_of_tokens hw, join_eq_intercalate]
  rw [bpeWork, h5, ht, encWork_greedy tbl _ h6 hg _ [] _ (Nat.le_refl _) (by
    rw [encFuel]; exact Nat.mul_le_mul_left _ (by omega))]
  exact ⟨rfl, rfl⟩

/-- the comment of `encode_str`: "This Xis"; the first walk goes over `This▁X` -/
example : withScheme .bpe (exTable Level.subword ["Th", "This▁", "is▁", "Xmas▁", "This▁Xmas▁"]) (fun s =>
    .ok (bpeWork s (lit "This Xis "))) = .ok ⟨7 + 2 + 4, 4 + 3 + 0⟩ := by decide +kernel

/-- C103, partial: linear in the line are the rounds of the loop: when no name is longer than `L` there are at
most `L + 1` for each id, so at most `L + 1` for each character of the text, and at least one for each character.
The copied characters are missing, see `C103_copied_refuted`; what holds of them is in `C103_copied`. -/
theorem C103_rounds_partial {tbl : List Ty} {s : Scheme} (h : Scheme.make .bpe tbl = .ok s) (hi : Indexed tbl) {L : Nat}
    (hL : ∀ n ∈ names tbl, n.length ≤ L) {line : Str} {ws : List Str} (hw : Tokens line ws) :
    ∃ ids, s.encode line = .ok ids ∧ ids.length ≤ (List.intercalate [SP] ws).length + 1 ∧
      (bpeWork s line).rounds ≤ (L + 1) * ids.length ∧
      (List.intercalate [SP] ws).length + 1 ≤ (bpeWork s line).rounds := by
  obtain ⟨out, hg, _, he⟩ := bpe_encode_spec h hi line
  rw [bpeText, split_strip, split_of_tokens hw, join_eq_intercalate] at hg
  obtain ⟨h1, _⟩ := C103_work h hw hg
  refine ⟨_, he, ?_, ?_, ?_⟩
  · simpa using (greedy_len hg).1
  · rw [h1, List.length_map]
    have := rounds_le hL (starts out (List.intercalate [SP] ws ++ [SP]))
    rwa [starts_length] at this
  · rw [h1]
    have := greedy_rounds_ge hg
    rw [List.length_append] at this
    exact this

/-- no name is longer than eight characters; the walks that fail to find `aaaaaaab` take eight rounds for one `a` -/
example : withScheme .bpe (exTable Level.subword ["a", "aaaaaaab"]) (fun s =>
    .ok (bpeWork s (lit "aaaaaaaaaaaaaaaa"))) = .ok ⟨10 * 8 + (7 + 6 + 5 + 4 + 3 + 2) + 2, 136⟩ := by decide +kernel

/-- C103: the characters copied are at most n(n-1)/2 for a text of n characters, and exactly so many when every
piece is one character long. -/
theorem C103_copied {tbl : List Ty} {s : Scheme} (h : Scheme.make .bpe tbl = .ok s) (hi : Indexed tbl)
    {line : Str} {ws : List Str} (hw : Tokens line ws) {n : Nat} (hn : n = (List.intercalate [SP] ws).length + 1) :
    2 * (bpeWork s line).copied ≤ n * (n - 1) ∧
      ∀ ids, s.encode line = .ok ids → ids.length = n → 2 * (bpeWork s line).copied = n * (n - 1) := by
  obtain ⟨out, hg, _, he⟩ := bpe_encode_spec h hi line
  rw [bpeText, split_strip, split_of_tokens hw, join_eq_intercalate] at hg
  obtain ⟨_, h2⟩ := C103_work h hw hg
  have hl : (List.intercalate [SP] ws ++ [SP]).length = n := by simp [hn]
  obtain ⟨a, b⟩ := starts_le (List.intercalate [SP] ws ++ [SP]) (greedy_len hg).2
  rw [← h2, hl] at a b
  refine ⟨a, ?_⟩
  intro ids hids hlen
  rw [he] at hids
  cases hids
  rw [List.length_map] at hlen
  refine b ?_ hlen
  -- as many pieces as characters: every piece is one character
  have key : ∀ {t : Str} {o : List (Option Str)}, Greedy (names tbl) t o → o.length = t.length → ∀ p ∈ o, pieceLen p = 1 := by
    intro t o hg
    induction hg with
    | nil => simp
    | @tok w r out hw _ _ hg' ih =>
      intro hlen p hp
      have h1 : 0 < w.length := List.length_pos_iff.2 hw
      have h2 := (greedy_len hg').1
      simp at hlen
      rcases List.mem_cons.1 hp with rfl | hp
      · simp only [pieceLen]; omega
      · exact ih (by omega) p hp
    | @unk c r out _ hg' ih =>
      intro hlen p hp
      simp at hlen
      rcases List.mem_cons.1 hp with rfl | hp
      · rfl
      · exact ih hlen p hp
  exact key hg (by rw [hlen, hl])

/-- one id for each of nine characters: 36 characters are copied -/
example : withScheme .bpe (exTable Level.subword ["a", "b"]) (fun s =>
    match s.encode (lit "ab ba c a") with
    | .ok ids => .ok (ids.length, (bpeWork s (lit "ab ba c a")).copied)
    | .error e => .error e) = .ok (10, 45) := by decide +kernel

/-- C103: with every accepted vocabulary, a line of one character that begins no longer name is copied n(n+1)/2 times. -/
theorem C103_quadratic {tbl : List Ty} {s : Scheme} (h : Scheme.make .bpe tbl = .ok s) (hi : Indexed tbl) {c : Nat}
    (hc : isWhite c = false) (hlong : ∀ w ∈ names tbl, w.head? = some c → w.length = 1) {n : Nat} (hn : 0 < n) :
    2 * (bpeWork s (List.replicate n c)).copied = (n + 1) * n := by
  have htok : IsToken (List.replicate n c) := by
    refine ⟨?_, ?_⟩
    · intro e
      have := congrArg List.length e
      simp at this
      omega
    · intro d hd
      rw [(List.mem_replicate.1 hd).2]; exact hc
  have hw : Tokens (List.replicate n c) [List.replicate n c] := by
    simpa using Tokens.last (g := []) (h := []) (by simp [AllSpace]) htok (by simp [AllSpace])
  obtain ⟨out, hg, _, he⟩ := bpe_encode_spec h hi (List.replicate n c)
  rw [bpeText, split_strip, split_of_tokens hw, join_eq_intercalate] at hg
  have hint : List.intercalate [SP] [List.replicate n c] = List.replicate n c := by simp
  have key : ∀ {t : Str} {o : List (Option Str)}, Greedy (names tbl) t o → ∀ k, t = List.replicate k c ++ [SP] →
      o.length = t.length := by
    intro t o hg
    have tail : ∀ (a : Nat) (r : Str) (k : Nat), a :: r = List.replicate k c ++ [SP] →
        r = [] ∨ (a = c ∧ ∃ k', r = List.replicate k' c ++ [SP]) := by
      intro a r k e
      cases k with
      | zero => simp at e; exact .inl e.2
      | succ k => simp [List.replicate_succ] at e; exact .inr ⟨e.1, k, e.2⟩
    induction hg with
    | nil => simp
    | @tok w r out hw hm _ hg' ih =>
      intro k e
      obtain ⟨a, w', rfl⟩ := List.exists_cons_of_ne_nil hw
      have one : w' = [] := by
        rcases tail a (w' ++ r) k e with h0 | ⟨rfl, _⟩
        · exact (List.append_eq_nil_iff.1 h0).1
        · have := hlong _ hm rfl
          simpa using this
      subst one
      rcases tail a r k e with h0 | ⟨_, k', h0⟩
      · subst h0
        have := (greedy_len hg').1
        simp at this
        simp [this]
      · simp [ih k' h0]
    | @unk a r out _ hg' ih =>
      intro k e
      rcases tail a r k e with h0 | ⟨_, k', h0⟩
      · subst h0
        have := (greedy_len hg').1
        simp at this
        simp [this]
      · simp [ih k' h0]
  have hlen := key hg n (by rw [hint])
  have := (C103_copied h hi hw rfl).2 _ he (by
    rw [List.length_map, hlen]; simp)
  rw [this, hint]
  simp

/-- C103 is false of the characters copied: whatever the factor, some line has more than so many copied
characters for each of its characters, with a vocabulary of two letters. -/
theorem C103_copied_refuted : ∃ (tbl : List Ty) (s : Scheme), Scheme.make .bpe tbl = .ok s ∧
    ∀ K : Nat, ∃ line : Str, K * line.length < (bpeWork s line).copied := by
  obtain ⟨s, hs⟩ : ∃ s, Scheme.make .bpe (exTable Level.subword ["a", "b"]) = .ok s := by
    cases h : Scheme.make .bpe (exTable Level.subword ["a", "b"]) with
    | ok s => exact ⟨s, rfl⟩
    | error e =>
      have : (Scheme.make .bpe (exTable Level.subword ["a", "b"])).isOk = true := by decide +kernel
      rw [h] at this; cases this
  have hidx : Indexed (exTable Level.subword ["a", "b"]) := by
    intro i t h
    have hi : i < 8 := (List.getElem?_eq_some_iff.1 h).1
    have : ∀ i, i < 8 → ∀ t, (exTable Level.subword ["a", "b"])[i]? = some t → t.idx = i := by decide
    exact this i hi t h
  refine ⟨_, s, hs, fun K => ⟨List.replicate (2 * K + 1) 97, ?_⟩⟩
  have := C103_quadratic hs hidx (c := 97) (by decide) (by decide +kernel) (n := 2 * K + 1) (by omega)
  rw [List.length_replicate]
  have e : (2 * K + 1 + 1) * (2 * K + 1) = 2 * ((K + 1) * (2 * K + 1)) := by
    rw [← Nat.mul_assoc]; congr 1
  rw [e] at this
  have h2 : (bpeWork s (List.replicate (2 * K + 1) 97)).copied = (K + 1) * (2 * K + 1) := by omega
  rw [h2]
  exact Nat.mul_lt_mul_of_pos_right (by omega) (by omega)

end Verif
