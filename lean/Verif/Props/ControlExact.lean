import Verif.Props.Control
import Verif.Props.RestoreExact
/-!
# Property C72: exactly when BPE makes control ids of a text
-/

namespace Verif
open Spec

theorem infix_of_sep {n a b : Str} {x : Nat} (hx : x ∉ n) (h : n <:+: a ++ x :: b) : n <:+: a ∨ n <:+: b := by
  obtain ⟨p, q, e⟩ := h
  rw [List.append_assoc] at e
  rcases List.append_eq_append_iff.1 e with ⟨c, h1, h2⟩ | ⟨c, h1, h2⟩
  · rcases List.append_eq_append_iff.1 h2 with ⟨d, h3, h4⟩ | ⟨d, h3, h4⟩
    · exact Or.inl ⟨p, d, by rw [h1, h3, List.append_assoc]⟩
    · cases d with
      | nil => exact Or.inl ⟨p, [], by rw [h1, h3]; simp⟩
      | cons y d =>
        rw [List.cons_append, List.cons.injEq] at h4
        exact absurd (by rw [h3, h4.1]; simp) hx
  · cases c with
    | nil =>
      cases n with
      | nil => exact Or.inl ⟨[], a, rfl⟩
      | cons y n =>
        rw [List.nil_append, List.cons_append, List.cons.injEq] at h2
        exact absurd (by rw [← h2.1]; simp) hx
    | cons y c =>
      rw [List.cons_append, List.cons.injEq] at h2
      exact Or.inr ⟨c, q, by rw [h2.2, List.append_assoc]⟩

theorem infix_intercalate {n : Str} {x : Nat} (hx : x ∉ n) (hn : n ≠ []) (ws : List Str) :
    n <:+: List.intercalate [x] ws ++ [x] ↔ ∃ w ∈ ws, n <:+: w := by
  constructor
  · intro h
    induction ws with
    | nil =>
      rcases infix_of_sep (a := []) hx h with h | h <;> exact absurd (List.infix_nil.1 h) hn
    | cons w ws ih =>
      cases ws with
      | nil =>
        rcases infix_of_sep (a := w) (b := []) hx (by simpa using h) with h | h
        · exact ⟨w, by simp, h⟩
        · exact absurd (List.infix_nil.1 h) hn
      | cons v vs =>
        rw [List.intercalate_cons_cons, List.append_assoc, List.append_assoc, List.singleton_append] at h
        rcases infix_of_sep hx h with h | h
        · exact ⟨w, by simp, h⟩
        · obtain ⟨u, h1, h2⟩ := ih h
          exact ⟨u, by simp [h1], h2⟩
  · rintro ⟨w, hw, h⟩
    refine h.trans ?_
    clear h
    induction ws with
    | nil => simp at hw
    | cons v ws ih =>
      cases ws with
      | nil =>
        rw [List.mem_singleton] at hw
        subst hw
        exact ⟨[], [x], by simp⟩
      | cons u us =>
        rw [List.intercalate_cons_cons]
        rcases List.mem_cons.1 hw with rfl | hw
        · exact ⟨[], [x] ++ List.intercalate [x] (u :: us) ++ [x], by simp⟩
        · refine (ih hw).trans ⟨v ++ [x], [], by simp⟩

/-- if only reserved names have a "<", greedy segmentation finds every control token in the text -/
theorem greedy_finds {ns : List Str} (hns : ∀ n ∈ ns, 60 ∈ n → n ∈ special) {n : Str} (hn : n ∈ ns) (hs : n ∈ special) (h60 : 60 ∈ n) {s : Str}
    {out : List (Option Str)} (h : Greedy ns s out) : n <:+: s → some n ∈ out := by
  have hhead : ∀ m ∈ special, 60 ∈ m → ∃ r, m = 60 :: r ∧ 60 ∉ r := by
    have : ∀ m ∈ special, 60 ∈ m → m = 60 :: m.tail ∧ 60 ∉ m.tail := by decide
    exact fun m h1 h2 => ⟨_, this m h1 h2⟩
  have hpre : ∀ m ∈ special, ∀ k ∈ special, 60 ∈ m → 60 ∈ k → m <+: k → m = k := by decide
  induction h with
  | nil =>
    intro hi
    rw [List.infix_nil.1 hi] at h60
    simp at h60
  | @tok w r out hw0 hw hmax _ ih =>
    rintro ⟨a, b, e⟩
    rw [List.append_assoc] at e
    rcases List.append_eq_append_iff.1 e with ⟨c, h1, h2⟩ | ⟨c, h1, h2⟩
    · cases a with
      | nil =>
        rw [List.nil_append] at e
        have hpn : n <+: w ++ r := ⟨b, e⟩
        have hle := hmax n hn hpn
        have hnw : n <+: w := List.prefix_of_prefix_length_le hpn (List.prefix_append w r) hle
        have h60w : 60 ∈ w := hnw.subset h60
        rw [hpre n hs w (hns w hw h60w) h60 h60w hnw]
        simp
      | cons x a =>
        obtain ⟨n', hn', _⟩ := hhead n hs h60
        cases c with
        | nil => 
          rw [List.nil_append] at h2
          exact List.mem_cons_of_mem _ (ih ⟨[], b, by simpa using h2⟩)
        | cons y c =>
          exfalso
          rw [hn', List.cons_append, List.cons_append, List.cons.injEq] at h2
          have h60w : 60 ∈ w := by rw [h1, ← h2.1]; simp
          obtain ⟨w', hw', hno⟩ := hhead w (hns w hw h60w) h60w
          rw [hw', List.cons_append, List.cons.injEq] at h1
          apply hno
          rw [h1.2, ← h2.1]
          simp
    · exact List.mem_cons_of_mem _ (ih ⟨c, b, by rw [h2, List.append_assoc]⟩)
  | @unk c r out hno _ ih =>
    rintro ⟨a, b, e⟩
    cases a with
    | nil => exact absurd ⟨b, by simpa using e⟩ (hno n hn (by rintro rfl; simp at h60))
    | cons x a =>
      simp only [List.cons_append, List.cons.injEq] at e
      exact List.mem_cons_of_mem _ (ih ⟨a, b, e.2⟩)

/-- C72, bpe scheme: if only reserved names have a "<" (as learned from any text without it), a control id is made exactly for a word in which the control
token is spelled out. -/
theorem C72_bpe_iff {tbl : List Ty} {s : Scheme} (h : Scheme.make .bpe tbl = .ok s) (hi : Indexed tbl) (hns : ∀ n ∈ names tbl, 60 ∈ n → n ∈ special)
    {line : Str} {ws : List Str} (hw : Tokens line ws) :
    ∃ ids, s.encode line = .ok ids ∧ ∀ j n, (j, n) ∈ controlTokens → ((j : Int) ∈ ids ↔ ∃ w ∈ ws, n <:+: w) := by
  obtain ⟨h1, h2, h3, h4, h5, h6⟩ := make_bpe_ok h
  obtain ⟨out, hg, _, hen⟩ := bpe_encode_spec h hi line
  obtain ⟨ids, e1, e2⟩ := C72_bpe_partial h hi hw
  rw [hen] at e1
  cases e1
  refine ⟨_, hen, fun j n hj => ?_⟩
  have hall : ∀ p ∈ controlTokens, p.2 ∈ special ∧ 60 ∈ p.2 ∧ SP ∉ p.2 ∧ p.2 ≠ [] := by decide
  obtain ⟨c1, c2, c3, c4⟩ := hall _ hj
  rw [← infix_intercalate c3 c4]
  refine ⟨e2 j n hj, fun hin => ?_⟩
  have hget : ∀ i (hi : i < 6), s.idxToStr[i]? = reservedNames[i]? := by
    intro i hi
    obtain ⟨t, ht, hn⟩ := validateReserved_ok h4 i hi
    rw [Scheme.idxToStr, h1, List.getElem?_map, ht, Option.map_some, hn, List.getElem?_eq_getElem]
  have hpos : ∀ p ∈ controlTokens, p.1 < 6 ∧ reservedNames[p.1]? = some p.2 ∧ ∀ i < p.1, reservedNames[i]? ≠ some p.2 := by decide
  obtain ⟨g1, g2, g3⟩ := hpos _ hj
  have hidx : s.idxToStr.idxOf? n = some j :=
    idxOf?_of_first ((hget j g1).trans g2) fun i hi' => by rw [hget i (by simp only at g1; omega)]; exact g3 i hi'
  have hmem : n ∈ names tbl := by
    have := List.mem_of_getElem? ((hget j g1).trans g2)
    rwa [Scheme.idxToStr, h1] at this
  have hg' : Greedy (names tbl) (bpeText line) out := hg
  have hin' : n <:+: bpeText line := by rw [bpeText, split_strip, split_of_tokens hw, join_eq_intercalate]; exact hin
  have := greedy_finds hns hmem c1 c2 hg' hin'
  exact List.mem_map.2 ⟨some n, this, by
    simp only [Option.getD_some]
    rw [Scheme.idOf, hidx]⟩

/-- the token "</s>" within a word makes the id 3; its beginning alone makes unknown ids -/
example : (∀ n ∈ names (exTable Level.char ["a", "b"]), 60 ∈ n → n ∈ special) ∧ lit "</s>" <:+: lit "a</s>b" ∧
    withScheme .bpe (exTable Level.char ["a", "b"]) (fun s => s.encode (lit "a</s>b")) = .ok [6, 3, 7, 5] ∧
    withScheme .bpe (exTable Level.char ["a", "b"]) (fun s => s.encode (lit "a</sb")) = .ok [6, 1, 1, 1, 7, 5] := by decide +kernel

end Verif
