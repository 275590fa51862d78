import Verif.Lemmas.BpeDet
/-! # Names of the types learned from corpora without blocks repeated three times -/

namespace Verif.Spec
open Verif

/-- the text of a sequence of symbols: the names of the symbols, joined -/
def textOf (v : List Ty) (x : List Nat) : Str := x.flatMap fun i => ((v[i]?).map (·.name)).getD []

/-- segments of the corpus with the same text are the same -/
def Legible (C : Corpus) (v : List Ty) : Prop :=
  ∀ s ∈ C, ∀ s' ∈ C, ∀ x y : List Nat, x <:+: s.1 → y <:+: s'.1 → textOf v x = textOf v y → x = y

/-- no segment of two or more symbols has the text of a type of the table -/
def Unspelled (C : Corpus) (v : List Ty) : Prop :=
  ∀ s ∈ C, ∀ x : List Nat, x <:+: s.1 → 2 ≤ x.length → textOf v x ∉ names v

theorem textOf_append (v : List Ty) (x y : List Nat) : textOf v (x ++ y) = textOf v x ++ textOf v y := by
  simp [textOf]

theorem textOf_mono {v : List Ty} (w : List Ty) {x : List Nat} (h : ∀ c ∈ x, c < v.length) : textOf (v ++ w) x = textOf v x := by
  unfold textOf
  refine List.flatMap_congr ?_
  intro c hc
  rw [List.getElem?_append_left (h c hc)]

theorem Replaces.split {a b r : Nat} : ∀ {s t1 t2 : List Nat}, Replaces a b r s (t1 ++ t2) →
    ∃ s1 s2, s = s1 ++ s2 ∧ Replaces a b r s1 t1 ∧ Replaces a b r s2 t2 := by
  intro s t1 t2 h
  generalize ht : t1 ++ t2 = t at h
  induction h generalizing t1 with
  | nil => obtain ⟨rfl, rfl⟩ := List.append_eq_nil_iff.1 ht; exact ⟨[], [], rfl, .nil, .nil⟩
  | @keep x s t h ih =>
    cases t1 with
    | nil => simp only [List.nil_append] at ht; subst ht; exact ⟨[], x :: s, rfl, .nil, .keep x h⟩
    | cons y t1 =>
      simp only [List.cons_append, List.cons.injEq] at ht
      obtain ⟨rfl, ht⟩ := ht
      obtain ⟨s1, s2, rfl, h1, h2⟩ := ih ht
      exact ⟨y :: s1, s2, rfl, .keep y h1, h2⟩
  | @pair s t h ih =>
    cases t1 with
    | nil => simp only [List.nil_append] at ht; subst ht; exact ⟨[], a :: b :: s, rfl, .nil, .pair h⟩
    | cons y t1 =>
      simp only [List.cons_append, List.cons.injEq] at ht
      obtain ⟨rfl, ht⟩ := ht
      obtain ⟨s1, s2, rfl, h1, h2⟩ := ih ht
      exact ⟨a :: b :: s1, s2, rfl, .pair h1, h2⟩

/-- every segment after replacing comes from a segment before -/
theorem Replaces.segment {a b r : Nat} {s t x' : List Nat} (h : Replaces a b r s t) (hx : x' <:+: t) :
    ∃ x, x <:+: s ∧ Replaces a b r x x' := by
  obtain ⟨A, B, rfl⟩ := hx
  obtain ⟨s1, s2, rfl, h1, h2⟩ := h.split
  obtain ⟨s3, s4, rfl, h3, h4⟩ := h1.split
  exact ⟨s4, ⟨s3, s2, rfl⟩, h4⟩

theorem pairOcc_cons_le (p : Nat × Nat) (c : Nat) (s : List Nat) : pairOcc p s ≤ pairOcc p (c :: s) := by
  rw [pairOcc_cons]
  have := hd_nonneg p c s.head?
  omega

theorem pairOcc_prefix (p : Nat × Nat) : ∀ (x y : List Nat), pairOcc p x ≤ pairOcc p (x ++ y)
  | [], y => by simpa [pairOcc] using pairOcc_nonneg p y
  | [a], y => by simpa [pairOcc] using pairOcc_nonneg p (a :: y)
  | a :: b :: r, y => by
    have := pairOcc_prefix p (b :: r) y
    simp only [List.cons_append, pairOcc] at this ⊢
    omega

theorem pairOcc_infix {p : Nat × Nat} {x t : List Nat} (h : x <:+: t) (h0 : pairOcc p t = 0) : pairOcc p x = 0 := by
  obtain ⟨A, B, rfl⟩ := h
  have h1 : pairOcc p (A ++ x) ≤ 0 := h0 ▸ pairOcc_prefix p (A ++ x) B
  have h2 : pairOcc p x ≤ pairOcc p (A ++ x) := by
    clear h0 h1
    induction A with
    | nil => simp
    | cons c A ih => exact ih.trans (pairOcc_cons_le p c _)
  have := pairOcc_nonneg p x
  omega

theorem exists_of_count {C : Corpus} {p : Nat × Nat} (h : 0 < pairCount C p) : ∃ s ∈ C, [p.1, p.2] <:+: s.1 := by
  have key : ∀ s : List Nat, pairOcc p s ≠ 0 → [p.1, p.2] <:+: s := by
    intro s
    induction s with
    | nil => intro h; exact absurd rfl h
    | cons x s ih =>
      intro h
      cases s with
      | nil => exact absurd rfl h
      | cons y s =>
        by_cases e : (x, y) = p
        · subst e; exact ⟨[], s, rfl⟩
        · simp only [pairOcc, if_neg e, zero_add] at h
          exact (ih h).trans (List.suffix_cons x _).isInfix
  by_contra hc
  have : pairCount C p = 0 := by
    unfold pairCount
    refine List.sum_eq_zero ?_
    intro z hz
    obtain ⟨s, hs, rfl⟩ := List.mem_map.1 hz
    have : pairOcc p s.1 = 0 := by
      by_contra h0
      exact hc ⟨s, hs, key _ h0⟩
    rw [this, mul_zero]
  omega

/-- replacing keeps the text, with the name of the new type joined from the two parts -/
theorem Replaces.textOf {v : List Ty} {p : Nat × Nat} {ta tb t : Ty} (ha : v[p.1]? = some ta) (hb : v[p.2]? = some tb)
    (hn : t.name = ta.name ++ tb.name) {x x' : List Nat} (h : Replaces p.1 p.2 v.length x x') (hx : ∀ c ∈ x, c < v.length) :
    textOf (v ++ [t]) x' = textOf v x := by
  induction h with
  | nil => rfl
  | @keep c s u h ih =>
    have hc := hx c (by simp)
    have := ih fun d hd => hx d (by simp [hd])
    unfold Spec.textOf at this ⊢
    rw [List.flatMap_cons, List.flatMap_cons, this, List.getElem?_append_left hc]
  | @pair s u h ih =>
    have := ih fun d hd => hx d (by simp [hd])
    unfold Spec.textOf at this ⊢
    rw [List.flatMap_cons, List.flatMap_cons, List.flatMap_cons, this, ha, hb, List.getElem?_append_right (le_refl _)]
    simp [hn]

theorem Replaces.unique_of_apart {C : Corpus} {p : Nat × Nat} (hap : Apart C p) {s : List Nat × Int} (hs : s ∈ C) {m : Nat}
    (hc : ∀ c ∈ s.1, c < m) {x t t' : List Nat} (hx : x <:+: s.1) (h : Replaces p.1 p.2 m x t) (h0 : pairOcc p t = 0)
    (h' : Replaces p.1 p.2 m x t') (h0' : pairOcc p t' = 0) : t = t' := by
  have hm : m ∉ x := fun hm => absurd (hc m (hx.subset hm)) (Nat.lt_irrefl _)
  obtain ⟨a, b⟩ := p
  by_cases hab : a = b
  · subst hab
    exact h.unique_apart hm (fun hi => hap rfl s hs (hi.trans hx)) h0 h' h0'
  · exact h.unique hab hm h0 h' h0'

/-- one merge keeps the segments legible and the types unspelled -/
theorem Merged.legible {C C1 : Corpus} {v : List Ty} {p : Nat × Nat} {ta tb t : Ty} (hap : Apart C p) (hc : ∀ s ∈ C, ∀ c ∈ s.1, c < v.length)
    (ha : v[p.1]? = some ta) (hb : v[p.2]? = some tb) (hn : t.name = ta.name ++ tb.name) (hp : 0 < pairCount C p)
    (h : Merged p v.length C C1) (hl : Legible C v) (hu : Unspelled C v) : Legible C1 (v ++ [t]) ∧ Unspelled C1 (v ++ [t]) := by
  obtain ⟨w, hw, hpw⟩ := exists_of_count hp
  have htn : textOf v [p.1, p.2] = t.name := by simp [textOf, ha, hb, hn]
  constructor
  · intro t1 ht1 t2 ht2 x' y' hx' hy' he
    obtain ⟨s1, hs1, _, hr1, z1⟩ := mem_of_forall₂_right h t1 ht1
    obtain ⟨s2, hs2, _, hr2, z2⟩ := mem_of_forall₂_right h t2 ht2
    obtain ⟨x, hx, rx⟩ := hr1.segment hx'
    obtain ⟨y, hy, ry⟩ := hr2.segment hy'
    rw [rx.textOf ha hb hn (fun c h => hc s1 hs1 c (hx.subset h)), ry.textOf ha hb hn (fun c h => hc s2 hs2 c (hy.subset h))] at he
    have := hl s1 hs1 s2 hs2 x y hx hy he
    subst this
    exact rx.unique_of_apart hap hs1 (hc s1 hs1) hx (pairOcc_infix hx' z1) ry (pairOcc_infix hy' z2)
  · intro t1 ht1 x' hx' h2 hm
    obtain ⟨s1, hs1, _, hr1, z1⟩ := mem_of_forall₂_right h t1 ht1
    obtain ⟨x, hx, rx⟩ := hr1.segment hx'
    rw [rx.textOf ha hb hn (fun c h => hc s1 hs1 c (hx.subset h))] at hm
    have hlen : x'.length ≤ x.length := by
      clear hm hx' hx h2
      induction rx with
      | nil => exact le_refl _
      | keep _ _ ih => simpa using ih
      | pair _ ih => simp only [List.length_cons]; omega
    simp only [names, List.map_append, List.map_cons, List.map_nil, List.mem_append, List.mem_singleton] at hm
    rcases hm with hm | hm
    · exact hu s1 hs1 x hx (by omega) hm
    · rw [← htn] at hm
      have := hl s1 hs1 w hw x _ hx hpw hm
      subst this
      have z := pairOcc_infix hx' z1
      obtain ⟨a, b⟩ := p
      cases rx with
      | keep _ rx =>
        cases rx with
        | keep _ rx => cases rx; simp [pairOcc] at z
      | pair rx => cases rx; simp at h2

/-- C73 for runs: from a legible corpus without blocks repeated three times, all types get distinct names -/
theorem Run.names_distinct {minEv level : Int} {C C' : Corpus} {v v' : List Ty} {k : Nat} (h : Run minEv level C v k C' v') :
    (∀ s ∈ C, s.1 ≠ [] ∧ 0 < s.2) → (∀ s ∈ C, ∀ c ∈ s.1, c < v.length) → CubeFree C → Legible C v → Unspelled C v → (names v).Nodup →
      (names v').Nodup ∧ Legible C' v' ∧ Unspelled C' v' := by
  induction h with
  | refl => intro _ _ _ hl hu hn; exact ⟨hn, hl, hu⟩
  | @step C Cm C' v v' k p ta tb hb hm ha hb2 hmer hr ih =>
    intro hs hc hf hl hu hn
    obtain ⟨w1, w2⟩ := hmer.wf hs hc
    obtain ⟨l1, l2⟩ := hmer.legible (t := mergedType v ta tb level (pairCount C p)) (hf.apart p) hc ha hb2 rfl hb.1 hl hu
    refine ih w1 (by simpa using w2) (hmer.cubeFree hc hf) l1 l2 ?_
    obtain ⟨w, hw, hpw⟩ := exists_of_count hb.1
    have := hu w hw _ hpw (by simp)
    simp only [textOf, List.flatMap_cons, ha, hb2, Option.map_some, Option.getD_some, List.flatMap_nil, List.append_nil] at this
    simp only [names, List.map_append, List.map_cons, List.map_nil, mergedType]
    refine List.nodup_append.2 ⟨hn, by simp, ?_⟩
    rintro x hx y hy rfl
    simp only [List.mem_singleton] at hy
    subst hy
    exact this hx

/-- a word without a block repeated three times is recognised by trying all positions and lengths -/
theorem cube_check {w : List Nat} (h : ∀ i < w.length, ∀ n < w.length, (w.drop i).take (3 * (n + 1)) ≠
    (w.drop i).take (n + 1) ++ (w.drop i).take (n + 1) ++ (w.drop i).take (n + 1)) : ∀ b : List Nat, b ≠ [] → ¬ (b ++ b ++ b) <:+: w := by
  rintro b hb ⟨A, B, rfl⟩
  have hl : 0 < b.length := List.length_pos_iff.2 hb
  have hlen : (A ++ (b ++ b ++ b) ++ B).length = A.length + 3 * b.length + B.length := by simp; omega
  refine h A.length (by omega) (b.length - 1) (by omega) ?_
  have e : b.length - 1 + 1 = b.length := by omega
  have hd : (A ++ (b ++ b ++ b) ++ B).drop A.length = b ++ (b ++ (b ++ B)) := by simp
  rw [e, hd, List.take_left' rfl]
  have : b ++ (b ++ (b ++ B)) = (b ++ b ++ b) ++ B := by simp
  rw [this, List.take_left' (by simp; omega)]

end Verif.Spec
