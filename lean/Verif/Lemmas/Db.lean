import Verif.Model.Db
import Verif.Lemmas.Nearest
import Verif.Lemmas.Dict
import Mathlib.Data.List.Forall2
import Mathlib.Data.List.Perm.Subperm
/-! # Lemmas about the database builder -/

namespace Verif

variable {κ : Type} [DecidableEq κ]

theorem Dict.mem_keys_set {υ : Type} (d : Dict κ υ) (k : κ) (v : υ) (a : κ) : a ∈ Dict.keys (Dict.set d k v) ↔ a ∈ Dict.keys d ∨ a = k := by
  rw [← Dict.isSome_get?_iff, ← Dict.isSome_get?_iff, Dict.get?_set]
  split
  · rename_i h; simp [h]
  · rename_i h
    constructor
    · exact Or.inl
    · rintro (h1 | h1)
      · exact h1
      · exact absurd h1.symm (by first | exact h | exact Ne.symm h)

theorem foldl_min_le (xs : List Int) (x : Int) : xs.foldl min x ≤ x ∧ ∀ y ∈ xs, xs.foldl min x ≤ y := by
  induction xs generalizing x with
  | nil => simp
  | cons z zs ih =>
    obtain ⟨h1, h2⟩ := ih (min x z)
    simp only [List.foldl_cons, List.mem_cons, forall_eq_or_imp]
    exact ⟨by omega, by omega, h2⟩

theorem le_foldl_max (xs : List Int) (x : Int) : x ≤ xs.foldl max x ∧ ∀ y ∈ xs, y ≤ xs.foldl max x := by
  induction xs generalizing x with
  | nil => simp
  | cons z zs ih =>
    obtain ⟨h1, h2⟩ := ih (max x z)
    simp only [List.foldl_cons, List.mem_cons, forall_eq_or_imp]
    exact ⟨by omega, by omega, h2⟩

theorem foldl_minInt_mem (xs : List Int) (x : Int) : xs.foldl min x ∈ x :: xs := by
  induction xs generalizing x with
  | nil => simp
  | cons z zs ih =>
    have := ih (min x z)
    simp only [List.foldl_cons, List.mem_cons] at this ⊢
    rcases this with h | h
    · rw [h]
      rcases Int.le_total x z with hx | hx
      · left; omega
      · right; left; omega
    · right; right; exact h

theorem foldl_maxInt_mem (xs : List Int) (x : Int) : xs.foldl max x ∈ x :: xs := by
  induction xs generalizing x with
  | nil => simp
  | cons z zs ih =>
    have := ih (max x z)
    simp only [List.foldl_cons, List.mem_cons] at this ⊢
    rcases this with h | h
    · rw [h]
      rcases Int.le_total x z with hx | hx
      · right; left; omega
      · left; omega
    · right; right; exact h

theorem listMin_le {l : List Int} {y : Int} (h : y ∈ l) : listMin l ≤ y := by
  cases l with
  | nil => simp at h
  | cons x xs =>
    rcases List.mem_cons.1 h with rfl | h
    · exact (foldl_min_le xs _).1
    · exact (foldl_min_le xs x).2 y h

theorem le_listMax {l : List Int} {y : Int} (h : y ∈ l) : y ≤ listMax l := by
  cases l with
  | nil => simp at h
  | cons x xs =>
    rcases List.mem_cons.1 h with rfl | h
    · exact (le_foldl_max xs _).1
    · exact (le_foldl_max xs x).2 y h

theorem listMin_mem {l : List Int} (h : l ≠ []) : listMin l ∈ l := by
  cases l with
  | nil => exact absurd rfl h
  | cons x xs => exact foldl_minInt_mem xs x

theorem listMax_mem {l : List Int} (h : l ≠ []) : listMax l ∈ l := by
  cases l with
  | nil => exact absurd rfl h
  | cons x xs => exact foldl_maxInt_mem xs x

/-- the element stored for the value `v` in an array of type `ty`: exact unless the type is `float64` and the value is large; then it
is the value rounded to binary64 -/
def Stored (ty : NpTy) (x v : Int) : Prop :=
  (ty ≠ .f64 → x = v ∧ ty.lo ≤ v ∧ v ≤ ty.hi) ∧ (v.natAbs ≤ 2 ^ 53 → x = v) ∧ (ty = .f64 → x = roundF64 v)

theorem Stored.promote_left {a b : NpTy} {x v : Int} (h : Stored a x v) : Stored (a.promote b) ((a.promote b).cast x) v := by
  refine ⟨?_, ?_, ?_⟩
  · intro hne
    obtain ⟨h1, h2, h3, h4, h5, h6⟩ := NpTy.promote_range a b hne
    obtain ⟨g1, g2, g3⟩ := h.1 h1
    subst g1
    exact ⟨NpTy.cast_of_range hne (by omega) (by omega), by omega, by omega⟩
  · intro hs
    have := h.2.1 hs
    subst this
    by_cases hne : a.promote b = .f64
    · rw [hne]; simp only [NpTy.cast, if_true]; exact roundF64_small hs
    · obtain ⟨h1, h2, h3, h4, h5, h6⟩ := NpTy.promote_range a b hne
      obtain ⟨g1, g2, g3⟩ := h.1 h1
      exact NpTy.cast_of_range hne (by omega) (by omega)
  · intro hne
    rw [hne]
    simp only [NpTy.cast, if_true]
    by_cases ha : a = .f64
    · rw [h.2.2 ha, roundF64_idem]
    · rw [(h.1 ha).1]

theorem Stored.promote_right {a b : NpTy} {v : Int} (hb : b ≠ .f64) (h1 : b.lo ≤ v) (h2 : v ≤ b.hi) :
    Stored (a.promote b) ((a.promote b).cast (b.cast v)) v := by
  rw [NpTy.cast_of_range hb h1 h2]
  refine ⟨?_, ?_, ?_⟩
  · intro hne
    obtain ⟨_, _, h3, h4, h5, h6⟩ := NpTy.promote_range a b hne
    exact ⟨NpTy.cast_of_range hne (by omega) (by omega), by omega, by omega⟩
  · intro hs
    by_cases hne : a.promote b = .f64
    · rw [hne]; simp only [NpTy.cast, if_true]; exact roundF64_small hs
    · obtain ⟨_, _, h3, h4, h5, h6⟩ := NpTy.promote_range a b hne
      exact NpTy.cast_of_range hne (by omega) (by omega)
  · intro hne
    rw [hne]
    simp only [NpTy.cast, if_true]

/-- all values appended so far -/
def flat (l : List (κ × List Int)) : List Int := (l.map (·.2)).flatten

/-- start and length of every sequence -/
def offsets : Nat → List (κ × List Int) → List (Nat × Nat)
  | _, [] => []
  | n, p :: l => (n, p.2.length) :: offsets (n + p.2.length) l

omit [DecidableEq κ] in
theorem flat_append (l m : List (κ × List Int)) : flat (l ++ m) = flat l ++ flat m := by simp [flat]

omit [DecidableEq κ] in
theorem offsets_append (n : Nat) (l m : List (κ × List Int)) : offsets n (l ++ m) = offsets n l ++ offsets (n + (flat l).length) m := by
  induction l generalizing n with
  | nil => simp [offsets, flat]
  | cons p l ih =>
    simp only [List.cons_append, offsets, ih, flat, List.map_cons, List.flatten_cons, List.length_append]
    rw [Nat.add_assoc]

omit [DecidableEq κ] in
theorem offsets_length (n : Nat) (l : List (κ × List Int)) : (offsets n l).length = l.length := by
  induction l generalizing n with
  | nil => rfl
  | cons p l ih => simp [offsets, ih]

omit [DecidableEq κ] in
/-- the reference at position `i` delimits sequence `i` -/
theorem offsets_get (l : List (κ × List Int)) (i : Nat) (p : κ × List Int) (h : l[i]? = some p) :
    (offsets 0 l)[i]? = some ((flat (l.take i)).length, p.2.length) ∧
    ((flat l).take ((flat (l.take i)).length + p.2.length)).drop (flat (l.take i)).length = p.2 ∧
    (flat (l.take i)).length + p.2.length ≤ (flat l).length := by
  obtain ⟨hi, hp⟩ := List.getElem?_eq_some_iff.1 h
  have e : l = l.take i ++ p :: l.drop (i + 1) := by
    rw [← hp, List.getElem_cons_drop, List.take_append_drop]
  have hl : (l.take i).length = i := by rw [List.length_take]; omega
  have hf : flat l = flat (l.take i) ++ (p.2 ++ flat (l.drop (i + 1))) := by
    conv_lhs => rw [e]
    rw [flat_append]; simp [flat]
  refine ⟨?_, ?_, ?_⟩
  · conv_lhs => rw [e]
    rw [offsets_append, List.getElem?_append_right (by rw [offsets_length]; omega), offsets_length, hl]
    simp [offsets]
  · rw [hf, List.take_length_add_append, List.drop_left, List.take_left]
  · rw [hf]; simp

/-- what a builder holds after appending the records `l` -/
structure BInv (l : List (κ × List Int)) (b : Builder κ) : Prop where
  data : ∃ pre, pre ++ b.buffer = flat l ∧ List.Forall₂ (Stored b.ty) b.frozen pre
  refs : b.refs = offsets 0 l
  ids : ∀ k i, Dict.get? b.ids k = some i → ∃ p, l[i]? = some p ∧ p.1 = k
  keys : ∀ k, k ∈ Dict.keys b.ids ↔ k ∈ l.map (·.1)
  nodup : (Dict.keys b.ids).Nodup
  last : ∀ i p, l[i]? = some p → ∃ j q, Dict.get? b.ids p.1 = some j ∧ i ≤ j ∧ l[j]? = some q ∧ q.1 = p.1
  maxLen : ∀ p ∈ l, p.2.length ≤ b.maxLen
  maxLen' : b.maxLen = 0 ∨ ∃ p ∈ l, p.2.length = b.maxLen

theorem BInv.new : BInv ([] : List (κ × List Int)) Builder.new := by
  constructor <;> simp [Builder.new, flat, offsets, Dict.keys, Dict.get?]

theorem shrink_eq {b b1 : Builder κ} (h : b.shrink = .ok b1) : b1.ids = b.ids ∧ b1.refs = b.refs ∧ b1.maxLen = b.maxLen ∧
    b1.buffer = [] ∧ b1.frozen.length = b.frozen.length + b.buffer.length := by
  simp only [Builder.shrink] at h
  split at h
  · rename_i h0
    cases h
    exact ⟨rfl, rfl, rfl, h0, by rw [h0]; rfl⟩
  · cases ht : bestDtype (listMin b.buffer) (listMax b.buffer) with
    | error e => simp [ht] at h
    | ok t =>
      simp only [ht, Except.ok.injEq] at h
      subst h
      refine ⟨rfl, rfl, rfl, rfl, by simp⟩

theorem BInv.shrink {l : List (κ × List Int)} {b b1 : Builder κ} (hb : BInv l b) (h : b.shrink = .ok b1) : BInv l b1 := by
  obtain ⟨e1, e2, e3, e4, _⟩ := shrink_eq h
  refine ⟨?_, by rw [e2]; exact hb.refs, by rw [e1]; exact hb.ids, by rw [e1]; exact hb.keys, by rw [e1]; exact hb.nodup,
    by rw [e1]; exact hb.last, by rw [e3]; exact hb.maxLen, by rw [e3]; exact hb.maxLen'⟩
  obtain ⟨pre, hp, hs⟩ := hb.data
  refine ⟨flat l, by rw [e4]; simp, ?_⟩
  simp only [Builder.shrink] at h
  split at h
  · rename_i h0
    cases h
    rw [h0, List.append_nil] at hp
    rw [← hp]; exact hs
  · cases ht : bestDtype (listMin b.buffer) (listMax b.buffer) with
    | error e => simp [ht] at h
    | ok t =>
      simp only [ht, Except.ok.injEq] at h
      subst h
      obtain ⟨t1, t2, t3⟩ := bestDtype_ok ht
      simp only [List.map_append, List.map_map]
      rw [← hp]
      refine List.rel_append ?_ ?_
      · rw [List.forall₂_map_left_iff]
        exact hs.imp fun _ _ h => h.promote_left
      · rw [List.forall₂_map_left_iff, List.forall₂_same]
        intro v hv
        have h1 := listMin_le hv
        have h2 := le_listMax hv
        exact Stored.promote_right t1 (by omega) (by omega)

theorem BInv.append {l : List (κ × List Int)} {b b1 : Builder κ} (hb : BInv l b) {bufSize : Nat} {id : κ} {arr : List Int}
    (h : b.append bufSize id arr = .ok b1) : BInv (l ++ [(id, arr)]) b1 := by
  have hlen : b.refs.length = l.length := by rw [hb.refs, offsets_length]
  obtain ⟨pre, hp, hs⟩ := hb.data
  have hfl : b.frozen.length + b.buffer.length = (flat l).length := by
    rw [← hp, List.length_append, hs.length_eq]
  have h1 : BInv (l ++ [(id, arr)]) { b with ids := Dict.set b.ids id b.refs.length, maxLen := max arr.length b.maxLen, refs := b.refs ++ [(b.frozen.length + b.buffer.length, arr.length)], buffer := b.buffer ++ arr } := by
    constructor
    · refine ⟨pre, ?_, hs⟩
      simp only
      rw [← List.append_assoc, hp, flat_append]; simp [flat]
    · simp only
      rw [offsets_append, hb.refs, hfl]
      simp [offsets]
    · intro k i hk
      simp only at hk
      by_cases hki : k = id
      · subst hki
        rw [Dict.get?_set_self] at hk
        cases hk
        exact ⟨(k, arr), by rw [hlen]; simp, rfl⟩
      · rw [Dict.get?_set_ne _ _ (Ne.symm hki)] at hk
        obtain ⟨p, hp1, hp2⟩ := hb.ids k i hk
        exact ⟨p, by rw [List.getElem?_append_left (List.getElem?_eq_some_iff.1 hp1).1]; exact hp1, hp2⟩
    · intro k
      simp only [Dict.mem_keys_set, List.map_append, List.mem_append, List.map_cons, List.map_nil, List.mem_singleton]
      rw [hb.keys k]
    · exact Dict.nodup_keys_set hb.nodup _ _
    · intro i p hi
      simp only
      by_cases hlt : i < l.length
      · rw [List.getElem?_append_left hlt] at hi
        by_cases hki : p.1 = id
        · rw [hki, Dict.get?_set_self]
          exact ⟨_, (id, arr), rfl, by omega, by rw [hlen]; simp, rfl⟩
        · rw [Dict.get?_set_ne _ _ (Ne.symm hki)]
          obtain ⟨j, q, g1, g2, g3, g4⟩ := hb.last i p hi
          exact ⟨j, q, g1, g2, by rw [List.getElem?_append_left (List.getElem?_eq_some_iff.1 g3).1]; exact g3, g4⟩
      · have hi' := (List.getElem?_eq_some_iff.1 hi).1
        simp only [List.length_append, List.length_singleton] at hi'
        have : i = l.length := by omega
        subst this
        simp only [List.getElem?_concat_length, Option.some.injEq] at hi
        subst hi
        rw [Dict.get?_set_self]
        exact ⟨_, (id, arr), rfl, by omega, by rw [hlen]; simp, rfl⟩
    · intro p hp
      simp only
      rcases List.mem_append.1 hp with hp | hp
      · have := hb.maxLen p hp; omega
      · simp only [List.mem_singleton] at hp; subst hp; simp only; omega
    · simp only
      rcases Nat.le_total b.maxLen arr.length with hm | hm
      · right
        exact ⟨(id, arr), by simp, by simp only; omega⟩
      · rcases hb.maxLen' with h0 | ⟨p, hp, hpl⟩
        · left; omega
        · right
          exact ⟨p, by simp [hp], by omega⟩
  simp only [Builder.append] at h
  split at h
  · exact h1.shrink h
  · cases h; exact h1

theorem BInv.appendAll {l : List (κ × List Int)} {b b1 : Builder κ} (hb : BInv l b) {bufSize : Nat} {recs : List (κ × List Int)}
    (h : b.appendAll bufSize recs = .ok b1) : BInv (l ++ recs) b1 := by
  induction recs generalizing l b with
  | nil => simp only [Builder.appendAll, Except.ok.injEq] at h; subst h; simpa using hb
  | cons r rs ih =>
    obtain ⟨id, arr⟩ := r
    simp only [Builder.appendAll] at h
    cases ha : b.append bufSize id arr with
    | error e => simp [ha] at h
    | ok b2 =>
      simp only [ha] at h
      have := ih (hb.append ha) h
      simpa using this

/-- what a field built from the records `recs` holds -/
structure FInv (recs : List (κ × List Int)) (f : SeqField κ) : Prop where
  nodup : (recs.map (·.1)).Nodup
  ne : recs ≠ []
  len : f.ids.length = recs.length
  keys : ∀ k, k ∈ Dict.keys f.ids ↔ k ∈ recs.map (·.1)
  idsNodup : (Dict.keys f.ids).Nodup
  ids : ∀ i p, recs[i]? = some p → Dict.get? f.ids p.1 = some i
  refs : f.refs = (offsets 0 recs).map fun r => ((r.1 : Int), (r.2 : Int))
  data : List.Forall₂ (Stored f.ty) f.data (flat recs)
  ty : f.refsTy ≠ .f64 ∧ f.refsTy.lo ≤ 0 ∧ ((flat recs).length : Int) ≤ f.refsTy.hi

theorem nodup_of_same {l m : List κ} (hm : m.Nodup) (hlen : l.length = m.length) (h : ∀ k, k ∈ m → k ∈ l) : l.Nodup :=
  ((List.subperm_of_subset hm h).perm_of_length_le (le_of_eq hlen)).nodup_iff.1 hm

theorem BInv.build {recs : List (κ × List Int)} {b : Builder κ} (hb : BInv recs b) {name : Str} {f : SeqField κ}
    (h : b.build name = .ok f) : f.name = name ∧ FInv recs f := by
  simp only [Builder.build] at h
  cases hs : b.shrink with
  | error e => simp [hs] at h
  | ok b1 =>
    simp only [hs] at h
    have hb1 := hb.shrink hs
    have hbuf := (shrink_eq hs).2.2.2.1
    cases ht : bestDtype 0 (max b1.frozen.length b1.maxLen : Nat) with
    | error e => rw [ht] at h; simp at h
    | ok rt =>
      rw [ht] at h
      simp only at h
      obtain ⟨t1, t2, t3⟩ := bestDtype_ok ht
      obtain ⟨pre, hp, hst⟩ := hb1.data
      rw [hbuf, List.append_nil] at hp
      subst hp
      have hlen := hst.length_eq
      have hrefs : (b1.refs.map fun r => (rt.cast r.1, rt.cast r.2)) = (offsets 0 recs).map fun r => ((r.1 : Int), (r.2 : Int)) := by
        rw [hb1.refs]
        apply List.map_congr_left
        intro r hr
        obtain ⟨i, hi⟩ := List.mem_iff_getElem?.1 hr
        have hil : i < recs.length := by rw [← offsets_length 0 recs]; exact (List.getElem?_eq_some_iff.1 hi).1
        obtain ⟨g1, g2, g3⟩ := offsets_get recs i _ (List.getElem?_eq_getElem hil)
        rw [g1] at hi
        cases hi
        simp only
        have hle : ((flat (recs.take i)).length : Int) + (recs[i].2.length : Int) ≤ rt.hi := by omega
        rw [NpTy.cast_of_range t1 (by omega) (by omega), NpTy.cast_of_range t1 (by omega) (by omega)]
      rw [hrefs] at h
      simp only [SeqField.make] at h
      split at h
      · cases h
      · rename_i r hr
        split at h
        · cases h
        · rename_i hl
          split at h
          · cases h
          · cases h
            have hlr : recs.length = b1.ids.length := by
              have := not_not.1 hl
              rw [List.length_map, offsets_length] at this
              exact this
            have hnd : (recs.map (·.1)).Nodup := nodup_of_same hb1.nodup (by simp [hlr, Dict.keys]) fun k hk => (hb1.keys k).1 hk
            refine ⟨rfl, hnd, ?_, hlr.symm, hb1.keys, hb1.nodup, ?_, rfl, hst, t1, t2, by simp only; omega⟩
            · rintro rfl
              simp [offsets] at hr
            · intro i p hi
              obtain ⟨j, q, g1, g2, g3, g4⟩ := hb1.last i p hi
              simp only
              rw [g1]
              have a1 : (recs.map (·.1))[i]? = some p.1 := by simp [hi]
              have a2 : (recs.map (·.1))[j]? = some p.1 := by simp [g3, g4]
              obtain ⟨p1, r1⟩ := List.getElem?_eq_some_iff.1 a1
              obtain ⟨p2, r2⟩ := List.getElem?_eq_some_iff.1 a2
              rw [(List.Nodup.getElem_inj_iff hnd).1 (r2.trans r1.symm)]

theorem create_inv {recs : List (κ × List Int)} {bufSize : Nat} {name : Str} {f : SeqField κ}
    (h : SeqField.create bufSize name recs = .ok f) : f.name = name ∧ FInv recs f := by
  simp only [SeqField.create] at h
  cases ha : Builder.new.appendAll bufSize recs with
  | error e => simp [ha] at h
  | ok b =>
    simp only [ha] at h
    have := BInv.appendAll BInv.new ha
    exact BInv.build (by simpa using this) h

omit [DecidableEq κ] in
theorem FInv.slice_cast [DecidableEq κ] {recs : List (κ × List Int)} {f : SeqField κ} (hf : FInv recs f) {i : Nat} {p : κ × List Int} (hi : recs[i]? = some p) :
    f.refsTy.cast ((flat (recs.take i)).length + p.2.length : Int) = ((flat (recs.take i)).length + p.2.length : Nat) := by
  obtain ⟨_, _, g3⟩ := offsets_get recs i p hi
  obtain ⟨t1, t2, t3⟩ := hf.ty
  rw [NpTy.cast_of_range t1 (by omega) (by omega)]
  rfl

theorem FInv.ref {recs : List (κ × List Int)} {f : SeqField κ} (hf : FInv recs f) {i : Nat} {p : κ × List Int} (hi : recs[i]? = some p) :
    f.ref p.1 = .ok (((flat (recs.take i)).length : Int), (p.2.length : Int)) := by
  obtain ⟨g1, _, _⟩ := offsets_get recs i p hi
  simp only [SeqField.ref, hf.ids i p hi, hf.refs, List.getElem?_map, g1, Option.map_some]

/-- lookup returns the stored elements of the sequence -/
theorem FInv.get {recs : List (κ × List Int)} {f : SeqField κ} (hf : FInv recs f) {i : Nat} {p : κ × List Int} (hi : recs[i]? = some p) :
    ∃ arr, f.get p.1 = .ok arr ∧ List.Forall₂ (Stored f.ty) arr p.2 := by
  obtain ⟨_, g2, _⟩ := offsets_get recs i p hi
  refine ⟨f.slice (((flat (recs.take i)).length : Int), (p.2.length : Int)), by simp only [SeqField.get, hf.ref hi], ?_⟩
  simp only [SeqField.slice]
  rw [hf.slice_cast hi]
  simp only [Int.toNat_natCast]
  have := List.forall₂_drop (flat (recs.take i)).length (List.forall₂_take ((flat (recs.take i)).length + p.2.length) hf.data)
  rw [g2] at this
  exact this

theorem FInv.values {recs : List (κ × List Int)} {f : SeqField κ} (hf : FInv recs f) :
    List.Forall₂ (fun arr p => List.Forall₂ (Stored f.ty) arr p.2) f.values recs := by
  rw [List.forall₂_iff_get]
  have hl : f.values.length = recs.length := by
    rw [SeqField.values, hf.refs, List.length_map, List.length_map, offsets_length]
  refine ⟨hl, ?_⟩
  intro i h1 h2
  have hi : recs[i]? = some recs[i] := List.getElem?_eq_getElem h2
  obtain ⟨arr, g1, g2⟩ := hf.get hi
  obtain ⟨o1, _⟩ := offsets_get recs i _ hi
  simp only [SeqField.get, hf.ref hi, Except.ok.injEq] at g1
  have : f.values[i]? = some arr := by
    rw [SeqField.values, hf.refs, List.getElem?_map, List.getElem?_map, o1]
    simp only [Option.map_some]
    rw [← g1]
  rw [List.getElem?_eq_getElem h1] at this
  simp only [List.get_eq_getElem]
  rw [Option.some.inj this]
  exact g2

theorem exact_of_stored {ty : NpTy} {arr v : List Int} (h : List.Forall₂ (Stored ty) arr v) (hx : ty ≠ .f64 ∨ ∀ x ∈ v, x.natAbs ≤ 2 ^ 53) :
    arr = v := by
  induction h with
  | nil => rfl
  | @cons x y a b h1 h2 ih =>
    have e1 : x = y := by
      rcases hx with hx | hx
      · exact (h1.1 hx).1
      · exact h1.2.1 (hx y (by simp))
    rw [e1, ih (hx.imp id fun h z hz => h z (by simp [hz]))]

/-! ## Success -/

theorem shrink_succeeds {b : Builder κ} (h : ∀ v ∈ b.buffer, -2 ^ 63 ≤ v ∧ v < 2 ^ 63) : ∃ b1, b.shrink = .ok b1 := by
  simp only [Builder.shrink]
  split
  · exact ⟨_, rfl⟩
  · rename_i h0
    obtain ⟨t, ht⟩ := bestDtype_signed (h _ (listMin_mem h0)).1 (h _ (listMax_mem h0)).2
    rw [ht]
    exact ⟨_, rfl⟩

/-- the buffer only holds values that were appended -/
theorem BInv.buffer_mem {l : List (κ × List Int)} {b : Builder κ} (hb : BInv l b) {v : Int} (hv : v ∈ b.buffer) : ∃ p ∈ l, v ∈ p.2 := by
  obtain ⟨pre, hp, _⟩ := hb.data
  have : v ∈ flat l := by rw [← hp]; exact List.mem_append_right _ hv
  simp only [flat, List.mem_flatten, List.mem_map] at this
  obtain ⟨_, ⟨p, hp, rfl⟩, hv⟩ := this
  exact ⟨p, hp, hv⟩

theorem append_succeeds {l : List (κ × List Int)} {b : Builder κ} (hb : BInv l b) {bufSize : Nat} {id : κ} {arr : List Int}
    (h : ∀ p ∈ l ++ [(id, arr)], ∀ v ∈ p.2, -2 ^ 63 ≤ v ∧ v < 2 ^ 63) : ∃ b1, b.append bufSize id arr = .ok b1 := by
  simp only [Builder.append]
  split
  · apply shrink_succeeds
    intro v hv
    simp only [List.mem_append] at hv
    rcases hv with hv | hv
    · obtain ⟨p, hp, hv⟩ := hb.buffer_mem hv
      exact h p (by simp [hp]) v hv
    · exact h (id, arr) (by simp) v hv
  · exact ⟨_, rfl⟩

theorem appendAll_succeeds {l : List (κ × List Int)} {b : Builder κ} (hb : BInv l b) {bufSize : Nat} {recs : List (κ × List Int)}
    (h : ∀ p ∈ l ++ recs, ∀ v ∈ p.2, -2 ^ 63 ≤ v ∧ v < 2 ^ 63) : ∃ b1, b.appendAll bufSize recs = .ok b1 := by
  induction recs generalizing l b with
  | nil => exact ⟨_, rfl⟩
  | cons r rs ih =>
    obtain ⟨id, arr⟩ := r
    obtain ⟨b1, h1⟩ := append_succeeds hb (bufSize := bufSize) (id := id) (arr := arr) fun p hp => h p (by simp at hp ⊢; tauto)
    simp only [Builder.appendAll, h1]
    exact ih (hb.append h1) (by simpa using h)

theorem build_succeeds {recs : List (κ × List Int)} {b : Builder κ} (hb : BInv recs b) (name : Str)
    (h : ∀ p ∈ recs, ∀ v ∈ p.2, -2 ^ 63 ≤ v ∧ v < 2 ^ 63) (hn : (recs.map (·.1)).Nodup) (hne : recs ≠ [])
    (hlen : (flat recs).length < 2 ^ 64) : ∃ f, b.build name = .ok f := by
  obtain ⟨b1, hs⟩ := shrink_succeeds (b := b) fun v hv => by
    obtain ⟨p, hp, hv⟩ := hb.buffer_mem hv
    exact h p hp v hv
  have hb1 := hb.shrink hs
  have hbuf := (shrink_eq hs).2.2.2.1
  obtain ⟨pre, hp, hst⟩ := hb1.data
  rw [hbuf, List.append_nil] at hp
  subst hp
  have hfl := hst.length_eq
  have hmax : b1.maxLen ≤ (flat recs).length := by
    rcases hb1.maxLen' with h0 | ⟨p, hp, hpl⟩
    · omega
    · obtain ⟨i, hi⟩ := List.mem_iff_getElem?.1 hp
      have := (offsets_get recs i p hi).2.2
      omega
  obtain ⟨rt, hrt, _⟩ := bestDtype_unsigned (mx := (max b1.frozen.length b1.maxLen : Nat)) (by
    have : max b1.frozen.length b1.maxLen < 2 ^ 64 := by omega
    exact_mod_cast this)
  simp only [Builder.build, hs, hrt]
  have hlast : ∃ p, recs.getLast? = some p := ⟨_, List.getLast?_eq_some_getLast hne⟩
  obtain ⟨p, hp⟩ := hlast
  have hidx : recs[recs.length - 1]? = some p := by rw [← List.getLast?_eq_getElem?]; exact hp
  obtain ⟨g1, _, g3⟩ := offsets_get recs _ p hidx
  have hlr : (b1.refs.map fun r => (rt.cast r.1, rt.cast r.2)).getLast? =
      some (rt.cast ((flat (recs.take (recs.length - 1))).length : Int), rt.cast (p.2.length : Int)) := by
    rw [List.getLast?_map, hb1.refs, List.getLast?_eq_getElem?, offsets_length, g1]
    rfl
  obtain ⟨t1, t2, t3⟩ := bestDtype_ok hrt
  have hids : b1.ids.length = recs.length := by
    have h1 : (Dict.keys b1.ids).Perm (recs.map (·.1)) := by
      rw [List.perm_ext_iff_of_nodup hb1.nodup hn]
      exact hb1.keys
    have := h1.length_eq
    simpa [Dict.keys] using this
  simp only [SeqField.make, hlr]
  rw [if_neg, if_neg]
  · exact ⟨_, rfl⟩
  · rw [NpTy.cast_of_range t1 (by omega) (by omega)]
    omega
  · rw [List.length_map, hb1.refs, offsets_length, hids]
    simp

end Verif
