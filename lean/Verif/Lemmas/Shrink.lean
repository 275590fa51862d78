import Verif.Model.Shrink
import Verif.Spec.Shrink
import Verif.Spec.Table
import Verif.Lemmas.Scheme
import Verif.Lemmas.Bpe
import Mathlib.Tactic.Linarith
/-! # Lemmas about shrinking -/

namespace Verif
open Spec

/-! ## counting -/

theorem shrinkFreqs_ok {s : Scheme} {lines : List Str} {encs : List (List Int)}
    (h : List.Forall₂ (fun l ids => s.encode l = .ok ids) lines encs) (d : Dict Int Int) :
    shrinkFreqs s lines d = .ok (Dict.count d encs.flatten) := by
  induction h generalizing d with
  | nil => rfl
  | cons h1 _ ih => simp [shrinkFreqs, h1, ih, Dict.count, List.foldl_append]

theorem foldl_max_spec (xs : List Int) (x : Int) : xs.foldl max x ∈ x :: xs ∧ ∀ y ∈ x :: xs, y ≤ xs.foldl max x := by
  induction xs generalizing x with
  | nil => simp
  | cons y ys ih =>
    obtain ⟨h1, h2⟩ := ih (max x y)
    simp only [List.foldl_cons]
    constructor
    · rcases List.mem_cons.1 h1 with h | h
      · rw [h]
        rcases max_choice x y with e | e <;> rw [e] <;> simp
      · simp [h]
    · have h3 := h2 (max x y) (by simp)
      intro z hz
      rcases List.mem_cons.1 hz with rfl | hz
      · exact le_trans (le_max_left _ _) h3
      · rcases List.mem_cons.1 hz with rfl | hz
        · exact le_trans (le_max_right _ _) h3
        · exact h2 z (by simp [hz])

/-! ## flags -/

theorem removals0_length (tbl : List Ty) (d : Dict Int Int) (mf : Int) : (removals0 tbl d mf).length = tbl.length := by
  simp [removals0]

theorem removals0_false {tbl : List Ty} {ids : List Int} {mf : Int} {i : Nat} :
    (removals0 tbl (Dict.count [] ids) mf)[i]? = some false ↔
      ∃ t, tbl[i]? = some t ∧ (t.level = -1 ∨ mf ≤ ids.count (i : Int)) := by
  have hc := Dict.cnt_count ([] : Dict Int Int) ids (i : Int)
  simp only [Dict.cnt, Dict.get?_nil, Option.getD_none, zero_add] at hc
  simp only [removals0, List.getElem?_map, List.getElem?_zipIdx]
  cases h : tbl[i]? with
  | none => simp
  | some t =>
    simp only [Option.map_some, Option.some.injEq, Level.reserved, zero_add, hc, exists_eq_left']
    split
    · simp_all
    · simp_all

theorem keepKids_ok : ∀ (ks : List Ty) (r : List Bool), (∀ k ∈ ks, k.idx < r.length) →
    ∃ r', keepKids ks r = .ok r' ∧ r'.length = r.length ∧
      ∀ x : Nat, r'[x]? = some false ↔ r[x]? = some false ∨ ∃ k ∈ ks, k.idx = x := by
  intro ks
  induction ks with
  | nil => intro r _; exact ⟨r, rfl, rfl, by simp⟩
  | cons k ks ih =>
    intro r h
    have hk := h k (by simp)
    simp only [keepKids]
    cases hb : r[k.idx]? with
    | none => rw [List.getElem?_eq_none_iff] at hb; omega
    | some b =>
      cases b with
      | true =>
        obtain ⟨r', h1, h2, h3⟩ := ih (r.set k.idx false) (by intro k' hk'; simpa using h k' (by simp [hk']))
        refine ⟨r', h1, by simpa using h2, fun x => ?_⟩
        rw [h3, List.getElem?_set]
        by_cases hx : k.idx = x
        · subst hx; simp [hk]
        · simp [hx]
      | false =>
        obtain ⟨r', h1, h2, h3⟩ := ih r (by intro k' hk'; exact h k' (by simp [hk']))
        refine ⟨r', h1, h2, fun x => ?_⟩
        rw [h3]
        constructor
        · rintro (h | ⟨k', a, b⟩)
          · exact .inl h
          · exact .inr ⟨k', by simp [a], b⟩
        · rintro (h | ⟨k', a, b⟩)
          · exact .inl h
          · rcases List.mem_cons.1 a with rfl | a
            · left; rw [← b]; exact hb
            · exact .inr ⟨k', a, b⟩

theorem KidsEarlier.idx_lt {tbl : List Ty} (hi : Indexed tbl) (hk : KidsEarlier tbl) {i : Nat} {t k : Ty}
    (ht : tbl[i]? = some t) (h : k ∈ t.kids) : k.idx < i ∧ tbl[k.idx]? = some k := by
  obtain ⟨j, hj, hjk⟩ := hk i t ht k h
  have := hi j k hjk
  subst this
  exact ⟨hj, hjk⟩

/-- the flags after the loop: exactly the closure -/
theorem keepLoop_ok {tbl : List Ty} (hi : Indexed tbl) (hk : KidsEarlier tbl) {P : Nat → Prop}
    (hP : ∀ (i : Nat) (t k : Ty), P i → tbl[i]? = some t → k ∈ t.kids → P k.idx) : ∀ (n : Nat) (r : List Bool), n ≤ tbl.length →
    r.length = tbl.length → (∀ x : Nat, r[x]? = some false → P x) →
    (∀ (j : Nat) (t : Ty), n ≤ j → tbl[j]? = some t → r[j]? = some false → ∀ k ∈ t.kids, r[k.idx]? = some false) →
    ∃ r', keepLoop tbl n r = .ok r' ∧ r'.length = tbl.length ∧ (∀ x : Nat, r'[x]? = some false → P x) ∧
      (∀ x : Nat, r[x]? = some false → r'[x]? = some false) ∧
      (∀ (j : Nat) (t : Ty), tbl[j]? = some t → r'[j]? = some false → ∀ k ∈ t.kids, r'[k.idx]? = some false) := by
  intro n
  induction n with
  | zero =>
    intro r _ hl h1 h2
    exact ⟨r, rfl, hl, h1, fun _ => id, fun j t => h2 j t (by omega)⟩
  | succ i ih =>
    intro r hn hl h1 h2
    obtain ⟨t, ht⟩ : ∃ t, tbl[i]? = some t := ⟨tbl[i], List.getElem?_eq_getElem (by omega)⟩
    obtain ⟨b, hb⟩ : ∃ b, r[i]? = some b := ⟨r[i], List.getElem?_eq_getElem (by omega)⟩
    have hti : t.idx = i := hi i t ht
    simp only [keepLoop, ht, hb, hti, ne_eq, not_true_eq_false, if_false]
    cases b with
    | true =>
      simp only [if_true]
      refine ih r (by omega) hl h1 ?_
      intro j u hj hu hf
      by_cases e : j = i
      · subst e; rw [hb] at hf; simp at hf
      · exact h2 j u (by omega) hu hf
    | false =>
      simp only [Bool.false_eq_true, if_false]
      have hkid : ∀ k ∈ t.kids, k.idx < i := fun k hkk => (KidsEarlier.idx_lt hi hk ht hkk).1
      obtain ⟨r1, e1, l1, f1⟩ := keepKids_ok t.kids r (fun k hkk => by have := hkid k hkk; omega)
      simp only [e1]
      obtain ⟨r', e2, l2, p2, m2, c2⟩ := ih r1 (by omega) (by omega)
        (by
          intro x hx
          rcases (f1 x).1 hx with h | ⟨k, hkk, rfl⟩
          · exact h1 x h
          · exact hP i t k (h1 i hb) ht hkk)
        (by
          intro j u hj hu hf k hkk
          rcases (f1 j).1 hf with h | ⟨k', hk', e⟩
          · by_cases e : j = i
            · subst e
              rw [ht] at hu; cases hu
              exact (f1 _).2 (.inr ⟨k, hkk, rfl⟩)
            · exact (f1 _).2 (.inl (h2 j u (by omega) hu h k hkk))
          · have := hkid k' hk'; omega)
      exact ⟨r', e2, l2, p2, fun x hx => m2 x ((f1 x).2 (.inl hx)), c2⟩

/-! ## mapping -/

theorem shrinkMap_ok : ∀ (tbl : List Ty) (r : List Bool) (i : Nat), r.length = tbl.length →
    (∀ (j : Nat) (t : Ty), tbl[j]? = some t → t.idx = i + j) →
    ∃ m, shrinkMap (r.zip tbl) i = .ok m ∧ m.Pairwise (· < ·) ∧ ∀ x : Nat, x ∈ m ↔ ∃ j, x = i + j ∧ r[j]? = some false := by
  intro tbl
  induction tbl with
  | nil =>
    intro r i hl _
    have : r = [] := List.length_eq_zero_iff.1 hl
    subst this
    exact ⟨[], rfl, by simp, by simp⟩
  | cons t tbl ih =>
    intro r i hl h
    obtain ⟨b, r, rfl⟩ : ∃ b r', r = b :: r' := by
      cases r with
      | nil => simp at hl
      | cons b r => exact ⟨b, r, rfl⟩
    obtain ⟨m, e, hp, hm⟩ := ih r (i + 1) (by simpa using hl) (fun j u hu => by
      have := h (j + 1) u (by simpa using hu); omega)
    have ht : t.idx = i := by have := h 0 t rfl; omega
    have hshift : ∀ x, x ∈ m ↔ ∃ j, x = i + (j + 1) ∧ r[j]? = some false := by
      intro x; rw [hm]
      constructor
      · rintro ⟨j, a, c⟩; exact ⟨j, by omega, c⟩
      · rintro ⟨j, a, c⟩; exact ⟨j, by omega, c⟩
    simp only [List.zip_cons_cons, shrinkMap, ht, ne_eq, not_true_eq_false, if_false, e]
    refine ⟨_, rfl, ?_, ?_⟩
    · cases b with
      | true => simpa using hp
      | false =>
        simp only [Bool.false_eq_true, if_false, List.pairwise_cons]
        exact ⟨fun x hx => by obtain ⟨j, a, _⟩ := (hm x).1 hx; omega, hp⟩
    · intro x
      cases b with
      | true =>
        simp only [if_true]
        rw [hshift]
        constructor
        · rintro ⟨j, a, c⟩; exact ⟨j + 1, a, by simpa using c⟩
        · rintro ⟨j, a, c⟩
          cases j with
          | zero => simp at c
          | succ j => exact ⟨j, a, by simpa using c⟩
      | false =>
        simp only [Bool.false_eq_true, if_false, List.mem_cons]
        rw [hshift]
        constructor
        · rintro (rfl | ⟨j, a, c⟩)
          · exact ⟨0, by simp⟩
          · exact ⟨j + 1, a, by simpa using c⟩
        · rintro ⟨j, a, c⟩
          cases j with
          | zero => left; simpa using a
          | succ j => right; exact ⟨j, a, by simpa using c⟩

theorem revMap_foldl : ∀ (m : List Nat) (n : Nat) (d : Dict Nat Nat) (x : Nat), m.Nodup →
    Dict.get? ((m.zipIdx n).foldl (fun d p => Dict.set d p.1 p.2) d) x =
      match m.idxOf? x with
      | some j => some (n + j)
      | none => Dict.get? d x := by
  intro m
  induction m with
  | nil => intro n d x _; simp
  | cons a m ih =>
    intro n d x hn
    obtain ⟨h1, h2⟩ := List.nodup_cons.1 hn
    simp only [List.zipIdx_cons, List.foldl_cons]
    rw [ih (n + 1) _ x h2, List.idxOf?_cons]
    by_cases e : a = x
    · subst e
      have : List.idxOf? a m = none := by simpa using h1
      simp [this]
    · simp only [beq_iff_eq, e, if_false]
      cases hx : List.idxOf? x m with
      | none => simp [Dict.get?_set_ne _ _ e]
      | some j => simp; omega

theorem idxOf?_nat_get {l : List Nat} (hn : l.Nodup) {n o : Nat} (h : l[n]? = some o) : l.idxOf? o = some n := by
  induction l generalizing n with
  | nil => simp at h
  | cons a l ih =>
    obtain ⟨h1, h2⟩ := List.nodup_cons.1 hn
    rw [List.idxOf?_cons]
    cases n with
    | zero => simp at h; subst h; simp
    | succ n =>
      simp at h
      have : a ≠ o := by rintro rfl; exact h1 (List.mem_of_getElem? h)
      simp [this, ih h2 h]

theorem get?_revMap {m : List Nat} (hn : m.Nodup) {n o : Nat} (h : m[n]? = some o) : Dict.get? (revMap m) o = some n := by
  rw [revMap, revMap_foldl m 0 [] o hn, idxOf?_nat_get hn h]
  simp

/-! ## the new table -/

theorem newKids_ok {rev : Dict Nat Nat} {new : List Ty} : ∀ ks : List Ty,
    (∀ k ∈ ks, ∃ (m : Nat) (t : Ty), Dict.get? rev k.idx = some m ∧ new[m]? = some t) →
    ∃ ks', newKids rev new ks = .ok ks' ∧ List.Forall₂ (fun k k' => ∃ m : Nat, Dict.get? rev k.idx = some m ∧ new[m]? = some k') ks ks' := by
  intro ks
  induction ks with
  | nil => intro _; exact ⟨[], rfl, .nil⟩
  | cons k ks ih =>
    intro h
    obtain ⟨ks', e, hf⟩ := ih (fun k' hk' => h k' (by simp [hk']))
    obtain ⟨m, t, h1, h2⟩ := h k (by simp)
    exact ⟨t :: ks', by simp [newKids, h1, h2, e], .cons ⟨m, h1, h2⟩ hf⟩

/-- the loop making the new table, `done` being the part of the mapping already handled -/
theorem newTable_ok {tbl : List Ty} (hi : Indexed tbl) (hk : KidsEarlier tbl) {mapping : List Nat} (hp : mapping.Pairwise (· < ·))
    (hlt : ∀ x ∈ mapping, x < tbl.length)
    (hcl : ∀ (i : Nat) (t k : Ty), i ∈ mapping → tbl[i]? = some t → k ∈ t.kids → k.idx ∈ mapping) :
    ∀ (os done : List Nat) (new : List Ty), mapping = done ++ os → Shrunk tbl done new →
    ∃ new', newTable tbl (revMap mapping) os new = .ok new' ∧ Shrunk tbl mapping new' := by
  have hnd : mapping.Nodup := hp.imp (fun h => by omega)
  intro os
  induction os with
  | nil =>
    intro done new e hs
    simp at e; subst e
    exact ⟨new, rfl, hs⟩
  | cons o os ih =>
    intro done new e hs
    have ho : o ∈ mapping := by rw [e]; simp
    obtain ⟨t, ht⟩ : ∃ t, tbl[o]? = some t := ⟨tbl[o]'(hlt o ho), List.getElem?_eq_getElem (hlt o ho)⟩
    simp only [newTable, ht]
    -- kids sit in the part that is done
    have hkid : ∀ k ∈ t.kids, ∃ m : Nat, done[m]? = some k.idx ∧ m < done.length := by
      intro k hkk
      obtain ⟨h1, h2⟩ := KidsEarlier.idx_lt hi hk ht hkk
      have h3 := hcl o t k ho ht hkk
      rw [e] at h3
      rcases List.mem_append.1 h3 with h3 | h3
      · obtain ⟨m, hm, hme⟩ := List.getElem_of_mem h3
        exact ⟨m, by rw [List.getElem?_eq_getElem hm, hme], hm⟩
      · exfalso
        rw [e, List.pairwise_append] at hp
        rcases List.mem_cons.1 h3 with h3 | h3
        · omega
        · have := List.rel_of_pairwise_cons hp.2.1 h3
          omega
    have hget : ∀ (m x : Nat), done[m]? = some x → mapping[m]? = some x := by
      intro m x hm
      rw [e, List.getElem?_append_left (List.getElem?_eq_some_iff.1 hm).1]
      exact hm
    obtain ⟨ks', hks, hf⟩ := newKids_ok (rev := revMap mapping) (new := new) t.kids (by
      intro k hkk
      obtain ⟨m, hm, hml⟩ := hkid k hkk
      have hmn : m < new.length := by rw [hs.1]; exact hml
      exact ⟨m, new[m], get?_revMap hnd (hget m _ hm), List.getElem?_eq_getElem hmn⟩)
    simp only [hks]
    refine ih (done ++ [o]) _ (by simp [e]) ⟨by simp [hs.1], ?_⟩
    have lift : ∀ (a a' : List Ty) (n : Nat), n ≤ done.length →
        List.Forall₂ (fun k k' => ∃ m : Nat, done[m]? = some k.idx ∧ m < n ∧ new[m]? = some k') a a' →
        List.Forall₂ (fun k k' => ∃ m : Nat, (done ++ [o])[m]? = some k.idx ∧ m < n ∧
          (new ++ [{ t with idx := new.length, kids := ks' }])[m]? = some k') a a' := by
      intro a a' n hn hff
      refine hff.imp (fun k k' h => ?_)
      obtain ⟨m, x, y, z⟩ := h
      exact ⟨m, by rw [List.getElem?_append_left (by omega)]; exact x, y,
        by rw [List.getElem?_append_left (by rw [hs.1]; omega)]; exact z⟩
    intro n o' u hn hu
    by_cases hlt' : n < done.length
    · rw [List.getElem?_append_left hlt'] at hn
      obtain ⟨t', a, b, c, d, f, g⟩ := hs.2 n o' u hn hu
      exact ⟨t', by rw [List.getElem?_append_left (by rw [hs.1]; exact hlt')]; exact a, b, c, d, f, lift _ _ _ (by omega) g⟩
    · have hn' : n = done.length := by
        have := (List.getElem?_eq_some_iff.1 hn).1
        simp at this; omega
      subst hn'
      simp at hn; subst hn
      rw [ht] at hu; cases hu
      refine ⟨{ t with idx := new.length, kids := ks' }, by rw [← hs.1]; simp, rfl, rfl, rfl, hs.1, lift _ _ _ (le_refl _) ?_⟩
      have : List.Forall₂ (fun k k' => (∃ m : Nat, Dict.get? (revMap mapping) k.idx = some m ∧ new[m]? = some k') ∧ k ∈ t.kids) t.kids ks' := by
        rw [List.forall₂_iff_get] at hf ⊢
        exact ⟨hf.1, fun i h h' => ⟨hf.2 i h h', List.getElem_mem _⟩⟩
      refine this.imp (fun k k' h => ?_)
      obtain ⟨⟨m, h1, h2⟩, hkk⟩ := h
      obtain ⟨m', hm', hml⟩ := hkid k hkk
      have := get?_revMap hnd (hget m' _ hm')
      rw [this] at h1; cases h1
      exact ⟨m, hm', hml, h2⟩

/-- everything about a successful run, from the encodings of the lines -/
theorem shrinkVocab_ok {s : Scheme} (hi : Indexed s.table) (hk : KidsEarlier s.table) {lines : List Str} {encs : List (List Int)}
    (h : List.Forall₂ (fun l ids => s.encode l = .ok ids) lines encs) (hne : encs.flatten ≠ [])
    (hlt : ∀ i ∈ encs.flatten, i < s.table.length) (mf : Int) :
    ∃ mapping new, shrinkVocab s lines mf = .ok (mapping, new) ∧ mapping.Pairwise (· < ·) ∧
      (∀ i, i ∈ mapping ↔ Needed s.table encs.flatten mf i) ∧ Shrunk s.table mapping new := by
  have hf := shrinkFreqs_ok h []
  obtain ⟨top, ht, hlt'⟩ : ∃ top, pyMaxInt (Dict.keys (Dict.count [] encs.flatten)) = .ok top ∧ top < s.table.length := by
    cases hd : Dict.keys (Dict.count [] encs.flatten) with
    | nil =>
      obtain ⟨x, hx⟩ := List.exists_mem_of_ne_nil _ hne
      have := (Dict.mem_keys_count ([] : Dict Int Int) encs.flatten x).2 (.inr hx)
      rw [hd] at this; simp at this
    | cons x xs =>
      refine ⟨_, rfl, ?_⟩
      have h1 := (foldl_max_spec xs x).1
      rw [← hd] at h1
      rcases (Dict.mem_keys_count _ _ _).1 h1 with h2 | h2
      · simp [Dict.keys] at h2
      · exact hlt _ h2
  obtain ⟨r, hr, hl, hP, hmono, hclosed⟩ := keepLoop_ok hi hk (P := Needed s.table encs.flatten mf)
    (fun i t k hn ht hkk => .kid hn ht hkk) s.table.length (removals0 s.table (Dict.count [] encs.flatten) mf) (le_refl _)
    (removals0_length _ _ _) (fun x hx => by
      obtain ⟨t, a, b⟩ := removals0_false.1 hx
      exact .own a b)
    (fun j t hj ht' => by have := (List.getElem?_eq_some_iff.1 ht').1; omega)
  obtain ⟨m, hm, hpw, hmem⟩ := shrinkMap_ok s.table r 0 hl (fun j t hj => by rw [hi j t hj]; omega)
  have hmem' : ∀ x, x ∈ m ↔ Needed s.table encs.flatten mf x := by
    intro x
    rw [hmem]
    constructor
    · rintro ⟨j, a, b⟩
      have : x = j := by omega
      subst this
      exact hP x b
    · intro hn
      refine ⟨x, by omega, ?_⟩
      induction hn with
      | own a b => exact hmono _ (removals0_false.2 ⟨_, a, b⟩)
      | kid _ a b ih => exact hclosed _ _ a ih _ b
  have hneed : ∀ x, Needed s.table encs.flatten mf x → x < s.table.length := by
    intro x hx
    cases hx with
    | own a _ => exact (List.getElem?_eq_some_iff.1 a).1
    | kid _ a b => exact (List.getElem?_eq_some_iff.1 (KidsEarlier.idx_lt hi hk a b).2).1
  obtain ⟨new, hnew, hs⟩ := newTable_ok hi hk hpw (fun x hx => hneed x ((hmem' x).1 hx))
    (fun i t k him ht hkk => (hmem' _).2 (.kid ((hmem' i).1 him) ht hkk)) m [] [] (by simp) ⟨rfl, by simp⟩
  refine ⟨m, new, ?_, hpw, hmem', hs⟩
  simp only [shrinkVocab, hf, ht, hlt', not_true_eq_false, if_false, hr, hm, hnew]

/-! ## ids in the shrunk table -/

theorem pairwise_lt_get {l : List Nat} (h : l.Pairwise (· < ·)) {a b x y : Nat} (ha : l[a]? = some x) (hb : l[b]? = some y) :
    a < b ↔ x < y := by
  rw [List.pairwise_iff_getElem] at h
  obtain ⟨la, ea⟩ := List.getElem?_eq_some_iff.1 ha
  obtain ⟨lb, eb⟩ := List.getElem?_eq_some_iff.1 hb
  subst ea; subst eb
  constructor
  · exact h a b la lb
  · intro hlt
    by_contra hc
    rcases Nat.lt_or_eq_of_le (Nat.le_of_not_lt hc) with h1 | h1
    · have := h b a lb la h1; omega
    · subst h1; omega

/-- the first indices are kept in place if they are all kept -/
theorem mapping_prefix {l : List Nat} (h : l.Pairwise (· < ·)) {n : Nat} (hn : ∀ i < n, i ∈ l) : ∀ i < n, l[i]? = some i := by
  have hge : ∀ (j x : Nat), l[j]? = some x → j ≤ x := by
    intro j
    induction j with
    | zero => intro x _; omega
    | succ j ih =>
      intro x hx
      have hl := (List.getElem?_eq_some_iff.1 hx).1
      have h1 : l[j]? = some l[j] := List.getElem?_eq_getElem (by omega)
      have h2 := ih _ h1
      have h3 := (pairwise_lt_get h h1 hx).1 (by omega)
      omega
  intro i
  induction i with
  | zero =>
    intro h0
    obtain ⟨j, hj, e⟩ := List.getElem_of_mem (hn 0 h0)
    have := hge j 0 (by rw [List.getElem?_eq_getElem hj, e])
    have hj0 : j = 0 := by omega
    subst hj0
    rw [List.getElem?_eq_getElem hj, e]
  | succ i ih =>
    intro hi
    obtain ⟨j, hj, e⟩ := List.getElem_of_mem (hn (i + 1) hi)
    have hj' : l[j]? = some (i + 1) := by rw [List.getElem?_eq_getElem hj, e]
    have h1 := hge j _ hj'
    have h2 := (pairwise_lt_get h (ih (by omega)) hj').2 (by omega)
    have : j = i + 1 := by omega
    subst this
    exact hj'

theorem Spec.Shrunk.name_get {tbl new : List Ty} {mapping : List Nat} (hs : Shrunk tbl mapping new) (hlt : ∀ x ∈ mapping, x < tbl.length)
    {n o : Nat} (h : mapping[n]? = some o) : (names new)[n]? = (names tbl)[o]? := by
  have ho := hlt o (List.mem_of_getElem? h)
  obtain ⟨t', a, b, _⟩ := hs.2 n o tbl[o] h (List.getElem?_eq_getElem ho)
  simp [names, a, b, List.getElem?_eq_getElem ho]

theorem Spec.Shrunk.names_eq {tbl new : List Ty} {mapping : List Nat} (hs : Shrunk tbl mapping new) (hlt : ∀ x ∈ mapping, x < tbl.length) :
    names new = mapping.map fun o => ((names tbl)[o]?).getD [] := by
  apply List.ext_getElem?
  intro n
  rw [List.getElem?_map]
  cases h : mapping[n]? with
  | none =>
    rw [List.getElem?_eq_none_iff] at h
    simp [names, hs.1, h]
  | some o =>
    have ho := hlt o (List.mem_of_getElem? h)
    rw [hs.name_get hlt h]
    simp [names, List.getElem?_eq_getElem ho]

theorem Spec.Shrunk.indexed {tbl new : List Ty} {mapping : List Nat} (hs : Shrunk tbl mapping new) (hlt : ∀ x ∈ mapping, x < tbl.length) :
    Indexed new := by
  intro n t h
  have hl := (List.getElem?_eq_some_iff.1 h).1
  rw [hs.1] at hl
  have hm : mapping[n]? = some mapping[n] := List.getElem?_eq_getElem hl
  obtain ⟨t', a, _, _, _, b, _⟩ := hs.2 n _ _ hm (List.getElem?_eq_getElem (hlt _ (List.getElem_mem hl)))
  rw [h] at a; cases a
  exact b

theorem Spec.Shrunk.kidsEarlier {tbl new : List Ty} {mapping : List Nat} (hs : Shrunk tbl mapping new) (hlt : ∀ x ∈ mapping, x < tbl.length) :
    KidsEarlier new := by
  intro n t h k hk
  have hl := (List.getElem?_eq_some_iff.1 h).1
  rw [hs.1] at hl
  have hm : mapping[n]? = some mapping[n] := List.getElem?_eq_getElem hl
  obtain ⟨t', a, _, _, _, b, c⟩ := hs.2 n _ _ hm (List.getElem?_eq_getElem (hlt _ (List.getElem_mem hl)))
  rw [h] at a; cases a
  obtain ⟨i, hi, e⟩ := List.getElem_of_mem hk
  rw [List.forall₂_iff_get] at c
  have hil := c.1 ▸ hi
  obtain ⟨m, _, d, f⟩ := c.2 i hil hi
  refine ⟨m, d, ?_⟩
  rw [f]
  simp [e]

theorem Spec.Shrunk.nodup {tbl new : List Ty} {mapping : List Nat} (hs : Shrunk tbl mapping new) (hlt : ∀ x ∈ mapping, x < tbl.length)
    (hp : mapping.Pairwise (· < ·)) (hn : (names tbl).Nodup) : (names new).Nodup := by
  rw [hs.names_eq hlt]
  refine List.Nodup.map_on ?_ (hp.imp (fun h => by omega))
  intro x hx y hy e
  have h1 := hlt x hx
  have h2 := hlt y hy
  have l1 : x < (names tbl).length := by simpa [names] using h1
  have l2 : y < (names tbl).length := by simpa [names] using h2
  rw [List.getElem?_eq_getElem l1, List.getElem?_eq_getElem l2] at e
  exact (List.Nodup.getElem_inj_iff hn).1 (by simpa using e)

theorem idxOf?_first {l : List Str} {p : Str} {i : Nat} (h : l.idxOf? p = some i) : l[i]? = some p ∧ ∀ j < i, l[j]? ≠ some p := by
  refine ⟨idxOf?_some_get h, ?_⟩
  induction l generalizing i with
  | nil => simp at h
  | cons a l ih =>
    rw [List.idxOf?_cons] at h
    split at h
    · cases h; intro j hj; omega
    · rename_i hne
      simp at hne
      cases hx : l.idxOf? p with
      | none => simp [hx] at h
      | some i' =>
        simp [hx] at h; subst h
        intro j hj
        cases j with
        | zero => simpa using hne
        | succ j => simpa using ih hx j (by omega)

theorem idxOf?_of_first {l : List Str} {p : Str} {i : Nat} (h : l[i]? = some p) (hf : ∀ j < i, l[j]? ≠ some p) : l.idxOf? p = some i := by
  cases hx : l.idxOf? p with
  | none =>
    rw [List.idxOf?_eq_none_iff] at hx
    exact absurd (List.mem_of_getElem? h) hx
  | some j =>
    obtain ⟨a, b⟩ := idxOf?_first hx
    by_cases h1 : j < i
    · exact absurd a (hf j h1)
    · by_cases h2 : i < j
      · exact absurd h (b i h2)
      · congr 1; omega

theorem Spec.Shrunk.idxOf_some {tbl new : List Ty} {mapping : List Nat} (hs : Shrunk tbl mapping new) (hlt : ∀ x ∈ mapping, x < tbl.length)
    (hp : mapping.Pairwise (· < ·)) {p : Str} {i : Nat} (h : (names tbl).idxOf? p = some i) (hm : i ∈ mapping) :
    ∃ n, mapping[n]? = some i ∧ (names new).idxOf? p = some n := by
  obtain ⟨n, hn, e⟩ := List.getElem_of_mem hm
  have hn' : mapping[n]? = some i := by rw [List.getElem?_eq_getElem hn, e]
  obtain ⟨a, b⟩ := idxOf?_first h
  refine ⟨n, hn', idxOf?_of_first (by rw [hs.name_get hlt hn', a]) ?_⟩
  intro j hj
  have hj' : mapping[j]? = some mapping[j] := List.getElem?_eq_getElem (by omega)
  rw [hs.name_get hlt hj']
  exact b _ ((pairwise_lt_get hp hj' hn').1 hj)

theorem Spec.Shrunk.idxOf_none {tbl new : List Ty} {mapping : List Nat} (hs : Shrunk tbl mapping new) (hlt : ∀ x ∈ mapping, x < tbl.length)
    {p : Str} (h : (names tbl).idxOf? p = none) : (names new).idxOf? p = none := by
  rw [List.idxOf?_eq_none_iff] at h ⊢
  rw [hs.names_eq hlt]
  intro hc
  obtain ⟨o, ho, e⟩ := List.mem_map.1 hc
  have l1 : o < (names tbl).length := by simpa [names] using hlt o ho
  rw [List.getElem?_eq_getElem l1] at e
  exact h (by rw [← e]; exact List.getElem_mem l1)

theorem Spec.Shrunk.names_subset {tbl new : List Ty} {mapping : List Nat} (hs : Shrunk tbl mapping new) (hlt : ∀ x ∈ mapping, x < tbl.length)
    {p : Str} (h : p ∈ names new) : p ∈ names tbl := by
  by_contra hc
  exact (List.idxOf?_eq_none_iff.1 (hs.idxOf_none hlt (List.idxOf?_eq_none_iff.2 hc))) h

/-! ## greedy segmentation over fewer names -/

theorem greedy_restrict {ns ns' : List Str} {s : Str} {out : List (Option Str)} (h : Greedy ns s out)
    (hsub : ∀ w ∈ ns', w ∈ ns) (hused : ∀ w, some w ∈ out → w ∈ ns') : Greedy ns' s out := by
  induction h with
  | nil => exact .nil
  | tok h1 _ h3 _ ih =>
    exact .tok h1 (hused _ (by simp)) (fun w' hw' => h3 w' (hsub w' hw')) (ih (fun w hw => hused w (by simp [hw])))
  | unk h1 _ ih => exact .unk (fun w hw => h1 w (hsub w hw)) (ih (fun w hw => hused w (by simp [hw])))

/-! ## the byte scheme -/

theorem idsOf_byte {s : Scheme} (hk : s.kind = .byte) (hd : DictOK s) (ps : List Str) (h : ∀ p ∈ ps, p ∈ s.idxToStr) :
    s.idsOf ps = .ok (ps.map s.idOf) := by
  induction ps with
  | nil => rfl
  | cons p ps ih =>
    simp only [Scheme.idsOf, ih (fun q hq => h q (by simp [hq])), List.map_cons, Scheme.idOf, hd.get, hk]
    cases hg : s.idxToStr.idxOf? p with
    | none => exact absurd (h p (by simp)) (List.idxOf?_eq_none_iff.1 hg)
    | some i => rfl

theorem idsOf_byte_ok {s : Scheme} (hk : s.kind = .byte) (hd : DictOK s) : ∀ {ps : List Str} {ids : List Int}, s.idsOf ps = .ok ids →
    (∀ p ∈ ps, p ∈ s.idxToStr) ∧ ids = ps.map s.idOf := by
  intro ps
  induction ps with
  | nil => intro ids h; simp [Scheme.idsOf] at h; subst h; simp
  | cons p ps ih =>
    intro ids h
    simp only [Scheme.idsOf, hd.get, hk] at h
    cases hg : s.idxToStr.idxOf? p with
    | none => simp [hg] at h
    | some i =>
      simp only [hg] at h
      cases hr : s.idsOf ps with
      | error e => simp [hr] at h
      | ok is =>
        simp only [hr] at h
        obtain ⟨h1, h2⟩ := ih hr
        cases h
        subst h2
        have hp : p ∈ s.idxToStr := List.mem_of_getElem? (idxOf?_some_get hg)
        refine ⟨?_, by simp [Scheme.idOf, hg]⟩
        intro q hq
        rcases List.mem_cons.1 hq with rfl | hq
        · exact hp
        · exact h1 q hq

theorem validateReserved_of_get {tbl : List Ty} (h : ∀ (i : Nat) (n : Str), reservedNames[i]? = some n → (names tbl)[i]? = some n) :
    validateReserved tbl = .ok () := by
  have key : ∀ (l : List Str) (i : Nat), (∀ (j : Nat) (n : Str), l[j]? = some n → (names tbl)[i + j]? = some n) →
      validateReserved.go tbl l i = .ok () := by
    intro l
    induction l with
    | nil => intro i _; rfl
    | cons a l ih =>
      intro i hl
      have h0 := hl 0 a rfl
      simp only [names, add_zero, List.getElem?_map, Option.map_eq_some_iff] at h0
      obtain ⟨t, ht, hn⟩ := h0
      simp only [validateReserved.go, ht, hn, if_true]
      refine ih (i + 1) (fun j n hj => ?_)
      have := hl (j + 1) n (by simpa using hj)
      rw [← this]; congr 1; omega
  exact key _ 0 (by simpa using h)

end Verif
