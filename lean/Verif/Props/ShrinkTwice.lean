import Verif.Props.Shrink
/-!
# Property C115: shrinking to a text and then to a part of it is shrinking to the part

-/

namespace Verif
open Spec

/-- a part of a part -/
theorem Spec.Shrunk.trans {t1 t2 t3 : List Ty} {m1 m2 : List Nat} (h1 : Shrunk t1 m1 t2) (h2 : Shrunk t2 m2 t3) (hlt1 : ∀ x ∈ m1, x < t1.length)
    (hlt2 : ∀ x ∈ m2, x < t2.length) : Shrunk t1 (m2.map fun i => m1.getD i 0) t3 := by
  refine ⟨by rw [h2.1, List.length_map], fun n o t hn ht => ?_⟩
  rw [List.getElem?_map] at hn
  cases hb : m2[n]? with
  | none => rw [hb] at hn; cases hn
  | some b =>
    rw [hb, Option.map_some, Option.some.injEq] at hn
    have hb2 := hlt2 b (List.mem_of_getElem? hb)
    have hb1 : b < m1.length := h1.1 ▸ hb2
    have ho : m1[b]? = some o := by
      rw [List.getElem?_eq_getElem hb1, ← hn, List.getD_eq_getElem?_getD, List.getElem?_eq_getElem hb1]; rfl
    obtain ⟨u, u1, u2, u3, u4, u5, u6⟩ := h1.2 b o t ho ht
    obtain ⟨w, w1, w2, w3, w4, w5, w6⟩ := h2.2 n b u hb u1
    refine ⟨w, w1, w2.trans u2, w3.trans u3, w4.trans u4, w5, ?_⟩
    revert w6 u6
    generalize w.kids = wk
    generalize u.kids = uk
    generalize t.kids = tk
    intro u6 w6
    induction u6 generalizing wk with
    | nil => cases w6; exact .nil
    | @cons x y xs ys hxy _ ih =>
      cases w6 with
      | @cons _ z _ zs hyz hrest =>
        refine .cons ?_ (ih _ hrest)
        obtain ⟨m, a1, a2, a3⟩ := hxy
        obtain ⟨m', c1, c2, c3⟩ := hyz
        have hy : y.idx = m := h1.indexed hlt1 m y a3
        refine ⟨m', ?_, c2, c3⟩
        rw [List.getElem?_map, c1, Option.map_some, hy, List.getD_eq_getElem?_getD, a1]; rfl

/-- the part selected by a mapping is determined -/
theorem Spec.Shrunk.unique {tbl a b : List Ty} {m : List Nat} (ha : Shrunk tbl m a) (hb : Shrunk tbl m b) (hp : m.Nodup)
    (hlt : ∀ x ∈ m, x < tbl.length) : a = b := by
  have key : ∀ n : Nat, a[n]? = b[n]? := by
    intro n
    induction n using Nat.strong_induction_on with
    | _ n ih =>
      cases hn : m[n]? with
      | none =>
        have := List.getElem?_eq_none_iff.1 hn
        rw [List.getElem?_eq_none (by rw [ha.1]; exact this), List.getElem?_eq_none (by rw [hb.1]; exact this)]
      | some o =>
        obtain ⟨t, ht⟩ : ∃ t, tbl[o]? = some t := ⟨_, List.getElem?_eq_getElem (hlt o (List.mem_of_getElem? hn))⟩
        obtain ⟨u, u1, u2, u3, u4, u5, u6⟩ := ha.2 n o t hn ht
        obtain ⟨w, w1, w2, w3, w4, w5, w6⟩ := hb.2 n o t hn ht
        rw [u1, w1]
        congr 1
        have hk : u.kids = w.kids := by
          revert u6 w6
          generalize u.kids = uk
          generalize w.kids = wk
          generalize t.kids = tk
          intro u6
          induction u6 generalizing wk with
          | nil => intro w6; cases w6; rfl
          | @cons x y xs ys hxy _ ih2 =>
            intro w6
            cases w6 with
            | @cons _ z _ zs hxz hrest =>
              rw [ih2 _ hrest]
              congr 1
              obtain ⟨i, a1, a2, a3⟩ := hxy
              obtain ⟨j, c1, c2, c3⟩ := hxz
              have hij : i = j := by
                have hi := (List.getElem?_eq_some_iff.1 a1).1
                exact (List.getElem?_inj hi hp).1 (a1.trans c1.symm)
              subst hij
              rw [ih i a2, c3] at a3
              exact (Option.some.inj a3).symm
        cases u; cases w
        simp_all
  exact List.ext_getElem? key

/-- C115: with `min_freq ≤ 1`, shrinking to some lines and shrinking the result to a part of these lines gives the table, and the composed mapping, of
shrinking to the part at once. -/
theorem C115_part {k : Kind} {tbl : List Ty} {s : Scheme} (hs : Scheme.make k tbl = .ok s) (hi : Indexed s.table) (hk : KidsEarlier s.table)
    (hres : k ≠ .clasz → k ≠ .byte → ∀ (i : Nat) (t : Ty), i < 6 → s.table[i]? = some t → t.level = -1)
    {lines part : List Str} (hsub : ∀ l ∈ part, l ∈ lines) {encs : List (List Int)} (he : List.Forall₂ (fun l ids => s.encode l = .ok ids) lines encs)
    (hne : ∃ l ∈ part, ∃ ids, s.encode l = .ok ids ∧ ids ≠ []) {minFreq : Int} (hmf : minFreq ≤ 1) :
    ∃ m1 new1 s1 m2 new2, shrinkVocab s lines minFreq = .ok (m1, new1) ∧ Scheme.make k new1 = .ok s1 ∧
      shrinkVocab s1 part minFreq = .ok (m2, new2) ∧ (∀ i ∈ m2, i < m1.length) ∧
      shrinkVocab s part minFreq = .ok (m2.map (fun i => m1.getD i 0), new2) := by
  have hall : ∀ l ∈ lines, ∃ ids, s.encode l = .ok ids := by
    intro l hl
    obtain ⟨j, hj, e⟩ := List.getElem_of_mem hl
    rw [List.forall₂_iff_get] at he
    have := he.2 j hj (he.1 ▸ hj)
    exact ⟨_, by rw [← e]; exact this⟩
  have hflat : ∀ {L : List Str} {E : List (List Int)}, List.Forall₂ (fun l ids => s.encode l = .ok ids) L E → ∀ l ∈ L, ∀ ids, s.encode l = .ok ids →
      ids ∈ E := by
    intro L E h l hl ids hid
    obtain ⟨j, hj, e⟩ := List.getElem_of_mem hl
    rw [List.forall₂_iff_get] at h
    have := h.2 j hj (h.1 ▸ hj)
    simp only [List.get_eq_getElem, e, hid, Except.ok.injEq] at this
    rw [this]
    exact List.getElem_mem _
  obtain ⟨l0, hl0, ids0, hi0, hn0⟩ := hne
  have hne1 : encs.flatten ≠ [] := by
    obtain ⟨x, hx⟩ := List.exists_mem_of_ne_nil _ hn0
    exact List.ne_nil_of_mem (List.mem_flatten.2 ⟨ids0, hflat he l0 (hsub _ hl0) _ hi0, hx⟩)
  obtain ⟨m1, new1, s1, h1, hm, ht, htr⟩ := C29_same_encoding hs hi hk hres he hne1 hmf
  obtain ⟨m1', new1', h1', hp1, hmem1, hsh1⟩ := C28_keeps_needed hs hi hk he hne1 minFreq
  rw [h1] at h1'
  cases h1'
  have hneeded : ∀ {ids : List Int} {x : Nat}, Needed s.table ids minFreq x → x < s.table.length := by
    intro ids x hx
    cases hx with
    | own a _ => exact (List.getElem?_eq_some_iff.1 a).1
    | kid _ a b => exact (List.getElem?_eq_some_iff.1 (KidsEarlier.idx_lt hi hk a b).2).1
  have hlt1 : ∀ x ∈ m1, x < s.table.length := fun x hx => hneeded ((hmem1 x).1 hx)
  subst ht
  have hi1 := hsh1.indexed hlt1
  have hk1 := hsh1.kidsEarlier hlt1
  -- the encodings of the part by both schemes
  obtain ⟨pe, pe1, hpe, hpe1, hpt⟩ : ∃ pe pe1, List.Forall₂ (fun l ids => s.encode l = .ok ids) part pe ∧
      List.Forall₂ (fun l ids => s1.encode l = .ok ids) part pe1 ∧ List.Forall₂ (List.Forall₂ (Translates m1)) pe1 pe := by
    clear hl0 hi0 hn0
    induction part with
    | nil => exact ⟨[], [], .nil, .nil, .nil⟩
    | cons l part ih =>
      obtain ⟨pe, pe1, a, b, c⟩ := ih (fun l hl => hsub l (by simp [hl]))
      obtain ⟨ids, hids⟩ := hall l (hsub l (by simp))
      obtain ⟨ids', x, y⟩ := htr l (hsub l (by simp)) ids hids
      exact ⟨ids :: pe, ids' :: pe1, .cons hids a, .cons x b, .cons y c⟩
  have hft : List.Forall₂ (Translates m1) pe1.flatten pe.flatten := by
    clear hpe hpe1
    induction hpt with
    | nil => exact .nil
    | cons h _ ih => exact List.rel_append h ih
  have hnp : pe.flatten ≠ [] := by
    obtain ⟨x, hx⟩ := List.exists_mem_of_ne_nil _ hn0
    exact List.ne_nil_of_mem (List.mem_flatten.2 ⟨ids0, hflat hpe l0 hl0 _ hi0, hx⟩)
  have hnp1 : pe1.flatten ≠ [] := by
    intro e
    rw [e] at hft
    exact hnp (List.forall₂_nil_left_iff.1 hft)
  obtain ⟨m, new, h3, hp3, hmem3, hsh3⟩ := C28_keeps_needed hs hi hk hpe hnp minFreq
  obtain ⟨m2, new2, h2, hp2, hmem2, hsh2⟩ := C28_keeps_needed hm hi1 hk1 hpe1 hnp1 minFreq
  have hneeded1 : ∀ {ids : List Int} {x : Nat}, Needed s1.table ids minFreq x → x < s1.table.length := by
    intro ids x hx
    cases hx with
    | own a _ => exact (List.getElem?_eq_some_iff.1 a).1
    | kid _ a b => exact (List.getElem?_eq_some_iff.1 (KidsEarlier.idx_lt hi1 hk1 a b).2).1
  have hlt2 : ∀ x ∈ m2, x < s1.table.length := fun x hx => hneeded1 ((hmem2 x).1 hx)
  have hlt3 : ∀ x ∈ m, x < s.table.length := fun x hx => hneeded ((hmem3 x).1 hx)
  have hlt21 : ∀ x ∈ m2, x < m1.length := fun x hx => hsh1.1 ▸ hlt2 x hx
  have hnd1 : m1.Nodup := hp1.imp (fun h => Nat.ne_of_lt h)
  -- occurrence of an id in both encodings
  have hocc : ∀ {n o : Nat}, m1[n]? = some o → ((n : Int) ∈ pe1.flatten ↔ (o : Int) ∈ pe.flatten) := by
    intro n o hno
    revert hft
    generalize pe1.flatten = x
    generalize pe.flatten = y
    intro hft
    induction hft with
    | nil => simp
    | @cons a b x y hab _ ih =>
      rw [List.mem_cons, List.mem_cons, ih]
      refine or_congr ?_ Iff.rfl
      rcases hab with ⟨rfl, rfl⟩ | ⟨c, d, rfl, rfl, hcd⟩
      · constructor <;> intro h <;> omega
      · constructor
        · intro h
          have : n = c := by omega
          subst this
          rw [hno] at hcd
          cases hcd
          rfl
        · intro h
          have : o = d := by omega
          subst this
          have hn := (List.getElem?_eq_some_iff.1 hno).1
          have := (List.getElem?_inj hn hnd1).1 (hno.trans hcd.symm)
          rw [this]
  have hcnt : ∀ (l : List Int) (x : Int), minFreq ≤ l.count x ↔ (minFreq ≤ 0 ∨ x ∈ l) := by
    intro l x
    rw [← List.count_pos_iff]
    omega
  have mono : ∀ {x : Nat}, Needed s.table pe.flatten minFreq x → Needed s.table encs.flatten minFreq x := by
    intro x hx
    induction hx with
    | own a b =>
      refine .own a (b.imp id fun h => ?_)
      rw [hcnt] at h ⊢
      refine h.imp id fun h => ?_
      obtain ⟨ids, c1, c2⟩ := List.mem_flatten.1 h
      obtain ⟨j, hj, e⟩ := List.getElem_of_mem c1
      have hpe' := hpe
      rw [List.forall₂_iff_get] at hpe'
      have hj' : j < part.length := hpe'.1 ▸ hj
      have h5 := hpe'.2 j hj' hj
      simp only [List.get_eq_getElem, e] at h5
      exact List.mem_flatten.2 ⟨ids, hflat he _ (hsub _ (List.getElem_mem hj')) _ h5, c2⟩
    | kid _ b c ih => exact .kid ih b c
  have hback : ∀ {n o : Nat}, Needed s.table pe.flatten minFreq o → m1[n]? = some o → Needed s1.table pe1.flatten minFreq n := by
    intro n o h
    induction h generalizing n with
    | @own o t hot hor =>
      intro hno
      obtain ⟨u, u1, _, u3, _⟩ := hsh1.2 n o t hno hot
      refine .own u1 (hor.imp (fun h => u3.trans h) fun h => ?_)
      rw [hcnt] at h ⊢
      exact h.imp id (hocc hno).2
    | @kid o t kd hn0 hot hkd ih =>
      intro hno
      obtain ⟨n0, hn0'⟩ : ∃ n0, m1[n0]? = some o := by
        have : o ∈ m1 := by
          refine (hmem1 o).2 ?_
          exact mono hn0
        exact List.getElem?_of_mem this
      obtain ⟨u, u1, _, _, _, _, u6⟩ := hsh1.2 n0 o t hn0' hot
      obtain ⟨j, hj, e⟩ := List.getElem_of_mem hkd
      rw [List.forall₂_iff_get] at u6
      have hj' : j < u.kids.length := u6.1 ▸ hj
      obtain ⟨q, q1, q2, q3⟩ := u6.2 j hj hj'
      simp only [List.get_eq_getElem, e] at q1 q3
      have hqn : q = n := (List.getElem?_inj (List.getElem?_eq_some_iff.1 q1).1 hnd1).1 (q1.trans hno.symm)
      subst hqn
      have := Needed.kid (ih hn0') u1 (List.getElem_mem hj')
      rwa [hi1 q _ q3] at this
  have hforth : ∀ {n : Nat}, Needed s1.table pe1.flatten minFreq n → ∀ {o : Nat}, m1[n]? = some o → Needed s.table pe.flatten minFreq o := by
    intro n h
    induction h with
    | @own n u hnu hor =>
      intro o hno
      obtain ⟨t, ht⟩ : ∃ t, s.table[o]? = some t := ⟨_, List.getElem?_eq_getElem (hlt1 o (List.mem_of_getElem? hno))⟩
      obtain ⟨u', u1, _, u3, _⟩ := hsh1.2 n o t hno ht
      rw [hnu] at u1
      cases u1
      refine .own ht (hor.imp (fun h => u3.symm.trans h) fun h => ?_)
      rw [hcnt] at h ⊢
      exact h.imp id (hocc hno).1
    | @kid n u kd hn0 hnu hkd ih =>
      intro o hno
      have hn1 : n < m1.length := hsh1.1 ▸ (List.getElem?_eq_some_iff.1 hnu).1
      obtain ⟨o1, ho1⟩ : ∃ o1, m1[n]? = some o1 := ⟨_, List.getElem?_eq_getElem hn1⟩
      obtain ⟨t, ht⟩ : ∃ t, s.table[o1]? = some t := ⟨_, List.getElem?_eq_getElem (hlt1 o1 (List.mem_of_getElem? ho1))⟩
      obtain ⟨u', u1, _, _, _, _, u6⟩ := hsh1.2 n o1 t ho1 ht
      rw [hnu] at u1
      cases u1
      obtain ⟨j, hj, e⟩ := List.getElem_of_mem hkd
      rw [List.forall₂_iff_get] at u6
      have hj' : j < t.kids.length := u6.1 ▸ hj
      obtain ⟨q, q1, q2, q3⟩ := u6.2 j hj' hj
      simp only [List.get_eq_getElem, e] at q1 q3
      rw [hi1 q _ q3, q1] at hno
      cases hno
      exact .kid (ih ho1) ht (List.getElem_mem hj')
  have hget : ∀ {i : Nat}, i < m1.length → m1[i]? = some (m1.getD i 0) := by
    intro i h
    rw [List.getD_eq_getElem?_getD, List.getElem?_eq_getElem h]; rfl
  have hmm : m = m2.map (fun i => m1.getD i 0) := by
    have hps : (m2.map (fun i => m1.getD i 0)).Pairwise (· < ·) := by
      rw [List.pairwise_map]
      refine (List.Pairwise.imp_of_mem ?_ hp2)
      intro a b ha hb hab
      have h1 := hget (hlt21 a ha)
      have h2 := hget (hlt21 b hb)
      exact (pairwise_lt_get hp1 h1 h2).1 hab
    refine List.Perm.eq_of_pairwise (le := (· < ·)) (fun a b _ _ h1 h2 => absurd h1 (by omega)) hp3 hps ?_
    refine (List.perm_ext_iff_of_nodup (hp3.imp (fun h => Nat.ne_of_lt h)) (hps.imp (fun h => Nat.ne_of_lt h))).2 fun o => ?_
    rw [hmem3, List.mem_map]
    constructor
    · intro h
      have ho : o ∈ m1 := by
        refine (hmem1 o).2 ?_
        exact mono h
      obtain ⟨n, hn⟩ := List.getElem?_of_mem ho
      refine ⟨n, (hmem2 n).2 (hback h hn), ?_⟩
      rw [List.getD_eq_getElem?_getD, hn]; rfl
    · rintro ⟨n, hn, rfl⟩
      exact hforth ((hmem2 n).1 hn) (hget (hlt21 n hn))
  subst hmm
  have := (hsh1.trans hsh2 hlt1 hlt2).unique hsh3 (hp3.imp (fun h => Nat.ne_of_lt h)) hlt3
  subst this
  exact ⟨m1, s1.table, s1, m2, new2, h1, hm, h2, hlt21, h3⟩

/-- C115: shrinking again with the same lines keeps every type in its place. -/
theorem C115_again {k : Kind} {tbl : List Ty} {s : Scheme} (hs : Scheme.make k tbl = .ok s) (hi : Indexed s.table) (hk : KidsEarlier s.table)
    (hres : k ≠ .clasz → k ≠ .byte → ∀ (i : Nat) (t : Ty), i < 6 → s.table[i]? = some t → t.level = -1)
    {lines : List Str} {encs : List (List Int)} (he : List.Forall₂ (fun l ids => s.encode l = .ok ids) lines encs) (hne : encs.flatten ≠ [])
    {minFreq : Int} (hmf : minFreq ≤ 1) :
    ∃ m new s', shrinkVocab s lines minFreq = .ok (m, new) ∧ Scheme.make k new = .ok s' ∧
      shrinkVocab s' lines minFreq = .ok (List.range new.length, new) := by
  have hne' : ∃ l ∈ lines, ∃ ids, s.encode l = .ok ids ∧ ids ≠ [] := by
    clear hmf
    induction he with
    | nil => exact absurd rfl hne
    | @cons l ids ls E h _ ih =>
      by_cases h0 : ids = []
      · subst h0
        obtain ⟨l', a, b⟩ := ih hne
        exact ⟨l', by simp [a], b⟩
      · exact ⟨l, by simp, ids, h, h0⟩
  obtain ⟨m1, new1, s1, m2, new2, h1, h2, h3, h4, h5⟩ := C115_part hs hi hk hres (fun l h => h) he hne' hmf
  obtain ⟨m1', new1', h1', hp1, _, hsh1⟩ := C28_keeps_needed hs hi hk he hne minFreq
  rw [h1] at h5 h1'
  cases h1'
  simp only [Except.ok.injEq, Prod.mk.injEq] at h5
  obtain ⟨e1, rfl⟩ := h5
  have hm2 : m2 = List.range new1.length := by
    have hl := congrArg List.length e1
    rw [List.length_map] at hl
    apply List.ext_getElem
    · rw [List.length_range, hsh1.1, hl]
    · intro j hj hj'
      rw [List.getElem_range]
      have hb := h4 _ (List.getElem_mem hj)
      have h6 : m1[j]? = m1[m2[j]]? := by
        conv_lhs => rw [e1]
        rw [List.getElem?_map, List.getElem?_eq_getElem hj, Option.map_some, List.getD_eq_getElem?_getD, List.getElem?_eq_getElem hb]; rfl
      exact ((List.getElem?_inj (hl ▸ hj) (hp1.imp (fun h => Nat.ne_of_lt h))).1 h6).symm
  subst hm2
  exact ⟨m1, new1, s1, h1, h2, h3⟩

/-- a BPE vocabulary with pieces that overlap -/
def exTwiceTbl : List Ty :=
  let a : Ty := ⟨lit "a", 0, 6, 5, []⟩
  let b : Ty := ⟨lit "b", 0, 7, 4, []⟩
  let c : Ty := ⟨lit "c", 0, 8, 3, []⟩
  let d : Ty := ⟨lit "d", 0, 9, 3, []⟩
  reservedTypes ++ [a, b, c, d, ⟨lit "ab", 1, 10, 3, [a, b]⟩, ⟨lit "bc", 1, 11, 2, [b, c]⟩, ⟨lit "cd", 1, 12, 2, [c, d]⟩]

/-- "ab" and "d" keep four types, "d" alone is the third of them -/
example : (withScheme .bpe exTwiceTbl fun s => match shrinkVocab s [lit "ab", lit "d"] 1 with
    | .error e => .error e
    | .ok (m1, new1) => withScheme .bpe new1 fun s1 => match shrinkVocab s1 [lit "d"] 1 with
      | .error e => .error e
      | .ok (m2, new2) => match shrinkVocab s [lit "d"] 1 with
        | .error e => .error e
        | .ok (m, new) => .ok (m1, m2, m, decide (names new = names new2))) =
    .ok ([0, 1, 2, 3, 4, 5, 6, 7, 9, 10], [0, 1, 2, 3, 4, 5, 8], [0, 1, 2, 3, 4, 5, 9], true) := by decide +kernel

/-- the bound on `min_freq` is needed: with 2, "ab" is dropped at first, so that "abcd" is split otherwise and "cd" is dropped the second time -/
theorem C115_bound_needed : (withScheme .bpe exTwiceTbl fun s => match shrinkVocab s [lit "abcd cd bc bc a a"] 2 with
    | .error e => .error e
    | .ok (_, new1) => withScheme .bpe new1 fun s1 => match shrinkVocab s1 [lit "abcd cd bc bc a a"] 2 with
      | .error e => .error e
      | .ok (_, new2) => .ok ((names new1).drop 6, (names new2).drop 6)) =
    .ok ([lit "a", lit "b", lit "c", lit "d", lit "bc", lit "cd"], [lit "a", lit "b", lit "c", lit "bc"]) := by decide +kernel

end Verif
