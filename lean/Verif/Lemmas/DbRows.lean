import Verif.Lemmas.Db
/-! # Lemmas about databases with several columns -/

namespace Verif

theorem perm_map_inv {α β : Type} {f : α → β} {m : List β} : ∀ {l : List α}, m.Perm (l.map f) → ∃ l' : List α, l'.Perm l ∧ m = l'.map f := by
  induction m with
  | nil =>
    intro l h
    have : l = [] := by simpa using h.symm.eq_nil
    subst this
    exact ⟨[], List.Perm.refl _, rfl⟩
  | cons b m ih =>
    intro l h
    obtain ⟨a, ha, rfl⟩ := List.mem_map.1 (h.mem_iff.1 (List.mem_cons_self ..))
    obtain ⟨s, t, rfl⟩ := List.append_of_mem ha
    have h2 : (f a :: m).Perm (f a :: (s ++ t).map f) := by
      refine h.trans ?_
      simpa using List.perm_middle (a := f a) (l₁ := s.map f) (l₂ := t.map f)
    obtain ⟨l', h3, rfl⟩ := ih ((List.perm_cons _).1 h2)
    exact ⟨a :: l', (h3.cons a).trans List.perm_middle.symm, rfl⟩

variable {κ : Type} [DecidableEq κ]

/-- column `j` of the records; absent columns count as empty -/
def column (recs : List (κ × List (List Int))) (j : Nat) : List (κ × List Int) := recs.map fun r => (r.1, r.2.getD j [])

theorem appendRow_ok {bufSize : Nat} {id : κ} {bs bs1 : List (Builder κ)} {cs : List (List Int)} (hl : cs.length = bs.length)
    (h : appendRow bufSize id bs cs = .ok bs1) : bs1.length = bs.length ∧
    ∀ (j : Nat) (b : Builder κ), bs[j]? = some b → ∃ b1, bs1[j]? = some b1 ∧ b.append bufSize id (cs.getD j []) = .ok b1 := by
  induction bs generalizing cs bs1 with
  | nil =>
    cases cs with
    | nil => simp only [appendRow, Except.ok.injEq] at h; subst h; simp
    | cons c cs => simp at hl
  | cons b bs ih =>
    cases cs with
    | nil => simp at hl
    | cons c cs =>
      simp only [appendRow] at h
      cases ha : b.append bufSize id c with
      | error e => simp [ha] at h
      | ok b1 =>
        simp only [ha] at h
        cases hr : appendRow bufSize id bs cs with
        | error e => simp [hr] at h
        | ok bs2 =>
          simp only [hr, Except.ok.injEq] at h
          subst h
          obtain ⟨i1, i2⟩ := ih (by simpa using hl) hr
          refine ⟨by simp [i1], ?_⟩
          intro j b' hj
          cases j with
          | zero => simp only [List.getElem?_cons_zero, Option.some.injEq] at hj; subst hj; exact ⟨b1, rfl, by simpa using ha⟩
          | succ j =>
            simp only [List.getElem?_cons_succ] at hj
            obtain ⟨b2, g1, g2⟩ := i2 j b' hj
            exact ⟨b2, by simpa using g1, by simpa using g2⟩

theorem appendRows_ok {bufSize : Nat} {bs bs1 : List (Builder κ)} {recs : List (κ × List (List Int))}
    (h : appendRows bufSize bs recs = .ok bs1) : bs1.length = bs.length ∧ (∀ r ∈ recs, r.2.length = bs.length) ∧
    ∀ (j : Nat) (b : Builder κ), bs[j]? = some b → ∃ b1, bs1[j]? = some b1 ∧ b.appendAll bufSize (column recs j) = .ok b1 := by
  induction recs generalizing bs with
  | nil =>
    simp only [appendRows, Except.ok.injEq] at h; subst h
    exact ⟨rfl, by simp, fun j b hj => ⟨b, hj, rfl⟩⟩
  | cons r rs ih =>
    obtain ⟨id, cs⟩ := r
    simp only [appendRows] at h
    split at h
    · cases h
    · rename_i hl
      have hl := not_not.1 hl
      cases ha : appendRow bufSize id bs cs with
      | error e => simp [ha] at h
      | ok bs2 =>
        simp only [ha] at h
        obtain ⟨a1, a2⟩ := appendRow_ok hl ha
        obtain ⟨i1, i2, i3⟩ := ih h
        refine ⟨by omega, ?_, ?_⟩
        · intro r hr
          rcases List.mem_cons.1 hr with rfl | hr
          · exact hl
          · rw [i2 r hr, a1]
        · intro j b hj
          obtain ⟨b2, g1, g2⟩ := a2 j b hj
          obtain ⟨b3, g3, g4⟩ := i3 j b2 g1
          exact ⟨b3, g3, by simp only [column, List.map_cons, Builder.appendAll, g2]; exact g4⟩

omit [DecidableEq κ] in
theorem buildAll_ok {ns : List Str} {bs : List (Builder κ)} {fs : List (SeqField κ)} (hl : bs.length = ns.length) (h : buildAll ns bs = .ok fs) :
    fs.length = ns.length ∧ ∀ (j : Nat) (b : Builder κ) (n : Str), bs[j]? = some b → ns[j]? = some n → ∃ f, fs[j]? = some f ∧ b.build n = .ok f := by
  induction ns generalizing bs fs with
  | nil =>
    cases bs with
    | nil => simp only [buildAll, Except.ok.injEq] at h; subst h; simp
    | cons => simp at hl
  | cons n ns ih =>
    cases bs with
    | nil => simp at hl
    | cons b bs =>
      simp only [buildAll] at h
      cases hb : b.build n with
      | error e => simp [hb] at h
      | ok f =>
        simp only [hb] at h
        cases hr : buildAll ns bs with
        | error e => simp [hr] at h
        | ok fs2 =>
          simp only [hr, Except.ok.injEq] at h
          subst h
          obtain ⟨i1, i2⟩ := ih (by simpa using hl) hr
          refine ⟨by simp [i1], ?_⟩
          intro j b' n' hj hn
          cases j with
          | zero =>
            simp only [List.getElem?_cons_zero, Option.some.injEq] at hj hn
            subst hj; subst hn
            exact ⟨f, rfl, hb⟩
          | succ j =>
            simp only [List.getElem?_cons_succ] at hj hn ⊢
            exact i2 j b' n' hj hn

theorem createMany_ok {bufSize : Nat} {ns : List Str} {recs : List (κ × List (List Int))} {fs : List (SeqField κ)}
    (h : createMany bufSize ns recs = .ok fs) : fs.length = ns.length ∧ (∀ r ∈ recs, r.2.length = ns.length) ∧
    ∀ (j : Nat) (f : SeqField κ), fs[j]? = some f → ns[j]? = some f.name ∧ FInv (column recs j) f := by
  simp only [createMany] at h
  cases ha : appendRows bufSize (ns.map fun _ => Builder.new) recs with
  | error e => rw [ha] at h; simp at h
  | ok bs =>
    simp only [ha] at h
    obtain ⟨a1, a2, a3⟩ := appendRows_ok ha
    simp only [List.length_map] at a1 a2
    obtain ⟨b1, b2⟩ := buildAll_ok a1 h
    refine ⟨b1, a2, ?_⟩
    intro j f hj
    have hjl := (List.getElem?_eq_some_iff.1 hj).1
    have hjn : j < ns.length := by omega
    obtain ⟨b, g1, g2⟩ := a3 j Builder.new (by simp [hjn])
    obtain ⟨f', g3, g4⟩ := b2 j b ns[j] g1 (List.getElem?_eq_getElem hjn)
    rw [hj] at g3
    cases g3
    have hb : BInv (column recs j) b := by
      have := BInv.appendAll BInv.new g2
      simpa using this
    obtain ⟨e, hf⟩ := hb.build g4
    exact ⟨by rw [List.getElem?_eq_getElem hjn, e], hf⟩

omit [DecidableEq κ] in
theorem get?_foldl_fields (fs : List (SeqField κ)) (d : Dict Str (SeqField κ)) (hn : (fs.map (·.name)).Nodup) (k : Str) :
    Dict.get? (fs.foldl (fun d f => Dict.set d f.name f) d) k = match fs.find? (fun f => f.name == k) with
      | some f => some f
      | none => Dict.get? d k := by
  induction fs generalizing d with
  | nil => rfl
  | cons f fs ih =>
    simp only [List.map_cons, List.nodup_cons] at hn
    rw [List.foldl_cons, ih _ hn.2]
    by_cases hk : f.name = k
    · have : fs.find? (fun f => f.name == k) = none := by
        rw [List.find?_eq_none]
        intro g hg
        simp only [beq_iff_eq]
        intro e
        exact hn.1 (List.mem_map.2 ⟨g, hg, by rw [e, hk]⟩)
      rw [this, List.find?_cons_of_pos (by simpa using hk)]
      simp only
      rw [hk, Dict.get?_set_self]
    · rw [List.find?_cons_of_neg (by simpa using hk), Dict.get?_set_ne _ _ hk]

/-- what a database created from `recs` holds -/
structure DInv (ns : List Str) (recs : List (κ × List (List Int))) (db : Db κ) : Prop where
  names : db.names = ns
  ne : ns ≠ [] ∧ recs ≠ []
  len : db.len = recs.length
  nodup : (recs.map (·.1)).Nodup
  ids : ∀ k, k ∈ db.ids ↔ k ∈ recs.map (·.1)
  idsNodup : db.ids.Nodup
  width : ∀ r ∈ recs, r.2.length = ns.length
  fields : ∀ (j : Nat) (n : Str), ns[j]? = some n → ∃ f, Dict.get? db.fields n = some f ∧ FInv (column recs j) f
  fkeys : Dict.keys db.fields = ns

theorem keys_foldl_fields (fs : List (SeqField κ)) (d : Dict Str (SeqField κ)) (hn : (Dict.keys d ++ fs.map (·.name)).Nodup) :
    Dict.keys (fs.foldl (fun d f => Dict.set d f.name f) d) = Dict.keys d ++ fs.map (·.name) := by
  induction fs generalizing d with
  | nil => simp
  | cons f fs ih =>
    have hf : f.name ∉ Dict.keys d := by
      intro h
      have := (List.nodup_append.1 hn).2.2 _ h f.name (by simp)
      exact this rfl
    have hk : Dict.keys (Dict.set d f.name f) = Dict.keys d ++ [f.name] := by
      rw [Dict.keys_set, if_neg hf]
    rw [List.foldl_cons, ih _ (by rw [hk]; simpa using hn), hk]
    simp

omit [DecidableEq κ] in
theorem column_ids (recs : List (κ × List (List Int))) (j : Nat) : (column recs j).map (·.1) = recs.map (·.1) := by
  simp [column, Function.comp_def]

theorem dbMake_ok {fs : List (SeqField κ)} {db : Db κ} (h : Db.make fs = .ok db) : fs ≠ [] ∧ db.names = fs.map (·.name) ∧
    db.fields = fs.foldl (fun d f => Dict.set d f.name f) [] ∧ ∃ f0, fs[0]? = some f0 ∧ db.len = f0.ids.length ∧ db.ids = Dict.keys f0.ids := by
  cases fs with
  | nil => simp [Db.make] at h
  | cons f0 fs =>
    simp only [Db.make] at h
    split at h
    · cases h
      exact ⟨by simp, rfl, rfl, f0, rfl, rfl, rfl⟩
    · cases h

theorem dbCreate_ok {bufSize : Nat} {ns : List Str} (hns : ns.Nodup) {recs : List (κ × List (List Int))} {db : Db κ}
    (h : Db.create bufSize ns recs = .ok db) : DInv ns recs db := by
  simp only [Db.create] at h
  cases hc : createMany bufSize ns recs with
  | error e => simp [hc] at h
  | ok fs =>
    simp only [hc] at h
    obtain ⟨c1, c2, c3⟩ := createMany_ok hc
    obtain ⟨m1, m2, m3, f0, m4, m5, m6⟩ := dbMake_ok h
    have hname : fs.map (·.name) = ns := by
      apply List.ext_getElem?
      intro j
      rw [List.getElem?_map]
      cases hj : fs[j]? with
      | none =>
        have := List.getElem?_eq_none_iff.1 hj
        rw [Option.map_none, List.getElem?_eq_none (by omega)]
      | some f => rw [(c3 j f hj).1]; rfl
    obtain ⟨n0, i0⟩ := c3 0 f0 m4
    have hcol := column_ids recs 0
    refine ⟨by rw [m2, hname], ⟨?_, ?_⟩, ?_, ?_, ?_, ?_, c2, ?_, by rw [m3, keys_foldl_fields _ _ (by simpa [Dict.keys, hname] using hns)]; simpa [Dict.keys] using hname⟩
    · rintro rfl; simp at n0
    · rintro rfl; exact i0.ne rfl
    · rw [m5, i0.len]; simp [column]
    · rw [← hcol]; exact i0.nodup
    · intro k; rw [m6, ← hcol]; exact i0.keys k
    · rw [m6]; exact i0.idsNodup
    · intro j n hj
      have hjl := (List.getElem?_eq_some_iff.1 hj).1
      have hf : fs[j]? = some fs[j] := List.getElem?_eq_getElem (by omega)
      obtain ⟨g1, g2⟩ := c3 j _ hf
      have e : fs[j].name = n := by rw [hj] at g1; exact (Option.some.inj g1).symm
      refine ⟨fs[j], ?_, g2⟩
      rw [m3, get?_foldl_fields _ _ (by rw [hname]; exact hns)]
      have : fs.find? (fun f => f.name == n) = some fs[j] := by
        rw [List.find?_eq_some_iff_getElem]
        refine ⟨by simpa using e, j, by omega, rfl, ?_⟩
        intro i hi
        simp only [Bool.not_eq_true', beq_eq_false_iff_ne]
        intro e2
        have a1 : ns[i]'(by omega) = n := by
          have := (c3 i fs[i] (List.getElem?_eq_getElem (by omega))).1
          rw [List.getElem?_eq_getElem (by omega)] at this
          rw [Option.some.inj this, e2]
        have a2 : ns[j] = n := by rw [List.getElem?_eq_getElem hjl] at hj; exact Option.some.inj hj
        have := (List.Nodup.getElem_inj_iff hns).1 (a1.trans a2.symm)
        omega
      rw [this]

/-- lookup of all columns of record `i` -/
theorem DInv.cols {ns : List Str} {recs : List (κ × List (List Int))} {db : Db κ} (hd : DInv ns recs db) {i : Nat}
    {r : κ × List (List Int)} (hi : recs[i]? = some r)
    (hex : (∀ n f, Dict.get? db.fields n = some f → f.ty ≠ .f64) ∨ ∀ c ∈ r.2, ∀ v ∈ c, v.natAbs ≤ 2 ^ 53) :
    ∀ (j : Nat), db.cols r.1 (ns.drop j) = .ok (r.2.drop j) := by
  have hw := hd.width r (List.mem_of_getElem? hi)
  intro j
  by_cases hj : ns.length ≤ j
  · rw [List.drop_eq_nil_of_le hj, List.drop_eq_nil_of_le (by omega)]; rfl
  · obtain ⟨m, hm⟩ : ∃ m, ns.length = j + m := ⟨ns.length - j, by omega⟩
    clear hj
    induction m generalizing j with
    | zero => rw [List.drop_eq_nil_of_le (by omega), List.drop_eq_nil_of_le (by omega)]; rfl
    | succ m ih =>
      have hjn : j < ns.length := by omega
      have hjr : j < r.2.length := by omega
      rw [List.drop_eq_getElem_cons hjn, List.drop_eq_getElem_cons hjr]
      obtain ⟨f, g1, g2⟩ := hd.fields j ns[j] (List.getElem?_eq_getElem hjn)
      have hc : (column recs j)[i]? = some (r.1, r.2[j]) := by
        simp [column, hi, List.getD_eq_getElem?_getD, List.getElem?_eq_getElem hjr]
      obtain ⟨arr, g3, g4⟩ := g2.get hc
      have := exact_of_stored g4 (hex.imp (fun h => h _ _ g1) fun h => h _ (List.getElem_mem hjr))
      subst this
      simp only at g3
      simp only [Db.cols, g1, g3, ih (j + 1) (by omega)]

/-! ## Success -/

omit [DecidableEq κ] in
theorem column_append (l m : List (κ × List (List Int))) (j : Nat) : column (l ++ m) j = column l j ++ column m j := by simp [column]

theorem appendRow_succeeds {bufSize : Nat} {id : κ} {bs : List (Builder κ)} {cs : List (List Int)}
    (hb : ∀ (j : Nat) (b : Builder κ), bs[j]? = some b → ∃ l, BInv l b ∧ ∀ p ∈ l, ∀ v ∈ p.2, -2 ^ 63 ≤ v ∧ v < 2 ^ 63)
    (hc : ∀ c ∈ cs, ∀ v ∈ c, -2 ^ 63 ≤ v ∧ v < 2 ^ 63) : ∃ bs1, appendRow bufSize id bs cs = .ok bs1 := by
  induction bs generalizing cs with
  | nil => exact ⟨[], by cases cs <;> rfl⟩
  | cons b bs ih =>
    cases cs with
    | nil => exact ⟨_, rfl⟩
    | cons c cs =>
      obtain ⟨l, h1, h2⟩ := hb 0 b rfl
      obtain ⟨b1, g1⟩ := append_succeeds h1 (bufSize := bufSize) (id := id) (arr := c) (by
        intro p hp
        rcases List.mem_append.1 hp with hp | hp
        · exact h2 p hp
        · simp only [List.mem_singleton] at hp; subst hp; exact hc c (by simp))
      obtain ⟨bs1, g2⟩ := ih (cs := cs) (fun j b hj => hb (j + 1) b (by simpa using hj)) fun c h => hc c (by simp [h])
      exact ⟨b1 :: bs1, by simp only [appendRow, g1, g2]⟩

theorem appendRows_succeeds {bufSize : Nat} {l : List (κ × List (List Int))} {bs : List (Builder κ)} {recs : List (κ × List (List Int))}
    (hb : ∀ (j : Nat) (b : Builder κ), bs[j]? = some b → BInv (column l j) b)
    (hw : ∀ r ∈ recs, r.2.length = bs.length) (hv : ∀ r ∈ l ++ recs, ∀ c ∈ r.2, ∀ v ∈ c, -2 ^ 63 ≤ v ∧ v < 2 ^ 63) :
    ∃ bs1, appendRows bufSize bs recs = .ok bs1 := by
  induction recs generalizing l bs with
  | nil => exact ⟨_, rfl⟩
  | cons r rs ih =>
    obtain ⟨id, cs⟩ := r
    have hcol : ∀ (m : List (κ × List (List Int))) (j : Nat), (∀ r ∈ m, ∀ c ∈ r.2, ∀ v ∈ c, (-2 : Int) ^ 63 ≤ v ∧ v < 2 ^ 63) →
        ∀ p ∈ column m j, ∀ v ∈ p.2, (-2 : Int) ^ 63 ≤ v ∧ v < 2 ^ 63 := by
      intro m j hm p hp v hvp
      obtain ⟨r, hr, rfl⟩ := List.mem_map.1 hp
      by_cases hj : j < r.2.length
      · rw [List.getD_eq_getElem?_getD, List.getElem?_eq_getElem hj] at hvp
        exact hm r hr _ (List.getElem_mem hj) v hvp
      · rw [List.getD_eq_getElem?_getD, List.getElem?_eq_none (by omega)] at hvp
        simp at hvp
    obtain ⟨bs1, h1⟩ := appendRow_succeeds (bufSize := bufSize) (id := id) (bs := bs) (cs := cs)
      (fun j b hj => ⟨_, hb j b hj, hcol l j fun r hr => hv r (by simp [hr])⟩) (hv (id, cs) (by simp))
    have hl := hw (id, cs) (by simp)
    obtain ⟨a1, a2⟩ := appendRow_ok hl h1
    simp only [appendRows, if_neg (not_not.2 hl), h1]
    refine ih (l := l ++ [(id, cs)]) ?_ ?_ ?_
    · intro j b1 hj
      have hjl := (List.getElem?_eq_some_iff.1 hj).1
      obtain ⟨b1', g1, g2⟩ := a2 j bs[j] (List.getElem?_eq_getElem (by omega))
      rw [hj] at g1
      cases g1
      have := (hb j _ (List.getElem?_eq_getElem (by omega))).append g2
      rw [column_append]
      exact this
    · intro r hr; rw [a1]; exact hw r (by simp [hr])
    · simpa using hv

theorem buildAll_succeeds {ns : List Str} {bs : List (Builder κ)}
    (h : ∀ b ∈ bs, ∀ n, ∃ f, b.build n = .ok f) : ∃ fs, buildAll ns bs = .ok fs := by
  induction ns generalizing bs with
  | nil => exact ⟨_, rfl⟩
  | cons n ns ih =>
    cases bs with
    | nil => exact ⟨_, rfl⟩
    | cons b bs =>
      obtain ⟨f, hf⟩ := h b (by simp) n
      obtain ⟨fs, hfs⟩ := ih (bs := bs) fun b hb => h b (by simp [hb])
      exact ⟨f :: fs, by simp only [buildAll, hf, hfs]⟩

theorem mem_foldl_fields (fs : List (SeqField κ)) (d : Dict Str (SeqField κ)) (p : Str × SeqField κ)
    (h : p ∈ fs.foldl (fun d f => Dict.set d f.name f) d) : p ∈ d ∨ p.2 ∈ fs := by
  induction fs generalizing d with
  | nil => exact Or.inl h
  | cons f fs ih =>
    rcases ih _ h with h | h
    · have : ∀ (d : Dict Str (SeqField κ)) (k : Str) (v : SeqField κ), p ∈ Dict.set d k v → p ∈ d ∨ p.2 = v := by
        intro d k v
        induction d with
        | nil => intro h; simp only [Dict.set, List.mem_singleton] at h; right; rw [h]
        | cons q d ih =>
          obtain ⟨k', v'⟩ := q
          simp only [Dict.set]
          split
          · intro h
            rcases List.mem_cons.1 h with h | h
            · right; rw [h]
            · left; simp [h]
          · intro h
            rcases List.mem_cons.1 h with h | h
            · left; simp [h]
            · rcases ih h with h | h
              · left; simp [h]
              · right; exact h
      rcases this _ _ _ h with h | h
      · exact Or.inl h
      · right; rw [h]; simp
    · right; simp [h]

omit [DecidableEq κ] in
theorem le_sum_lengths {c : List Int} {cs : List (List Int)} (h : c ∈ cs) : c.length ≤ (cs.map List.length).sum := by
  induction cs with
  | nil => simp at h
  | cons d cs ih =>
    simp only [List.map_cons, List.sum_cons]
    rcases List.mem_cons.1 h with rfl | h
    · omega
    · have := ih h; omega

theorem dbCreate_succeeds {bufSize : Nat} {ns : List Str} {recs : List (κ × List (List Int))} (hns : ns ≠ []) (hne : recs ≠ [])
    (hnd : (recs.map (·.1)).Nodup) (hw : ∀ r ∈ recs, r.2.length = ns.length)
    (hv : ∀ r ∈ recs, ∀ c ∈ r.2, ∀ v ∈ c, -2 ^ 63 ≤ v ∧ v < 2 ^ 63)
    (hlen : ((recs.map fun r => (r.2.map List.length).sum).sum : Nat) < 2 ^ 64) : ∃ db, Db.create bufSize ns recs = .ok db := by
  obtain ⟨bs, h1⟩ := appendRows_succeeds (bufSize := bufSize) (l := []) (bs := ns.map fun _ => Builder.new) (recs := recs)
    (by
      intro j b hj
      simp only [List.getElem?_map, Option.map_eq_some_iff] at hj
      obtain ⟨_, _, rfl⟩ := hj
      exact BInv.new) (by simpa using hw) (by simpa using hv)
  obtain ⟨a1, a2, a3⟩ := appendRows_ok h1
  have hget : ∀ (r : κ × List (List Int)) (j : Nat), (r.2.getD j []).length ≤ (r.2.map List.length).sum := by
    intro r j
    by_cases hj : j < r.2.length
    · rw [List.getD_eq_getElem?_getD, List.getElem?_eq_getElem hj]
      exact le_sum_lengths (List.getElem_mem hj)
    · rw [List.getD_eq_getElem?_getD, List.getElem?_eq_none (by omega)]
      simp
  have hfl : ∀ (m : List (κ × List (List Int))) (j : Nat), (flat (column m j)).length ≤ (m.map fun r => (r.2.map List.length).sum).sum := by
    intro m j
    induction m with
    | nil => simp [flat, column]
    | cons r m ih =>
      have := hget r j
      simp only [flat, column, List.map_cons, List.flatten_cons, List.length_append, List.sum_cons] at ih ⊢
      omega
  obtain ⟨fs, h2⟩ := buildAll_succeeds (ns := ns) (bs := bs) (by
    intro b hb n
    obtain ⟨j, hj⟩ := List.mem_iff_getElem?.1 hb
    have hjl := (List.getElem?_eq_some_iff.1 hj).1
    rw [a1] at hjl
    obtain ⟨b', g1, g2⟩ := a3 j _ (List.getElem?_eq_getElem hjl)
    rw [hj] at g1
    cases g1
    have hinv : BInv (column recs j) b := by
      have h0 : ((ns.map fun _ => (Builder.new : Builder κ))[j]'hjl) = Builder.new := by simp
      rw [h0] at g2
      have := BInv.appendAll BInv.new g2
      simpa using this
    refine build_succeeds hinv n ?_ (by rw [column_ids]; exact hnd) (by simpa [column] using hne) (lt_of_le_of_lt (hfl recs j) hlen)
    intro p hp v hvp
    obtain ⟨r, hr, rfl⟩ := List.mem_map.1 hp
    by_cases hj : j < r.2.length
    · rw [List.getD_eq_getElem?_getD, List.getElem?_eq_getElem hj] at hvp
      exact hv r hr _ (List.getElem_mem hj) v hvp
    · rw [List.getD_eq_getElem?_getD, List.getElem?_eq_none (by omega)] at hvp
      simp at hvp)
  have hcm : createMany bufSize ns recs = .ok fs := by simp only [createMany, h1, h2]
  obtain ⟨c1, c2, c3⟩ := createMany_ok hcm
  simp only [Db.create, hcm]
  cases fs with
  | nil => exact absurd (List.eq_nil_of_length_eq_zero (by simpa using c1.symm)) hns
  | cons f0 fs =>
    simp only [Db.make]
    rw [if_pos]
    · exact ⟨_, rfl⟩
    · rw [List.all_eq_true]
      intro p hp
      rcases mem_foldl_fields _ _ _ hp with hp | hp
      · simp at hp
      · obtain ⟨j, hj⟩ := List.mem_iff_getElem?.1 hp
        obtain ⟨_, i1⟩ := c3 j _ hj
        obtain ⟨_, i0⟩ := c3 0 f0 rfl
        rw [Bool.and_eq_true, decide_eq_true_eq]
        refine ⟨by rw [i0.len, i1.len]; simp [column], ?_⟩
        simp only [sameIds, Bool.and_eq_true, List.all_eq_true, decide_eq_true_eq]
        have e0 := i0.keys
        have e1 := i1.keys
        rw [column_ids] at e0 e1
        exact ⟨fun x hx => (e1 x).2 ((e0 x).1 hx), fun x hx => (e0 x).2 ((e1 x).1 hx)⟩

end Verif
