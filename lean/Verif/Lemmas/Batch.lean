import Verif.Lemmas.DbRows
import Verif.Model.Batch
/-!
# Lemmas on batching
-/

namespace Verif

variable {κ : Type} [DecidableEq κ]

theorem genMap_ok {α β : Type} {f : α → Py β} {exc : Option Exc} {l : List α} {m : List β} (h : List.Forall₂ (fun a b => f a = .ok b) l m) :
    genMap f exc l = ⟨m, exc⟩ := by
  induction h with
  | nil => rfl
  | cons h1 _ ih => simp only [genMap, h1, ih]

/-- what a generator mapped over yields is the image of a prefix of the items; it is all of them if no call fails -/
theorem genMap_spec {α β : Type} (f : α → Py β) (exc : Option Exc) (l : List α) :
    (∃ k, List.Forall₂ (fun a b => f a = .ok b) (l.take k) (genMap f exc l).out) ∧
    (((genMap f exc l).exc = exc ∧ List.Forall₂ (fun a b => f a = .ok b) l (genMap f exc l).out) ∨
      ∃ a ∈ l, ∃ e, f a = .error e ∧ (genMap f exc l).exc = some e) := by
  induction l with
  | nil => exact ⟨⟨0, by simp [genMap]⟩, Or.inl ⟨rfl, by simp [genMap]⟩⟩
  | cons a l ih =>
    simp only [genMap]
    cases hf : f a with
    | error e => exact ⟨⟨0, by simp⟩, Or.inr ⟨a, by simp, e, hf, rfl⟩⟩
    | ok b =>
      simp only
      obtain ⟨⟨k, hk⟩, h2⟩ := ih
      refine ⟨⟨k + 1, by simpa [hf] using hk⟩, ?_⟩
      rcases h2 with ⟨h3, h4⟩ | ⟨a', h3, e, h4, h5⟩
      · exact Or.inl ⟨h3, by simpa [hf] using h4⟩
      · exact Or.inr ⟨a', by simp [h3], e, h4, h5⟩

/-! ## Lengths -/

/-- the lengths of the columns of a record -/
def lensOf (r : κ × List (List Int)) : List Int := r.2.map fun c => (c.length : Int)

theorem DInv.field_get {ns : List Str} (hns : ns.Nodup) {recs : List (κ × List (List Int))} {db : Db κ} (hd : DInv ns recs db)
    {j : Nat} (hj : j < ns.length) : ∃ f, db.fields[j]? = some (ns[j], f) ∧ FInv (column recs j) f := by
  obtain ⟨f, g1, g2⟩ := hd.fields j ns[j] (List.getElem?_eq_getElem hj)
  have hk := hd.fkeys
  have hl : db.fields.length = ns.length := by rw [← hk]; simp [Dict.keys]
  refine ⟨f, ?_, g2⟩
  have h1 : db.fields[j].1 = ns[j] := by
    have : (Dict.keys db.fields)[j]? = ns[j]? := by rw [hk]
    rw [List.getElem?_eq_getElem hj] at this
    simp only [Dict.keys, List.getElem?_map, List.getElem?_eq_getElem (show j < db.fields.length by omega), Option.map_some] at this
    exact Option.some.inj this
  have h2 : Dict.get? db.fields ns[j] = some db.fields[j].2 := by
    apply Dict.get?_of_mem (by rw [hk]; exact hns)
    rw [← h1]
    exact List.getElem_mem _
  rw [g1] at h2
  rw [List.getElem?_eq_getElem (show j < db.fields.length by omega)]
  rw [Option.some.inj h2, ← h1]

theorem DInv.lens {ns : List Str} (hns : ns.Nodup) {recs : List (κ × List (List Int))} {db : Db κ} (hd : DInv ns recs db)
    {r : κ × List (List Int)} (hr : r ∈ recs) : db.lens r.1 db.fields = .ok (lensOf r) := by
  obtain ⟨i, hi⟩ := List.mem_iff_getElem?.1 hr
  have hw := hd.width r hr
  have hl : db.fields.length = ns.length := by rw [← hd.fkeys]; simp [Dict.keys]
  have key : ∀ (m j : Nat), ns.length = j + m → db.lens r.1 (db.fields.drop j) = .ok ((r.2.drop j).map fun c => (c.length : Int)) := by
    intro m
    induction m with
    | zero => intro j hj; rw [List.drop_eq_nil_of_le (by omega), List.drop_eq_nil_of_le (by omega)]; rfl
    | succ m ih =>
      intro j hj
      obtain ⟨f, g1, g2⟩ := hd.field_get hns (show j < ns.length by omega)
      have hjr : j < r.2.length := by omega
      have hjf : j < db.fields.length := by omega
      have e1 : db.fields[j] = (ns[j], f) := by rw [List.getElem?_eq_getElem hjf] at g1; exact Option.some.inj g1
      have hc : (column recs j)[i]? = some (r.1, r.2[j]) := by
        simp [column, hi, List.getD_eq_getElem?_getD, List.getElem?_eq_getElem hjr]
      rw [List.drop_eq_getElem_cons hjf, List.drop_eq_getElem_cons hjr]
      have e2 : f.getLen r.1 = .ok (r.2[j].length : Int) := by simp only [SeqField.getLen, g2.ref hc]
      simp only [Db.lens, e1, e2, ih (j + 1) (by omega), List.map_cons]
  have := key ns.length 0 (by omega)
  simpa [lensOf] using this

/-- looking up a record always succeeds; the columns have the stored lengths -/
theorem DInv.get_lengths {ns : List Str} {recs : List (κ × List (List Int))} {db : Db κ} (hd : DInv ns recs db)
    {r : κ × List (List Int)} (hr : r ∈ recs) : ∃ cs, db.get r.1 = .ok (r.1, cs) ∧ cs.map List.length = r.2.map List.length := by
  obtain ⟨i, hi⟩ := List.mem_iff_getElem?.1 hr
  have hw := hd.width r hr
  have key : ∀ (m j : Nat), ns.length = j + m → ∃ cs, db.cols r.1 (ns.drop j) = .ok cs ∧ cs.map List.length = (r.2.drop j).map List.length := by
    intro m
    induction m with
    | zero => intro j hj; exact ⟨[], by rw [List.drop_eq_nil_of_le (by omega)]; rfl, by rw [List.drop_eq_nil_of_le (by omega)]⟩
    | succ m ih =>
      intro j hj
      have hjn : j < ns.length := by omega
      have hjr : j < r.2.length := by omega
      obtain ⟨f, g1, g2⟩ := hd.fields j ns[j] (List.getElem?_eq_getElem hjn)
      have hc : (column recs j)[i]? = some (r.1, r.2[j]) := by
        simp [column, hi, List.getD_eq_getElem?_getD, List.getElem?_eq_getElem hjr]
      obtain ⟨arr, g3, g4⟩ := g2.get hc
      obtain ⟨cs, h1, h2⟩ := ih (j + 1) (by omega)
      simp only at g3
      rw [List.drop_eq_getElem_cons hjn, List.drop_eq_getElem_cons hjr]
      exact ⟨arr :: cs, by simp only [Db.cols, g1, g3, h1], by simp only [List.map_cons, h2, g4.length_eq]⟩
  obtain ⟨cs, h1, h2⟩ := key ns.length 0 (by omega)
  simp only [List.drop_zero] at h1 h2
  exact ⟨cs, by simp only [Db.get, hd.names, h1], h2⟩

/-- no column is empty -/
def fullRec (r : κ × List (List Int)) : Bool := r.2.all fun c => decide (c ≠ [])

omit [DecidableEq κ] in
theorem listMin_lens {r : κ × List (List Int)} (hne : r.2 ≠ []) : listMin (lensOf r) < 1 ↔ fullRec r = false := by
  have hne' : lensOf r ≠ [] := by simpa [lensOf] using hne
  constructor
  · intro h
    have hm := listMin_mem hne'
    simp only [lensOf, List.mem_map] at hm
    obtain ⟨c, hc, he⟩ := hm
    have : c = [] := List.length_eq_zero_iff.1 (by simp only [lensOf] at h; omega)
    subst this
    simp only [fullRec, List.all_eq_false]
    exact ⟨[], hc, by simp⟩
  · intro h
    simp only [fullRec, List.all_eq_false] at h
    obtain ⟨c, hc, he⟩ := h
    have : c = [] := by simpa using he
    subst this
    have : (0 : Int) ∈ lensOf r := List.mem_map.2 ⟨[], hc, rfl⟩
    have := listMin_le this
    omega

theorem DInv.eqRows {ns : List Str} (hns : ns.Nodup) {recs : List (κ × List (List Int))} {db : Db κ} (hd : DInv ns recs db)
    {rs : List (κ × List (List Int))} (hrs : ∀ r ∈ rs, r ∈ recs) :
    db.eqRows (rs.map (·.1)) = .ok ((rs.filter fullRec).map fun r => (r.1, listMax (lensOf r))) := by
  induction rs with
  | nil => rfl
  | cons r rs ih =>
    have hr := hrs r (by simp)
    have hne : r.2 ≠ [] := by
      intro h
      have := hd.width r hr
      rw [h] at this
      exact hd.ne.1 (List.length_eq_zero_iff.1 this.symm)
    simp only [List.map_cons, Db.eqRows, hd.lens hns hr, ih fun r hr => hrs r (by simp [hr]), listMin_lens hne]
    cases hf : fullRec r <;> simp [hf]

/-! ## The loop -/

/-- a batch was closed only because the next item `r` did not fit -/
def ClosedBy {ρ : Type} (n : ρ → Int) (maxToks : Nat) (over : List ρ → Bool) (g g' : List ρ) : Prop :=
  ∃ r, g'.head? = some r ∧ ((∃ s ∈ r :: g, (maxToks : Int) < (g.length + 1) * n s) ∨ over g = true)

theorem eqLoop_spec {ρ : Type} (key : ρ → κ) (n : ρ → Int) (maxToks : Nat) (maxSents : Option Nat) (rows : List ρ) :
    ∀ (batch : List ρ) (mx : Int), (∀ r ∈ batch, n r ≤ mx) → 0 ≤ mx → (batch.length * mx ≤ maxToks) → (∀ r ∈ rows, 0 ≤ n r) →
    ((batch = [] ∧ mx = 0) ∨ ∃ s ∈ batch, n s = mx) → (∀ m, maxSents = some m → batch.length ≤ m + 1) →
    (∃ gs : List (List ρ), eqLoop maxToks maxSents (rows.map fun r => (key r, n r)) (batch.map key) mx = .ok (gs.map (List.map key)) ∧
      gs.flatten = batch ++ rows ∧ (∀ r ∈ rows, n r ≤ maxToks) ∧
      (∀ g ∈ gs, g ≠ [] ∧ (∀ r ∈ g, (g.length : Int) * n r ≤ maxToks) ∧ ∀ m, maxSents = some m → g.length ≤ m + 1) ∧
      gs.IsChain (ClosedBy n maxToks fun g => moreThan g.length maxSents) ∧ (∀ r, (batch ++ rows).head? = some r → ∃ g : List ρ, gs.head? = some g ∧ g.head? = some r)) ∨
    (eqLoop maxToks maxSents (rows.map fun r => (key r, n r)) (batch.map key) mx = .error .exception ∧ ∃ r ∈ rows, (maxToks : Int) < n r) := by
  induction rows with
  | nil =>
    intro batch mx hb h0 hbud _ hmx hms
    left
    cases batch with
    | nil => exact ⟨[], by simp [eqLoop], by simp, by simp, by simp, by simp, by simp⟩
    | cons b bs =>
      refine ⟨[b :: bs], by simp [eqLoop], by simp, by simp, ?_, by simp, by simp⟩
      intro g hg
      simp only [List.mem_singleton] at hg
      subst hg
      refine ⟨by simp, ?_, hms⟩
      intro r hr
      exact le_trans (mul_le_mul_of_nonneg_left (hb r hr) (by omega)) hbud
  | cons r rows ih =>
    intro batch mx hb h0 hbud hn hmx hms
    have hr0 := hn r (by simp)
    simp only [List.map_cons, eqLoop, List.length_map]
    by_cases hc : (decide ((batch.length + 1 : Int) * max mx (n r) > maxToks) || moreThan batch.length maxSents) = true
    · rw [if_pos hc]
      by_cases hr : n r > maxToks
      · right
        rw [if_pos hr]
        exact ⟨rfl, r, by simp, hr⟩
      · rw [if_neg hr]
        have hmx0 : max 0 (n r) = n r := by omega
        rw [hmx0]
        have hbne : batch ≠ [] := by
          rintro rfl
          rcases hmx with ⟨_, rfl⟩ | ⟨s, hs, _⟩
          · simp only [List.length_nil, Bool.or_eq_true, decide_eq_true_eq] at hc
            rcases hc with hc | hc
            · simp only [hmx0] at hc; push_cast at hc; omega
            · cases maxSents <;> simp [moreThan] at hc
          · simp at hs
        rcases ih [r] (n r) (by simp) hr0 (by simp only [List.length_singleton]; push_cast; omega) (fun s hs => hn s (by simp [hs])) (Or.inr ⟨r, by simp, rfl⟩)
          (by intro m _; simp) with ⟨gs, g1, g2, g3, g4, g5, g6⟩ | ⟨g1, s, g2, g3⟩
        · left
          simp only [List.map_cons, List.map_nil] at g1
          obtain ⟨g0, g7, g8⟩ := g6 r (by simp)
          refine ⟨batch :: gs, by rw [g1]; rfl, by simp [g2], ?_, ?_, ?_, ?_⟩
          · intro s hs
            rcases List.mem_cons.1 hs with rfl | hs
            · omega
            · exact g3 s hs
          · intro g hg
            rcases List.mem_cons.1 hg with rfl | hg
            · exact ⟨hbne, fun s hs => le_trans (mul_le_mul_of_nonneg_left (hb s hs) (by omega)) hbud, hms⟩
            · exact g4 g hg
          · obtain ⟨gs', rfl⟩ : ∃ gs', gs = g0 :: gs' := by
              cases gs with
              | nil => simp at g7
              | cons a l => exact ⟨l, by simp at g7; rw [g7]⟩
            rw [List.isChain_cons_cons]
            refine ⟨⟨r, g8, ?_⟩, g5⟩
            simp only [Bool.or_eq_true, decide_eq_true_eq] at hc
            rcases hc with hc | hc
            · left
              rcases hmx with ⟨h, _⟩ | ⟨s, hs, hsm⟩
              · exact absurd h hbne
              · rcases le_total mx (n r) with hle | hle
                · rw [max_eq_right hle] at hc
                  exact ⟨r, by simp, hc⟩
                · rw [max_eq_left hle] at hc
                  exact ⟨s, by simp [hs], by rw [hsm]; exact hc⟩
            · right; exact hc
          · intro s hs
            cases batch with
            | nil => exact absurd rfl hbne
            | cons b bs => exact ⟨b :: bs, rfl, by simpa using hs⟩
        · right
          simp only [List.map_cons, List.map_nil] at g1
          exact ⟨by rw [g1], s, by simp [g2], g3⟩
    · rw [if_neg hc]
      simp only [Bool.not_eq_true, Bool.or_eq_false_iff, decide_eq_false_iff_not, not_lt] at hc
      obtain ⟨c1, c2⟩ := hc
      have k1 : ∀ s ∈ batch ++ [r], n s ≤ max mx (n r) := by
        intro s hs
        rcases List.mem_append.1 hs with hs | hs
        · exact le_trans (hb s hs) (le_max_left _ _)
        · simp only [List.mem_singleton] at hs; subst hs; exact le_max_right _ _
      have k2 : (batch ++ [r] = [] ∧ max mx (n r) = 0) ∨ ∃ s ∈ batch ++ [r], n s = max mx (n r) := by
        right
        rcases le_total mx (n r) with hle | hle
        · exact ⟨r, by simp, (max_eq_right hle).symm⟩
        · rcases hmx with ⟨_, rfl⟩ | ⟨s, hs, hsm⟩
          · exact ⟨r, by simp, by omega⟩
          · exact ⟨s, by simp [hs], by rw [max_eq_left hle, hsm]⟩
      have k3 : ∀ m, maxSents = some m → (batch ++ [r]).length ≤ m + 1 := by
        intro m hm
        subst hm
        simp only [moreThan, decide_eq_false_iff_not, not_lt] at c2
        simp only [List.length_append, List.length_singleton]
        omega
      rcases ih (batch ++ [r]) (max mx (n r)) k1 (by omega) (by simpa using c1) (fun s hs => hn s (by simp [hs])) k2 k3 with
        ⟨gs, g1, g2, g3, g4, g5, g6⟩ | ⟨g1, s, g2, g3⟩
      · left
        simp only [List.map_append, List.map_cons, List.map_nil] at g1
        refine ⟨gs, g1, by simp [g2], ?_, g4, g5, ?_⟩
        · intro s hs
          rcases List.mem_cons.1 hs with rfl | hs
          · have h1 : max mx (n s) ≤ (batch.length + 1 : Int) * max mx (n s) := le_mul_of_one_le_left (by omega) (by omega)
            have := le_max_right mx (n s)
            omega
          · exact g3 s hs
        · intro s hs
          exact g6 s (by simpa using hs)
      · right
        simp only [List.map_append, List.map_cons, List.map_nil] at g1
        exact ⟨g1, s, by simp [g2], g3⟩

/-! ## Sequential batching -/

/-- neither side is empty -/
def IdEx.full (e : IdEx κ) : Bool := decide (e.x ≠ []) && decide (e.y.getD [] ≠ [])

/-- the longer of the two lengths -/
def IdEx.maxSide (e : IdEx κ) : Nat := max e.x.length e.yLen

omit [DecidableEq κ] in
theorem IdEx.full_iff (e : IdEx κ) : min e.x.length e.yLen = 0 ↔ e.full = false := by
  simp only [IdEx.full, IdEx.yLen]
  cases h1 : e.x <;> cases h2 : e.y.getD [] <;> simp

theorem readLoop_spec (maxToks : Nat) (maxSents : Option Nat) (h0 : maxSents ≠ some 0) (exc : Option Exc) (es : List (IdEx κ)) :
    ∀ (batch : List (IdEx κ)) (mx : Nat), (∀ e ∈ batch, e.maxSide ≤ mx) → batch.length * mx ≤ maxToks →
    ((batch = [] ∧ mx = 0) ∨ ∃ s ∈ batch, s.maxSide = mx) → (∀ m, maxSents = some m → batch.length ≤ m) →
    let g := readLoop maxToks maxSents exc es batch mx
    (∀ b ∈ g.out, b ≠ [] ∧ (∀ e ∈ b, b.length * e.maxSide ≤ maxToks) ∧ ∀ m, maxSents = some m → b.length ≤ m) ∧
    g.out.IsChain (ClosedBy (fun e => (e.maxSide : Int)) maxToks fun b => !lessThan b.length maxSents) ∧
    (∀ b, g.out.head? = some b → batch <+: b) ∧
    (((∀ e ∈ es, e.full = true → e.maxSide ≤ maxToks) ∧ g.exc = exc ∧ (exc = none → g.out.flatten = batch ++ es.filter IdEx.full)) ∨
      ((∃ e ∈ es, e.full = true ∧ maxToks < e.maxSide) ∧ g.exc = some .exception)) ∧ g.out.flatten <+: batch ++ es.filter IdEx.full := by
  induction es with
  | nil =>
    intro batch mx hb hbud hmx hms
    cases exc with
    | some e => simp [readLoop]
    | none =>
      cases batch with
      | nil => simp [readLoop]
      | cons b bs =>
        refine ⟨?_, by simp [readLoop], by simp [readLoop], Or.inl ⟨by simp, by simp [readLoop], by simp [readLoop]⟩, by simp [readLoop]⟩
        intro g hg
        simp only [readLoop, List.cons_ne_nil, if_false, List.mem_singleton] at hg
        subst hg
        exact ⟨by simp, fun e he => le_trans (Nat.mul_le_mul_left _ (hb e he)) hbud, hms⟩
  | cons e es ih =>
    intro batch mx hb hbud hmx hms
    simp only [readLoop]
    by_cases hf : min e.x.length e.yLen = 0
    · rw [if_pos hf]
      have hff := (IdEx.full_iff e).1 hf
      obtain ⟨g1, g2, g3, g4, g5⟩ := ih batch mx hb hbud hmx hms
      refine ⟨g1, g2, g3, ?_, by simpa [hff] using g5⟩
      rcases g4 with ⟨h1, h2, h3⟩ | ⟨⟨s, h1, h2⟩, h3⟩
      · refine Or.inl ⟨?_, h2, by simpa [hff] using h3⟩
        intro s hs hfs
        rcases List.mem_cons.1 hs with rfl | hs
        · rw [hff] at hfs; cases hfs
        · exact h1 s hs hfs
      · exact Or.inr ⟨⟨s, by simp [h1], h2⟩, h3⟩
    · rw [if_neg hf]
      have hff : e.full = true := by
        cases h : e.full with
        | true => rfl
        | false => exact absurd ((IdEx.full_iff e).2 h) hf
      have hN : max e.x.length e.yLen = e.maxSide := rfl
      rw [hN]
      by_cases hc : (decide ((batch.length + 1) * max mx e.maxSide ≤ maxToks) && lessThan batch.length maxSents) = true
      · rw [if_pos hc]
        simp only [Bool.and_eq_true, decide_eq_true_eq] at hc
        obtain ⟨c1, c2⟩ := hc
        have k1 : ∀ s ∈ batch ++ [e], s.maxSide ≤ max mx e.maxSide := by
          intro s hs
          rcases List.mem_append.1 hs with hs | hs
          · exact le_trans (hb s hs) (le_max_left _ _)
          · simp only [List.mem_singleton] at hs; subst hs; exact le_max_right _ _
        have k2 : (batch ++ [e] = [] ∧ max mx e.maxSide = 0) ∨ ∃ s ∈ batch ++ [e], s.maxSide = max mx e.maxSide := by
          right
          rcases le_total mx e.maxSide with hle | hle
          · exact ⟨e, by simp, (max_eq_right hle).symm⟩
          · rcases hmx with ⟨_, rfl⟩ | ⟨s, hs, hsm⟩
            · exact ⟨e, by simp, by omega⟩
            · exact ⟨s, by simp [hs], by rw [max_eq_left hle, hsm]⟩
        have k3 : ∀ m, maxSents = some m → (batch ++ [e]).length ≤ m := by
          intro m hm
          subst hm
          simp only [lessThan, decide_eq_true_eq] at c2
          simp only [List.length_append, List.length_singleton]
          omega
        obtain ⟨g1, g2, g3, g4, g5⟩ := ih (batch ++ [e]) (max mx e.maxSide) k1 (by simpa using c1) k2 k3
        refine ⟨g1, g2, ?_, ?_, by simpa [hff] using g5⟩
        · intro b hbb
          exact (List.prefix_append _ _).trans (g3 b hbb)
        · rcases g4 with ⟨h1, h2, h3⟩ | ⟨⟨s, h1, h2⟩, h3⟩
          · refine Or.inl ⟨?_, h2, by simpa [hff] using h3⟩
            intro s hs hfs
            rcases List.mem_cons.1 hs with rfl | hs
            · have h1 : max mx s.maxSide ≤ (batch.length + 1) * max mx s.maxSide := Nat.le_mul_of_pos_left _ (by omega)
              have := le_max_right mx s.maxSide
              omega
            · exact h1 s hs hfs
          · exact Or.inr ⟨⟨s, by simp [h1], h2⟩, h3⟩
      · rw [if_neg hc]
        by_cases ho : e.maxSide > maxToks
        · rw [if_pos ho]
          exact ⟨by simp, by simp, by simp, Or.inr ⟨⟨e, by simp, hff, ho⟩, rfl⟩, by simp⟩
        · rw [if_neg ho]
          have hbne : batch ≠ [] := by
            rintro rfl
            apply hc
            simp only [Bool.and_eq_true, decide_eq_true_eq]
            constructor
            · rcases hmx with ⟨_, rfl⟩ | ⟨s, hs, _⟩
              · simp only [List.length_nil]; omega
              · simp at hs
            · cases maxSents with
              | none => rfl
              | some m => simp only [lessThan, List.length_nil, decide_eq_true_eq]; exact Nat.pos_of_ne_zero fun h => h0 (by rw [h])
          obtain ⟨g1, g2, g3, g4, g5⟩ := ih [e] e.maxSide (by simp) (by simp; omega) (Or.inr ⟨e, by simp, rfl⟩) (by
            intro m hm
            subst hm
            have : m ≠ 0 := fun h => h0 (by rw [h])
            simp only [List.length_singleton]
            omega)
          simp only
          refine ⟨?_, ?_, by simp, ?_, ?_⟩
          · intro b hbb
            rcases List.mem_cons.1 hbb with rfl | hbb
            · exact ⟨hbne, fun s hs => le_trans (Nat.mul_le_mul_left _ (hb s hs)) hbud, hms⟩
            · exact g1 b hbb
          · cases hg : (readLoop maxToks maxSents exc es [e] e.maxSide).out with
            | nil => simp
            | cons b bs =>
              rw [hg] at g2 g3
              rw [List.isChain_cons_cons]
              refine ⟨⟨e, ?_, ?_⟩, g2⟩
              · obtain ⟨t, ht⟩ := g3 b rfl
                rw [← ht]; rfl
              · simp only [Bool.and_eq_true, decide_eq_true_eq, not_and_or] at hc
                rcases hc with hc | hc
                · left
                  rw [not_le] at hc
                  rcases hmx with ⟨h, _⟩ | ⟨s, hs, hsm⟩
                  · exact absurd h hbne
                  · rcases le_total mx e.maxSide with hle | hle
                    · rw [max_eq_right hle] at hc
                      exact ⟨e, by simp, by beta_reduce; exact_mod_cast hc⟩
                    · rw [max_eq_left hle] at hc
                      exact ⟨s, by simp [hs], by beta_reduce; rw [hsm]; exact_mod_cast hc⟩
                · right
                  simpa using hc
          · rcases g4 with ⟨h1, h2, h3⟩ | ⟨⟨s, h1, h2⟩, h3⟩
            · refine Or.inl ⟨?_, h2, ?_⟩
              · intro s hs hfs
                rcases List.mem_cons.1 hs with rfl | hs
                · omega
                · exact h1 s hs hfs
              · intro hx
                simp [h3 hx, hff]
            · exact Or.inr ⟨⟨s, by simp [h1], h2⟩, h3⟩
          · simpa [hff] using g5

/-! ## Markers and padding -/

theorem filterMap_some {α β : Type} {f : α → Option β} {g : α → β} {l : List α} (h : ∀ a ∈ l, f a = some (g a)) : l.filterMap f = l.map g := by
  induction l with
  | nil => rfl
  | cons a l ih => simp [h a (by simp), ih fun b hb => h b (by simp [hb])]

theorem maxLen_spec (l : List Nat) : (∀ n ∈ l, n ≤ maxLen l) ∧ (l ≠ [] → maxLen l ∈ l) := by
  have key : ∀ (l : List Nat) (a : Nat), (a ≤ l.foldl max a ∧ ∀ n ∈ l, n ≤ l.foldl max a) ∧ l.foldl max a ∈ a :: l := by
    intro l
    induction l with
    | nil => simp
    | cons x l ih =>
      intro a
      obtain ⟨⟨h1, h2⟩, h3⟩ := ih (max a x)
      simp only [List.foldl_cons]
      refine ⟨⟨by omega, ?_⟩, ?_⟩
      · intro n hn
        rcases List.mem_cons.1 hn with rfl | hn
        · omega
        · exact h2 n hn
      · rcases List.mem_cons.1 h3 with h | h
        · rw [h]
          rcases le_total a x with hle | hle
          · simp [max_eq_right hle]
          · simp [max_eq_left hle]
        · simp [h]
  refine ⟨(key l 0).1.2, fun h => ?_⟩
  have h3 := (key l 0).2
  rcases List.mem_cons.1 h3 with h0 | h0
  · cases l with
    | nil => exact absurd rfl h
    | cons x l =>
      have := (key (x :: l) 0).1.2 x (by simp)
      have h0' : (x :: l).foldl max 0 = 0 := h0
      simp only [maxLen, h0']
      have : x = 0 := by omega
      simp [this]
  · exact h0

theorem Side.make_ok {bf : Bool} {pad : Int} {seqs : List (List Int)} (h : seqs ≠ []) :
    Side.make bf pad seqs = .ok { lens := seqs.map List.length, toks := (seqs.map List.length).sum, maxLen := Verif.maxLen (seqs.map List.length), seqs := if bf then seqs.map (fillRow (Verif.maxLen (seqs.map List.length)) pad) else transposeMat (Verif.maxLen (seqs.map List.length)) (seqs.map (fillRow (Verif.maxLen (seqs.map List.length)) pad)) } := by
  cases seqs with
  | nil => exact absurd rfl h
  | cons s ss => rfl

theorem checkX_ok {m : BatchMeta} {es es1 : List (IdEx κ)} (h : checkX m es = .ok es1) :
    List.Forall₂ (fun e e1 => checkSeq m.addBosX m.addEosX m.bos m.eos e.x = .ok e1.x ∧ e1.id = e.id ∧ e1.y = e.y) es es1 := by
  induction es generalizing es1 with
  | nil => simp only [checkX, Except.ok.injEq] at h; subst h; simp
  | cons e es ih =>
    simp only [checkX] at h
    cases hc : checkSeq m.addBosX m.addEosX m.bos m.eos e.x with
    | error err => simp [hc] at h
    | ok x =>
      simp only [hc] at h
      cases hr : checkX m es with
      | error err => simp [hr] at h
      | ok es2 =>
        simp only [hr, Except.ok.injEq] at h
        subst h
        simp [hc, ih hr]

theorem checkY_ok {m : BatchMeta} {es es1 : List (IdEx κ)} (h : checkY m es = .ok es1) :
    List.Forall₂ (fun e e1 => e1.id = e.id ∧ e1.x = e.x ∧ ∃ y y1, e.y = some y ∧ e1.y = some y1 ∧ checkSeq m.addBosY m.addEosY m.bos m.eos y = .ok y1) es es1 := by
  induction es generalizing es1 with
  | nil => simp only [checkY, Except.ok.injEq] at h; subst h; simp
  | cons e es ih =>
    simp only [checkY] at h
    cases hy : e.y with
    | none => simp [hy] at h
    | some y =>
      simp only [hy] at h
      cases hc : checkSeq m.addBosY m.addEosY m.bos m.eos y with
      | error err => simp [hc] at h
      | ok y1 =>
        simp only [hc] at h
        cases hr : checkY m es with
        | error err => simp [hr] at h
        | ok es2 =>
          simp only [hr, Except.ok.injEq] at h
          subst h
          exact List.Forall₂.cons ⟨rfl, rfl, y, y1, hy, rfl, hc⟩ (ih hr)

/-! ## Equal-length batching of a database -/

/-- length of the longest column -/
def longest (r : κ × List (List Int)) : Int := listMax (lensOf r)

omit [DecidableEq κ] in
theorem le_longest {r : κ × List (List Int)} {c : List Int} (h : c ∈ r.2) : (c.length : Int) ≤ longest r :=
  le_listMax (List.mem_map.2 ⟨c, h, rfl⟩)

omit [DecidableEq κ] in
theorem longest_mem {r : κ × List (List Int)} (h : r.2 ≠ []) : ∃ c ∈ r.2, (c.length : Int) = longest r := by
  have := listMax_mem (l := lensOf r) (by simpa [lensOf] using h)
  simp only [lensOf, List.mem_map] at this
  exact this

omit [DecidableEq κ] in
theorem longest_nonneg {r : κ × List (List Int)} (h : r.2 ≠ []) : 0 ≤ longest r := by
  obtain ⟨c, _, h⟩ := longest_mem h
  omega

theorem eqBatchIds_spec {ns : List Str} (hns : ns.Nodup) {recs : List (κ × List (List Int))} {db : Db κ} (hd : DInv ns recs db)
    (maxToks : Nat) (maxSents : Option Nat) {ord : List κ → List κ} (hord : ∀ l, (ord l).Perm l)
    {shuf : List (κ × Int) → List (κ × Int)} (hshuf : ∀ l, (shuf l).Perm l) :
    (recs.filter fullRec = [] → db.eqBatchIds maxToks maxSents ord shuf = .error .index) ∧
    (recs.filter fullRec ≠ [] →
      (∃ gs : List (List (κ × List (List Int))), db.eqBatchIds maxToks maxSents ord shuf = .ok (gs.map (List.map (·.1))) ∧
        gs.flatten.Perm (recs.filter fullRec) ∧ gs.flatten.Pairwise (fun a b => longest a ≤ longest b) ∧
        (∀ r ∈ recs.filter fullRec, longest r ≤ maxToks) ∧
        (∀ g ∈ gs, g ≠ [] ∧ (∀ r ∈ g, (g.length : Int) * longest r ≤ maxToks) ∧ ∀ m, maxSents = some m → g.length ≤ m + 1) ∧
        gs.IsChain (ClosedBy longest maxToks fun g => moreThan g.length maxSents)) ∨
      (db.eqBatchIds maxToks maxSents ord shuf = .error .exception ∧ ∃ r ∈ recs.filter fullRec, (maxToks : Int) < longest r)) := by
  have hp : (ord db.ids).Perm (recs.map (·.1)) := (hord _).trans ((List.perm_ext_iff_of_nodup hd.idsNodup hd.nodup).2 hd.ids)
  obtain ⟨rs, h1, h2⟩ := perm_map_inv hp
  have hrows := hd.eqRows hns (rs := rs) fun r hr => h1.mem_iff.1 hr
  have hf : (rs.filter fullRec).Perm (recs.filter fullRec) := h1.filter _
  simp only [Db.eqBatchIds, h2, hrows]
  constructor
  · intro h
    rw [h] at hf
    rw [hf.eq_nil]
    rfl
  · intro h
    obtain ⟨r0, rs0, hr0⟩ := List.exists_cons_of_ne_nil (l := rs.filter fullRec) fun hn => h (by rw [hn] at hf; exact hf.symm.eq_nil)
    rw [hr0]
    simp only [List.map_cons]
    rw [← List.map_cons (f := fun r : κ × List (List Int) => (r.1, listMax (lensOf r))), ← hr0]
    have hs : ((shuf ((rs.filter fullRec).map fun r => (r.1, listMax (lensOf r)))).insertionSort fun a b => a.2 ≤ b.2).Perm
        ((rs.filter fullRec).map fun r => (r.1, listMax (lensOf r))) := (List.perm_insertionSort _ _).trans (hshuf _)
    obtain ⟨ts, t1, t2⟩ := perm_map_inv hs
    have hsort := List.pairwise_insertionSort (fun a b : κ × Int => a.2 ≤ b.2) (shuf ((rs.filter fullRec).map fun r => (r.1, listMax (lensOf r))))
    rw [t2] at hsort
    rw [t2]
    have hts : ∀ r ∈ ts, r ∈ recs.filter fullRec := fun r hr => hf.mem_iff.1 (t1.mem_iff.1 hr)
    have hne2 : ∀ r ∈ recs, r.2 ≠ [] := by
      intro r hr hn
      have := hd.width r hr
      rw [hn] at this
      exact hd.ne.1 (List.length_eq_zero_iff.1 this.symm)
    rcases eqLoop_spec (κ := κ) (fun r : κ × List (List Int) => r.1) longest maxToks maxSents ts [] 0 (by simp) (by omega) (by simp)
      (fun r hr => longest_nonneg (hne2 r (List.mem_filter.1 (hts r hr)).1)) (Or.inl ⟨rfl, rfl⟩) (by simp) with
      ⟨gs, g1, g2, g3, g4, g5, _⟩ | ⟨g1, r, g2, g3⟩
    · left
      simp only [List.nil_append] at g2
      refine ⟨gs, g1, by rw [g2]; exact t1.trans hf, ?_, ?_, g4, g5⟩
      · rw [g2]
        simpa [List.pairwise_map, longest] using hsort
      · intro r hr
        exact g3 r (t1.mem_iff.2 (hf.mem_iff.2 hr))
    · right
      exact ⟨g1, r, hts r g2, g3⟩

theorem getAll_lengths {ns : List Str} {recs : List (κ × List (List Int))} {db : Db κ} (hd : DInv ns recs db)
    {g : List (κ × List (List Int))} (hg : ∀ r ∈ g, r ∈ recs) :
    ∃ g', db.getAll (g.map (·.1)) = .ok g' ∧ List.Forall₂ (fun r r' => db.get r.1 = .ok r' ∧ r'.1 = r.1 ∧ r'.2.map List.length = r.2.map List.length) g g' := by
  induction g with
  | nil => exact ⟨[], rfl, by simp⟩
  | cons r g ih =>
    obtain ⟨g', h1, h2⟩ := ih fun r hr => hg r (by simp [hr])
    obtain ⟨cs, h3, h4⟩ := hd.get_lengths (hg r (by simp))
    exact ⟨(r.1, cs) :: g', by simp only [List.map_cons, Db.getAll, h3, h1], List.Forall₂.cons ⟨h3, rfl, h4⟩ h2⟩

theorem getAll_groups {ns : List Str} {recs : List (κ × List (List Int))} {db : Db κ} (hd : DInv ns recs db)
    {gs : List (List (κ × List (List Int)))} (hg : ∀ g ∈ gs, ∀ r ∈ g, r ∈ recs) :
    ∃ gs', genMap db.getAll none (gs.map (List.map (·.1))) = ⟨gs', none⟩ ∧
      List.Forall₂ (List.Forall₂ fun r r' => db.get r.1 = .ok r' ∧ r'.1 = r.1 ∧ r'.2.map List.length = r.2.map List.length) gs gs' := by
  induction gs with
  | nil => exact ⟨[], rfl, by simp⟩
  | cons g gs ih =>
    obtain ⟨gs', h1, h2⟩ := ih fun g hgg => hg g (by simp [hgg])
    obtain ⟨g', h3, h4⟩ := getAll_lengths hd (hg g (by simp))
    exact ⟨g' :: gs', by simp only [List.map_cons, genMap, h3, h1], List.Forall₂.cons h4 h2⟩

/-! ## One batch -/

theorem checkSeq_iff (b e : Bool) (bv ev : Int) (s t : List Int) : checkSeq b e bv ev s = .ok t ↔
    s ≠ [] ∧ (b = false → s.head? ≠ some bv) ∧ (e = false → s.getLast? ≠ some ev) ∧
    t = (if b = true ∧ s.head? ≠ some bv then [bv] else []) ++ s ++ (if e = true ∧ s.getLast? ≠ some ev then [ev] else []) := by
  cases s with
  | nil => simp [checkSeq, bosExists]
  | cons a s =>
    have hl : ∀ z, (z :: a :: s).getLast? = (a :: s).getLast? := fun z => List.getLast?_cons_cons
    obtain ⟨c, hc⟩ : ∃ c, (a :: s).getLast? = some c := ⟨(a :: s).getLast (by simp), List.getLast?_eq_some_getLast _⟩
    simp only [checkSeq, bosExists]
    by_cases hb : b = true <;> by_cases ha : a = bv <;> by_cases he : e = true <;> by_cases hce : c = ev <;>
      simp [hb, ha, he, hce, eosExists, hc, hl] <;> (try subst ha) <;> simp_all [eosExists, eq_comm]

theorem checkSeq_error (b e : Bool) (bv ev : Int) (s : List Int) (err : Exc) : checkSeq b e bv ev s = .error err ↔
    (s = [] ∧ err = .index) ∨ (s ≠ [] ∧ err = .assertion ∧ ((b = false ∧ s.head? = some bv) ∨ (e = false ∧ s.getLast? = some ev))) := by
  cases s with
  | nil => simp [checkSeq, bosExists, eq_comm]
  | cons a s =>
    have hl : ∀ z, (z :: a :: s).getLast? = (a :: s).getLast? := fun z => List.getLast?_cons_cons
    obtain ⟨c, hc⟩ : ∃ c, (a :: s).getLast? = some c := ⟨(a :: s).getLast (by simp), List.getLast?_eq_some_getLast _⟩
    simp only [checkSeq, bosExists]
    by_cases hb : b = true <;> by_cases ha : a = bv <;> by_cases he : e = true <;> by_cases hce : c = ev <;>
      simp [hb, ha, he, hce, eosExists, hc, hl] <;> (try subst ha) <;> simp_all [eosExists, eq_comm]

/-- a stable sort keeps the order of items with equal keys -/
theorem insertionSort_stable {α : Type} (f : α → Nat) (l : List α) (n : Nat) :
    (l.insertionSort fun a b => f b ≤ f a).filter (fun a => decide (f a = n)) = l.filter fun a => decide (f a = n) := by
  have h1 : (l.filter fun a => decide (f a = n)).Pairwise fun a b => f b ≤ f a := by
    rw [List.pairwise_iff_forall_sublist]
    intro a b hab
    have ha := (List.mem_filter.1 (hab.subset (by simp : a ∈ [a, b]))).2
    have hb := (List.mem_filter.1 (hab.subset (by simp : b ∈ [a, b]))).2
    simp only [decide_eq_true_eq] at ha hb
    omega
  have h2 := List.sublist_insertionSort (r := fun a b => f b ≤ f a) h1 List.filter_sublist
  have h3 := h2.filter fun a => decide (f a = n)
  simp only [List.filter_filter, Bool.and_self] at h3
  exact (h3.eq_of_length (((List.perm_insertionSort _ l).filter _).length_eq.symm)).symm

/-- the examples of a batch in the order of the rows -/
structure Rows (m : BatchMeta) (sortDec : Bool) (es es' : List (IdEx κ)) (hasY : Bool) : Prop where
  marked : ∃ es1 : List (IdEx κ), List.Forall₂ (fun e e1 => e1.id = e.id ∧ checkSeq m.addBosX m.addEosX m.bos m.eos e.x = .ok e1.x ∧
      (if hasY then ∃ y y1, e.y = some y ∧ e1.y = some y1 ∧ checkSeq m.addBosY m.addEosY m.bos m.eos y = .ok y1 else e1.y = e.y)) es es1 ∧
    es' = if sortDec then es1.insertionSort fun a b => b.x.length ≤ a.x.length else es1

omit [DecidableEq κ] in
theorem forall₂_eq_map {α β : Type} {f : α → β} {l : List α} {m : List β} (h : List.Forall₂ (fun a b => b = f a) l m) : m = l.map f := by
  induction h with
  | nil => rfl
  | cons h1 _ ih => simp [h1, ih]

theorem Batch.make_ok {m : BatchMeta} {sortDec bf : Bool} {es es' : List (IdEx κ)} {b : Batch} (h : Batch.make m sortDec bf es = .ok (b, es')) :
    es' ≠ [] ∧ b.len = es'.length ∧ Side.make bf m.pad (es'.map (·.x)) = .ok b.x ∧ Rows m sortDec es es' b.y.isSome ∧
    (b.y = none → ∃ e, es'.head? = some e ∧ e.y = none) ∧ ∀ ys, b.y = some ys → ∃ seqs, es'.map (·.y) = seqs.map some ∧ Side.make bf m.pad seqs = .ok ys := by
  simp only [Batch.make] at h
  cases hx : checkX m es with
  | error e => simp [hx] at h
  | ok es1 =>
    simp only [hx] at h
    have hx' := checkX_ok hx
    generalize he2 : (if sortDec = true then es1.insertionSort fun a b => b.x.length ≤ a.x.length else es1) = es2 at h
    cases hs : Side.make bf m.pad (es2.map (·.x)) with
    | error e => simp [hs] at h
    | ok xs =>
      simp only [hs] at h
      cases es2 with
      | nil => simp at h
      | cons e0 es2 =>
        simp only at h
        cases hy : e0.y with
        | none =>
          simp only [hy, Except.ok.injEq, Prod.mk.injEq] at h
          obtain ⟨rfl, rfl⟩ := h
          refine ⟨by simp, rfl, hs, ⟨⟨es1, ?_, he2.symm⟩⟩, fun _ => ⟨e0, rfl, hy⟩, by simp⟩
          exact hx'.imp fun e e1 h => ⟨h.2.1, h.1, by simpa using h.2.2⟩
        | some y0 =>
          simp only [hy] at h
          cases hc : checkY m (e0 :: es2) with
          | error e => simp [hc] at h
          | ok es3 =>
            simp only [hc] at h
            cases hs2 : Side.make bf m.pad (ysOf es3) with
            | error e => simp [hs2] at h
            | ok ys =>
              simp only [hs2, Except.ok.injEq, Prod.mk.injEq] at h
              obtain ⟨rfl, rfl⟩ := h
              have hy' := checkY_ok hc
              -- the marked target as a function of the example
              let f : IdEx κ → IdEx κ := fun e => { e with y := (e.y.bind fun y => (checkSeq m.addBosY m.addEosY m.bos m.eos y).toOption) }
              have hf : es3 = (e0 :: es2).map f := by
                apply forall₂_eq_map
                refine hy'.imp ?_
                rintro e e1 ⟨h1, h2, y, y1, h3, h4, h5⟩
                cases e; cases e1
                simp only at h1 h2 h3 h4
                subst h1 h2 h3 h4
                simp [f, h5, Except.toOption]
              have hys : ∀ e ∈ es3, e.y = some (e.y.getD []) := by
                intro e he
                obtain ⟨i, hi⟩ := List.mem_iff_getElem.1 he
                obtain ⟨hil, rfl⟩ := hi
                obtain ⟨_, _, _, y1, _, h4, _⟩ := (List.forall₂_iff_get.1 hy').2 i (by rw [hy'.length_eq]; exact hil) hil
                simp only [List.get_eq_getElem] at h4
                simp [h4]
              have hmap : es3.map (·.x) = (e0 :: es2).map (·.x) := by rw [hf]; simp [f]
              refine ⟨by rw [hf]; simp, rfl, by rw [hmap]; exact hs, ⟨⟨es1.map f, ?_, ?_⟩⟩, by simp, ?_⟩
              · have hall : ∀ e ∈ e0 :: es2, ∃ y y1, e.y = some y ∧ (f e).y = some y1 ∧ checkSeq m.addBosY m.addEosY m.bos m.eos y = .ok y1 := by
                  intro e he
                  obtain ⟨i, hi⟩ := List.mem_iff_getElem.1 he
                  obtain ⟨hil, rfl⟩ := hi
                  obtain ⟨_, _, y, y1, h3, h4, h5⟩ := (List.forall₂_iff_get.1 hy').2 i hil (by rw [← hy'.length_eq]; exact hil)
                  simp only [List.get_eq_getElem] at h3 h4 h5
                  exact ⟨y, y1, h3, by simp [f, h3, h5, Except.toOption], h5⟩
                have hmem : ∀ e ∈ es1, e ∈ e0 :: es2 := by
                  intro e he
                  rw [← he2]
                  split
                  · exact (List.mem_insertionSort _).2 he
                  · exact he
                rw [List.forall₂_map_right_iff]
                rw [List.forall₂_iff_get] at hx' ⊢
                refine ⟨hx'.1, ?_⟩
                intro i h1 h2
                obtain ⟨a1, a2, a3⟩ := hx'.2 i h1 h2
                obtain ⟨y, y1, b1, b2, b3⟩ := hall _ (hmem _ (List.get_mem es1 ⟨i, h2⟩))
                exact ⟨a2, a1, by simp only [Option.isSome_some, if_true]; exact ⟨y, y1, by rw [← a3]; exact b1, b2, b3⟩⟩
              · rw [hf, ← he2]
                split
                · exact List.map_insertionSort (fun a b : IdEx κ => b.x.length ≤ a.x.length) (fun a b : IdEx κ => b.x.length ≤ a.x.length) f es1 (by simp [f])
                · rfl
              · intro ys' hys'
                simp only [Option.some.injEq] at hys'
                subst hys'
                refine ⟨ysOf es3, ?_, hs2⟩
                rw [ysOf, filterMap_some hys]
                rw [List.map_map]
                exact List.map_congr_left hys

end Verif
