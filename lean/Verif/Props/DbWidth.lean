import Verif.Props.Db
/-! # Property C112: the type in which a field stores its values -/

namespace Verif
open Spec

/-- `w` bits are enough for the values of one part of the data, as the code counts: with a negative value among them, all are signed numbers of `w` bits;
without, all are unsigned numbers of half as many bits, at least 8 -/
def Spec.Enough (w : Nat) (part : List Int) : Prop :=
  ((∃ v ∈ part, v < 0) ∧ ∀ v ∈ part, -2 ^ (w - 1) ≤ v ∧ v < 2 ^ (w - 1)) ∨ (16 ≤ w ∧ ∀ v ∈ part, 0 ≤ v ∧ v < 2 ^ (w / 2))

/-- the widths of integer types -/
def Spec.widths : List Nat := [8, 16, 32, 64]

/-- the type is the signed integer type of the least width that is enough for all parts, and `float64` if none is -/
def Spec.LeastType (parts : List (List Int)) (t : NpTy) : Prop :=
  (t.signed = true ∧ (∀ p ∈ parts, Enough t.bits p) ∧ ∀ w ∈ widths, w < t.bits → ¬ ∀ p ∈ parts, Enough w p) ∨
  (t = .f64 ∧ ∀ w ∈ widths, ¬ ∀ p ∈ parts, Enough w p)

theorem enough_iff {w : Nat} {part : List Int} (h : part ≠ []) : Enough w part ↔
    (listMin part < 0 ∧ -2 ^ (w - 1) ≤ listMin part ∧ listMax part < 2 ^ (w - 1)) ∨ (16 ≤ w ∧ 0 ≤ listMin part ∧ listMax part < 2 ^ (w / 2)) := by
  have h1 := listMin_mem h
  have h2 := listMax_mem h
  constructor
  · rintro (⟨⟨v, hv, h0⟩, h3⟩ | ⟨h3, h4⟩)
    · exact .inl ⟨lt_of_le_of_lt (listMin_le hv) h0, (h3 _ h1).1, (h3 _ h2).2⟩
    · exact .inr ⟨h3, (h4 _ h1).1, (h4 _ h2).2⟩
  · rintro (⟨h3, h4, h5⟩ | ⟨h3, h4, h5⟩)
    · exact .inl ⟨⟨_, h1, h3⟩, fun v hv => ⟨le_trans h4 (listMin_le hv), lt_of_le_of_lt (le_listMax hv) h5⟩⟩
    · exact .inr ⟨h3, fun v hv => ⟨le_trans h4 (listMin_le hv), lt_of_le_of_lt (le_listMax hv) h5⟩⟩

theorem enough_mono {w w' : Nat} {part : List Int} (h : w ≤ w') (he : Enough w part) : Enough w' part := by
  have e1 : (2 : Int) ^ (w - 1) ≤ 2 ^ (w' - 1) := pow_le_pow_right₀ (by norm_num) (by omega)
  have e2 : (2 : Int) ^ (w / 2) ≤ 2 ^ (w' / 2) := pow_le_pow_right₀ (by norm_num) (by omega)
  rcases he with ⟨h1, h2⟩ | ⟨h1, h2⟩
  · exact .inl ⟨h1, fun v hv => ⟨by have := (h2 v hv).1; omega, by have := (h2 v hv).2; omega⟩⟩
  · exact .inr ⟨by omega, fun v hv => ⟨(h2 v hv).1, by have := (h2 v hv).2; omega⟩⟩

theorem find_first {l : List NpTy} {p : NpTy → Bool} {d : NpTy} (h : l.find? p = some d) : ∀ a ∈ l.takeWhile (· ≠ d), p a = false := by
  induction l with
  | nil => cases h
  | cons x xs ih =>
    rw [List.find?_cons] at h
    intro a ha
    split at h
    · cases h; simp at ha
    · rename_i hx
      rw [List.takeWhile_cons] at ha
      split at ha
      · rcases List.mem_cons.1 ha with rfl | ha
        · exact hx
        · exact ih h a ha
      · cases ha

/-- the type chosen for one part -/
theorem leastType_part {part : List Int} (h : part ≠ []) {d : NpTy} (hd : bestDtype (listMin part) (listMax part) = .ok d) :
    LeastType [part] (NpTy.promote .i8 d) := by
  have hle : listMin part ≤ listMax part := listMin_le (listMax_mem h)
  obtain ⟨hf64, hlo, hhi⟩ := bestDtype_ok hd
  have hno : ∀ a ∈ dtypeOptions.takeWhile (· ≠ d), ¬ (a.lo ≤ listMin part ∧ listMax part ≤ a.hi) := by
    simp only [bestDtype] at hd
    cases hf : dtypeOptions.find? fun t => decide (t.lo ≤ listMin part) && decide (listMax part ≤ t.hi) with
    | none => simp [hf] at hd
    | some u =>
      simp only [hf, Except.ok.injEq] at hd
      subst hd
      intro a ha
      have := find_first hf a ha
      rintro ⟨h1, h2⟩
      simp [h1, h2] at this
  simp only [LeastType, List.mem_singleton, forall_eq, enough_iff h]
  generalize listMin part = mn at *
  generalize listMax part = mx at *
  clear hd h
  cases d
  case f64 => exact absurd rfl hf64
  case u64 =>
    refine .inr ⟨by decide, ?_⟩
    have h1 := hno .u32 (by decide)
    have h2 := hno .i32 (by decide)
    simp only [NpTy.lo, NpTy.hi] at *
    intro w hw
    simp only [widths, List.mem_cons, List.not_mem_nil, or_false] at hw
    rcases hw with rfl | rfl | rfl | rfl <;> norm_num <;> omega
  case u8 =>
    simp only [NpTy.lo, NpTy.hi] at *
    refine .inl ⟨by decide, ?_, ?_⟩
    · rw [show (NpTy.promote .i8 .u8).bits = 16 by decide]; norm_num; omega
    · rw [show (NpTy.promote .i8 .u8).bits = 16 by decide]
      intro w hw hlt
      simp only [widths, List.mem_cons, List.not_mem_nil, or_false] at hw
      rcases hw with rfl | rfl | rfl | rfl <;> omega
  case i8 =>
    have h1 := hno .u8 (by decide)
    simp only [NpTy.lo, NpTy.hi] at *
    refine .inl ⟨by decide, ?_, ?_⟩
    · rw [show (NpTy.promote .i8 .i8).bits = 8 by decide]; norm_num; omega
    · rw [show (NpTy.promote .i8 .i8).bits = 8 by decide]
      intro w hw hlt
      simp only [widths, List.mem_cons, List.not_mem_nil, or_false] at hw
      rcases hw with rfl | rfl | rfl | rfl <;> omega
  case u16 =>
    have h1 := hno .u8 (by decide)
    have h2 := hno .i8 (by decide)
    simp only [NpTy.lo, NpTy.hi] at *
    refine .inl ⟨by decide, ?_, ?_⟩
    · rw [show (NpTy.promote .i8 .u16).bits = 32 by decide]; norm_num; omega
    · rw [show (NpTy.promote .i8 .u16).bits = 32 by decide]
      intro w hw hlt
      simp only [widths, List.mem_cons, List.not_mem_nil, or_false] at hw
      rcases hw with rfl | rfl | rfl | rfl <;> omega
  case i16 =>
    have h1 := hno .u8 (by decide)
    have h2 := hno .i8 (by decide)
    have h3 := hno .u16 (by decide)
    simp only [NpTy.lo, NpTy.hi] at *
    refine .inl ⟨by decide, ?_, ?_⟩
    · rw [show (NpTy.promote .i8 .i16).bits = 16 by decide]; norm_num; omega
    · rw [show (NpTy.promote .i8 .i16).bits = 16 by decide]
      intro w hw hlt
      simp only [widths, List.mem_cons, List.not_mem_nil, or_false] at hw
      rcases hw with rfl | rfl | rfl | rfl <;> omega
  case u32 =>
    have h1 := hno .u16 (by decide)
    have h2 := hno .i16 (by decide)
    simp only [NpTy.lo, NpTy.hi] at *
    refine .inl ⟨by decide, ?_, ?_⟩
    · rw [show (NpTy.promote .i8 .u32).bits = 64 by decide]; norm_num; omega
    · rw [show (NpTy.promote .i8 .u32).bits = 64 by decide]
      intro w hw hlt
      simp only [widths, List.mem_cons, List.not_mem_nil, or_false] at hw
      rcases hw with rfl | rfl | rfl | rfl <;> omega
  case i32 =>
    have h1 := hno .u16 (by decide)
    have h2 := hno .i16 (by decide)
    have h3 := hno .u32 (by decide)
    simp only [NpTy.lo, NpTy.hi] at *
    refine .inl ⟨by decide, ?_, ?_⟩
    · rw [show (NpTy.promote .i8 .i32).bits = 32 by decide]; norm_num; omega
    · rw [show (NpTy.promote .i8 .i32).bits = 32 by decide]
      intro w hw hlt
      simp only [widths, List.mem_cons, List.not_mem_nil, or_false] at hw
      rcases hw with rfl | rfl | rfl | rfl <;> omega
  case i64 =>
    have h1 := hno .u32 (by decide)
    have h2 := hno .i32 (by decide)
    have h3 := hno .u64 (by decide)
    simp only [NpTy.lo, NpTy.hi] at *
    refine .inl ⟨by decide, ?_, ?_⟩
    · rw [show (NpTy.promote .i8 .i64).bits = 64 by decide]; norm_num; omega
    · rw [show (NpTy.promote .i8 .i64).bits = 64 by decide]
      intro w hw hlt
      simp only [widths, List.mem_cons, List.not_mem_nil, or_false] at hw
      rcases hw with rfl | rfl | rfl | rfl <;> omega

theorem mem_widths_of_signed {t : NpTy} (h : t.signed = true) : t.bits ∈ widths := by revert h; cases t <;> decide

theorem leastType_nil : LeastType [] .i8 := .inl ⟨rfl, by simp, fun w hw h => by
  change w < 8 at h
  simp only [widths, List.mem_cons, List.not_mem_nil, or_false] at hw
  omega⟩

/-- promotion with the type of one more part -/
theorem Spec.LeastType.snoc {parts : List (List Int)} {part : List Int} {t d : NpTy} (h1 : LeastType parts t) (h2 : LeastType [part] (NpTy.promote .i8 d))
    (hd : d ≠ .f64) : LeastType (parts ++ [part]) (t.promote d) := by
  have hall : ∀ w, (∀ p ∈ parts ++ [part], Enough w p) ↔ (∀ p ∈ parts, Enough w p) ∧ Enough w part := by
    intro w
    simp only [List.mem_append, List.mem_singleton]
    exact ⟨fun h => ⟨fun p hp => h p (.inl hp), h part (.inr rfl)⟩, fun h p hp => hp.elim (h.1 p) fun e => e ▸ h.2⟩
  simp only [LeastType, hall]
  simp only [LeastType, List.mem_singleton, forall_eq] at h1 h2
  rcases h1 with ⟨a1, a2, a3⟩ | ⟨a1, a2⟩
  · rcases h2 with ⟨b1, b2, b3⟩ | ⟨b1, b2⟩
    · generalize he : NpTy.promote .i8 d = e at b1 b2 b3
      have hp : t.promote d = if t.bits < e.bits then e else t := by
        revert a1 b1; subst he; revert hd; cases t <;> cases d <;> decide
      rw [hp]
      split
      · rename_i hlt
        exact .inl ⟨b1, ⟨fun p hp => enough_mono (le_of_lt hlt) (a2 p hp), b2⟩, fun w hw hlt h => b3 w hw hlt h.2⟩
      · rename_i hge
        exact .inl ⟨a1, ⟨a2, enough_mono (not_lt.1 hge) b2⟩, fun w hw hlt h => a3 w hw hlt h.1⟩
    · have hp : t.promote d = .f64 := by revert a1 b1 hd; cases t <;> cases d <;> decide
      exact .inr ⟨hp, fun w hw h => b2 w hw h.2⟩
  · subst a1
    exact .inr ⟨by cases d <;> rfl, fun w hw h => a2 w hw h.1⟩

variable {κ : Type} [DecidableEq κ]

/-- the parts of the data that were stored at once -/
structure TyInv (bufSize : Nat) (l : List (κ × List Int)) (b : Builder κ) (parts : List (List Int)) : Prop where
  cover : parts.flatten ++ b.buffer = flat l
  ne : ∀ p ∈ parts, p ≠ []
  least : LeastType parts b.ty
  one : (flat l).length < bufSize → parts = []

omit [DecidableEq κ] in
theorem tyInv_shrink {b b1 : Builder κ} {parts : List (List Int)} (h : b.shrink = .ok b1) (hl : LeastType parts b.ty) :
    (b.buffer = [] ∧ b1 = b) ∨ (b.buffer ≠ [] ∧ b1.buffer = [] ∧ LeastType (parts ++ [b.buffer]) b1.ty) := by
  simp only [Builder.shrink] at h
  split at h
  · rename_i h0
    cases h
    exact .inl ⟨h0, rfl⟩
  · rename_i h0
    cases ht : bestDtype (listMin b.buffer) (listMax b.buffer) with
    | error e => simp [ht] at h
    | ok t =>
      simp only [ht, Except.ok.injEq] at h
      subst h
      exact .inr ⟨h0, rfl, Spec.LeastType.snoc hl (leastType_part h0 ht) (bestDtype_ok ht).1⟩

theorem TyInv.append {bufSize : Nat} {l : List (κ × List Int)} {b b1 : Builder κ} {parts : List (List Int)} (hb : TyInv bufSize l b parts) {id : κ}
    {arr : List Int} (h : b.append bufSize id arr = .ok b1) : ∃ parts', TyInv bufSize (l ++ [(id, arr)]) b1 parts' := by
  have hfl : flat (l ++ [(id, arr)]) = flat l ++ arr := by rw [flat_append]; simp [flat]
  simp only [Builder.append] at h
  split at h
  · rename_i hsz
    rcases tyInv_shrink (parts := parts) h hb.least with ⟨h0, rfl⟩ | ⟨h0, h1, h2⟩
    · refine ⟨parts, ?_, hb.ne, hb.least, fun hlt => hb.one (by rw [hfl] at hlt; simp at hlt; omega)⟩
      rw [hfl, ← hb.cover]; simp
    · refine ⟨parts ++ [b.buffer ++ arr], ?_, ?_, h2, ?_⟩
      · rw [h1, hfl, ← hb.cover]; simp
      · intro p hp
        rcases List.mem_append.1 hp with hp | hp
        · exact hb.ne p hp
        · rw [List.mem_singleton.1 hp]; exact h0
      · intro hlt
        exfalso
        rw [hfl, ← hb.cover] at hlt
        simp only [List.length_append] at hlt hsz
        omega
  · cases h
    refine ⟨parts, ?_, hb.ne, hb.least, fun hlt => hb.one (by rw [hfl] at hlt; simp at hlt; omega)⟩
    rw [hfl, ← hb.cover]; simp

theorem TyInv.appendAll {bufSize : Nat} {l : List (κ × List Int)} {b b1 : Builder κ} {parts : List (List Int)} (hb : TyInv bufSize l b parts)
    {recs : List (κ × List Int)} (h : b.appendAll bufSize recs = .ok b1) : ∃ parts', TyInv bufSize (l ++ recs) b1 parts' := by
  induction recs generalizing l b parts with
  | nil => simp only [Builder.appendAll, Except.ok.injEq] at h; subst h; exact ⟨parts, by simpa using hb⟩
  | cons r rs ih =>
    obtain ⟨id, arr⟩ := r
    simp only [Builder.appendAll] at h
    cases ha : b.append bufSize id arr with
    | error e => simp [ha] at h
    | ok b2 =>
      simp only [ha] at h
      obtain ⟨p2, h2⟩ := hb.append ha
      obtain ⟨p3, h3⟩ := ih h2 h
      exact ⟨p3, by simpa using h3⟩

/-- C112, what holds: the values of all records in order are cut into parts, a single one if there are fewer than the buffer takes.  The data have the
signed integer type of the least width that is enough for all parts, or `float64` if none is: where there is no negative value, twice the width that the
values need. -/
theorem C112_partial {bufSize : Nat} {name : Str} {recs : List (κ × List Int)} {f : SeqField κ} (h : SeqField.create bufSize name recs = .ok f) :
    ∃ parts : List (List Int), parts.flatten = (recs.map (·.2)).flatten ∧ (∀ p ∈ parts, p ≠ []) ∧
      ((recs.map (·.2)).flatten.length < bufSize → parts.length ≤ 1) ∧ LeastType parts f.ty := by
  simp only [SeqField.create] at h
  cases hb : Builder.new.appendAll bufSize recs with
  | error e => simp [hb] at h
  | ok b =>
    simp only [hb] at h
    obtain ⟨parts, hp⟩ := TyInv.appendAll (l := []) (parts := []) (b := Builder.new) ⟨by simp [Builder.new, flat], by simp, leastType_nil, fun _ => rfl⟩ hb
    rw [List.nil_append] at hp
    have hflat : flat recs = (recs.map (·.2)).flatten := by simp [flat]
    simp only [Builder.build] at h
    cases hs : b.shrink with
    | error e => simp [hs] at h
    | ok b1 =>
      simp only [hs] at h
      generalize bestDtype 0 _ = w at h
      cases w with
      | error e => cases h
      | ok rt =>
        simp only at h
        have hty : f.ty = b1.ty := by
          simp only [SeqField.make] at h
          split at h
          · cases h
          · split at h
            · cases h
            · split at h
              · cases h
              · cases h; rfl
        rw [hty, ← hflat]
        rcases tyInv_shrink hs hp.least with ⟨h0, rfl⟩ | ⟨h0, h1, h2⟩
        · refine ⟨parts, ?_, hp.ne, fun hlt => by rw [hp.one hlt]; simp, hp.least⟩
          have := hp.cover
          rw [h0] at this
          simpa using this
        · refine ⟨parts ++ [b.buffer], by rw [← hp.cover]; simp, ?_, fun hlt => by rw [hp.one hlt]; simp, h2⟩
          intro p hp'
          rcases List.mem_append.1 hp' with hp' | hp'
          · exact hp.ne p hp'
          · rw [List.mem_singleton.1 hp']; exact h0

/-- C112: for values that are not negative, as ids are, and fit into the buffer: the type has 16, 32 or 64 bits where 8, 16 or 32 would do, and is not an
integer type if a value has more than 32 bits. -/
theorem C112_ids_partial {bufSize : Nat} {name : Str} {recs : List (κ × List Int)} {f : SeqField κ} (h : SeqField.create bufSize name recs = .ok f)
    (hlen : (recs.map (·.2)).flatten.length < bufSize) (hne : (recs.map (·.2)).flatten ≠ []) (hpos : ∀ v ∈ (recs.map (·.2)).flatten, 0 ≤ v) :
    f.ty = if ∀ v ∈ (recs.map (·.2)).flatten, v < 2 ^ 8 then .i16
      else if ∀ v ∈ (recs.map (·.2)).flatten, v < 2 ^ 16 then .i32
      else if ∀ v ∈ (recs.map (·.2)).flatten, v < 2 ^ 32 then .i64 else .f64 := by
  obtain ⟨parts, h1, h2, h3, h4⟩ := C112_partial h
  generalize (recs.map (·.2)).flatten = vals at *
  have hp : parts = [vals] := by
    match parts, h1, h3 hlen with
    | [], h1, _ => exact absurd h1.symm hne
    | [p], h1, _ => simp at h1; rw [h1]
  subst hp
  simp only [LeastType, List.mem_singleton, forall_eq] at h4
  have key : ∀ w, Enough w vals ↔ 16 ≤ w ∧ ∀ v ∈ vals, v < 2 ^ (w / 2) := by
    intro w
    constructor
    · rintro (⟨⟨v, hv, h0⟩, -⟩ | ⟨h5, h6⟩)
      · have := hpos v hv; omega
      · exact ⟨h5, fun v hv => (h6 v hv).2⟩
    · rintro ⟨h5, h6⟩
      exact .inr ⟨h5, fun v hv => ⟨hpos v hv, h6 v hv⟩⟩
  simp only [key, widths, List.mem_cons, List.not_mem_nil, or_false, forall_eq_or_imp, forall_eq] at h4
  rcases h4 with ⟨a1, ⟨a2, a3⟩, -, a4, a5, -⟩ | ⟨a1, -, a4, a5, a6⟩
  · generalize hb : f.ty = t at *
    cases t
    case i16 => exact (if_pos a3).symm
    case i32 => rw [if_neg fun h => a4 (by decide) ⟨by decide, h⟩]; exact (if_pos a3).symm
    case i64 => rw [if_neg fun h => a4 (by decide) ⟨by decide, h⟩, if_neg fun h => a5 (by decide) ⟨by decide, h⟩]; exact (if_pos a3).symm
    case i8 => exact absurd a2 (by decide)
    all_goals cases a1
  · rw [if_neg fun h => a4 ⟨by decide, h⟩, if_neg fun h => a5 ⟨by decide, h⟩, if_neg fun h => a6 ⟨by decide, h⟩, a1]

/-- C112 as stated is false: the sequence `[7]` is stored in 16 bits, although every integer type would hold it (the data start with an empty array of
`int8`, and the type of the data, `uint8`, is promoted with it). -/
theorem C112_refuted : ∃ f : SeqField Nat, SeqField.create 100 (lit "x") [(0, [7])] = .ok f ∧ f.ty.bits = 16 ∧ Fits false 8 7 7 ∧ Fits true 8 7 7 := by
  have h : (match SeqField.create 100 (lit "x") [((0 : Nat), [7])] with
    | .ok f => f.ty.bits
    | .error _ => 0) = 16 := by decide +kernel
  cases hc : SeqField.create 100 (lit "x") [((0 : Nat), [7])] with
  | error e => rw [hc] at h; cases h
  | ok f => rw [hc] at h; exact ⟨f, rfl, h, by constructor <;> norm_num, by constructor <;> norm_num⟩

/-- token ids below 65536 take four bytes each; a negative value makes the type smaller -/
example : (SeqField.create 100 (lit "x") [((0 : Nat), [7, 30000]), (1, [])]).toOption.map (·.ty) = some .i32 ∧
    (SeqField.create 100 (lit "x") [((0 : Nat), [7, 30000]), (1, [-1])]).toOption.map (·.ty) = some .i16 ∧
    (SeqField.create 1 (lit "x") [((0 : Nat), [7, 30000]), (1, [-1])]).toOption.map (·.ty) = some .i32 ∧
    (SeqField.create 100 (lit "x") [((0 : Nat), [4294967296])]).toOption.map (·.ty) = some .f64 := by decide +kernel

end Verif
