import Verif.Props.DbWidth
/-! # Property C112: exactly when a field has the narrowest type -/

namespace Verif
open Spec

variable {κ : Type} [DecidableEq κ]

/-- all values are numbers of `w` bits, signed or not -/
def Spec.HeldBy (signed : Bool) (w : Nat) (vals : List Int) : Prop :=
  ∀ v ∈ vals, if signed then -2 ^ (w - 1) ≤ v ∧ v < 2 ^ (w - 1) else 0 ≤ v ∧ v < 2 ^ w

/-- the type is an integer type that holds all values, and no integer type with fewer bits does -/
def Spec.Narrowest (t : NpTy) (vals : List Int) : Prop :=
  t ≠ .f64 ∧ HeldBy t.signed t.bits vals ∧ ∀ signed, ∀ w ∈ widths, w < t.bits → ¬ HeldBy signed w vals

/-- C112, exactly, for values that fit into the buffer: the data have the narrowest integer type that holds them if and only if there are none, or one is negative and all
fit into 64 bits. -/
theorem C112_iff {bufSize : Nat} {name : Str} {recs : List (κ × List Int)} {f : SeqField κ} (h : SeqField.create bufSize name recs = .ok f)
    (hlen : (recs.map (·.2)).flatten.length < bufSize) :
    Narrowest f.ty (recs.map (·.2)).flatten ↔ (recs.map (·.2)).flatten = [] ∨
      (∃ v ∈ (recs.map (·.2)).flatten, v < 0) ∧ ∀ v ∈ (recs.map (·.2)).flatten, -2 ^ 63 ≤ v ∧ v < 2 ^ 63 := by
  have hids := C112_ids_partial h hlen
  obtain ⟨parts, h1, h2, h3, h4⟩ := C112_partial h
  generalize (recs.map (·.2)).flatten = vals at *
  generalize f.ty = t at *
  by_cases hne : vals = []
  · have hp : parts = [] := by
      match parts, h1, h3 hlen, h2 with
      | [], _, _, _ => rfl
      | [p], h1, _, h2 =>
        simp at h1
        exact absurd (h1.trans hne) (h2 p (by simp))
    subst hp hne
    simp only [true_or, iff_true]
    rcases h4 with ⟨a1, _, a2⟩ | ⟨_, a2⟩
    · have hb : t.bits ≤ 8 := by
        by_contra hc
        exact a2 8 (by decide) (by omega) (by simp)
      refine ⟨(by rintro rfl; cases a1), by simp [HeldBy], fun s w hw hlt => ?_⟩
      simp only [widths, List.mem_cons, List.not_mem_nil, or_false] at hw
      omega
    · exact absurd (by simp) (a2 8 (by decide))
  have hp : parts = [vals] := by
    match parts, h1, h3 hlen with
    | [], h1, _ => exact absurd h1.symm hne
    | [p], h1, _ => simp at h1; rw [h1]
  subst hp
  by_cases hneg : ∃ v ∈ vals, v < 0
  · have key : ∀ w, w ∈ widths → (Enough w vals ↔ HeldBy true w vals) := by
      intro w _
      constructor
      · rintro (⟨_, h6⟩ | ⟨_, h6⟩)
        · exact fun v hv => by simpa using h6 v hv
        · obtain ⟨v, hv, h0⟩ := hneg
          have := (h6 v hv).1
          omega
      · intro h5
        exact .inl ⟨hneg, fun v hv => by simpa using h5 v hv⟩
    have hun : ∀ w, ¬ HeldBy false w vals := by
      intro w hw
      obtain ⟨v, hv, h0⟩ := hneg
      have := (hw v hv)
      simp at this
      omega
    have h64 : HeldBy true 64 vals ↔ ∀ v ∈ vals, -2 ^ 63 ≤ v ∧ v < 2 ^ 63 := by simp [HeldBy]
    simp only [hne, false_or, hneg, true_and]
    rw [← h64]
    simp only [LeastType, List.mem_singleton, forall_eq] at h4
    have hbits : t.signed = true → t.bits ∈ widths := by cases t <;> decide
    rcases h4 with ⟨a1, a2, a3⟩ | ⟨rfl, a3⟩
    · refine ⟨fun _ => ?_, fun _ => ⟨(by rintro rfl; cases a1), ?_, fun s w hw hlt => ?_⟩⟩
      · exact (key 64 (by decide)).1 (enough_mono (by cases t <;> decide) a2)
      · rw [a1]; exact (key _ (hbits a1)).1 a2
      · cases s
        · exact hun w
        · exact fun h => a3 w hw hlt ((key w hw).2 h)
    · refine ⟨fun h => absurd rfl h.1, fun h => absurd ((key 64 (by decide)).2 h) (a3 64 (by decide))⟩
  · have hpos : ∀ v ∈ vals, 0 ≤ v := fun v hv => by
      by_contra hc
      exact hneg ⟨v, hv, by omega⟩
    simp only [hne, hneg, false_and, or_self, iff_false]
    rintro ⟨n1, n2, n3⟩
    rw [hids hne hpos] at n1 n3
    have hold : ∀ w, (∀ v ∈ vals, v < 2 ^ w) → HeldBy false w vals := fun w hw v hv => by simpa using ⟨hpos v hv, hw v hv⟩
    split at n3
    · rename_i hc
      exact n3 false 8 (by decide) (by decide) (hold 8 hc)
    · split at n3
      · rename_i hc
        exact n3 false 16 (by decide) (by decide) (hold 16 hc)
      · split at n3
        · rename_i hc
          exact n3 false 32 (by decide) (by decide) (hold 32 hc)
        · rename_i c1 c2 c3
          rw [if_neg c1, if_neg c2, if_neg c3] at n1
          exact n1 rfl

-- one negative value makes the type the narrowest
example : (SeqField.create 100 (lit "x") [((0 : Nat), [7, -1])]).toOption.map (·.ty) = some .i8 ∧
    (SeqField.create 100 (lit "x") [((0 : Nat), [7, 1])]).toOption.map (·.ty) = some .i16 := by decide +kernel

end Verif
