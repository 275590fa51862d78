import Verif.Model.FieldViews
import Verif.Lemmas.Multipart
import Verif.Props.Db
/-!
# C119: listing a field
-/

namespace Verif

variable {κ : Type} [DecidableEq κ]

/-- appending records with new ids numbers them on -/
theorem appendAll_ids {bufSize : Nat} : ∀ {recs : List (κ × List Int)} {b b' : Builder κ}, b.appendAll bufSize recs = .ok b' →
    (Dict.keys b.ids ++ recs.map (·.1)).Nodup →
    b'.ids = b.ids ++ (recs.zipIdx b.refs.length).map fun p => (p.1.1, p.2)
  | [], b, b', h, _ => by
    rw [Builder.appendAll] at h
    rw [← Except.ok.inj h]
    simp
  | (id, arr) :: recs, b, b', h, hn => by
    rw [Builder.appendAll] at h
    cases ha : b.append bufSize id arr with
    | error e => rw [ha] at h; cases h
    | ok b1 =>
      rw [ha] at h
      have hnew : id ∉ Dict.keys b.ids := by
        intro hm
        exact (List.nodup_append.1 hn).2.2 id hm id (by simp) rfl
      have h1 : b1.ids = b.ids ++ [(id, b.refs.length)] ∧ b1.refs.length = b.refs.length + 1 := by
        simp only [Builder.append] at ha
        split at ha
        · obtain ⟨g1, g2, _⟩ := shrink_eq ha
          rw [g1, g2]
          exact ⟨Dict.set_new hnew _, by simp⟩
        · rw [← Except.ok.inj ha]
          exact ⟨Dict.set_new hnew _, by simp⟩
      rw [appendAll_ids h (by
        rw [h1.1]
        simpa [Dict.keys] using hn), h1.1, h1.2]
      simp

theorem create_ids {bufSize : Nat} {name : Str} {recs : List (κ × List Int)} {f : SeqField κ}
    (h : SeqField.create bufSize name recs = .ok f) : f.ids = recs.zipIdx.map fun p => (p.1.1, p.2) := by
  have hn := (create_inv h).2.nodup
  simp only [SeqField.create] at h
  cases ha : Builder.new.appendAll bufSize recs with
  | error e => simp [ha] at h
  | ok b =>
    simp only [ha] at h
    have hi := appendAll_ids ha (by simpa [Builder.new, Dict.keys] using hn)
    simp only [Builder.new, List.nil_append, List.length_nil] at hi
    rw [← hi]
    simp only [Builder.build] at h
    cases hs : b.shrink with
    | error e => simp [hs] at h
    | ok b1 =>
      simp only [hs] at h
      rw [← (shrink_eq hs).1]
      cases ht : bestDtype 0 (max b1.frozen.length b1.maxLen : Nat) with
      | error e => rw [ht] at h; cases h
      | ok rt =>
        rw [ht] at h
        simp only [SeqField.make] at h
        split at h
        · cases h
        · split at h
          · cases h
          · split at h
            · cases h
            · cases h; rfl

omit [DecidableEq κ] in
theorem itemsLoop_of {f : SeqField κ} : ∀ {l : List (κ × Nat)} {rs : List (Int × Int)},
    List.Forall₂ (fun p r => f.refs[p.2]? = some r) l rs → f.itemsLoop l = .ok (rs.map f.slice)
  | [], _, .nil => rfl
  | (_, _) :: _, _ :: _, .cons h t => by
    rw [SeqField.itemsLoop]
    simp only at h
    rw [h]
    simp only
    rw [itemsLoop_of t]
    rfl

omit [DecidableEq κ] in
theorem lengthsLoop_of {f : SeqField κ} : ∀ {l : List (κ × Nat)} {rs : List (Int × Int)},
    List.Forall₂ (fun p r => f.refs[p.2]? = some r) l rs → f.lengthsLoop l = .ok ((l.map (·.1)).zip (rs.map (·.2)))
  | [], _, .nil => rfl
  | (_, _) :: _, _ :: _, .cons h t => by
    rw [SeqField.lengthsLoop]
    simp only at h
    rw [h]
    simp only
    rw [lengthsLoop_of t]
    rfl

theorem create_refs {bufSize : Nat} {name : Str} {recs : List (κ × List Int)} {f : SeqField κ}
    (h : SeqField.create bufSize name recs = .ok f) : List.Forall₂ (fun p r => f.refs[p.2]? = some r) f.ids f.refs := by
  have hids := create_ids h
  have hf := (create_inv h).2
  rw [List.forall₂_iff_get]
  refine ⟨by rw [hf.refs, hids]; simp [offsets_length], ?_⟩
  intro i h1 h2
  have : (f.ids.get ⟨i, h1⟩).2 = i := by simp [hids]
  rw [this]
  simp

/-- C119: `len`, `keys` and `lengths` list all records in the order in which they were added, with the numbers of their elements. -/
theorem C119_lists {bufSize : Nat} {name : Str} {recs : List (κ × List Int)} {f : SeqField κ}
    (h : SeqField.create bufSize name recs = .ok f) :
    f.size = recs.length ∧ f.keys = recs.map (·.1) ∧ f.lengths = .ok (recs.map fun r => (r.1, (r.2.length : Int))) := by
  have hids := create_ids h
  have hk : f.ids.map (·.1) = recs.map (·.1) := by
    rw [hids, List.map_map]
    apply List.ext_getElem <;> simp
  refine ⟨(create_inv h).2.len, hk, ?_⟩
  rw [SeqField.lengths, lengthsLoop_of (create_refs h), hk, (create_inv h).2.refs]
  congr 1
  apply List.ext_getElem
  · simp [offsets_length]
  · intro i h1 h2
    have hi : i < recs.length := by simpa using h2
    have := (offsets_get recs i _ (List.getElem?_eq_getElem hi)).1
    obtain ⟨_, e⟩ := List.getElem?_eq_some_iff.1 this
    simp [e]

/-- C119: `zip(keys, values)` are the records, as far as values are kept (C35). Missing: values beyond 2^53 in a field promoted to
`float64`. -/
theorem C119_pairs_partial {bufSize : Nat} {name : Str} {recs : List (κ × List Int)} {f : SeqField κ}
    (h : SeqField.create bufSize name recs = .ok f) (hx : f.ty ≠ .f64 ∨ ∀ r ∈ recs, ∀ v ∈ r.2, v.natAbs ≤ 2 ^ 53) :
    f.keys.zip f.values = recs := by
  rw [(C119_lists h).2.1, C35_values_partial h hx, List.zip_map']
  simp

/-- C119 for `items`, as far as it holds: it gives the sequences in the order of the ids, the same as `values`. Missing: the ids, see
`C119_items_refuted`. -/
theorem C119_items_partial {bufSize : Nat} {name : Str} {recs : List (κ × List Int)} {f : SeqField κ}
    (h : SeqField.create bufSize name recs = .ok f) :
    f.items = .ok f.values ∧ ((f.ty ≠ .f64 ∨ ∀ r ∈ recs, ∀ v ∈ r.2, v.natAbs ≤ 2 ^ 53) → f.items = .ok (recs.map (·.2))) := by
  have : f.items = .ok f.values := itemsLoop_of (create_refs h)
  exact ⟨this, fun hx => by rw [this, C35_values_partial h hx]⟩

/-- C119 is false for `items`: fields of the same sequences under other ids have the same items, so the ids cannot be told from them. -/
theorem C119_items_refuted : ∃ f g : SeqField Nat, SeqField.create 10 (lit "x") [(4, [1, 2]), (9, [3])] = .ok f ∧
    SeqField.create 10 (lit "x") [(9, [1, 2]), (4, [3])] = .ok g ∧ f.items = .ok [[1, 2], [3]] ∧ g.items = f.items ∧
    f.get 4 = .ok [1, 2] ∧ g.get 4 = .ok [3] := by
  have h : (match SeqField.create 10 (lit "x") [((4 : Nat), [1, 2]), (9, [3])], SeqField.create 10 (lit "x") [((9 : Nat), [1, 2]), (4, [3])] with
    | .ok f, .ok g => decide (f.items = .ok [[1, 2], [3]] ∧ g.items = f.items ∧ f.get 4 = .ok [1, 2] ∧ g.get 4 = .ok [3])
    | _, _ => false) = true := by decide +kernel
  split at h
  · rename_i f g hf hg
    exact ⟨f, g, hf, hg, of_decide_eq_true h⟩
  · cases h

example : (match SeqField.create 1 (lit "x") [((7 : Nat), [1, -2]), (3, []), (5, [70000, 255])] with
    | .ok f => decide (f.size = 3 ∧ f.keys = [7, 3, 5] ∧ f.lengths = .ok [(7, 2), (3, 0), (5, 2)] ∧ f.items = .ok [[1, -2], [], [70000, 255]])
    | .error _ => false) = true := by decide +kernel

/-- a field that was not built by `create` may number its ids in another order; then `items` follows the ids, `values` the data -/
example : (SeqField.make (lit "x") [((7 : Nat), 1), (3, 0)] .u8 [(0, 1), (1, 2)] .i8 [5, 6, 7]).toOption.map (fun f => (f.items.toOption, f.values)) =
    some (some [[6, 7], [5]], [[5], [6, 7]]) := by decide +kernel

omit [DecidableEq κ] in
theorem itemsLoop_missing {f : SeqField κ} : ∀ {l : List (κ × Nat)}, (∃ p ∈ l, f.refs.length ≤ p.2) → f.itemsLoop l = .error .index
  | [], ⟨_, h, _⟩ => nomatch h
  | (i, n) :: l, ⟨p, h, hp⟩ => by
    rw [SeqField.itemsLoop]
    cases hn : f.refs[n]? with
    | none => rfl
    | some r =>
      have : ∃ p ∈ l, f.refs.length ≤ p.2 := by
        rcases List.mem_cons.1 h with rfl | h
        · have := (List.getElem?_eq_some_iff.1 hn).1
          exact absurd this (by simpa using hp)
        · exact ⟨p, h, hp⟩
      simp only [itemsLoop_missing this]

omit [DecidableEq κ] in
theorem lengthsLoop_missing {f : SeqField κ} : ∀ {l : List (κ × Nat)}, (∃ p ∈ l, f.refs.length ≤ p.2) → f.lengthsLoop l = .error .index
  | [], ⟨_, h, _⟩ => nomatch h
  | (i, n) :: l, ⟨p, h, hp⟩ => by
    rw [SeqField.lengthsLoop]
    cases hn : f.refs[n]? with
    | none => rfl
    | some r =>
      have : ∃ p ∈ l, f.refs.length ≤ p.2 := by
        rcases List.mem_cons.1 h with rfl | h
        · have := (List.getElem?_eq_some_iff.1 hn).1
          exact absurd this (by simpa using hp)
        · exact ⟨p, h, hp⟩
      simp only [lengthsLoop_missing this]

omit [DecidableEq κ] in
/-- C119 for any field, also one built from other parts than `create` leaves: listing the items or the lengths fails, with IndexError,
exactly if some id has no reference. -/
theorem C119_missing (f : SeqField κ) :
    (f.items = .error .index ↔ ∃ p ∈ f.ids, f.refs.length ≤ p.2) ∧ (f.lengths = .error .index ↔ ∃ p ∈ f.ids, f.refs.length ≤ p.2) ∧
    ((∀ p ∈ f.ids, p.2 < f.refs.length) → ∃ rs : List (Int × Int), List.Forall₂ (fun p r => f.refs[p.2]? = some r) f.ids rs ∧
      f.items = .ok (rs.map f.slice) ∧ f.lengths = .ok ((f.ids.map (·.1)).zip (rs.map (·.2)))) := by
  have hok : (∀ p ∈ f.ids, p.2 < f.refs.length) → ∃ rs : List (Int × Int), List.Forall₂ (fun p r => f.refs[p.2]? = some r) f.ids rs ∧
      f.items = .ok (rs.map f.slice) ∧ f.lengths = .ok ((f.ids.map (·.1)).zip (rs.map (·.2))) := by
    intro h
    obtain ⟨rs, hrs⟩ : ∃ rs : List (Int × Int), List.Forall₂ (fun p r => f.refs[p.2]? = some r) f.ids rs := by
      generalize f.ids = l at h
      induction l with
      | nil => exact ⟨[], .nil⟩
      | cons p l ih =>
        obtain ⟨rs, hrs⟩ := ih fun q hq => h q (List.mem_cons_of_mem _ hq)
        exact ⟨_ :: rs, .cons (List.getElem?_eq_getElem (h p (List.mem_cons_self ..))) hrs⟩
    exact ⟨rs, hrs, itemsLoop_of hrs, lengthsLoop_of hrs⟩
  have hno : (¬ ∃ p ∈ f.ids, f.refs.length ≤ p.2) → ∀ p ∈ f.ids, p.2 < f.refs.length := fun h p hp =>
    not_le.1 fun hle => h ⟨p, hp, hle⟩
  refine ⟨⟨fun h => ?_, itemsLoop_missing⟩, ⟨fun h => ?_, lengthsLoop_missing⟩, hok⟩
  · by_contra hc
    obtain ⟨_, _, e, _⟩ := hok (hno hc)
    rw [e] at h; cases h
  · by_contra hc
    obtain ⟨_, _, _, e⟩ := hok (hno hc)
    rw [e] at h; cases h

/-- the second id refers past the references -/
example : (SeqField.make (lit "x") [((7 : Nat), 1), (3, 2)] .u8 [(0, 1), (1, 2)] .i8 [5, 6, 7]).toOption.map (fun f => (f.items, f.lengths)) =
    some (.error .index, .error .index) := by decide +kernel

end Verif
