import Verif.Lemmas.Greedy
/-! # Lemmas on constructed schemes -/

namespace Verif
open Spec

theorem join_eq_intercalate (sep : Str) (ws : List Str) : join sep ws = List.intercalate sep ws := by
  induction ws with
  | nil => rfl
  | cons w ws ih =>
    cases ws with
    | nil => simp [join, List.intercalate]
    | cons v vs =>
      simp only [join, ih, List.intercalate, List.intersperse, List.flatten_cons]
      simp

/-! ## the dictionaries -/

theorem strToIdxLast_length (ns : List Str) (i : Nat) (d : Dict Str Nat) :
    (strToIdxLast ns i d).length ≤ d.length + ns.length := by
  induction ns generalizing i d with
  | nil => simp [strToIdxLast]
  | cons n ns ih =>
    have h1 := ih (i + 1) (Dict.set d n i)
    have h2 := Dict.length_set d n i
    simp only [strToIdxLast, List.length_cons]
    split at h2 <;> omega

theorem strToIdxLast_nodup (ns : List Str) (i : Nat) (d : Dict Str Nat)
    (h : (strToIdxLast ns i d).length = d.length + ns.length) : ns.Nodup ∧ ∀ n ∈ ns, n ∉ Dict.keys d := by
  induction ns generalizing i d with
  | nil => simp
  | cons n ns ih =>
    have h1 := strToIdxLast_length ns (i + 1) (Dict.set d n i)
    have h2 := Dict.length_set d n i
    simp only [strToIdxLast, List.length_cons] at h
    by_cases hn : n ∈ Dict.keys d
    · rw [if_pos hn] at h2; omega
    · rw [if_neg hn] at h2
      obtain ⟨a, b⟩ := ih (i + 1) (Dict.set d n i) (by omega)
      have key : ∀ m ∈ ns, m ∉ Dict.keys d ∧ m ≠ n := by
        intro m hm
        have := b m hm
        rw [Dict.keys_set, if_neg hn] at this
        simp at this; exact this
      refine ⟨List.nodup_cons.2 ⟨fun hm => (key n hm).2 rfl, a⟩, ?_⟩
      intro m hm
      rcases List.mem_cons.1 hm with rfl | hm
      · exact hn
      · exact (key m hm).1

theorem get?_strToIdxLast (ns : List Str) (i : Nat) (d : Dict Str Nat) (hn : ns.Nodup) (n : Str) :
    Dict.get? (strToIdxLast ns i d) n = match ns.idxOf? n with
      | some j => some (i + j)
      | none => Dict.get? d n := by
  induction ns generalizing i d with
  | nil => simp [strToIdxLast]
  | cons m ns ih =>
    rw [List.nodup_cons] at hn
    rw [strToIdxLast, ih _ _ hn.2, Dict.get?_set]
    by_cases h : m = n
    · subst h
      have : ns.idxOf? m = none := by
        rw [List.idxOf?_eq_none_iff]; exact hn.1
      simp [List.idxOf?_cons, this]
    · simp only [List.idxOf?_cons, h, if_false]
      cases hx : ns.idxOf? n <;> simp [h]; omega

theorem get?_strToIdxFirst (ns : List Str) (i : Nat) (d : Dict Str Nat) (n : Str) :
    Dict.get? (strToIdxFirst ns i d) n = match Dict.get? d n with
      | some j => some j
      | none => (ns.idxOf? n).map (i + ·) := by
  induction ns generalizing i d with
  | nil => simp [strToIdxFirst]; cases Dict.get? d n <;> rfl
  | cons m ns ih =>
    rw [strToIdxFirst, ih]
    by_cases hm : Dict.mem d m = true
    · rw [if_pos hm]
      cases hd : Dict.get? d n with
      | some j => rfl
      | none =>
        have : m ≠ n := by
          intro e; subst e; rw [Dict.mem, hd] at hm; simp at hm
        simp only [List.idxOf?_cons, beq_eq_false_iff_ne.2 this, Bool.false_eq_true, if_false]
        cases ns.idxOf? n <;> simp; omega
    · rw [if_neg hm, Dict.get?_set]
      by_cases h : m = n
      · subst h
        have : Dict.get? d m = none := by
          simpa [Dict.mem] using hm
        simp [this, List.idxOf?_cons]
      · rw [if_neg h]
        cases hd : Dict.get? d n with
        | some j => rfl
        | none =>
          simp only [List.idxOf?_cons, beq_eq_false_iff_ne.2 h, Bool.false_eq_true, if_false]
          cases ns.idxOf? n <;> simp; omega

/-- What a constructed scheme guarantees about its dictionary. -/
structure DictOK (s : Scheme) : Prop where
  get : ∀ n, Dict.get? s.s2i n = s.idxToStr.idxOf? n

theorem mkInvertible_ok {k : Kind} {tbl : List Ty} {s : Scheme} (h : mkInvertible k tbl = .ok s) :
    s.table = tbl ∧ s.kind = k ∧ DictOK s ∧ (tbl.map (·.name)).Nodup := by
  simp only [mkInvertible] at h
  split at h
  · rename_i hl
    have hn := strToIdxLast_nodup (tbl.map (·.name)) 0 [] (by simpa using hl.symm)
    cases h
    refine ⟨rfl, rfl, ⟨fun n => ?_⟩, hn.1⟩
    rw [get?_strToIdxLast _ _ _ hn.1]
    simp only [Scheme.idxToStr]
    cases (tbl.map (·.name)).idxOf? n <;> simp
  · cases h

theorem strToIdxLast_length_of_nodup (ns : List Str) (i : Nat) (d : Dict Str Nat) (hn : ns.Nodup)
    (hd : ∀ n ∈ ns, n ∉ Dict.keys d) : (strToIdxLast ns i d).length = d.length + ns.length := by
  induction ns generalizing i d with
  | nil => simp [strToIdxLast]
  | cons n ns ih =>
    rw [List.nodup_cons] at hn
    have h1 := hd n (by simp)
    rw [strToIdxLast, ih _ _ hn.2]
    · rw [Dict.length_set, if_neg h1, List.length_cons]; omega
    · intro m hm
      rw [Dict.keys_set, if_neg h1]
      have := hd m (by simp [hm])
      have hne : m ≠ n := fun e => hn.1 (e ▸ hm)
      simp [this, hne]

/-- distinct names are accepted by the invertible schemes -/
theorem mkInvertible_of_nodup (k : Kind) {tbl : List Ty} (h : (tbl.map (·.name)).Nodup) : ∃ s, mkInvertible k tbl = .ok s := by
  refine ⟨{ kind := k, table := tbl, s2i := strToIdxLast (tbl.map (·.name)) 0 [], root := Trie.empty }, ?_⟩
  have := strToIdxLast_length_of_nodup (tbl.map (·.name)) 0 [] h (by simp [Dict.keys])
  simp only [mkInvertible]
  rw [if_pos (by simpa using this.symm)]

theorem idxOf?_eq_of_nodup {l : List Str} (hn : l.Nodup) {i : Nat} {n : Str} (h : l[i]? = some n) : l.idxOf? n = some i := by
  obtain ⟨hi, he⟩ := List.getElem?_eq_some_iff.1 h
  rw [List.idxOf?_eq_some_iff]
  refine ⟨hi, by simp [he], ?_⟩
  intro j hj
  have hne : l[j] ≠ l[i] := by
    intro e
    have := (List.Nodup.getElem_inj_iff hn).1 e
    omega
  rw [he] at hne
  simpa using hne

theorem validateReserved_go {tbl : List Ty} : ∀ (l : List Str) (i : Nat), validateReserved.go tbl l i = .ok () →
    ∀ j, (h : j < l.length) → ∃ t, tbl[i + j]? = some t ∧ t.name = l[j] := by
  intro l
  induction l with
  | nil => intro i _ j h; simp at h
  | cons tok rest ih =>
    intro i hv j hj
    simp only [validateReserved.go] at hv
    cases ht : tbl[i]? with
    | none => simp [ht] at hv
    | some t =>
      simp only [ht] at hv
      split at hv
      · rename_i htok
        cases j with
        | zero => exact ⟨t, by simpa using ht, htok.symm⟩
        | succ j =>
          obtain ⟨t', h1, h2⟩ := ih (i + 1) hv j (by simpa using hj)
          exact ⟨t', by rw [← h1]; congr 1; omega, by simpa using h2⟩
      · cases hv

theorem validateReserved_ok {tbl : List Ty} (h : validateReserved tbl = .ok ()) (j : Nat) (hj : j < 6) :
    ∃ t, tbl[j]? = some t ∧ t.name = reservedNames[j]'(by simpa [reservedNames] using hj) := by
  have := validateReserved_go reservedNames 0 h j (by simpa [reservedNames] using hj)
  simpa using this

theorem make_word_ok {tbl : List Ty} {s : Scheme} (h : Scheme.make .word tbl = .ok s) :
    s.table = tbl ∧ s.kind = .word ∧ DictOK s ∧ (tbl.map (·.name)).Nodup ∧ validateReserved tbl = .ok () := by
  simp only [Scheme.make] at h
  cases hv : validateReserved tbl with
  | error e => simp [hv] at h
  | ok u => simp only [hv] at h; obtain ⟨a, b, c, d⟩ := mkInvertible_ok h; exact ⟨a, b, c, d, rfl⟩

theorem make_char_ok {tbl : List Ty} {s : Scheme} (h : Scheme.make .char tbl = .ok s) :
    s.table = tbl ∧ s.kind = .char ∧ DictOK s ∧ (tbl.map (·.name)).Nodup ∧ validateReserved tbl = .ok () := by
  simp only [Scheme.make] at h
  cases hv : validateReserved tbl with
  | error e => simp [hv] at h
  | ok u => simp only [hv] at h; obtain ⟨a, b, c, d⟩ := mkInvertible_ok h; exact ⟨a, b, c, d, rfl⟩

theorem make_bpe_ok {tbl : List Ty} {s : Scheme} (h : Scheme.make .bpe tbl = .ok s) :
    s.table = tbl ∧ s.kind = .bpe ∧ DictOK s ∧ validateReserved tbl = .ok () ∧
      s.root = buildTrie tbl ∧ (buildTrie tbl).data = none := by
  simp only [Scheme.make] at h
  cases hv : validateReserved tbl with
  | error e => simp [hv] at h
  | ok u =>
    simp only [hv] at h
    split at h
    · cases h
    · rename_i hd
      cases h
      refine ⟨rfl, rfl, ⟨fun n => ?_⟩, rfl, rfl, by simpa using hd⟩
      rw [get?_strToIdxFirst]
      simp only [Scheme.idxToStr, Dict.get?_nil]
      cases (tbl.map (·.name)).idxOf? n <;> simp

/-! ## ids and names -/

theorem pyIndex_nat {α : Type} (l : List α) (i : Nat) :
    pyIndex l (i : Int) = match l[i]? with | some x => .ok x | none => .error .index := by
  simp only [pyIndex]
  have : ¬ ((i : Int) < 0) := by omega
  simp only [this, if_false]
  simp
  rfl

theorem pyIndex_some {α : Type} {l : List α} {i : Nat} {x : α} (h : l[i]? = some x) : pyIndex l (i : Int) = .ok x := by
  rw [pyIndex_nat, h]

theorem pyIndex_mem {α : Type} {l : List α} {i : Int} {x : α} (h : pyIndex l i = .ok x) : x ∈ l := by
  simp only [pyIndex] at h
  generalize (if i < 0 then i + (l.length : Int) else i) = j at h
  by_cases hj : j < 0
  · simp [hj] at h
  · simp only [hj, if_false] at h
    cases hg : l[j.toNat]? with
    | none => simp [hg] at h
    | some y => simp only [hg] at h; cases h; exact List.mem_of_getElem? hg

/-- the id given to a piece by the non-byte schemes -/
def Scheme.idOf (s : Scheme) (p : Str) : Int :=
  match s.idxToStr.idxOf? p with
  | some i => (i : Int)
  | none => s.unk

theorem idsOf_eq {s : Scheme} (hk : s.kind ≠ .byte) (hd : DictOK s) (ps : List Str) : s.idsOf ps = .ok (ps.map s.idOf) := by
  induction ps with
  | nil => rfl
  | cons p ps ih =>
    simp only [Scheme.idsOf, ih, List.map_cons, Scheme.idOf, hd.get]
    cases hkk : s.kind with
    | byte => exact absurd hkk hk
    | _ => rfl

theorem idxOf?_some_get {l : List Str} {n : Str} {i : Nat} (h : l.idxOf? n = some i) : l[i]? = some n := by
  have := List.idxOf?_eq_some_iff.1 h
  obtain ⟨hi, he, _⟩ := this
  rw [List.getElem?_eq_getElem hi]
  simpa using he

theorem namesOf_append (tbl : List Ty) (a b : List Int) (x y : List Str)
    (ha : namesOf tbl a = .ok x) (hb : namesOf tbl b = .ok y) : namesOf tbl (a ++ b) = .ok (x ++ y) := by
  induction a generalizing x with
  | nil => simp [namesOf] at ha; subst ha; simpa using hb
  | cons i a ih =>
    simp only [namesOf, List.cons_append] at ha ⊢
    cases h1 : pyIndex tbl i with
    | error e => simp [h1] at ha
    | ok t =>
      cases h2 : namesOf tbl a with
      | error e => simp [h1, h2] at ha
      | ok ns => simp [h1, h2] at ha; subst ha; simp [ih ns h2]

theorem namesOf_map (tbl : List Ty) (f : Str → Int) (g : Str → Str) (ps : List Str)
    (h : ∀ p ∈ ps, ∃ t, pyIndex tbl (f p) = .ok t ∧ t.name = g p) : namesOf tbl (ps.map f) = .ok (ps.map g) := by
  induction ps with
  | nil => rfl
  | cons p ps ih =>
    obtain ⟨t, h1, h2⟩ := h p (by simp)
    simp [namesOf, h1, h2, ih (fun q hq => h q (by simp [hq]))]

/-- names read back from the ids of pieces: unknown pieces become the name of the unk entry -/
theorem pyIndex_idOf {s : Scheme} (hk : s.kind ≠ .clasz) (hv : validateReserved s.table = .ok ()) (p : Str) :
    ∃ t, pyIndex s.table (s.idOf p) = .ok t ∧ t.name = if p ∈ s.table.map (·.name) then p else unkName := by
  simp only [Scheme.idOf]
  cases h : s.idxToStr.idxOf? p with
  | some i =>
    have hg := idxOf?_some_get h
    simp only [Scheme.idxToStr, List.getElem?_map, Option.map_eq_some_iff] at hg
    obtain ⟨t, ht, hn⟩ := hg
    refine ⟨t, pyIndex_some ht, ?_⟩
    have : p ∈ s.table.map (·.name) := List.mem_map.2 ⟨t, List.mem_of_getElem? ht, hn⟩
    rw [if_pos this, hn]
  | none =>
    obtain ⟨t, ht, hn⟩ := validateReserved_ok hv 1 (by omega)
    have hmem : p ∉ s.table.map (·.name) := by
      have := List.idxOf?_eq_none_iff.1 h
      exact this
    refine ⟨t, ?_, ?_⟩
    · simp only [Scheme.unk, hk, if_false, UNK]; exact pyIndex_some ht
    · rw [if_neg hmem, hn]; rfl

theorem namesOf_idOf {s : Scheme} (hk : s.kind ≠ .clasz) (hv : validateReserved s.table = .ok ()) (ps : List Str) :
    namesOf s.table (ps.map s.idOf) = .ok (ps.map fun p => if p ∈ s.table.map (·.name) then p else unkName) :=
  namesOf_map _ _ _ _ (fun p _ => pyIndex_idOf hk hv p)

end Verif
