import Verif.Model.RecType
import Verif.Props.Multipart
/-!
# Field names and the record type (C106)
-/

namespace Verif

variable {κ : Type} [DecidableEq κ]

/-- names that can be names of fields: distinct identifiers other than `id`, not reserved words, not beginning with an underscore -/
structure Spec.FieldNames (ident : Str → Bool) (ns : List Str) : Prop where
  ident : ∀ n ∈ ns, ident n = true
  keyword : ∀ n ∈ ns, ∀ s ∈ ["False", "None", "True", "and", "as", "assert", "async", "await", "break", "class", "continue", "def", "del",
    "elif", "else", "except", "finally", "for", "from", "global", "if", "import", "in", "is", "lambda", "nonlocal", "not", "or", "pass",
    "raise", "return", "try", "while", "with", "yield"], n ≠ lit s
  underscore : ∀ n ∈ ns, ∀ s, n ≠ lit "_" ++ s
  id : lit "id" ∉ ns
  nodup : ns.Nodup

/-- what is used of `str.isidentifier` -/
structure Spec.Identifiers (ident : Str → Bool) : Prop where
  recType : ident (lit "RecType") = true
  id : ident (lit "id") = true

open Spec

theorem seenLoop_spec (ns : List Str) (seen : List Str) :
    (seenLoop seen ns = .ok () ∧ (∀ n ∈ ns, n.head? ≠ some 95) ∧ ns.Nodup ∧ ∀ n ∈ ns, n ∉ seen) ∨
    (seenLoop seen ns = .error .value ∧ ¬ ((∀ n ∈ ns, n.head? ≠ some 95) ∧ ns.Nodup ∧ ∀ n ∈ ns, n ∉ seen)) := by
  induction ns generalizing seen with
  | nil => left; simp [seenLoop]
  | cons n ns ih =>
    rw [seenLoop]
    by_cases h1 : n.head? = some 95
    · right
      rw [if_pos h1]
      exact ⟨rfl, fun h => h.1 n (by simp) h1⟩
    · rw [if_neg h1]
      by_cases h2 : n ∈ seen
      · right
        rw [if_pos h2]
        exact ⟨rfl, fun h => h.2.2 n (by simp) h2⟩
      · rw [if_neg h2]
        rcases ih (n :: seen) with ⟨a, b, c, d⟩ | ⟨a, b⟩
        · left
          refine ⟨a, by simpa [h1] using b, List.nodup_cons.2 ⟨fun hm => d n hm (by simp), c⟩, ?_⟩
          intro m hm
          rcases List.mem_cons.1 hm with rfl | hm
          · exact h2
          · exact fun hs => d m hm (by simp [hs])
        · right
          refine ⟨a, fun h => b ⟨fun m hm => h.1 m (by simp [hm]), (List.nodup_cons.1 h.2.1).2, ?_⟩⟩
          intro m hm hs
          rcases List.mem_cons.1 hs with rfl | hs
          · exact (List.nodup_cons.1 h.2.1).1 hm
          · exact h.2.2 m (by simp [hm]) hs

theorem head_underscore (n : Str) : n.head? = some 95 ↔ ∃ s, n = lit "_" ++ s := by
  have e : lit "_" = [95] := by decide
  rw [e]
  cases n with
  | nil => simp
  | cons c n => simp

theorem namedTuple_spec {ident : Str → Bool} (hi : Identifiers ident) (ns : List Str) :
    (FieldNames ident ns → namedTuple ident ns = .ok ()) ∧ (¬ FieldNames ident ns → namedTuple ident ns = .error .value) := by
  have e1 : keywords.contains (lit "RecType") = false := by decide +kernel
  have e2 : keywords.contains (lit "id") = false := by decide +kernel
  have e3 : (lit "id").head? ≠ some 95 := by decide
  have hk : ∀ n, keywords.contains n = true ↔ ¬ ∀ s ∈ ["False", "None", "True", "and", "as", "assert", "async", "await", "break", "class", "continue", "def", "del",
    "elif", "else", "except", "finally", "for", "from", "global", "if", "import", "in", "is", "lambda", "nonlocal", "not", "or", "pass",
    "raise", "return", "try", "while", "with", "yield"], n ≠ lit s := by
    intro n
    rw [List.contains_iff_mem, keywords, List.mem_map]
    push Not
    exact ⟨fun ⟨s, a, b⟩ => ⟨s, a, b.symm⟩, fun ⟨s, a, b⟩ => ⟨s, a, b.symm⟩⟩
  have hany : ((lit "RecType" :: lit "id" :: ns).any fun n => !ident n || keywords.contains n) = true ↔
      ∃ n ∈ ns, ident n = false ∨ keywords.contains n = true := by
    simp only [List.any_cons, hi.recType, hi.id, e1, e2, Bool.not_true, Bool.false_or, List.any_eq_true, Bool.or_eq_true, Bool.not_eq_true']
  rw [namedTuple]
  by_cases h : ((lit "RecType" :: lit "id" :: ns).any fun n => !ident n || keywords.contains n) = true
  · rw [if_pos h]
    obtain ⟨n, hn, h'⟩ := hany.1 h
    refine ⟨fun hf => ?_, fun _ => rfl⟩
    exfalso
    rcases h' with h' | h'
    · rw [hf.ident n hn] at h'
      cases h'
    · exact (hk n).1 h' (hf.keyword n hn)
  · rw [if_neg h]
    have hns : ∀ n ∈ ns, ident n = true ∧ keywords.contains n = false := by
      intro n hn
      by_contra hc
      refine h (hany.2 ⟨n, hn, ?_⟩)
      by_cases ha : ident n = true
      · right
        by_contra hb
        exact hc ⟨ha, Bool.eq_false_iff.2 hb⟩
      · exact .inl (Bool.eq_false_iff.2 ha)
    rcases seenLoop_spec (lit "id" :: ns) [] with ⟨a, b, c, _⟩ | ⟨a, b⟩
    · refine ⟨fun _ => a, fun hf => absurd ?_ hf⟩
      obtain ⟨c1, c2⟩ := List.nodup_cons.1 c
      refine ⟨fun n hn => (hns n hn).1, fun n hn => ?_, fun n hn s hs => ?_, c1, c2⟩
      · by_contra hc
        rw [← hk n, (hns n hn).2] at hc
        cases hc
      · exact b n (by simp [hn]) ((head_underscore n).2 ⟨s, hs⟩)
    · refine ⟨fun hf => absurd ?_ b, fun _ => a⟩
      refine ⟨?_, List.nodup_cons.2 ⟨hf.id, hf.nodup⟩, by simp⟩
      intro n hn
      rcases List.mem_cons.1 hn with rfl | hn
      · exact e3
      · intro hh
        obtain ⟨s, hs⟩ := (head_underscore n).1 hh
        exact hf.underscore n hn s hs

theorem getRec_eq {ident : Str → Bool} {given : Bool} {db : Db κ} (h : db.recType ident given = .ok ()) : db.getRec ident given = db.get := by
  funext i
  simp only [Db.getRec, Db.get, h]
  cases db.cols i db.names <;> rfl

theorem getAllRec_eq {ident : Str → Bool} {given : Bool} {db : Db κ} (h : db.recType ident given = .ok ()) : db.getAllRec ident given = db.getAll := by
  funext is
  induction is with
  | nil => rfl
  | cons i is ih =>
    simp only [Db.getAllRec, Db.getAll, getRec_eq h, ih]
    cases db.get i with
    | error e => rfl
    | ok r => cases db.getAll is <;> rfl

theorem getRec_bad {ident : Str → Bool} {db : Db κ} (h : namedTuple ident db.names = .error .value) {i : κ} {r : κ × List (List Int)}
    (hg : db.get i = .ok r) : db.getRec ident false i = .error .value := by
  simp only [Db.get] at hg
  cases hc : db.cols i db.names with
  | error e => rw [hc] at hg; cases hg
  | ok cs => simp [Db.getRec, hc, Db.recType, h]

/-! ## C106 -/

/-- C106, as far as it holds: with proper field names, or if a record type is given when the database is loaded, records are
looked up, iterated over and batched as the other theorems about databases say. -/
theorem C106_proper_partial {ident : Str → Bool} (hi : Identifiers ident) {db : Db κ} {given : Bool} (h : given = true ∨ FieldNames ident db.names) :
    (∀ id, db.getRec ident given id = db.get id) ∧ (∀ ord shuffle, db.genRec ident given ord shuffle = db.gen ord shuffle) ∧
    ∀ maxToks maxSents ord shuf shufB, db.eqBatchesRec ident given maxToks maxSents ord shuf shufB = db.eqBatches maxToks maxSents ord shuf shufB := by
  have hr : db.recType ident given = .ok () := by
    rcases h with rfl | h
    · rfl
    · rw [Db.recType, (namedTuple_spec hi _).1 h]
      split <;> rfl
  refine ⟨fun id => by rw [getRec_eq hr], fun ord shuffle => by rw [Db.genRec, Db.gen, getRec_eq hr], ?_⟩
  intro maxToks maxSents ord shuf shufB
  simp only [Db.eqBatchesRec, Db.eqBatches, getAllRec_eq hr]
  rcases db.eqBatchIds maxToks maxSents ord shuf with e | (_ | ⟨b, bs⟩) <;> rfl

/-- C106 is false of other field names: the database is made without complaint, but no record can be looked up, iterated over or
batched.  Any attempt raises ValueError. -/
theorem C106_improper_refuted {ident : Str → Bool} (hi : Identifiers ident) {bufSize : Nat} {ns : List Str} (hns : ns.Nodup)
    {recs : List (κ × List (List Int))} {db : Db κ} (h : Db.create bufSize ns recs = .ok db) (hb : ¬ FieldNames ident ns) :
    (∀ r ∈ recs, db.getRec ident false r.1 = .error .value) ∧
    (∀ ord : List κ → List κ, (∀ l, (ord l).Perm l) → db.genRec ident false ord false = ⟨[], some .value⟩) ∧
    ∀ (maxToks : Nat) (maxSents : Option Nat) (ord : List κ → List κ), (∀ l, (ord l).Perm l) → ∀ shuf : List (κ × Int) → List (κ × Int),
      (∀ l, (shuf l).Perm l) → ∀ shufB : List (List κ) → List (List κ), (∀ l, (shufB l).Perm l) → (∃ r ∈ recs, Full r) →
      (∀ r ∈ recs, Full r → ¬ Oversized maxToks r) → db.eqBatchesRec ident false maxToks maxSents ord shuf shufB = ⟨[], some .value⟩ := by
  have hd := dbCreate_ok hns h
  have hnm : db.names = ns := hd.names
  have hv : namedTuple ident db.names = .error .value := by rw [hnm]; exact (namedTuple_spec hi _).2 hb
  have key : ∀ r ∈ recs, db.getRec ident false r.1 = .error .value := by
    intro r hr
    obtain ⟨cs, hcs, _⟩ := hd.get_lengths hr
    exact getRec_bad hv hcs
  have kid : ∀ i ∈ db.ids, db.getRec ident false i = .error .value := by
    intro i hi
    obtain ⟨r, hr, rfl⟩ := List.mem_map.1 ((hd.ids i).1 hi)
    exact key r hr
  refine ⟨key, ?_, ?_⟩
  · intro ord hord
    rw [Db.genRec]
    simp only [Bool.false_and, Bool.false_eq_true, if_false]
    cases ho : ord db.ids with
    | nil =>
      exfalso
      have h0 := hord db.ids
      rw [ho] at h0
      obtain ⟨r, rs, hr⟩ := List.exists_cons_of_ne_nil hd.ne.2
      have hm := (hd.ids r.1).2 (by rw [hr]; simp)
      rw [h0.symm.eq_nil] at hm
      cases hm
    | cons i is =>
      have : i ∈ db.ids := (hord _).mem_iff.1 (by rw [ho]; simp)
      simp only [genMap, kid i this]
  · intro maxToks maxSents ord hord shuf hshuf shufB hshufB ⟨r0, h1, h2⟩ hfit
    have hne : recs.filter fullRec ≠ [] := by
      intro hn
      have : r0 ∈ recs.filter fullRec := List.mem_filter.2 ⟨h1, (fullRec_iff r0).2 h2⟩
      rw [hn] at this
      cases this
    rcases (eqBatchIds_spec hns hd maxToks maxSents hord hshuf).2 hne with ⟨gs, g1, g2, _, _, g5, _⟩ | ⟨_, r, g2, g3⟩
    · have hgs : gs ≠ [] := by
        rintro rfl
        exact hne g2.symm.eq_nil
      obtain ⟨g, gt, rfl⟩ := List.exists_cons_of_ne_nil hgs
      simp only [Db.eqBatchesRec, g1, List.map_cons]
      have hp := hshufB ((g :: gt).map (List.map (·.1)))
      rw [List.map_cons] at hp
      cases hs : shufB (g.map (·.1) :: gt.map (List.map (·.1))) with
      | nil => rw [hs] at hp; exact absurd hp.symm.eq_nil (by simp)
      | cons b bs =>
        rw [hs] at hp
        have hb : b ∈ (g :: gt).map (List.map (·.1)) := hp.mem_iff.1 (by simp)
        obtain ⟨g', hg', rfl⟩ := List.mem_map.1 hb
        obtain ⟨r, rs, rfl⟩ := List.exists_cons_of_ne_nil (g5 g' hg').1
        have hr : r ∈ recs.filter fullRec := g2.mem_iff.1 (List.mem_flatten.2 ⟨_, hg', by simp⟩)
        simp only [List.map_cons, genMap, Db.getAllRec, key r (List.mem_filter.1 hr).1]
    · exfalso
      obtain ⟨k1, k2⟩ := List.mem_filter.1 g2
      exact hfit r k1 ((fullRec_iff r).1 k2) ((oversized_iff (hd.row_ne k1)).1 g3)

omit [DecidableEq κ] in
/-- loading with a record type, and with proper names in the flag file, is loading as in the other theorems -/
theorem loadRec_eq {ident : Str → Bool} {given keep shuffle : Bool} {dir : Dir κ} {m : MDb κ} (h : MDb.load keep shuffle dir = .ok m) :
    MDb.loadRec ident given keep shuffle dir = match (if given then .ok () else namedTuple ident m.names : Py Unit) with
      | .error e => .error e
      | .ok () => .ok m := by
  cases dir with
  | none => rw [MDb.load] at h; cases h
  | some d =>
    rw [MDb.load] at h
    rw [MDb.loadRec]
    cases hf : Dict.get? d flagName with
    | none => simp only [hf] at h; cases h
    | some f =>
      cases f with
      | db _ => simp only [hf] at h; cases h
      | mta _ => simp only [hf] at h; cases h
      | broken => simp only [hf] at h; cases h
      | other => simp only [hf] at h; cases h
      | success parts names =>
        simp only [hf] at h
        have hnm : m.names = names := by
          split at h
          · cases h
          · split at h
            · split at h
              · cases h
              · cases h; rfl
            · cases h; rfl
        rw [hnm]
        dsimp only
        cases (if given = true then Except.ok () else namedTuple ident names : Py Unit) with
        | error e => rfl
        | ok u => exact h

/-- C106 for databases of several parts: with proper field names `MultipartDb.create` returns the database that the other theorems
talk about.  With other names everything is written, and then ValueError is raised; the directory can afterwards be loaded with a
record type, and without one loading raises ValueError again. -/
theorem C106_multipart_partial {ident : Str → Bool} (hi : Identifiers ident) (env : Env) (hg : ∀ l, (env.globOrd l).Perm l)
    {names : List Str} (hnn : names ≠ []) (hns : names.Nodup) {recs : List (κ × List (List Int))} (hne : recs ≠ [])
    (hnd : (recs.map (·.1)).Nodup) (hw : ∀ r ∈ recs, r.2.length = names.length) (hv : Exact recs)
    (hlen : ((recs.map fun r => (r.2.map List.length).sum).sum : Nat) < 2 ^ 64) {partSize : Int} (hp : 1 ≤ partSize)
    {maxParts : Nat} (hm : 1 ≤ maxParts) {overwrite : Bool} {dir : Dir κ} (hs : overwrite = true ∨ dir = none ∨ dir = some []) :
    ∃ d, d = runFx (createFx env overwrite partSize maxParts names recs dir).fx dir ∧
      (FieldNames ident names → ∃ m, MDb.load false false d = .ok m ∧ MDb.create ident env overwrite partSize maxParts names recs dir = (d, .ok m)) ∧
      (¬ FieldNames ident names → MDb.create ident env overwrite partSize maxParts names recs dir = (d, .error .value)) ∧
      ∀ keep shuffle, ∃ m, MDb.load keep shuffle d = .ok m ∧ MDb.loadRec ident true keep shuffle d = .ok m ∧
        (FieldNames ident names → MDb.loadRec ident false keep shuffle d = .ok m) ∧
        (¬ FieldNames ident names → MDb.loadRec ident false keep shuffle d = .error .value) := by
  obtain ⟨hres, cs, _, hload⟩ := C41_roundtrip_partial env hg hnn hns hne hnd hw hv hlen hp hm hs
  refine ⟨_, rfl, ?_, ?_, ?_⟩
  · intro hf
    obtain ⟨m, h1, _, h2, _⟩ := hload false false
    refine ⟨m, h1, ?_⟩
    simp only [MDb.create, hres]
    rw [loadRec_eq h1, h2, (namedTuple_spec hi _).1 hf]
    rfl
  · intro hf
    obtain ⟨m, h1, _, h2, _⟩ := hload false false
    simp only [MDb.create, hres]
    rw [loadRec_eq h1, h2, (namedTuple_spec hi _).2 hf]
    rfl
  · intro keep shuffle
    obtain ⟨m, h1, _, h2, _⟩ := hload keep shuffle
    refine ⟨m, h1, by rw [loadRec_eq h1]; rfl, ?_, ?_⟩
    · intro hf
      rw [loadRec_eq h1, h2, (namedTuple_spec hi _).1 hf]
      rfl
    · intro hf
      rw [loadRec_eq h1, h2, (namedTuple_spec hi _).2 hf]
      rfl

omit [DecidableEq κ] in
/-- C106 for databases of several parts: with a record type `MultipartDb.load` never looks at the names, so it does and fails as in the other theorems;
without one, a directory that is missing or has no flag file is refused in the same way, before the names are looked at. -/
theorem C106_multipart_load (ident : Str → Bool) (keep shuffle : Bool) (dir : Dir κ) :
    MDb.loadRec ident true keep shuffle dir = MDb.load keep shuffle dir ∧
    ((dir = none ∨ ∃ d, dir = some d ∧ Dict.get? d flagName = none) →
      MDb.loadRec ident false keep shuffle dir = .error .assertion ∧ MDb.load keep shuffle dir = .error .assertion) := by
  constructor
  · cases dir with
    | none => rfl
    | some d =>
      rw [MDb.load, MDb.loadRec]
      cases Dict.get? d flagName with
      | none => rfl
      | some f => cases f <;> rfl
  · rintro (rfl | ⟨d, rfl, h⟩)
    · exact ⟨rfl, rfl⟩
    · simp only [MDb.loadRec, MDb.load, h]
      exact ⟨trivial, trivial⟩

example : Dict.get? ([(lit "part-0.db", .other)] : List (Str × FileC Nat)) flagName = none := by decide +kernel

/-- C106 for databases of several parts: whatever happens, what is in the directory afterwards was put there by the writer; an exception of the
writer is passed on. -/
theorem C106_multipart_left (ident : Str → Bool) (env : Env) (overwrite : Bool) (partSize : Int) (maxParts : Nat) (names : List Str)
    (recs : List (κ × List (List Int))) (dir : Dir κ) :
    (MDb.create ident env overwrite partSize maxParts names recs dir).1 = runFx (createFx env overwrite partSize maxParts names recs dir).fx dir ∧
    ∀ e, (createFx env overwrite partSize maxParts names recs dir).res = .error e →
      (MDb.create ident env overwrite partSize maxParts names recs dir).2 = .error e := by
  simp only [MDb.create]
  cases (createFx env overwrite partSize maxParts names recs dir).res with
  | error e => exact ⟨rfl, fun _ h => by cases h; rfl⟩
  | ok u => exact ⟨rfl, fun _ h => by cases h⟩

/-- a value that fits no type: the first part and its count stay behind -/
example : (match createFx exEnv false 1 10 [lit "x"] [((5 : Nat), [[1, 2]]), (9, [[2 ^ 70]])] none with
    | w => ((match w.res with | .ok _ => none | .error e => some e), (runFx w.fx none).map fun d => (Dict.keys d).length)) =
      (some .assertion, some 2) := by decide +kernel

/-- `str.isidentifier` for texts of ASCII characters -/
def asciiIdent : Str → Bool
  | [] => false
  | c :: s => letter c && s.all fun d => letter d || (decide (48 ≤ d) && decide (d ≤ 57))
where letter (c : Nat) : Bool := decide (c = 95) || (decide (65 ≤ c) && decide (c ≤ 90)) || (decide (97 ≤ c) && decide (c ≤ 122))

theorem asciiIdent_ok : Identifiers asciiIdent := ⟨by decide +kernel, by decide +kernel⟩

/-- looking up both records of a database with the given field names -/
def exRecType (names : List Str) : List (Py (Nat × List (List Int))) :=
  match Db.create 4 names [((0 : Nat), [[1, 2], [3]]), (1, [[4], [5, 6]])] with
  | .ok db => [db.getRec asciiIdent false 0, db.getRec asciiIdent false 1]
  | .error e => [.error e]

example : exRecType [lit "x", lit "y"] = [.ok (0, [[1, 2], [3]]), .ok (1, [[4], [5, 6]])] := by decide +kernel
/-- names that look harmless -/
example : exRecType [lit "from", lit "to"] = [.error .value, .error .value] := by decide +kernel
example : exRecType [lit "src-text", lit "y"] = [.error .value, .error .value] := by decide +kernel
example : exRecType [lit "_x", lit "y"] = [.error .value, .error .value] := by decide +kernel
example : exRecType [lit "x", lit "id"] = [.error .value, .error .value] := by decide +kernel

/-- C106 is false: a database whose fields are called "from" and "to" is made and cannot be read. -/
theorem C106_refuted : ∃ db : Db Nat, Db.create 4 [lit "from", lit "to"] [(0, [[1, 2], [3]])] = .ok db ∧ ¬ FieldNames asciiIdent [lit "from", lit "to"] ∧
    db.get 0 = .ok (0, [[1, 2], [3]]) ∧ db.getRec asciiIdent false 0 = .error .value := by
  have hb : ¬ FieldNames asciiIdent [lit "from", lit "to"] := fun h => h.keyword _ (by simp) "from" (by simp) rfl
  have h : (match Db.create 4 [lit "from", lit "to"] [((0 : Nat), [[1, 2], [3]])] with
    | .ok db => decide (db.get 0 = .ok (0, [[1, 2], [3]]) ∧ db.getRec asciiIdent false 0 = .error .value)
    | .error _ => false) = true := by decide +kernel
  cases hc : Db.create 4 [lit "from", lit "to"] [((0 : Nat), [[1, 2], [3]])] with
  | error e => rw [hc] at h; cases h
  | ok db =>
    rw [hc] at h
    exact ⟨db, rfl, hb, of_decide_eq_true h⟩

example : FieldNames asciiIdent [lit "x", lit "y"] := by
  refine ⟨by decide +kernel, ?_, ?_, by decide +kernel, by decide +kernel⟩
  · intro n hn s hs
    have : ∀ n ∈ [lit "x", lit "y"], ∀ s ∈ ["False", "None", "True", "and", "as", "assert", "async", "await", "break", "class", "continue", "def", "del",
      "elif", "else", "except", "finally", "for", "from", "global", "if", "import", "in", "is", "lambda", "nonlocal", "not", "or", "pass",
      "raise", "return", "try", "while", "with", "yield"], n ≠ lit s := by decide +kernel
    exact this n hn s hs
  · intro n hn s
    rcases List.mem_cons.1 hn with rfl | hn
    · simp [lit]
    · rw [List.mem_singleton.1 hn]
      simp [lit]

end Verif
