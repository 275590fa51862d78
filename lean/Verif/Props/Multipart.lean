import Verif.Lemmas.MultipartRead
import Verif.Props.Batch
/-!
# Properties of multi-part databases (C39 - C45)
-/

namespace Verif

variable {κ : Type} [DecidableEq κ]

/-- `cs` are consecutive chunks of `l`, none empty, none longer than `size`, all but the last of exactly that size -/
def Spec.Chunks {α : Type} (size : Nat) (l : List α) (cs : List (List α)) : Prop :=
  cs.flatten = l ∧ (∀ c ∈ cs, c ≠ [] ∧ c.length ≤ size) ∧ ∀ c ∈ cs.dropLast, c.length = size

/-- `out` goes through the chunks one by one, in some order of the chunks and some order inside each -/
def Spec.PartByPart {α : Type} (cs : List (List α)) (out : List α) : Prop :=
  ∃ cs' outs, cs'.Perm cs ∧ List.Forall₂ List.Perm outs cs' ∧ out = outs.flatten

open Spec

theorem Spec.PartByPart.perm {α : Type} {cs : List (List α)} {out : List α} (h : PartByPart cs out) : out.Perm cs.flatten := by
  obtain ⟨cs', outs, h1, h2, rfl⟩ := h
  refine List.Perm.trans ?_ h1.flatten
  clear h1
  induction h2 with
  | nil => exact List.Perm.refl _
  | cons h _ ih => exact h.append ih

/-! ## C40 -/

/-- C40: for a size of at least one the slices are consecutive chunks of that size. -/
theorem C40_slices {α : Type} {size : Int} (hs : 1 ≤ size) (l : List α) : ∃ cs, slices size l = .ok cs ∧ Chunks size.toNat l cs := by
  obtain ⟨cs, h1, h2⟩ := slicesLoop_ok (size := size.toNat) (by omega) (l.length + 1) l (by omega)
  exact ⟨cs, by simp only [slices, if_neg (show ¬ size < 0 by omega), h1], h2⟩

/-- C40: size zero loses the stream silently, a negative size is refused. -/
theorem C40_other_sizes {α : Type} (l : List α) : slices 0 l = .ok [] ∧ ∀ size : Int, size < 0 → slices size l = .error .value := by
  refine ⟨?_, fun size h => by simp only [slices, h, if_true]⟩
  simp only [slices, lt_irrefl, if_false]
  exact slicesLoop_zero l _ (by omega)

/-- the chunks are determined by the size and the stream -/
theorem C40_unique {α : Type} {size : Nat} {l : List α} {cs cs' : List (List α)} (h : Chunks size l cs) (h' : Chunks size l cs') : cs = cs' := by
  induction cs generalizing l cs' with
  | nil =>
    obtain ⟨rfl, _, _⟩ := h
    cases cs' with
    | nil => rfl
    | cons c cs' =>
      exfalso
      have := h'.1
      simp only [List.flatten_nil, List.flatten_cons, List.append_eq_nil_iff] at this
      exact (h'.2.1 c (by simp)).1 this.1
  | cons c cs ih =>
    cases cs' with
    | nil =>
      exfalso
      have := h'.1
      obtain ⟨rfl, h2, _⟩ := h
      simp only [List.flatten_nil, List.flatten_cons] at this
      exact (h2 c (by simp)).1 (List.append_eq_nil_iff.1 this.symm).1
    | cons c' cs' =>
      have hc : c = l.take size ∧ cs.flatten = l.drop size := by
        obtain ⟨rfl, h2, h3⟩ := h
        cases cs with
        | nil =>
          have := (h2 c (by simp)).2
          simp [List.take_of_length_le this, this]
        | cons d ds =>
          have := h3 c (by simp)
          simp [← this]
      have hc' : c' = l.take size ∧ cs'.flatten = l.drop size := by
        obtain ⟨rfl, h2, h3⟩ := h'
        cases cs' with
        | nil =>
          have := (h2 c' (by simp)).2
          simp [List.take_of_length_le this, this]
        | cons d ds =>
          have := h3 c' (by simp)
          simp [← this]
      rw [hc.1, hc'.1]
      congr 1
      refine ih (l := l.drop size) ⟨hc.2, fun x hx => h.2.1 x (by simp [hx]), fun x hx => h.2.2 x ?_⟩
        ⟨hc'.2, fun x hx => h'.2.1 x (by simp [hx]), fun x hx => h'.2.2 x ?_⟩
      · cases cs with
        | nil => simp at hx
        | cons d ds => simpa using Or.inr hx
      · cases cs' with
        | nil => simp at hx
        | cons d ds => simpa using Or.inr hx

example : slices 3 [1, 2, 3, 4, 5, 6, 7] = .ok [[1, 2, 3], [4, 5, 6], [7]] ∧ slices 3 [1, 2, 3] = .ok [[1, 2, 3]] ∧ slices 1 [8, 9] = .ok [[8], [9]] ∧
    slices 3 ([] : List Nat) = .ok [] := by decide

/-! ## C42 -/

/-- C42: whatever the paddings, names of different part numbers differ, as do the names of their `.meta` files; no name of a part is
the name of a `.meta` file or of the flag. -/
theorem C42_distinct (pad pad' n n' : Nat) : (n ≠ n' → partName pad n ≠ partName pad' n' ∧ withSuffix (partName pad n) ≠ withSuffix (partName pad' n')) ∧
    partName pad n ≠ withSuffix (partName pad' n') ∧ partName pad n ≠ lit "_SUCCESS" ∧ withSuffix (partName pad n) ≠ lit "_SUCCESS" :=
  ⟨fun h => ⟨fun e => h (partName_injective e), fun e => h (metaName_injective e)⟩, partName_ne_meta _ _ _ _, partName_ne_flag _ _, metaName_ne_flag _ _⟩

/-- C42: `close` finds exactly the `.meta` file of a part, and strips it to the name of the part. -/
theorem C42_recovered (pad n : Nat) : withSuffix (partName pad n) = partName pad n ++ lit ".meta" ∧ isMetaName (withSuffix (partName pad n)) = true ∧
    isMetaName (partName pad n) = false ∧ isMetaName (lit "_SUCCESS") = false ∧ rstripMeta (withSuffix (partName pad n)) = partName pad n :=
  ⟨withSuffix_partName _ _, isMetaName_meta _ _, isMetaName_part _ _, by decide, rstripMeta_meta _ _⟩

/-- C42: the name is "part-" and the decimal digits of the number, with zeros in front up to the padding. -/
theorem C42_shape (pad n : Nat) : ∃ k, partName pad n = lit "part-" ++ (List.replicate k 48 ++ natStr n) ∧
    (pad ≤ (natStr n).length → k = 0) ∧ ((natStr n).length ≤ pad → k + (natStr n).length = pad) :=
  ⟨pad - (natStr n).length, rfl, fun h => by omega, fun h => by omega⟩

example : partName 4 12 = lit "part-0012" ∧ withSuffix (partName 4 12) = lit "part-0012.meta" ∧ partName 1 123 = lit "part-123" ∧
    partPathPads 1000 = .ok 3 ∧ partPathPads 1001 = .ok 4 ∧ partPathPads 1 = .ok 0 ∧ partPathPads 0 = .error .value := by decide +kernel
/-- the stripping would not be right for other names -/
example : rstripMeta (lit "part-meat.meta") = lit "part-" := by decide +kernel

/-! ## C41 -/

theorem flatten_len_le {α : Type} (f : α → Nat) {cs : List (List α)} {c : List α} (h : c ∈ cs) : (c.map f).sum ≤ (cs.flatten.map f).sum := by
  induction cs with
  | nil => simp at h
  | cons d cs ih =>
    simp only [List.flatten_cons, List.map_append, List.sum_append]
    rcases List.mem_cons.1 h with rfl | h
    · omega
    · have := ih h; omega

/-- the parts of records with distinct ids can be created -/
theorem parts_created {bufSize : Nat} {names : List Str} (hnn : names ≠ []) {recs : List (κ × List (List Int))}
    (hnd : (recs.map (·.1)).Nodup) (hw : ∀ r ∈ recs, r.2.length = names.length) (hv : Exact recs)
    (hlen : ((recs.map fun r => (r.2.map List.length).sum).sum : Nat) < 2 ^ 64) {size : Nat} {cs : List (List (κ × List (List Int)))}
    (hc : Chunks size recs cs) : ∃ dbs : List (Db κ), List.Forall₂ (fun c db => Db.create bufSize names c = .ok db) cs dbs := by
  obtain ⟨rfl, h2, h3⟩ := hc
  have : ∀ c ∈ cs, ∃ db, Db.create bufSize names c = .ok db := by
    intro c hc
    refine C38_created_partial bufSize hnn (h2 c hc).1 ?_ (fun r hr => hw r (List.mem_flatten.2 ⟨c, hc, hr⟩))
      (fun r hr => hv r (List.mem_flatten.2 ⟨c, hc, hr⟩)) (lt_of_le_of_lt (flatten_len_le _ hc) hlen)
    exact List.Nodup.sublist ((List.sublist_flatten_of_mem hc).map _) hnd
  clear hnd hw hv hlen h2 h3
  induction cs with
  | nil => exact ⟨[], .nil⟩
  | cons c cs ih =>
    obtain ⟨db, hdb⟩ := this c (by simp)
    obtain ⟨dbs, hdbs⟩ := ih fun c hc => this c (by simp [hc])
    exact ⟨db :: dbs, .cons hdb hdbs⟩

/-- the numbers of records of the parts -/
theorem counts_sum {bufSize : Nat} {names : List Str} (hns : names.Nodup) {cs : List (List (κ × List (List Int)))} {dbs : List (Db κ)}
    (hd : List.Forall₂ (fun c db => Db.create bufSize names c = .ok db) cs dbs) {q : List (Db κ × Nat)} (hq : q.Perm dbs.zipIdx) :
    (q.map fun p => p.1.len).sum = cs.flatten.length := by
  have h1 : (q.map fun p => p.1.len).sum = (dbs.map Db.len).sum := by
    rw [(hq.map fun p => p.1.len).sum_nat]
    have : dbs.zipIdx.map (fun x => x.1) = dbs := by simp [List.zipIdx_map_fst]
    conv_rhs => rw [← this]
    rw [List.map_map]
    rfl
  rw [h1]
  clear hq h1
  induction hd with
  | nil => rfl
  | cons h _ ih => simp [ih, (dbCreate_ok hns h).len]

omit [DecidableEq κ] in
theorem loadParts_iff {d : Dict Str (FileC κ)} : ∀ {ns : List Str} {dbs : List (Db κ)},
    loadParts (some d) ns = .ok dbs ↔ List.Forall₂ (fun n db => Dict.get? d n = some (.db db)) ns dbs
  | [], dbs => by
    rw [loadParts]
    constructor
    · intro h; cases h; exact .nil
    · intro h; cases h; rfl
  | n :: ns, dbs => by
    rw [loadParts, loadPart]
    constructor
    · intro h
      split at h
      · cases h
      · rename_i db hdb
        split at h
        · cases h
        · rename_i dbs' hdbs
          cases h
          refine .cons ?_ (loadParts_iff.1 hdbs)
          split at hdb
          · cases hdb
          · rename_i db' hg; cases hdb; exact hg
          · cases hdb
    · intro h
      cases h with
      | cons h1 h2 => simp only [h1, loadParts_iff.2 h2]

omit [DecidableEq κ] in
theorem loadParts_mem {d : Dict Str (FileC κ)} {ns : List Str} {dbs : List (Db κ)} (h : loadParts (some d) ns = .ok dbs) {n : Str} (hn : n ∈ ns) :
    ∃ db, Dict.get? d n = some (.db db) := by
  have h' := loadParts_iff.1 h
  clear h
  induction h' with
  | nil => cases hn
  | cons h _ ih =>
    rcases List.mem_cons.1 hn with rfl | hn
    · exact ⟨_, h⟩
    · exact ih hn

omit [DecidableEq κ] in
theorem loadParts_error {d : Dict Str (FileC κ)} {e : Exc} : ∀ {ns : List Str}, loadParts (some d) ns = .error e →
    ∃ a n b, ns = a ++ n :: b ∧ (∀ m ∈ a, ∃ db, Dict.get? d m = some (.db db)) ∧
      ((Dict.get? d n = none ∧ e = .fileNotFound) ∨ ((∃ f, Dict.get? d n = some f ∧ ∀ db, f ≠ .db db) ∧ e = .exception))
  | [], h => by cases h
  | n :: ns, h => by
    rw [loadParts, loadPart] at h
    cases hg : Dict.get? d n with
    | none => simp only [hg] at h; cases h; exact ⟨[], n, ns, rfl, by simp, .inl ⟨hg, rfl⟩⟩
    | some f =>
      cases f with
      | db db =>
        simp only [hg] at h
        cases hp : loadParts (some d) ns with
        | ok dbs => simp only [hp] at h; cases h
        | error e' =>
          simp only [hp] at h; cases h
          obtain ⟨a, m, b, rfl, h1, h2⟩ := loadParts_error hp
          refine ⟨n :: a, m, b, rfl, ?_, h2⟩
          intro m' hm'
          rcases List.mem_cons.1 hm' with rfl | hm'
          · exact ⟨db, hg⟩
          · exact h1 m' hm'
      | mta c => simp only [hg] at h; cases h; exact ⟨[], n, ns, rfl, by simp, .inr ⟨⟨_, hg, by simp⟩, rfl⟩⟩
      | success p q => simp only [hg] at h; cases h; exact ⟨[], n, ns, rfl, by simp, .inr ⟨⟨_, hg, by simp⟩, rfl⟩⟩
      | broken => simp only [hg] at h; cases h; exact ⟨[], n, ns, rfl, by simp, .inr ⟨⟨_, hg, by simp⟩, rfl⟩⟩
      | other => simp only [hg] at h; cases h; exact ⟨[], n, ns, rfl, by simp, .inr ⟨⟨_, hg, by simp⟩, rfl⟩⟩

/-- C41: exactly which directories are loaded: the flag file lists at least one part, and, if the parts are kept in memory or there is only
one, each listed part is a file with a database.  (Otherwise missing parts are not noticed when loading.) -/
theorem C41_load {keep shuffle : Bool} {dir : Dir κ} :
    (∃ m, MDb.load keep shuffle dir = .ok m) ↔ ∃ d parts names, dir = some d ∧ Dict.get? d (lit "_SUCCESS") = some (.success parts names) ∧ parts ≠ [] ∧
      (keep = true ∨ parts.length = 1 → ∀ n ∈ parts.map (·.1), ∃ db, Dict.get? d n = some (.db db)) := by
  rw [show lit "_SUCCESS" = flagName from rfl]
  cases dir with
  | none => simp [MDb.load]
  | some d =>
    rw [MDb.load]
    cases hf : Dict.get? d flagName with
    | none => simp [hf]
    | some f =>
      cases f with
      | db _ => simp [hf]
      | mta _ => simp [hf]
      | broken => simp [hf]
      | other => simp [hf]
      | success parts names =>
        dsimp only
        by_cases hp : parts = []
        · rw [if_pos hp]
          constructor
          · rintro ⟨m, hm⟩; cases hm
          · rintro ⟨d', p, n, e1, e2, h, -⟩
            cases e1; rw [hf] at e2; cases e2
            exact absurd hp h
        · rw [if_neg hp]
          by_cases hk : keep = true ∨ parts.length = 1
          · have hk' : (keep || decide (parts.length = 1)) = true := by simpa using hk
            rw [hk', if_pos rfl]
            constructor
            · rintro ⟨m, hm⟩
              split at hm
              · cases hm
              · rename_i dbs hd
                refine ⟨d, parts, names, rfl, hf, hp, fun _ n hn => ?_⟩
                exact loadParts_mem hd hn
            · rintro ⟨d', p, n, e1, e2, -, h⟩
              cases e1; rw [hf] at e2; cases e2
              cases hd : loadParts (some d) (Dict.keys parts) with
              | ok dbs => exact ⟨_, rfl⟩
              | error e =>
                obtain ⟨a, m, b, hab, -, h2⟩ := loadParts_error hd
                obtain ⟨db, hdb⟩ := h hk m (by rw [show parts.map (·.1) = Dict.keys parts from rfl, hab]; simp)
                rcases h2 with ⟨g, -⟩ | ⟨⟨f, g, hf'⟩, -⟩
                · rw [hdb] at g; cases g
                · rw [hdb] at g; cases g; exact absurd rfl (hf' db)
          · have hk' : (keep || decide (parts.length = 1)) = false := by simpa using hk
            rw [hk', if_neg (by simp)]
            exact ⟨fun _ => ⟨d, parts, names, rfl, hf, hp, fun h => absurd h hk⟩, fun _ => ⟨_, rfl⟩⟩

/-- C41: the error tells why a directory is not loaded: AssertionError without directory, flag file or parts; FileNotFoundError for the first
part that is not a database if it does not exist; another exception if it exists, or if the flag file cannot be parsed. -/
theorem C41_load_error {keep shuffle : Bool} {dir : Dir κ} {e : Exc} (h : MDb.load keep shuffle dir = .error e) :
    (e = .assertion ∧ (dir = none ∨ ∃ d, dir = some d ∧ (Dict.get? d (lit "_SUCCESS") = none ∨ ∃ names, Dict.get? d (lit "_SUCCESS") = some (.success [] names)))) ∨
    (e = .value ∧ ∃ d f, dir = some d ∧ Dict.get? d (lit "_SUCCESS") = some f ∧ ∀ parts names, f ≠ .success parts names) ∨
    ∃ d parts names a n b, dir = some d ∧ Dict.get? d (lit "_SUCCESS") = some (.success parts names) ∧ parts.map (·.1) = a ++ n :: b ∧
      (∀ m ∈ a, ∃ db, Dict.get? d m = some (.db db)) ∧
      ((e = .fileNotFound ∧ Dict.get? d n = none) ∨ (e = .exception ∧ ∃ f, Dict.get? d n = some f ∧ ∀ db, f ≠ .db db)) := by
  rw [show lit "_SUCCESS" = flagName from rfl]
  cases dir with
  | none => rw [MDb.load] at h; cases h; exact .inl ⟨rfl, .inl rfl⟩
  | some d =>
    rw [MDb.load] at h
    dsimp only at h
    cases hf : Dict.get? d flagName with
    | none => simp only [hf] at h; cases h; exact .inl ⟨rfl, .inr ⟨d, rfl, .inl hf⟩⟩
    | some f =>
      cases f with
      | db _ => simp only [hf] at h; cases h; exact .inr (.inl ⟨rfl, d, _, rfl, hf, by simp⟩)
      | mta _ => simp only [hf] at h; cases h; exact .inr (.inl ⟨rfl, d, _, rfl, hf, by simp⟩)
      | broken => simp only [hf] at h; cases h; exact .inr (.inl ⟨rfl, d, _, rfl, hf, by simp⟩)
      | other => simp only [hf] at h; cases h; exact .inr (.inl ⟨rfl, d, _, rfl, hf, by simp⟩)
      | success parts names =>
        simp only [hf] at h
        split at h
        · rename_i hp; subst hp; cases h; exact .inl ⟨rfl, .inr ⟨d, rfl, .inr ⟨names, hf⟩⟩⟩
        · split at h
          · split at h
            · rename_i e' he
              cases h
              obtain ⟨a, n, b, h1, h2, h3⟩ := loadParts_error he
              refine .inr (.inr ⟨d, parts, names, a, n, b, rfl, hf, h1, h2, ?_⟩)
              rcases h3 with ⟨g1, g2⟩ | ⟨g1, g2⟩
              · exact .inl ⟨g2, g1⟩
              · exact .inr ⟨g2, g1⟩
            · cases h
          · cases h

/-- two parts are listed, and neither can be read: this is noticed only if they are to be kept in memory -/
example : (match (MDb.load false false (some [(lit "_SUCCESS", .success [(lit "part-0", 1), (lit "part-1", 1)] [lit "x"]), (lit "part-1", .broken)] : Dir Nat)) with
      | .ok _ => true | _ => false) = true ∧
    (match (MDb.load true false (some [(lit "_SUCCESS", .success [(lit "part-0", 1), (lit "part-1", 1)] [lit "x"]), (lit "part-1", .broken)] : Dir Nat)) with
      | .error .fileNotFound => true | _ => false) = true ∧
    (match (MDb.load false false (some [(lit "_SUCCESS", .success [(lit "part-1", 1)] [lit "x"]), (lit "part-1", .broken)] : Dir Nat)) with
      | .error .exception => true | _ => false) = true := by decide +kernel

/-- C41, for values up to 2^53 (missing: larger values, see C35) and at least one record (see `C41_refuted`): a multi-part database can
be created from records with distinct ids in a new or empty directory, or over an old one.  For every order of the directory listing
and every way to load it, it has the right length and field names, and iterating yields the records part by part, each once, where the
parts are the chunks of `part_size` records; with shuffling, if the parts are kept in memory or have one record each. -/
theorem C41_roundtrip_partial (env : Env) (hg : ∀ l, (env.globOrd l).Perm l) {names : List Str} (hnn : names ≠ []) (hns : names.Nodup)
    {recs : List (κ × List (List Int))} (hne : recs ≠ []) (hnd : (recs.map (·.1)).Nodup) (hw : ∀ r ∈ recs, r.2.length = names.length)
    (hv : Exact recs) (hlen : ((recs.map fun r => (r.2.map List.length).sum).sum : Nat) < 2 ^ 64) {partSize : Int} (hp : 1 ≤ partSize)
    {maxParts : Nat} (hm : 1 ≤ maxParts) {overwrite : Bool} {dir : Dir κ} (hs : overwrite = true ∨ dir = none ∨ dir = some []) :
    (createFx env overwrite partSize maxParts names recs dir).res = .ok () ∧
    ∃ cs, Chunks partSize.toNat recs cs ∧ ∀ keep shuffle, ∃ m,
      MDb.load keep shuffle (runFx (createFx env overwrite partSize maxParts names recs dir).fx dir) = .ok m ∧
      m.len = recs.length ∧ m.names = names ∧ m.parts.length = cs.length ∧
      ∀ shufP : List (Nat × Str) → List (Nat × Str), (∀ l, (shufP l).Perm l) → ∀ ord : Nat → List κ → List κ, (∀ i l, (ord i l).Perm l) →
        (shuffle = true → keep = true ∨ cs.length = 1 ∨ partSize = 1) →
        (m.iter shufP ord (runFx (createFx env overwrite partSize maxParts names recs dir).fx dir)).exc = none ∧
        PartByPart cs (m.iter shufP ord (runFx (createFx env overwrite partSize maxParts names recs dir).fx dir)).out := by
  obtain ⟨cs, hcs, hch⟩ := C40_slices hp recs
  obtain ⟨dbs, hd⟩ := parts_created (bufSize := env.bufSize) hnn hnd hw hv hlen hch
  obtain ⟨q, hq, h1, h2⟩ := createFx_ok hg hm hs hcs hd
  refine ⟨h1, cs, hch, fun keep shuffle => ?_⟩
  rw [h2]
  obtain ⟨g1, g2⟩ := get?_append_flag (pad := Nat.clog 10 maxParts) (dbs := dbs) (.success (q.map fun p => (partName (Nat.clog 10 maxParts) p.2, p.1.len)) names)
  have hql : q.length = cs.length := by rw [hq.length_eq, List.length_zipIdx, hd.length_eq]
  have hqne : q ≠ [] := by
    rintro rfl
    have : cs = [] := List.length_eq_zero_iff.1 hql.symm
    subst this
    exact hne hch.1.symm
  have hpq : ∀ p ∈ q, Dict.get? (partEntries (Nat.clog 10 maxParts) 0 dbs ++
      [(flagName, .success (q.map fun p => (partName (Nat.clog 10 maxParts) p.2, p.1.len)) names)]) (partName (Nat.clog 10 maxParts) p.2) = some (.db p.1) :=
    fun p hp => g2 p (hq.mem_iff.1 hp)
  refine ⟨_, load_eq hqne g1 hpq keep shuffle, ?_, rfl, by simp [hql], ?_⟩
  · simp only [MDb.len]
    rw [counts_sum hns hd hq, hch.1]
  · intro shufP hsh ord hord hc
    have hvc : ∀ c ∈ cs, Exact c := fun c hc r hr => hv r (by rw [← hch.1]; exact List.mem_flatten.2 ⟨c, hc, hr⟩)
    have hpart : ∀ i p, q[i]? = some p → MDb.part ⟨q.map fun p => partName (Nat.clog 10 maxParts) p.2, q.map fun p => p.1.len, names,
        keep || decide (q.length = 1), shuffle, if keep || decide (q.length = 1) then q.map fun p => some p.1 else q.map fun _ => none⟩
        (some (partEntries (Nat.clog 10 maxParts) 0 dbs ++
          [(flagName, .success (q.map fun p => (partName (Nat.clog 10 maxParts) p.2, p.1.len)) names)])) i (partName (Nat.clog 10 maxParts) p.2) = .ok p.1 := by
      intro i p hi
      simp only [MDb.part]
      cases hk : (keep || decide (q.length = 1)) with
      | true => simp [hi]
      | false =>
        simp only [Bool.false_eq_true, if_false, loadPart]
        rw [hpq p (List.mem_iff_getElem?.2 ⟨i, hi⟩)]
    have hexc := (iter_exc hns hvc hd hq rfl hpart hsh hord).1 (by
      intro hsf
      rcases hc hsf with h | h | h
      · left; simp [h]
      · left; simp [hql, h]
      · right
        intro c hc
        have := (hch.2.1 c hc).2
        omega)
    refine ⟨hexc, ?_⟩
    exact iter_parts hns hvc hd hq rfl (fun i p hi db hdb => by rw [hpart i p hi] at hdb; cases hdb; rfl) hsh hord hexc

/-- C41 is false for no records: the directory is written completely, but it cannot be loaded. -/
theorem C41_refuted (env : Env) (names : List Str) (keep shuffle : Bool) (hg : ∀ l, (env.globOrd l).Perm l) :
    (createFx env false 1000 100 names ([] : List (κ × List (List Int))) none).res = .ok () ∧
    MDb.load keep shuffle (runFx (createFx env false 1000 100 names ([] : List (κ × List (List Int))) none).fx none) = .error .assertion := by
  have h0 : slices 1000 ([] : List (κ × List (List Int))) = .ok [] := rfl
  obtain ⟨q, hq, h1, h2⟩ := createFx_ok (overwrite := false) (names := names) (dir := none) hg (show 1 ≤ 100 by omega) (Or.inr (Or.inl rfl)) h0 (dbs := []) .nil
  refine ⟨h1, ?_⟩
  rw [h2]
  have : q = [] := by simpa using hq
  subst this
  rfl

/-- five records in parts of two, the listing reversed -/
def exMRecs : List (Nat × List (List Int)) := [(5, [[1, 2]]), (9, [[]]), (2, [[70000]]), (7, [[0, 0]]), (1, [[3]])]

/-- reversed orders, flushing after every record -/
def exEnv : Env := ⟨1, List.reverse, List.reverse⟩

example : exMRecs ≠ [] ∧ (exMRecs.map (·.1)).Nodup ∧ (∀ r ∈ exMRecs, r.2.length = [lit "x"].length) ∧ Exact exMRecs ∧
    (∀ l, (exEnv.globOrd l).Perm l) := by
  refine ⟨by decide, by decide, by decide, ?_, fun l => List.reverse_perm l⟩
  unfold Exact exMRecs
  decide

example : (match createFx exEnv false 2 1001 [lit "x"] exMRecs none with
    | ⟨fx, res⟩ => match MDb.load false false (runFx fx none) with
      | .error _ => false
      | .ok m => decide (res = .ok ()) && decide (fx.length = 15) && decide (m.parts = [lit "part-0002", lit "part-0001", lit "part-0000"]) && decide (m.len = 5) &&
          decide ((m.iter id (fun _ => id) (runFx fx none)).out = [(1, [[3]]), (2, [[70000]]), (7, [[0, 0]]), (5, [[1, 2]]), (9, [[]])]) &&
          (m.iter id (fun _ => id) (runFx fx none)).exc.isNone) = true := by decide +kernel

/-! ## C39 -/

/-- C39 for multi-part databases, as far as it holds: a database created as in C41 and loaded with `shuffle=True` yields every record
exactly once, whatever the shuffle, if it is kept in memory or has one part or parts of one record.
Missing: parts of two or more records read from disk, see `C39_multipart_refuted`. -/
theorem C39_multipart_partial (env : Env) (hg : ∀ l, (env.globOrd l).Perm l) {names : List Str} (hnn : names ≠ []) (hns : names.Nodup)
    {recs : List (κ × List (List Int))} (hne : recs ≠ []) (hnd : (recs.map (·.1)).Nodup) (hw : ∀ r ∈ recs, r.2.length = names.length)
    (hv : Exact recs) (hlen : ((recs.map fun r => (r.2.map List.length).sum).sum : Nat) < 2 ^ 64) {partSize : Int} (hp : 1 ≤ partSize)
    {maxParts : Nat} (hm : 1 ≤ maxParts) {overwrite : Bool} {dir : Dir κ} (hs : overwrite = true ∨ dir = none ∨ dir = some [])
    {keep : Bool} (hk : keep = true ∨ recs.length ≤ partSize ∨ partSize = 1) :
    ∃ m, MDb.load keep true (runFx (createFx env overwrite partSize maxParts names recs dir).fx dir) = .ok m ∧
      ∀ shufP : List (Nat × Str) → List (Nat × Str), (∀ l, (shufP l).Perm l) → ∀ ord : Nat → List κ → List κ, (∀ i l, (ord i l).Perm l) →
        ∃ out, m.iter shufP ord (runFx (createFx env overwrite partSize maxParts names recs dir).fx dir) = ⟨out, none⟩ ∧ out.Perm recs := by
  obtain ⟨_, cs, hch, h⟩ := C41_roundtrip_partial env hg hnn hns hne hnd hw hv hlen hp hm hs
  obtain ⟨m, m1, _, _, _, m2⟩ := h keep true
  refine ⟨m, m1, fun shufP hsh ord hord => ?_⟩
  obtain ⟨r1, r2⟩ := m2 shufP hsh ord hord (by
    intro _
    rcases hk with h | h | h
    · exact Or.inl h
    · refine Or.inr (Or.inl ?_)
      have h1 : Chunks partSize.toNat recs [recs] := ⟨by simp, by simpa using ⟨hne, by omega⟩, by simp⟩
      rw [C40_unique hch h1]
      rfl
    · exact Or.inr (Or.inr h))
  have r3 := r2.perm
  rw [hch.1] at r3
  refine ⟨_, ?_, r3⟩
  generalize m.iter shufP ord (runFx (createFx env overwrite partSize maxParts names recs dir).fx dir) = g at r1 ⊢
  obtain ⟨o, e⟩ := g
  simp only at r1
  rw [r1]

/-- C39 is false for multi-part databases read from disk: if there are several parts and `part_size` is two or more, a shuffled
iteration ends in TypeError, whatever the shuffle. -/
theorem C39_multipart_refuted (env : Env) (hg : ∀ l, (env.globOrd l).Perm l) {names : List Str} (hnn : names ≠ []) (hns : names.Nodup)
    {recs : List (κ × List (List Int))} (hnd : (recs.map (·.1)).Nodup) (hw : ∀ r ∈ recs, r.2.length = names.length)
    (hv : Exact recs) (hlen : ((recs.map fun r => (r.2.map List.length).sum).sum : Nat) < 2 ^ 64) {partSize : Int} (hp : 2 ≤ partSize)
    (hmany : partSize < recs.length) {maxParts : Nat} (hm : 1 ≤ maxParts) {overwrite : Bool} {dir : Dir κ} (hs : overwrite = true ∨ dir = none ∨ dir = some []) :
    ∃ m, MDb.load false true (runFx (createFx env overwrite partSize maxParts names recs dir).fx dir) = .ok m ∧
      ∀ shufP : List (Nat × Str) → List (Nat × Str), (∀ l, (shufP l).Perm l) → ∀ ord : Nat → List κ → List κ, (∀ i l, (ord i l).Perm l) →
        (m.iter shufP ord (runFx (createFx env overwrite partSize maxParts names recs dir).fx dir)).exc = some .type := by
  obtain ⟨cs, hcs, hch⟩ := C40_slices (show 1 ≤ partSize by omega) recs
  obtain ⟨dbs, hd⟩ := parts_created (bufSize := env.bufSize) hnn hnd hw hv hlen hch
  obtain ⟨q, hq, h1, h2⟩ := createFx_ok hg hm hs hcs hd
  rw [h2]
  obtain ⟨g1, g2⟩ := get?_append_flag (pad := Nat.clog 10 maxParts) (dbs := dbs) (.success (q.map fun p => (partName (Nat.clog 10 maxParts) p.2, p.1.len)) names)
  have hql : q.length = cs.length := by rw [hq.length_eq, List.length_zipIdx, hd.length_eq]
  obtain ⟨c0, c1, ct, rfl⟩ : ∃ c0 c1 ct, cs = c0 :: c1 :: ct := by
    obtain ⟨h3, h4, _⟩ := hch
    rcases cs with _ | ⟨c0, _ | ⟨c1, ct⟩⟩
    · simp only [List.flatten_nil] at h3
      rw [← h3] at hmany
      simp at hmany; omega
    · simp only [List.flatten_cons, List.flatten_nil, List.append_nil] at h3
      have := (h4 c0 (by simp)).2
      rw [h3] at this
      omega
    · exact ⟨_, _, _, rfl⟩
  have hqne : q ≠ [] := by rintro rfl; simp at hql
  have hpq : ∀ p ∈ q, Dict.get? (partEntries (Nat.clog 10 maxParts) 0 dbs ++
      [(flagName, .success (q.map fun p => (partName (Nat.clog 10 maxParts) p.2, p.1.len)) names)]) (partName (Nat.clog 10 maxParts) p.2) = some (.db p.1) :=
    fun p hp => g2 p (hq.mem_iff.1 hp)
  refine ⟨_, load_eq hqne g1 hpq false true, fun shufP hsh ord hord => ?_⟩
  have hvc : ∀ c ∈ (c0 :: c1 :: ct), Exact c := fun c hc r hr => hv r (by rw [← hch.1]; exact List.mem_flatten.2 ⟨c, hc, hr⟩)
  have hk : (false || decide (q.length = 1)) = false := by rw [hql]; simp
  refine (iter_exc hns hvc hd hq rfl ?_ hsh hord).2 ⟨rfl, hk, c0, by simp, ?_⟩
  · intro i p hi
    simp only [MDb.part, hk, Bool.false_eq_true, if_false, loadPart]
    rw [hpq p (List.mem_iff_getElem?.2 ⟨i, hi⟩)]
  · have := hch.2.2 c0 (by simp)
    omega

example : (match createFx exEnv false 2 1001 [lit "x"] exMRecs none with
    | ⟨fx, _⟩ => match MDb.load false true (runFx fx none), MDb.load true true (runFx fx none) with
      | .ok m, .ok m' => decide ((m.iter List.reverse (fun _ => id) (runFx fx none)).exc = some .type) &&
          decide ((m'.iter List.reverse (fun _ => id) (runFx fx none)).out = exMRecs) && (m'.iter List.reverse (fun _ => id) (runFx fx none)).exc.isNone
      | _, _ => false) = true := by decide +kernel

/-! ## C43 -/

/-- C43, in a new or empty directory: if it can be loaded, then the writing was not interrupted; it ended without exception. -/
theorem C43_fresh_partial (a : Attempt κ) (hg : ∀ l, (a.env.globOrd l).Perm l) {dir : Dir κ} (hd : dir = none ∨ dir = some [])
    {keep shuffle : Bool} {m : MDb κ} (h : MDb.load keep shuffle (a.run dir) = .ok m) :
    (createFx a.env a.overwrite a.partSize a.maxParts a.names a.recs dir).fx.length ≤ a.crash ∧
    (createFx a.env a.overwrite a.partSize a.maxParts a.names a.recs dir).res = .ok () := by
  have hquiet : ¬ Quiet (a.run dir) := by
    intro hq
    cases hr : a.run dir with
    | none => rw [hr] at h; cases h
    | some d =>
      rw [hr] at h
      obtain ⟨ps, ns, hf, _⟩ := load_inv h
      exact (hq d hr).2 ps ns hf
  rcases attempt_cases a hg dir with ⟨k, hk⟩ | hq | ⟨cs, pad, dbs, q, c1, c2, c3, c4, c5⟩
  · exfalso
    apply hquiet
    rw [hk]
    rcases hd with rfl | rfl
    · rcases k with _ | k
      · exact quiet_none
      · simp only [Writer.init, List.take_succ_cons, List.take_nil]
        exact quiet_empty
    · rcases k with _ | k
      · exact quiet_empty
      · simp only [Writer.init, List.take_succ_cons, List.take_nil]
        exact quiet_empty
  · exact absurd hq hquiet
  · refine ⟨c4, ?_⟩
    have hm : 1 ≤ a.maxParts := by
      by_contra hm
      have h0 : a.maxParts = 0 := by omega
      apply hquiet
      rw [Attempt.run, h0]
      rcases hd with rfl | rfl
      · simp only [createFx, Fx.andThen, Writer.init, partPathPads, if_true]
        rw [List.take_of_length_le (by
          simp only [createFx, Fx.andThen, Writer.init, partPathPads, h0, if_true] at c4
          exact c4)]
        exact quiet_empty
      · simp only [createFx, Fx.andThen, Writer.init, partPathPads, if_true]
        rw [List.take_of_length_le (by
          simp only [createFx, Fx.andThen, Writer.init, partPathPads, h0, if_true] at c4
          exact c4)]
        exact quiet_empty
    obtain ⟨_, _, h1, _⟩ := createFx_ok (overwrite := a.overwrite) (dir := dir) hg hm (Or.inr hd) c1 c2
    exact h1

/-- C43, for any history of attempts, each interrupted anywhere, with or without overwriting, in a directory that has no flag file at
first: if it can be loaded and an iteration completes without exception, then all records of one of the attempts are read, each
once, and the length and the field names are those of that attempt.
Missing: loading itself may succeed although part files are missing, see `C43_refuted`. -/
theorem C43_history_partial (as : List (Attempt κ)) (hg : ∀ a ∈ as, ∀ l, (a.env.globOrd l).Perm l) (hns : ∀ a ∈ as, a.names.Nodup)
    (hv : ∀ a ∈ as, Exact a.recs) {dir : Dir κ} (hd : ∀ d, dir = some d → (Dict.keys d).Nodup ∧ flagName ∉ Dict.keys d)
    {keep shuffle : Bool} {m : MDb κ} (h : MDb.load keep shuffle (as.foldl (fun d a => a.run d) dir) = .ok m)
    {shufP : List (Nat × Str) → List (Nat × Str)} (hsh : ∀ l, (shufP l).Perm l) {ord : Nat → List κ → List κ} (hord : ∀ i l, (ord i l).Perm l)
    (hi : (m.iter shufP ord (as.foldl (fun d a => a.run d) dir)).exc = none) :
    ∃ a ∈ as, (m.iter shufP ord (as.foldl (fun d a => a.run d) dir)).out.Perm a.recs ∧ m.len = a.recs.length ∧ m.names = a.names := by
  have hgood : ∀ (l : List (Attempt κ)) (bs : List (Attempt κ)) (dir : Dir κ), (∀ a ∈ l, ∀ x, (a.env.globOrd x).Perm x) → Good bs dir →
      ∃ bs', (∀ b ∈ bs', b ∈ bs ∨ b ∈ l) ∧ Good bs' (l.foldl (fun d a => a.run d) dir) := by
    intro l
    induction l with
    | nil => exact fun bs dir _ h => ⟨bs, fun b hb => Or.inl hb, h⟩
    | cons a l ih =>
      intro bs dir hl h
      obtain ⟨bs', h1, h2⟩ := ih (a :: bs) (a.run dir) (fun a ha => hl a (by simp [ha])) (h.attempt a (hl a (by simp)))
      refine ⟨bs', fun b hb => ?_, h2⟩
      rcases h1 b hb with h | h
      · rcases List.mem_cons.1 h with rfl | h
        · exact Or.inr (by simp)
        · exact Or.inl h
      · exact Or.inr (by simp [h])
  have hq0 : Quiet dir := fun d he => ⟨(hd d he).1, fun ps ns hf => by
    have := (Dict.get?_eq_none_iff d flagName).2 (hd d he).2
    rw [this] at hf; cases hf⟩
  obtain ⟨bs', hb1, hb2⟩ := hgood as [] dir hg hq0.good
  generalize as.foldl (fun d a => a.run d) dir = fin at h hi hb2 ⊢
  cases fin with
  | none => cases h
  | some d =>
    obtain ⟨ps, ns, l1, l2, l3, l4, l5, l6, l7, l8⟩ := load_inv h
    obtain ⟨_, hgo⟩ := hb2 d rfl
    obtain ⟨a, ha, cs, pad, dbs, q, g1, g2, g3, g4, g5, g6⟩ := hgo ps ns l1
    have ha' : a ∈ as := by simpa using hb1 a ha
    have hcs : cs ≠ [] := by
      rintro rfl
      cases g2
      simp only [List.zipIdx_nil, List.perm_nil] at g3
      subst g3
      exact l2 g4
    have hsz : 1 ≤ a.partSize := by
      by_contra hlt
      rcases lt_or_eq_of_le (show a.partSize ≤ 0 by omega) with h0 | h0
      · simp [slices, h0] at g1
      · rw [h0, (C40_other_sizes a.recs).1] at g1
        cases g1
        exact hcs rfl
    have hch : cs.flatten = a.recs := by
      obtain ⟨cs', c1, c2⟩ := C40_slices hsz a.recs
      rw [g1] at c1
      cases c1
      exact c2.1
    have hvc : ∀ c ∈ cs, Exact c := fun c hc r hr => hv a ha' r (by rw [← hch]; exact List.mem_flatten.2 ⟨c, hc, hr⟩)
    have hparts : m.parts = q.map fun p => partName pad p.2 := by rw [l3, g4]; simp [Dict.keys]
    have hit := iter_parts (hns a ha') hvc g2 g3 hparts (fun i p hqi db hdb => part_of_get hparts (by rw [l3]; exact l8) g6 hqi hdb) hsh hord hi
    refine ⟨a, ha', ?_, ?_, by rw [l5, g5]⟩
    · have := Spec.PartByPart.perm hit
      rwa [hch] at this
    · rw [MDb.len, l4, g4, ← hch, ← counts_sum (hns a ha') g2 g3]
      simp [Dict.values, Function.comp_def]

/-- three records in two parts of at most two, written completely -/
def exOld : Attempt Nat := ⟨exEnv, false, 2, 10, [lit "x"], [(0, [[1]]), (1, [[2]]), (2, [[3]])], 100⟩

/-- overwriting, interrupted after the first file was removed -/
def exNew : Attempt Nat := ⟨⟨1, id, id⟩, true, 2, 10, [lit "x"], [(0, [[7]])], 1⟩

/-- C43 is false when overwriting: after the first file of the old database is removed the flag is still there, so the database can
be loaded and claims three records, but only one of them can be read. -/
theorem C43_refuted : ∃ m : MDb Nat, MDb.load false false (exNew.run (exOld.run none)) = .ok m ∧ m.len = 3 ∧
    m.iter id (fun _ => id) (exNew.run (exOld.run none)) = ⟨[(2, [[3]])], some .fileNotFound⟩ := by
  have h : (match MDb.load false false (exNew.run (exOld.run none)) with
    | .error _ => false
    | .ok m => decide (m.len = 3) && decide ((m.iter id (fun _ => id) (exNew.run (exOld.run none))).out = [(2, [[3]])]) &&
        decide ((m.iter id (fun _ => id) (exNew.run (exOld.run none))).exc = some .fileNotFound)) = true := by decide +kernel
  cases hc : MDb.load false false (exNew.run (exOld.run none)) with
  | error e => rw [hc] at h; cases h
  | ok m =>
    rw [hc] at h
    simp only [Bool.and_eq_true, decide_eq_true_eq] at h
    refine ⟨m, rfl, h.1.1, ?_⟩
    rw [← h.1.2, ← h.2]

/-- interrupted before the flag is complete it cannot be loaded, afterwards it can -/
example : (MDb.load false false (Attempt.run { exOld with crash := 10 } none)).toOption.isNone = true ∧
    (MDb.load false false (Attempt.run { exOld with crash := 11 } none)).toOption.isSome = true := by decide +kernel

/-! ## C44 -/

/-- C44: in a directory that is not empty, without overwriting, an exception is raised and nothing is changed. -/
theorem C44_refused (env : Env) (partSize : Int) (maxParts : Nat) (names : List Str) (recs : List (κ × List (List Int))) {d : Dict Str (FileC κ)} (hd : d ≠ []) :
    (createFx env false partSize maxParts names recs (some d)).res = .error .exception ∧
    runFx (createFx env false partSize maxParts names recs (some d)).fx (some d) = some d := by
  have hs : ¬ Startable false (some d) := by simp [Startable, hd]
  simp only [createFx, Fx.andThen, init_refused hs]
  exact ⟨trivial, rfl⟩

/-- C44: with overwriting, once the writer is open nothing of the old directory is left, and after a creation that ended without
exception the directory has exactly the new parts with their `.meta` files and the flag. -/
theorem C44_overwritten {env : Env} (hg : ∀ l, (env.globOrd l).Perm l) (partSize : Int) {maxParts : Nat} (names : List Str)
    (recs : List (κ × List (List Int))) (d : Dict Str (FileC κ)) :
    runFx (Writer.init env.rmOrd true maxParts (some d)).fx (some d) = some [] ∧
    ((createFx env true partSize maxParts names recs (some d)).res = .ok () →
      ∃ cs pad d', slices partSize recs = .ok cs ∧ runFx (createFx env true partSize maxParts names recs (some d)).fx (some d) = some d' ∧
        (Dict.keys d').Nodup ∧ ∀ n, n ∈ Dict.keys d' ↔ n = flagName ∨ ∃ i < cs.length, n = partName pad i ∨ n = partName pad i ++ lit ".meta") := by
  have hs : Startable true (some d) := Or.inl rfl
  obtain ⟨hres, hrun⟩ := init_run (rmOrd := env.rmOrd) (maxParts := maxParts) hs
  refine ⟨hrun, fun h => ?_⟩
  have hm : 1 ≤ maxParts := by
    by_contra hm
    have : maxParts = 0 := by omega
    subst this
    simp [createFx, Fx.andThen, hres, partPathPads] at h
  have hp : partPathPads maxParts = .ok (Nat.clog 10 maxParts) := by rw [partPathPads, if_neg (by omega)]
  cases hsl : slices partSize recs with
  | error e => simp [createFx, Fx.andThen, hres, hp, hsl] at h
  | ok cs =>
    cases hc : (createParts env.bufSize (Nat.clog 10 maxParts) names 0 cs).res with
    | error e => simp [createFx, Fx.andThen, hres, hp, hsl, hc] at h
    | ok u =>
      obtain ⟨dbs, hd⟩ := createParts_ok hc
      obtain ⟨q, hq, _, h2⟩ := createFx_ok hg hm hs hsl hd
      refine ⟨cs, Nat.clog 10 maxParts, _, rfl, h2, ?_, ?_⟩
      · have hf : flagName ∉ Dict.keys (partEntries (Nat.clog 10 maxParts) 0 dbs) := by
          intro h
          obtain ⟨i, _, _, h | h⟩ := mem_keys_partEntries h
          · exact partName_ne_flag _ _ h.symm
          · exact metaName_ne_flag _ _ h.symm
        rw [← Dict.set_new hf]
        exact Dict.nodup_keys_set (partEntries_nodup _ _ _) _ _
      · intro n
        have hk : Dict.keys (partEntries (Nat.clog 10 maxParts) 0 dbs ++ [(flagName, FileC.success (q.map fun p => (partName (Nat.clog 10 maxParts) p.2, p.1.len)) names)]) =
            Dict.keys (partEntries (Nat.clog 10 maxParts) 0 dbs) ++ [flagName] := by simp [Dict.keys]
        rw [hk, List.mem_append, List.mem_singleton]
        constructor
        · rintro (hn | rfl)
          · obtain ⟨i, _, hi, hn⟩ := mem_keys_partEntries hn
            refine Or.inr ⟨i, by rw [hd.length_eq]; omega, ?_⟩
            rwa [withSuffix_partName] at hn
          · exact Or.inl rfl
        · rintro (rfl | ⟨i, hi, hn⟩)
          · exact Or.inr rfl
          · left
            have hid : i < dbs.length := by rw [← hd.length_eq]; exact hi
            have hz : (dbs[i], i) ∈ dbs.zipIdx := by rw [List.mem_iff_getElem?]; exact ⟨i, by simp [hid]⟩
            obtain ⟨e1, e2⟩ := get?_partEntries (pad := Nat.clog 10 maxParts) hz
            rw [← withSuffix_partName] at hn
            rw [← Dict.isSome_get?_iff]
            rcases hn with rfl | rfl
            · rw [e1]; rfl
            · rw [e2]; rfl

example : (match createFx exEnv true 2 10 [lit "x"] exMRecs (some [(lit "part-9", .other), (lit "part-9.meta", .mta 4), (lit "notes", .other)]) with
    | ⟨fx, res⟩ => decide (res = .ok ()) && decide ((runFx fx (some [(lit "part-9", .other), (lit "part-9.meta", .mta 4), (lit "notes", .other)])).map Dict.keys =
      some [lit "part-0", lit "part-0.meta", lit "part-1", lit "part-1.meta", lit "part-2", lit "part-2.meta", lit "_SUCCESS"])) = true := by decide +kernel

/-! ## C45 -/

theorem filter_flatten {α : Type} (f : α → Bool) (cs : List (List α)) : cs.flatten.filter f = (cs.map (List.filter f)).flatten := by
  induction cs with
  | nil => rfl
  | cons c cs ih => simp [ih]

/-- the equal-length batches of a database that was loaded from given parts -/
theorem eqBatches_parts {bufSize : Nat} {names : List Str} (hns : names.Nodup) {cs : List (List (κ × List (List Int)))} (hv : Exact cs.flatten)
    {dbs : List (Db κ)} (hd : List.Forall₂ (fun c db => Db.create bufSize names c = .ok db) cs dbs) {q : List (Db κ × Nat)} (hq : q.Perm dbs.zipIdx)
    {pad : Nat} {d : Dict Str (FileC κ)} (hpq : ∀ p ∈ q, Dict.get? d (partName pad p.2) = some (.db p.1)) (hfull : ∀ c ∈ cs, ∃ r ∈ c, Full r)
    {maxToks : Nat} (hfit : ∀ r ∈ cs.flatten, Full r → ¬ Oversized maxToks r) (maxSents : Option Nat) (keep shuffle : Bool)
    {shufP : List (Str × Option (Db κ)) → List (Str × Option (Db κ))} (hsh : ∀ l, (shufP l).Perm l)
    {ord : Str → List κ → List κ} (hord : ∀ n l, (ord n l).Perm l) {shuf : Str → List (κ × Int) → List (κ × Int)} (hshuf : ∀ n l, (shuf n l).Perm l)
    {shufB : Str → List (List κ) → List (List κ)} (hshufB : ∀ n l, (shufB n l).Perm l) :
    ∃ bs, MDb.eqBatches maxToks maxSents shufP ord shuf shufB (some d) ⟨q.map fun p => partName pad p.2, q.map fun p => p.1.len, names,
          keep || decide (q.length = 1), shuffle, if keep || decide (q.length = 1) then q.map fun p => some p.1 else q.map fun _ => none⟩ = ⟨bs, none⟩ ∧
        bs.flatten.Perm (cs.flatten.filter fun r => decide (Full r)) ∧
        ∀ b ∈ bs, b ≠ [] ∧ WithinBudget maxToks b ∧ ∀ k, maxSents = some k → b.length ≤ k + 1 := by
  have hzip : ∃ F : Db κ × Nat → Option (Db κ), (∀ p, F p = some p.1 ∨ F p = none) ∧
      (q.map fun p => partName (pad) p.2).zip (if keep || decide (q.length = 1) then q.map fun p => some p.1 else q.map fun _ => none) =
        q.map fun p => (partName (pad) p.2, F p) := by
    cases hk : (keep || decide (q.length = 1)) with
    | true => exact ⟨fun p => some p.1, fun p => Or.inl rfl, by simp [List.zip_eq_zipWith, List.zipWith_self]⟩
    | false => exact ⟨fun _ => none, fun p => Or.inr rfl, by simp only [Bool.false_eq_true, if_false]; rw [List.zip_map']⟩
  obtain ⟨F, hF, hz⟩ := hzip
  simp only [MDb.eqBatches, hz]
  obtain ⟨q', hq', he⟩ := perm_map_inv (hsh (q.map fun p => (partName (pad) p.2, F p)))
  rw [he]
  let G : Db κ × Nat → Gen (List (κ × List (List Int))) := fun p =>
    p.1.eqBatches maxToks maxSents (ord (partName (pad) p.2)) (shuf (partName (pad) p.2)) (shufB (partName (pad) p.2))
  have hG : ∀ p ∈ q', ∃ bs, G p = ⟨bs, none⟩ ∧ bs.flatten.Perm ((chunkOf cs p).filter fun r => decide (Full r)) ∧
      ∀ b ∈ bs, b ≠ [] ∧ WithinBudget maxToks b ∧ ∀ k, maxSents = some k → b.length ≤ k + 1 := by
    intro p hp
    obtain ⟨z1, z2⟩ := zip_forall hd (hq.mem_iff.1 (hq'.mem_iff.1 hp))
    have hsub : ∀ r ∈ chunkOf cs p, r ∈ cs.flatten := fun r hr => List.mem_flatten.2 ⟨_, z1, hr⟩
    obtain ⟨bs, b1, b2, b3⟩ := C45_partition hns z2 maxToks maxSents (hord _) (hshuf _) (hshufB _) (hfull _ z1) (fun r hr => hfit r (hsub r hr))
    refine ⟨bs, b1, ?_, fun b hb => ⟨(b3 b hb).1, (b3 b hb).2.1, (b3 b hb).2.2.1⟩⟩
    have hget := (C38_lookup_partial hns (fun r hr => hv r (hsub r hr)) z2).2.1
    have hdi := dbCreate_ok hns z2
    -- rows are determined by their ids
    have key : ∀ l : List (κ × List (List Int)), (∀ r ∈ l, r ∈ chunkOf cs p) → l = (l.map (·.1)).map fun k => (k, ((Dict.get? (chunkOf cs p) k).getD [])) := by
      intro l hl
      rw [List.map_map]
      conv_lhs => rw [← List.map_id l]
      refine List.map_congr_left fun r hr => ?_
      have : Dict.get? (chunkOf cs p) r.1 = some r.2 := Dict.get?_of_mem hdi.nodup (hl r hr)
      simp [this]
    have hbs : ∀ r ∈ bs.flatten, r ∈ chunkOf cs p := by
      intro r hr
      obtain ⟨b, hb, hrb⟩ := List.mem_flatten.1 hr
      have hr1 := (b3 b hb).2.2.2 r hrb
      have : r.1 ∈ (chunkOf cs p).map (·.1) := by
        have hm := b2.mem_iff.1 (List.mem_map.2 ⟨r, hr, rfl⟩)
        obtain ⟨r', hr', e⟩ := List.mem_map.1 hm
        exact List.mem_map.2 ⟨r', (List.mem_filter.1 hr').1, e⟩
      obtain ⟨r', hr', e⟩ := List.mem_map.1 this
      have h3 := hget r' hr'
      rw [e, hr1] at h3
      cases h3
      exact hr'
    rw [key bs.flatten hbs, key ((chunkOf cs p).filter fun r => decide (Full r)) fun r hr => (List.mem_filter.1 hr).1]
    exact b2.map _
  have hload : ∀ p ∈ q', (match (match F p with | some db => .ok db | none => loadPart (some d) (partName (pad) p.2) : Py (Db κ)) with
      | .error e => (⟨[], some e⟩ : Gen (List (κ × List (List Int))))
      | .ok db => db.eqBatches maxToks maxSents (ord (partName (pad) p.2)) (shuf (partName (pad) p.2))
          (shufB (partName (pad) p.2))) = G p := by
    intro p hp
    rcases hF p with hf | hf
    · simp only [hf, G]
    · simp only [hf, loadPart, hpq p (hq'.mem_iff.1 hp), G]
  have hexc : ∀ a ∈ q'.map fun p => (partName (pad) p.2, F p),
      (match (match a.2 with | some db => .ok db | none => loadPart (some d) a.1 : Py (Db κ)) with
        | .error e => (⟨[], some e⟩ : Gen (List (κ × List (List Int))))
        | .ok db => db.eqBatches maxToks maxSents (ord a.1) (shuf a.1) (shufB a.1)).exc = none := by
    intro a ha
    obtain ⟨p, hp, rfl⟩ := List.mem_map.1 ha
    obtain ⟨bs, b1, _⟩ := hG p hp
    have := hload p hp
    rw [b1] at this
    simp only
    rw [this]
  refine ⟨q'.flatMap fun p => (G p).out, ?_, ?_, ?_⟩
  · have e1 := genBind_ok.2 hexc
    have e2 := genBind_out hexc
    rw [List.flatMap_map] at e2
    have e3 : q'.flatMap (fun p => (G p).out) = q'.flatMap fun p => (match (match F p with | some db => .ok db | none => loadPart (some d) (partName (pad) p.2) : Py (Db κ)) with
      | .error e => (⟨[], some e⟩ : Gen (List (κ × List (List Int))))
      | .ok db => db.eqBatches maxToks maxSents (ord (partName (pad) p.2)) (shuf (partName (pad) p.2))
          (shufB (partName (pad) p.2))).out := by
      refine List.flatMap_congr fun p hp => ?_
      rw [hload p hp]
    rw [e3]
    generalize genBind _ _ = gb at e1 e2 ⊢
    obtain ⟨o, e⟩ := gb
    simp only at e1 e2
    rw [e1, e2]
  · have hp1 : (q'.flatMap fun p => (G p).out).flatten.Perm (q'.flatMap fun p => (chunkOf cs p).filter fun r => decide (Full r)) := by
      clear hload hexc he hq'
      induction q' with
      | nil => exact List.Perm.refl _
      | cons p q' ih =>
        obtain ⟨bs, b1, b2, _⟩ := hG p (by simp)
        simp only [List.flatMap_cons, List.flatten_append, b1]
        exact b2.append (ih fun p hp => hG p (by simp [hp]))
    refine hp1.trans ?_
    have hp2 : (q'.flatMap fun p => (chunkOf cs p).filter fun r => decide (Full r)).Perm (dbs.zipIdx.flatMap fun p => (chunkOf cs p).filter fun r => decide (Full r)) :=
      (hq'.trans hq).flatMap_right _
    refine hp2.trans ?_
    rw [filter_flatten]
    conv_rhs => rw [← map_chunkOf (cs := cs) hd.length_eq.symm]
    rw [List.map_map, List.flatMap_def]
    exact List.Perm.refl _
  · intro b hb
    obtain ⟨p, hp, hbp⟩ := List.mem_flatMap.1 hb
    obtain ⟨bs, b1, _, b3⟩ := hG p hp
    rw [b1] at hbp
    exact b3 b hbp

/-- C45 for multi-part databases created as in C41 (values up to 2^53): whatever the orders and shuffles, and whether the parts are
kept in memory or not, if every part has a record without empty columns and no such record is oversized, batches are made without
error; they contain every record without empty columns exactly once; none is empty; each is within the budget. -/
theorem C45_multipart (env : Env) (hg : ∀ l, (env.globOrd l).Perm l) {names : List Str} (hnn : names ≠ []) (hns : names.Nodup)
    {recs : List (κ × List (List Int))} (hne : recs ≠ []) (hnd : (recs.map (·.1)).Nodup) (hw : ∀ r ∈ recs, r.2.length = names.length)
    (hv : Exact recs) (hlen : ((recs.map fun r => (r.2.map List.length).sum).sum : Nat) < 2 ^ 64) {partSize : Int} (hp : 1 ≤ partSize)
    {maxParts : Nat} (hm : 1 ≤ maxParts) {overwrite : Bool} {dir : Dir κ} (hs : overwrite = true ∨ dir = none ∨ dir = some [])
    {cs : List (List (κ × List (List Int)))} (hch : Chunks partSize.toNat recs cs) (hfull : ∀ c ∈ cs, ∃ r ∈ c, Full r)
    {maxToks : Nat} (hfit : ∀ r ∈ recs, Full r → ¬ Oversized maxToks r) (maxSents : Option Nat) (keep shuffle : Bool) :
    ∃ m, MDb.load keep shuffle (runFx (createFx env overwrite partSize maxParts names recs dir).fx dir) = .ok m ∧
      ∀ shufP : List (Str × Option (Db κ)) → List (Str × Option (Db κ)), (∀ l, (shufP l).Perm l) →
      ∀ ord : Str → List κ → List κ, (∀ n l, (ord n l).Perm l) → ∀ shuf : Str → List (κ × Int) → List (κ × Int), (∀ n l, (shuf n l).Perm l) →
      ∀ shufB : Str → List (List κ) → List (List κ), (∀ n l, (shufB n l).Perm l) →
      ∃ bs, m.eqBatches maxToks maxSents shufP ord shuf shufB (runFx (createFx env overwrite partSize maxParts names recs dir).fx dir) = ⟨bs, none⟩ ∧
        bs.flatten.Perm (recs.filter fun r => decide (Full r)) ∧
        ∀ b ∈ bs, b ≠ [] ∧ WithinBudget maxToks b ∧ ∀ k, maxSents = some k → b.length ≤ k + 1 := by
  obtain ⟨cs', hcs, hch'⟩ := C40_slices hp recs
  rw [C40_unique hch' hch] at hcs
  obtain ⟨dbs, hd⟩ := parts_created (bufSize := env.bufSize) hnn hnd hw hv hlen hch
  obtain ⟨q, hq, h1, h2⟩ := createFx_ok hg hm hs hcs hd
  rw [h2]
  obtain ⟨g1, g2⟩ := get?_append_flag (pad := Nat.clog 10 maxParts) (dbs := dbs) (.success (q.map fun p => (partName (Nat.clog 10 maxParts) p.2, p.1.len)) names)
  have hql : q.length = cs.length := by rw [hq.length_eq, List.length_zipIdx, hd.length_eq]
  have hqne : q ≠ [] := by
    rintro rfl
    have : cs = [] := List.length_eq_zero_iff.1 hql.symm
    subst this
    exact hne hch.1.symm
  have hpq : ∀ p ∈ q, Dict.get? (partEntries (Nat.clog 10 maxParts) 0 dbs ++
      [(flagName, .success (q.map fun p => (partName (Nat.clog 10 maxParts) p.2, p.1.len)) names)]) (partName (Nat.clog 10 maxParts) p.2) = some (.db p.1) :=
    fun p hp => g2 p (hq.mem_iff.1 hp)
  refine ⟨_, load_eq hqne g1 hpq keep shuffle, fun shufP hsh ord hord shuf hshuf shufB hshufB => ?_⟩
  have := eqBatches_parts (κ := κ) hns (by rw [hch.1]; exact hv) hd hq hpq hfull (by rw [hch.1]; exact hfit) maxSents keep shuffle hsh hord hshuf hshufB
  rwa [hch.1] at this

example : Chunks 2 [((5 : Nat), [[1, 2]]), (9, [[4]]), (2, [[70000]])] [[((5 : Nat), [[(1 : Int), 2]]), (9, [[4]])], [(2, [[70000]])]] := by
  refine ⟨rfl, by decide, by decide⟩

/-- a part in which every record has an empty column stops the batches with IndexError -/
example : (match createFx exEnv false 1 10 [lit "x"] [((5 : Nat), [[1, 2]]), (9, [[]])] none with
    | ⟨fx, _⟩ => match MDb.load false false (runFx fx none) with
      | .ok m => match m.eqBatches 10 none List.reverse (fun _ => id) (fun _ => id) (fun _ => id) (runFx fx none) with
        | ⟨out, exc⟩ => decide (out = [[(5, [[1, 2]])]]) && decide (exc = some .index)
      | .error _ => false) = true := by decide +kernel

end Verif
