import Verif.Lemmas.Multipart
/-! # Lemmas on reading multi-part databases and on interrupted writes -/

namespace Verif
open Spec

variable {κ : Type} [DecidableEq κ]

omit [DecidableEq κ] in
theorem get?_append_flag {pad : Nat} {dbs : List (Db κ)} (c : FileC κ) :
    Dict.get? (partEntries pad 0 dbs ++ [(flagName, c)]) flagName = some c ∧
    ∀ p ∈ dbs.zipIdx, Dict.get? (partEntries pad 0 dbs ++ [(flagName, c)]) (partName pad p.2) = some (.db p.1) := by
  have hf : flagName ∉ Dict.keys (partEntries pad 0 dbs) := by
    intro h
    obtain ⟨i, _, _, h | h⟩ := mem_keys_partEntries h
    · exact partName_ne_flag _ _ h.symm
    · exact metaName_ne_flag _ _ h.symm
  have he : partEntries pad 0 dbs ++ [(flagName, c)] = Dict.set (partEntries pad 0 dbs) flagName c := (Dict.set_new hf c).symm
  rw [he]
  refine ⟨Dict.get?_set_self _ _ _, ?_⟩
  rintro ⟨db, i⟩ hp
  rw [Dict.get?_set_ne _ _ (partName_ne_flag pad i).symm]
  exact (get?_partEntries hp).1

/-- loading when the parts of `q` are all there -/
theorem load_eq {d : Dict Str (FileC κ)} {names : List Str} {pad : Nat} {q : List (Db κ × Nat)} (hq : q ≠ [])
    (hf : Dict.get? d flagName = some (.success (q.map fun p => (partName pad p.2, p.1.len)) names))
    (hp : ∀ p ∈ q, Dict.get? d (partName pad p.2) = some (.db p.1)) (keep shuffle : Bool) :
    MDb.load keep shuffle (some d) = .ok ⟨q.map fun p => partName pad p.2, q.map fun p => p.1.len, names, keep || decide (q.length = 1), shuffle,
      if keep || decide (q.length = 1) then q.map fun p => some p.1 else q.map fun _ => none⟩ := by
  have hk : Dict.keys (q.map fun p => (partName pad p.2, p.1.len)) = q.map fun p => partName pad p.2 := by simp [Dict.keys]
  have hv : Dict.values (q.map fun p => (partName pad p.2, p.1.len)) = q.map fun p => p.1.len := by simp [Dict.values]
  have hl : loadParts (some d) (q.map fun p => partName pad p.2) = .ok (q.map (·.1)) := by
    rw [loadParts_ok, List.forall₂_map_left_iff, List.forall₂_map_right_iff]
    exact List.forall₂_same.2 fun p hp' => by simp only [loadPart, hp p hp']
  simp only [MDb.load, hf, List.map_eq_nil_iff, hq, if_false, List.length_map, hk, hv, hl]
  cases hkeep : (keep || decide (q.length = 1)) <;> simp [Function.comp_def]

/-- what loading says about the directory -/
theorem load_inv {d : Dict Str (FileC κ)} {keep shuffle : Bool} {m : MDb κ} (h : MDb.load keep shuffle (some d) = .ok m) :
    ∃ ps names, Dict.get? d flagName = some (.success ps names) ∧ ps ≠ [] ∧ m.parts = Dict.keys ps ∧ m.counts = Dict.values ps ∧ m.names = names ∧
      m.keep = (keep || decide (ps.length = 1)) ∧ m.shuffle = shuffle ∧
      (m.keep = true → ∃ dbs, List.Forall₂ (fun n db => loadPart (some d) n = .ok db) (Dict.keys ps) dbs ∧ m.mem = dbs.map some) := by
  simp only [MDb.load] at h
  split at h
  · cases h
  · rename_i ps names hf
    refine ⟨ps, names, hf, ?_⟩
    split at h
    · cases h
    · rename_i hne
      refine ⟨hne, ?_⟩
      split at h
      · rename_i hk
        split at h
        · cases h
        · rename_i dbs hl
          cases h
          exact ⟨rfl, rfl, rfl, hk.symm, rfl, fun _ => ⟨dbs, loadParts_ok.1 hl, rfl⟩⟩
      · rename_i hk
        cases h
        simp only [Bool.not_eq_true] at hk
        exact ⟨rfl, rfl, rfl, hk.symm, rfl, fun h => by cases h⟩
  · cases h

/-- the part of a kept or unkept database, if it is obtained at all, is what the file holds or held -/
theorem part_of_get {d : Dict Str (FileC κ)} {m : MDb κ} {pad : Nat} {q : List (Db κ × Nat)} (hparts : m.parts = q.map fun p => partName pad p.2)
    (hmem : m.keep = true → ∃ dbs, List.Forall₂ (fun n db => loadPart (some d) n = .ok db) m.parts dbs ∧ m.mem = dbs.map some)
    (hp : ∀ p ∈ q, Dict.get? d (partName pad p.2) = some (.db p.1) ∨ Dict.get? d (partName pad p.2) = none)
    {i : Nat} {p : Db κ × Nat} (hi : q[i]? = some p) {db : Db κ} (h : m.part (some d) i (partName pad p.2) = .ok db) : db = p.1 := by
  have key : ∀ db', loadPart (some d) (partName pad p.2) = .ok db' → db' = p.1 := by
    intro db' h'
    rcases hp p (List.mem_iff_getElem?.2 ⟨i, hi⟩) with hg | hg
    · simp only [loadPart, hg] at h'
      cases h'; rfl
    · simp only [loadPart, hg] at h'
      cases h'
  cases hk : m.keep with
  | false =>
    simp only [MDb.part, hk] at h
    exact key _ h
  | true =>
    obtain ⟨dbs, h1, h2⟩ := hmem hk
    simp only [MDb.part, hk, if_true, h2, List.getElem?_map] at h
    cases hd : dbs[i]? with
    | none => simp [hd] at h
    | some db' =>
      simp only [hd, Option.map_some] at h
      cases h
      rw [hparts, List.forall₂_map_left_iff, List.forall₂_iff_get] at h1
      obtain ⟨hil, hie⟩ := List.getElem?_eq_some_iff.1 hi
      obtain ⟨hdl, hde⟩ := List.getElem?_eq_some_iff.1 hd
      have := h1.2 i hil hdl
      simp only [List.get_eq_getElem, hie, hde] at this
      exact key _ this

/-- the index-and-path list -/
theorem idx_paths (pad : Nat) (q : List (Db κ × Nat)) : (List.range (q.map fun p => partName pad p.2).length).zip (q.map fun p => partName pad p.2) =
    q.zipIdx.map fun x => (x.2, partName pad x.1.2) := by
  apply List.ext_getElem
  · simp
  · intro i h1 h2
    simp

/-- the chunk of a part -/
def chunkOf {α : Type} (cs : List (List α)) (p : Db κ × Nat) : List α := cs[p.2]?.getD []

omit [DecidableEq κ] in
theorem map_chunkOf {α : Type} {cs : List (List α)} {dbs : List (Db κ)} (h : dbs.length = cs.length) : dbs.zipIdx.map (chunkOf cs) = cs := by
  apply List.ext_getElem
  · simp [h]
  · intro i h1 h2
    simp [chunkOf, h2]

theorem zip_forall {bufSize : Nat} {names : List Str} {cs : List (List (κ × List (List Int)))} {dbs : List (Db κ)}
    (hd : List.Forall₂ (fun c db => Db.create bufSize names c = .ok db) cs dbs) {p : Db κ × Nat} (hp : p ∈ dbs.zipIdx) :
    chunkOf cs p ∈ cs ∧ Db.create bufSize names (chunkOf cs p) = .ok p.1 := by
  obtain ⟨db, i⟩ := p
  have h := List.mem_zipIdx hp
  rw [List.forall₂_iff_get] at hd
  have hi : i < cs.length := by rw [hd.1]; omega
  have hc : chunkOf cs (db, i) = cs[i] := by simp [chunkOf, hi]
  have := hd.2 i hi (by omega)
  refine ⟨by rw [hc]; exact List.getElem_mem hi, ?_⟩
  rw [hc]
  simp only [List.get_eq_getElem] at this
  have h3 := h.2.2
  simp only [Nat.sub_zero] at h3
  exact this.trans (congrArg Except.ok h3.symm)

/-- output, part by part, of an iteration that completes -/
theorem iter_parts {bufSize : Nat} {names : List Str} (hns : names.Nodup) {cs : List (List (κ × List (List Int)))} (hv : ∀ c ∈ cs, Exact c)
    {dbs : List (Db κ)} (hd : List.Forall₂ (fun c db => Db.create bufSize names c = .ok db) cs dbs) {q : List (Db κ × Nat)} (hq : q.Perm dbs.zipIdx)
    {pad : Nat} {m : MDb κ} (hparts : m.parts = q.map fun p => partName pad p.2) {dir : Dir κ}
    (hpart : ∀ i p, q[i]? = some p → ∀ db, m.part dir i (partName pad p.2) = .ok db → db = p.1)
    {shufP : List (Nat × Str) → List (Nat × Str)} (hsh : ∀ l, (shufP l).Perm l) {ord : Nat → List κ → List κ} (hord : ∀ i l, (ord i l).Perm l) :
    (m.iter shufP ord dir).exc = none → ∃ cs' outs, cs'.Perm cs ∧ List.Forall₂ List.Perm outs cs' ∧ (m.iter shufP ord dir).out = outs.flatten := by
  intro hexc
  have hL : (if m.shuffle then shufP ((List.range m.parts.length).zip m.parts) else (List.range m.parts.length).zip m.parts).Perm
      (q.zipIdx.map fun x => (x.2, partName pad x.1.2)) := by
    rw [← idx_paths, ← hparts]
    split
    · exact hsh _
    · exact List.Perm.refl _
  obtain ⟨L, hLp, hLe⟩ := perm_map_inv hL
  simp only [MDb.iter, hLe] at hexc ⊢
  rw [genBind_ok] at hexc
  rw [genBind_out hexc]
  have hx : ∀ x ∈ L, q[x.2]? = some x.1 := by
    intro x hx
    have h := List.mem_zipIdx' (hLp.mem_iff.1 hx)
    rw [h.2]
    exact List.getElem?_eq_getElem h.1
  let F : (Db κ × Nat) × Nat → List (κ × List (List Int)) := fun x =>
    (match m.part dir x.2 (partName pad x.1.2) with
      | .error e => (⟨[], some e⟩ : Gen (κ × List (List Int)))
      | .ok db => db.gen (ord x.2) (m.shuffle && !m.keep)).out
  refine ⟨L.map fun x => chunkOf cs x.1, L.map F, ?_, ?_, ?_⟩
  · have h1 : (L.map fun x => chunkOf cs x.1).Perm (q.zipIdx.map fun x => chunkOf cs x.1) := hLp.map _
    have h2 : (q.zipIdx.map fun x => chunkOf cs x.1) = q.map (chunkOf cs) := by
      have : q.zipIdx.map (fun x => x.1) = q := by simp [List.zipIdx_map_fst]
      conv_rhs => rw [← this]
      rw [List.map_map]
      rfl
    rw [h2] at h1
    refine h1.trans ((hq.map _).trans ?_)
    rw [map_chunkOf hd.length_eq.symm]
  · rw [List.forall₂_map_left_iff, List.forall₂_map_right_iff]
    refine List.forall₂_same.2 fun x hxL => ?_
    have he := hexc (x.2, partName pad x.1.2) (List.mem_map.2 ⟨x, hxL, rfl⟩)
    simp only [F]
    cases hp : m.part dir x.2 (partName pad x.1.2) with
    | error e => simp [hp] at he
    | ok db =>
      simp only [hp] at he ⊢
      have hdb := hpart x.2 x.1 (hx x hxL) db hp
      subst hdb
      have hz : x.1 ∈ dbs.zipIdx := hq.mem_iff.1 (List.mem_iff_getElem?.2 ⟨x.2, hx x hxL⟩)
      obtain ⟨z1, z2⟩ := zip_forall hd hz
      have hg : x.1.1.gen (ord x.2) (m.shuffle && !m.keep) = x.1.1.gen (ord x.2) false := by
        by_cases hs : ((m.shuffle && !m.keep) && decide (2 ≤ x.1.1.ids.length)) = true
        · exfalso
          simp only [Db.gen, hs, if_true] at he
          cases he
        · simp only [Db.gen, hs, Bool.false_and]
      rw [hg]
      obtain ⟨rs, r1, r2⟩ := dbGen_ok hns (hv _ z1) z2 (hord x.2)
      rw [r1]
      exact r2
  · rw [List.flatMap_map, List.flatMap_def]
    rfl

/-- whether an iteration completes when all parts are there -/
theorem iter_exc {bufSize : Nat} {names : List Str} (hns : names.Nodup) {cs : List (List (κ × List (List Int)))} (hv : ∀ c ∈ cs, Exact c)
    {dbs : List (Db κ)} (hd : List.Forall₂ (fun c db => Db.create bufSize names c = .ok db) cs dbs) {q : List (Db κ × Nat)} (hq : q.Perm dbs.zipIdx)
    {pad : Nat} {m : MDb κ} (hparts : m.parts = q.map fun p => partName pad p.2) {dir : Dir κ}
    (hpart : ∀ i p, q[i]? = some p → m.part dir i (partName pad p.2) = .ok p.1)
    {shufP : List (Nat × Str) → List (Nat × Str)} (hsh : ∀ l, (shufP l).Perm l) {ord : Nat → List κ → List κ} (hord : ∀ i l, (ord i l).Perm l) :
    ((m.shuffle = true → m.keep = true ∨ ∀ c ∈ cs, c.length ≤ 1) → (m.iter shufP ord dir).exc = none) ∧
    ((m.shuffle = true ∧ m.keep = false ∧ ∃ c ∈ cs, 2 ≤ c.length) → (m.iter shufP ord dir).exc = some .type) := by
  have hL : (if m.shuffle then shufP ((List.range m.parts.length).zip m.parts) else (List.range m.parts.length).zip m.parts).Perm
      (q.zipIdx.map fun x => (x.2, partName pad x.1.2)) := by
    rw [← idx_paths, ← hparts]
    split
    · exact hsh _
    · exact List.Perm.refl _
  obtain ⟨L, hLp, hLe⟩ := perm_map_inv hL
  have hx : ∀ x ∈ L, q[x.2]? = some x.1 := by
    intro x hx
    have h := List.mem_zipIdx' (hLp.mem_iff.1 hx)
    rw [h.2]
    exact List.getElem?_eq_getElem h.1
  have hids : ∀ x ∈ L, chunkOf cs x.1 ∈ cs ∧ x.1.1.ids.length = (chunkOf cs x.1).length ∧ (x.1.1.gen (ord x.2) false).exc = none := by
    intro x hxL
    have hz : x.1 ∈ dbs.zipIdx := hq.mem_iff.1 (List.mem_iff_getElem?.2 ⟨x.2, hx x hxL⟩)
    obtain ⟨z1, z2⟩ := zip_forall hd hz
    have hdi := dbCreate_ok hns z2
    have hl : x.1.1.ids.length = (chunkOf cs x.1).length := by
      have := ((List.perm_ext_iff_of_nodup hdi.idsNodup hdi.nodup).2 hdi.ids).length_eq
      simpa using this
    obtain ⟨rs, r1, r2⟩ := dbGen_ok hns (hv _ z1) z2 (hord x.2)
    exact ⟨z1, hl, by rw [r1]⟩
  constructor
  · intro hc
    simp only [MDb.iter, hLe]
    rw [genBind_ok]
    rintro a ha
    obtain ⟨x, hxL, rfl⟩ := List.mem_map.1 ha
    simp only [hpart _ _ (hx x hxL)]
    obtain ⟨i1, i2, i3⟩ := hids x hxL
    have hb : ((m.shuffle && !m.keep) && decide (2 ≤ x.1.1.ids.length)) = false := by
      cases hs : m.shuffle with
      | false => rfl
      | true =>
        rcases hc hs with hk | hl
        · simp [hk]
        · have := hl _ i1
          rw [i2]
          simp; intro _; omega
    have : x.1.1.gen (ord x.2) (m.shuffle && !m.keep) = x.1.1.gen (ord x.2) false := by
      simp only [Db.gen, hb, Bool.false_and]
    rw [this]
    exact i3
  · rintro ⟨hs, hk, c, hc, hc2⟩
    simp only [MDb.iter, hLe]
    have hex : ∃ x ∈ L, 2 ≤ (chunkOf cs x.1).length := by
      rw [← map_chunkOf (cs := cs) hd.length_eq.symm] at hc
      obtain ⟨p, hp, rfl⟩ := List.mem_map.1 hc
      obtain ⟨i, hi⟩ := List.mem_iff_getElem?.1 (hq.mem_iff.2 hp)
      obtain ⟨hil, hie⟩ := List.getElem?_eq_some_iff.1 hi
      refine ⟨(p, i), hLp.mem_iff.2 ?_, hc2⟩
      rw [List.mem_iff_getElem?]
      exact ⟨i, by simp [hi]⟩
    have hall : ∀ x ∈ L, chunkOf cs x.1 ∈ cs ∧ x.1.1.ids.length = (chunkOf cs x.1).length ∧ (x.1.1.gen (ord x.2) false).exc = none ∧
        m.part dir x.2 (partName pad x.1.2) = .ok x.1.1 := fun x hxL => ⟨(hids x hxL).1, (hids x hxL).2.1, (hids x hxL).2.2, hpart _ _ (hx x hxL)⟩
    clear hLp hLe hL hx hids
    induction L with
    | nil => obtain ⟨x, h, _⟩ := hex; simp at h
    | cons x L ih =>
      obtain ⟨i1, i2, i3, i4⟩ := hall x (by simp)
      simp only [List.map_cons, genBind, i4, hs, hk, Bool.not_false, Bool.and_true]
      by_cases h2 : 2 ≤ (chunkOf cs x.1).length
      · simp [Db.gen, i2, h2]
      · have hg : x.1.1.gen (ord x.2) true = x.1.1.gen (ord x.2) false := by
          simp only [Db.gen, i2, h2, decide_false, Bool.and_false]
        rw [hg, i3]
        simp only
        obtain ⟨y, hy, hy2⟩ := hex
        rcases List.mem_cons.1 hy with rfl | hy
        · exact absurd hy2 h2
        · have := ih ⟨y, hy, hy2⟩ fun x hx => hall x (by simp [hx])
          simpa only [hs, hk, Bool.not_false, Bool.and_true] using this

/-! ## Interrupted writes -/

/-- one creation of a database, interrupted after some effects -/
structure Attempt (κ : Type) where
  env : Env
  overwrite : Bool
  partSize : Int
  maxParts : Nat
  names : List Str
  recs : List (κ × List (List Int))
  crash : Nat

/-- the directory after an attempt -/
def Attempt.run (a : Attempt κ) (dir : Dir κ) : Dir κ :=
  runFx ((createFx a.env a.overwrite a.partSize a.maxParts a.names a.recs dir).fx.take a.crash) dir

/-- if there is a complete flag, it lists the parts of one of the attempts, and each part file is that part or missing -/
def Good (as : List (Attempt κ)) (dir : Dir κ) : Prop :=
  ∀ d, dir = some d → (Dict.keys d).Nodup ∧ ∀ ps ns, Dict.get? d flagName = some (.success ps ns) →
    ∃ a ∈ as, ∃ cs pad, ∃ dbs : List (Db κ), ∃ q : List (Db κ × Nat), slices a.partSize a.recs = .ok cs ∧
      List.Forall₂ (fun c db => Db.create a.env.bufSize a.names c = .ok db) cs dbs ∧ q.Perm dbs.zipIdx ∧
      ps = (q.map fun p => (partName pad p.2, p.1.len)) ∧ ns = a.names ∧
      ∀ p ∈ q, Dict.get? d (partName pad p.2) = some (.db p.1) ∨ Dict.get? d (partName pad p.2) = none

theorem Good.del {as : List (Attempt κ)} {dir : Dir κ} (h : Good as dir) (n : Str) : Good as ((Eff.del n).apply dir) := by
  intro d' hd'
  cases dir with
  | none => cases hd'
  | some d =>
    simp only [Eff.apply, Option.map_some, Option.some.injEq] at hd'
    subst hd'
    obtain ⟨h1, h2⟩ := h d rfl
    refine ⟨Dict.nodup_keys_erase h1 n, ?_⟩
    intro ps ns hf
    rw [Dict.get?_erase_cases h1] at hf
    split at hf
    · cases hf
    · obtain ⟨a, ha, cs, pad, dbs, q, g1, g2, g3, g4, g5, g6⟩ := h2 ps ns hf
      refine ⟨a, ha, cs, pad, dbs, q, g1, g2, g3, g4, g5, fun p hp => ?_⟩
      rw [Dict.get?_erase_cases h1]
      split
      · exact Or.inr rfl
      · exact g6 p hp

theorem Good.dels {as : List (Attempt κ)} (ns : List Str) : ∀ {dir : Dir κ}, Good as dir → Good as (runFx (ns.map .del) dir) := by
  induction ns with
  | nil => intro dir h; exact h
  | cons n ns ih =>
    intro dir h
    rw [List.map_cons, runFx_cons]
    exact ih (h.del n)

/-- no complete flag -/
def Quiet (dir : Dir κ) : Prop := ∀ d, dir = some d → (Dict.keys d).Nodup ∧ ∀ ps ns, Dict.get? d flagName ≠ some (.success ps ns)

theorem Quiet.good {as : List (Attempt κ)} {dir : Dir κ} (h : Quiet dir) : Good as dir :=
  fun d hd => ⟨(h d hd).1, fun ps ns hf => absurd hf ((h d hd).2 ps ns)⟩

theorem quiet_empty : Quiet (some [] : Dir κ) := by
  intro d hd
  cases hd
  exact ⟨by simp [Dict.keys], fun ps ns h => by simp at h⟩

theorem quiet_none : Quiet (none : Dir κ) := fun d hd => by cases hd

theorem Quiet.parts {fx : List (Eff κ)} (hfx : ∀ e ∈ fx, e.isPart) : ∀ {dir : Dir κ}, Quiet dir → Quiet (runFx fx dir) := by
  induction fx with
  | nil => intro dir h; exact h
  | cons e fx ih =>
    intro dir h
    rw [runFx_cons]
    refine ih (fun e he => hfx e (by simp [he])) ?_
    have he := hfx e (by simp)
    cases e with
    | put n c =>
      intro d' hd'
      cases dir with
      | none => cases hd'
      | some d =>
        simp only [Eff.apply, Option.map_some, Option.some.injEq] at hd'
        subst hd'
        obtain ⟨h1, h2⟩ := h d rfl
        refine ⟨Dict.nodup_keys_set h1 n c, fun ps ns hf => ?_⟩
        rw [Dict.get?_set_ne _ _ he] at hf
        exact h2 ps ns hf
    | mkdir => exact absurd he (by simp [Eff.isPart])
    | rmdir => exact absurd he (by simp [Eff.isPart])
    | del n => exact absurd he (by simp [Eff.isPart])

/-- a prefix of the effects of `Writer.__init__` -/
theorem init_prefix {as : List (Attempt κ)} {rmOrd : List Str → List Str} {overwrite : Bool} {maxParts : Nat} {dir : Dir κ} (h : Good as dir) (k : Nat) :
    Good as (runFx ((Writer.init rmOrd overwrite maxParts dir).fx.take k) dir) := by
  have hmk : ∀ d : Dir κ, Good as d → Good as (Eff.mkdir.apply d) := by
    intro d hd
    cases d with
    | none => exact quiet_empty.good
    | some d => exact hd
  match dir, h with
  | none, h =>
    simp only [Writer.init]
    rcases k with _ | k
    · exact h
    · simp only [List.take_succ_cons, List.take_nil, runFx_cons, runFx_nil]
      exact hmk _ h
  | some [], h =>
    simp only [Writer.init]
    rcases k with _ | k
    · exact h
    · simp only [List.take_succ_cons, List.take_nil, runFx_cons, runFx_nil]
      exact hmk _ h
  | some (e :: es), h =>
    simp only [Writer.init]
    cases overwrite with
    | false => simpa [runFx_nil] using h
    | true =>
      simp only [if_true]
      rw [List.take_append, runFx_append, ← List.map_take]
      have h1 := h.dels ((rmOrd (Dict.keys (e :: es))).take k)
      generalize runFx _ (some (e :: es)) = d1 at h1 ⊢
      generalize k - ((rmOrd (Dict.keys (e :: es))).map (Eff.del (κ := κ))).length = j
      match j with
      | 0 => exact h1
      | 1 => exact quiet_none.good
      | j + 2 =>
        simp only [List.take_succ_cons, List.take_nil, runFx_cons, runFx_nil]
        exact quiet_empty.good

/-- what a directory looks like after an interrupted creation -/
theorem attempt_cases (a : Attempt κ) (hg : ∀ l, (a.env.globOrd l).Perm l) (dir : Dir κ) :
    (∃ k, a.run dir = runFx ((Writer.init a.env.rmOrd a.overwrite a.maxParts dir).fx.take k) dir) ∨ Quiet (a.run dir) ∨
      ∃ cs pad, ∃ dbs : List (Db κ), ∃ q : List (Db κ × Nat), slices a.partSize a.recs = .ok cs ∧
        List.Forall₂ (fun c db => Db.create a.env.bufSize a.names c = .ok db) cs dbs ∧ q.Perm dbs.zipIdx ∧
        (createFx a.env a.overwrite a.partSize a.maxParts a.names a.recs dir).fx.length ≤ a.crash ∧
        a.run dir = some (partEntries pad 0 dbs ++ [(flagName, .success (q.map fun p => (partName pad p.2, p.1.len)) a.names)]) := by
  obtain ⟨B, C, hfx, hB, hC⟩ := createFx_shape a.env hg a.overwrite a.partSize a.maxParts a.names a.recs dir
  by_cases hs : Startable a.overwrite dir
  · obtain ⟨_, hrun⟩ := init_run (rmOrd := a.env.rmOrd) (maxParts := a.maxParts) hs
    by_cases hk : a.crash ≤ (Writer.init a.env.rmOrd a.overwrite a.maxParts dir).fx.length
    · refine Or.inl ⟨a.crash, ?_⟩
      rw [Attempt.run, hfx, List.take_append_of_le_length hk]
    · right
      have h1 : a.run dir = runFx ((B ++ C).take (a.crash - (Writer.init a.env.rmOrd a.overwrite a.maxParts dir).fx.length)) (some []) := by
        rw [Attempt.run, hfx, List.take_append, List.take_of_length_le (by omega), runFx_append, hrun]
      have hlen : (createFx a.env a.overwrite a.partSize a.maxParts a.names a.recs dir).fx.length =
          (Writer.init a.env.rmOrd a.overwrite a.maxParts dir).fx.length + (B.length + C.length) := by rw [hfx]; simp
      generalize hj : a.crash - (Writer.init a.env.rmOrd a.overwrite a.maxParts dir).fx.length = j at h1
      by_cases hjB : j ≤ B.length
      · left
        rw [h1, List.take_append_of_le_length hjB]
        exact Quiet.parts (fun e he => hB e (List.mem_of_mem_take he)) quiet_empty
      · rcases hC with rfl | ⟨cs, pad, dbs, q, c1, c2, c3, _, c5, c6⟩
        · left
          rw [h1, List.append_nil]
          exact Quiet.parts (fun e he => hB e (List.mem_of_mem_take he)) quiet_empty
        · rw [List.take_append, List.take_of_length_le (by omega), runFx_append] at h1
          rw [runFx_append, hrun] at c6
          rw [c6, c5] at h1
          have hf : flagName ∉ Dict.keys (partEntries pad 0 dbs) := by
            intro h
            obtain ⟨i, _, _, h | h⟩ := mem_keys_partEntries h
            · exact partName_ne_flag _ _ h.symm
            · exact metaName_ne_flag _ _ h.symm
          have hn : (Dict.keys (partEntries pad 0 dbs)).Nodup := partEntries_nodup _ _ _
          have hlC : C.length = 2 := by rw [c5]; rfl
          obtain ⟨i, hi⟩ : ∃ i, j - B.length = i + 1 := ⟨j - B.length - 1, by omega⟩
          rw [hi] at h1
          rcases i with _ | i
          · left
            simp only [List.take_succ_cons, List.take_zero, runFx_cons, runFx_nil, Eff.apply, Option.map_some] at h1
            rw [h1]
            intro d hd
            cases hd
            refine ⟨Dict.nodup_keys_set hn _ _, fun ps ns h => ?_⟩
            rw [Dict.get?_set_self] at h
            cases h
          · right
            refine ⟨cs, pad, dbs, q, c1, c2, c3, by omega, ?_⟩
            simp only [List.take_succ_cons, List.take_nil, runFx_cons, runFx_nil, Eff.apply, Option.map_some] at h1
            rw [h1, Dict.set_new hf, Dict.set_last hf]
  · refine Or.inl ⟨0, ?_⟩
    have : (createFx a.env a.overwrite a.partSize a.maxParts a.names a.recs dir).fx = [] := by
      simp only [createFx, Fx.andThen, init_refused hs]
    simp [Attempt.run, this]

/-- attempts keep the invariant -/
theorem Good.attempt {as : List (Attempt κ)} {dir : Dir κ} (h : Good as dir) (a : Attempt κ) (hg : ∀ l, (a.env.globOrd l).Perm l) :
    Good (a :: as) (a.run dir) := by
  have h' : Good (a :: as) dir := fun d hd => ⟨(h d hd).1, fun ps ns hf => by
    obtain ⟨b, hb, rest⟩ := (h d hd).2 ps ns hf
    exact ⟨b, by simp [hb], rest⟩⟩
  rcases attempt_cases a hg dir with ⟨k, hk⟩ | hq | ⟨cs, pad, dbs, q, c1, c2, c3, _, c5⟩
  · rw [hk]
    exact init_prefix h' k
  · exact hq.good
  · rw [c5]
    intro d hd
    cases hd
    have hf : flagName ∉ Dict.keys (partEntries pad 0 dbs) := by
      intro h
      obtain ⟨i, _, _, h | h⟩ := mem_keys_partEntries h
      · exact partName_ne_flag _ _ h.symm
      · exact metaName_ne_flag _ _ h.symm
    obtain ⟨g1, g2⟩ := get?_append_flag (pad := pad) (dbs := dbs) (.success (q.map fun p => (partName pad p.2, p.1.len)) a.names)
    refine ⟨?_, ?_⟩
    · rw [← Dict.set_new hf]
      exact Dict.nodup_keys_set (partEntries_nodup _ _ _) _ _
    · intro ps ns he
      rw [g1] at he
      simp only [Option.some.injEq, FileC.success.injEq] at he
      exact ⟨a, by simp, cs, pad, dbs, q, c1, c2, c3, he.1.symm, he.2.symm, fun p hp => Or.inl (g2 p (c3.mem_iff.1 hp))⟩

end Verif
