import Verif.Model.Multipart
import Verif.Lemmas.Batch
import Verif.Lemmas.File
import Verif.Props.Db
/-! # Lemmas on multi-part databases -/

namespace Verif
open Spec

/-! ## Slices -/

section
variable {α : Type}

theorem slicesLoop_ok {size : Nat} (hs : 1 ≤ size) : ∀ (fuel : Nat) (l : List α), l.length < fuel →
    ∃ cs, slicesLoop size fuel l = .ok cs ∧ cs.flatten = l ∧ (∀ c ∈ cs, c ≠ [] ∧ c.length ≤ size) ∧ ∀ c ∈ cs.dropLast, c.length = size := by
  intro fuel
  induction fuel with
  | zero => intro l h; omega
  | succ fuel ih =>
    intro l hl
    cases l with
    | nil => exact ⟨[], by simp [slicesLoop], rfl, by simp, by simp⟩
    | cons a l =>
      obtain ⟨s, rfl⟩ : ∃ s, size = s + 1 := ⟨size - 1, by omega⟩
      obtain ⟨cs, h1, h2, h3, h4⟩ := ih (l.drop s) (by simp at hl ⊢; omega)
      refine ⟨(a :: l.take s) :: cs, ?_, ?_, ?_, ?_⟩
      · simp only [slicesLoop, List.take_succ_cons, List.drop_succ_cons, h1]
      · rw [List.flatten_cons, h2, List.cons_append, List.take_append_drop]
      · intro c hc
        rcases List.mem_cons.1 hc with rfl | hc
        · simp
        · exact h3 c hc
      · intro c hc
        cases cs with
        | nil => simp at hc
        | cons b bs =>
          rw [List.dropLast_cons_of_ne_nil (by simp)] at hc
          rcases List.mem_cons.1 hc with rfl | hc
          · have : l.drop s ≠ [] := by
              intro e
              rw [e] at h2
              have := (h3 b (by simp)).1
              simp at h2
              exact this h2.1
            have hlen : s < l.length := by
              by_contra hh
              exact this (List.drop_eq_nil_of_le (by omega))
            simp; omega
          · exact h4 c hc

theorem slicesLoop_zero (l : List α) (fuel : Nat) (h : 0 < fuel) : slicesLoop 0 fuel l = .ok [] := by
  obtain ⟨f, rfl⟩ : ∃ f, fuel = f + 1 := ⟨fuel - 1, by omega⟩
  simp [slicesLoop]

end

/-! ## Names -/

theorem digitsVal_zeros (k : Nat) (s : Str) : digitsVal (List.replicate k 48 ++ s) 0 = digitsVal s 0 := by
  induction k with
  | zero => simp
  | succ k ih => rw [List.replicate_succ, List.cons_append]; simp [digitsVal, ih]

theorem padded_val (pad n : Nat) : digitsVal (padded pad n) 0 = some n := by
  rw [padded, digitsVal_zeros, digitsVal_natStr]

theorem padded_digits (pad n : Nat) : ∀ c ∈ padded pad n, 48 ≤ c ∧ c ≤ 57 := by
  intro c hc
  rcases List.mem_append.1 hc with hc | hc
  · have := (List.mem_replicate.1 hc).2; omega
  · exact natStr_digits n c hc

theorem padded_ne_nil (pad n : Nat) : padded pad n ≠ [] := by
  intro h
  exact natStr_ne_nil n (List.append_eq_nil_iff.1 h).2

theorem partName_injective {pad pad' n n' : Nat} (h : partName pad n = partName pad' n') : n = n' := by
  have h1 : padded pad n = padded pad' n' := List.append_cancel_left h
  have := congrArg (fun s => digitsVal s 0) h1
  simp only [padded_val] at this
  exact Option.some.inj this

theorem partName_chars (pad n : Nat) : 46 ∉ partName pad n := by
  intro h
  rcases List.mem_append.1 h with h | h
  · revert h; decide
  · have := padded_digits pad n _ h; omega

theorem withSuffix_partName (pad n : Nat) : withSuffix (partName pad n) = partName pad n ++ lit ".meta" := by
  rw [withSuffix, if_neg (partName_chars pad n)]

theorem partName_last (pad n : Nat) (c : Nat) (h : (partName pad n).getLast? = some c) : 48 ≤ c ∧ c ≤ 57 := by
  rw [partName, List.getLast?_append_of_ne_nil _ (padded_ne_nil pad n)] at h
  exact padded_digits pad n c (List.mem_of_getLast? h)

theorem rstripMeta_meta (pad n : Nat) : rstripMeta (withSuffix (partName pad n)) = partName pad n := by
  rw [withSuffix_partName, rstripMeta, rstripP_append_all (by decide), rstripP_eq_self]
  intro c hc
  have := partName_last pad n c hc
  have : c ∉ lit ".meta" := by
    intro hm
    have : ∀ c ∈ lit ".meta", ¬ (48 ≤ c ∧ c ≤ 57) := by decide
    exact this c hm (by omega)
  simpa using this

theorem isMetaName_meta (pad n : Nat) : isMetaName (withSuffix (partName pad n)) = true := by
  have hp : startsWith (lit "part-") (withSuffix (partName pad n)) = true := by
    rw [withSuffix_partName, partName, List.append_assoc]
    simp [startsWith]
  have hs : startsWith (lit ".meta").reverse (withSuffix (partName pad n)).reverse = true := by
    rw [withSuffix_partName, List.reverse_append]
    simp [startsWith]
  have hl : 10 ≤ (withSuffix (partName pad n)).length := by
    rw [withSuffix_partName, partName]
    have := List.length_pos_iff.2 (padded_ne_nil pad n)
    simp only [List.length_append]
    have e1 : (lit "part-").length = 5 := rfl
    have e2 : (lit ".meta").length = 5 := rfl
    omega
  simp [isMetaName, hp, hs, hl]

theorem isMetaName_part (pad n : Nat) : isMetaName (partName pad n) = false := by
  have hs : startsWith (lit ".meta").reverse (partName pad n).reverse = false := by
    rw [Bool.eq_false_iff]
    intro h
    rw [startsWith, List.isPrefixOf_iff_prefix] at h
    obtain ⟨t, ht⟩ := h
    have : (partName pad n).getLast? = some 97 := by
      rw [← List.head?_reverse, ← ht]; rfl
    have := partName_last pad n _ this
    omega
  simp [isMetaName, hs]

theorem partName_ne_flag (pad n : Nat) : partName pad n ≠ flagName := by
  intro h
  have := congrArg List.head? h
  rw [partName, show lit "part-" = 112 :: lit "art-" by decide, List.cons_append, List.head?_cons,
    show flagName.head? = some 95 by decide] at this
  cases this

theorem metaName_ne_flag (pad n : Nat) : withSuffix (partName pad n) ≠ flagName := by
  intro h
  have := isMetaName_meta pad n
  rw [h] at this
  revert this; decide

theorem partName_ne_meta (pad n pad' n' : Nat) : partName pad n ≠ withSuffix (partName pad' n') := by
  intro h
  have := isMetaName_meta pad' n'
  rw [← h, isMetaName_part] at this
  cases this

theorem metaName_injective {pad pad' n n' : Nat} (h : withSuffix (partName pad n) = withSuffix (partName pad' n')) : n = n' := by
  have := congrArg rstripMeta h
  rw [rstripMeta_meta, rstripMeta_meta] at this
  exact partName_injective this

/-! ## Dictionaries -/

section
variable {ι υ : Type} [DecidableEq ι]

theorem Dict.set_new {d : Dict ι υ} {k : ι} (h : k ∉ Dict.keys d) (v : υ) : Dict.set d k v = d ++ [(k, v)] := by
  induction d with
  | nil => rfl
  | cons p d ih =>
    obtain ⟨a, b⟩ := p
    simp only [Dict.keys, List.map_cons, List.mem_cons, not_or] at h
    have hne : ¬ a = k := fun e => h.1 e.symm
    simp only [Dict.set, hne, if_false, List.cons_append]
    rw [ih (by simpa [Dict.keys] using h.2)]

theorem Dict.set_last {d : Dict ι υ} {k : ι} (h : k ∉ Dict.keys d) (v w : υ) : Dict.set (d ++ [(k, v)]) k w = d ++ [(k, w)] := by
  induction d with
  | nil => simp [Dict.set]
  | cons p d ih =>
    obtain ⟨a, b⟩ := p
    simp only [Dict.keys, List.map_cons, List.mem_cons, not_or] at h
    have hne : ¬ a = k := fun e => h.1 e.symm
    simp only [Dict.set, hne, if_false, List.cons_append]
    rw [ih (by simpa [Dict.keys] using h.2)]

theorem Dict.get?_erase_cases {d : Dict ι υ} (hn : (Dict.keys d).Nodup) (k a : ι) :
    Dict.get? (Dict.erase d k) a = if k = a then none else Dict.get? d a := by
  induction d with
  | nil => simp [Dict.erase]
  | cons p d ih =>
    obtain ⟨b, c⟩ := p
    simp only [Dict.keys, List.map_cons, List.nodup_cons] at hn
    have ih := ih hn.2
    simp only [Dict.erase]
    by_cases hb : b = k
    · subst hb
      simp only [if_true]
      by_cases ha : b = a
      · subst ha
        rw [if_pos rfl, Dict.get?_eq_none_iff]
        exact hn.1
      · rw [if_neg ha, Dict.get?_cons, if_neg ha]
    · simp only [hb, if_false, Dict.get?_cons]
      by_cases ha : b = a
      · subst ha
        rw [if_pos rfl, if_neg (fun e => hb e.symm), if_pos rfl]
      · rw [if_neg ha, ih]
        by_cases hk : k = a
        · rw [if_pos hk, if_pos hk]
        · rw [if_neg hk, if_neg hk, if_neg ha]

end

/-! ## Effects -/

variable {κ : Type}

theorem runFx_append (a b : List (Eff κ)) (d : Dir κ) : runFx (a ++ b) d = runFx b (runFx a d) := List.foldl_append

theorem runFx_cons (a : Eff κ) (b : List (Eff κ)) (d : Dir κ) : runFx (a :: b) d = runFx b (a.apply d) := rfl

theorem runFx_nil (d : Dir κ) : runFx [] d = d := rfl

/-- the files of the parts `dbs`, numbered from `n` -/
def partEntries (pad n : Nat) (dbs : List (Db κ)) : Dict Str (FileC κ) :=
  (dbs.zipIdx n).flatMap fun p => [(partName pad p.2, .db p.1), (withSuffix (partName pad p.2), .mta p.1.len)]

theorem partEntries_cons (pad n : Nat) (db : Db κ) (dbs : List (Db κ)) : partEntries pad n (db :: dbs) =
    (partName pad n, .db db) :: (withSuffix (partName pad n), .mta db.len) :: partEntries pad (n + 1) dbs := by
  simp [partEntries, List.zipIdx_cons]

theorem mem_keys_partEntries {pad n : Nat} {dbs : List (Db κ)} {k : Str} (h : k ∈ Dict.keys (partEntries pad n dbs)) :
    ∃ i, n ≤ i ∧ i < n + dbs.length ∧ (k = partName pad i ∨ k = withSuffix (partName pad i)) := by
  simp only [Dict.keys, partEntries, List.map_flatMap, List.mem_flatMap] at h
  obtain ⟨⟨db, i⟩, hp, hk⟩ := h
  have := List.mem_zipIdx hp
  refine ⟨i, by omega, by omega, ?_⟩
  simpa using hk

theorem partEntries_nodup (pad n : Nat) (dbs : List (Db κ)) : (Dict.keys (partEntries pad n dbs)).Nodup := by
  induction dbs generalizing n with
  | nil => simp [partEntries, Dict.keys]
  | cons db dbs ih =>
    rw [partEntries_cons]
    have hk : Dict.keys ((partName pad n, FileC.db db) :: (withSuffix (partName pad n), .mta db.len) :: partEntries pad (n + 1) dbs) =
      partName pad n :: withSuffix (partName pad n) :: Dict.keys (partEntries pad (n + 1) dbs) := rfl
    rw [hk, List.nodup_cons, List.nodup_cons]
    refine ⟨?_, ?_, ih (n + 1)⟩
    · rw [List.mem_cons, not_or]
      refine ⟨partName_ne_meta _ _ _ _, fun h => ?_⟩
      obtain ⟨i, h1, _, h3 | h3⟩ := mem_keys_partEntries h
      · have := partName_injective h3; omega
      · exact partName_ne_meta _ _ _ _ h3
    · intro h
      obtain ⟨i, h1, _, h3 | h3⟩ := mem_keys_partEntries h
      · exact partName_ne_meta _ _ _ _ h3.symm
      · have := metaName_injective h3; omega

theorem get?_partEntries {pad n : Nat} {dbs : List (Db κ)} {i : Nat} {db : Db κ} (h : (db, i) ∈ dbs.zipIdx n) :
    Dict.get? (partEntries pad n dbs) (partName pad i) = some (.db db) ∧
    Dict.get? (partEntries pad n dbs) (withSuffix (partName pad i)) = some (.mta db.len) :=
  ⟨Dict.get?_of_mem (partEntries_nodup _ _ _) (List.mem_flatMap.2 ⟨_, h, by simp⟩),
   Dict.get?_of_mem (partEntries_nodup _ _ _) (List.mem_flatMap.2 ⟨_, h, by simp⟩)⟩

variable [DecidableEq κ]

/-- effects of writing one part on a directory that does not have it yet -/
theorem call_run {bufSize pad : Nat} {names : List Str} {n : Nat} {c : List (κ × List (List Int))} {db : Db κ}
    (h : Db.create bufSize names c = .ok db) {d : Dict Str (FileC κ)} (h1 : partName pad n ∉ Dict.keys d)
    (h2 : withSuffix (partName pad n) ∉ Dict.keys d) :
    runFx (Writer.call bufSize pad names n c).fx (some d) =
      some (d ++ [(partName pad n, .db db), (withSuffix (partName pad n), .mta db.len)]) := by
  simp only [Writer.call, h, runFx_cons, Eff.apply, Option.map_some, runFx_nil]
  rw [Dict.set_new h1, Dict.set_last h1]
  have h3 : withSuffix (partName pad n) ∉ Dict.keys (d ++ [(partName pad n, FileC.db db)]) := by
    rw [Dict.keys, List.map_append, List.mem_append, not_or]
    refine ⟨h2, ?_⟩
    simp only [List.map_cons, List.map_nil, List.mem_singleton]
    exact fun e => partName_ne_meta _ _ _ _ e.symm
  rw [Dict.set_new h3, Dict.set_last h3, List.append_assoc]
  rfl

/-- writing all parts -/
theorem createParts_run {bufSize pad : Nat} {names : List Str} {cs : List (List (κ × List (List Int)))} {dbs : List (Db κ)}
    (h : List.Forall₂ (fun c db => Db.create bufSize names c = .ok db) cs dbs) : ∀ (n : Nat) (d : Dict Str (FileC κ)),
    (∀ i, n ≤ i → partName pad i ∉ Dict.keys d ∧ withSuffix (partName pad i) ∉ Dict.keys d) →
    (createParts bufSize pad names n cs).res = .ok () ∧
    runFx (createParts bufSize pad names n cs).fx (some d) = some (d ++ partEntries pad n dbs) := by
  induction h with
  | nil => intro n d _; simp [createParts, runFx_nil, partEntries]
  | @cons c db cs dbs hc _ ih =>
    intro n d hd
    have hres : (Writer.call bufSize pad names n c).res = .ok (partName pad n, db.len) := by simp only [Writer.call, hc]
    have hrun := call_run (pad := pad) (n := n) hc (hd n (Nat.le_refl n)).1 (hd n (Nat.le_refl n)).2
    obtain ⟨e1, e2⟩ := ih (n + 1) (d ++ [(partName pad n, .db db), (withSuffix (partName pad n), .mta db.len)]) (by
      intro i hi
      obtain ⟨g1, g2⟩ := hd i (by omega)
      have hk : Dict.keys (d ++ [(partName pad n, FileC.db db), (withSuffix (partName pad n), .mta db.len)]) =
          Dict.keys d ++ [partName pad n, withSuffix (partName pad n)] := by simp [Dict.keys]
      rw [hk]
      simp only [List.mem_append, List.mem_cons, List.not_mem_nil, or_false, not_or]
      exact ⟨⟨g1, fun e => by have := partName_injective e; omega, partName_ne_meta _ _ _ _⟩,
        g2, fun e => partName_ne_meta _ _ _ _ e.symm, fun e => by have := metaName_injective e; omega⟩)
    simp only [createParts, hres]
    refine ⟨e1, ?_⟩
    rw [runFx_append, hrun, e2, partEntries_cons, List.append_assoc]
    rfl

/-- if writing all parts succeeds, all databases were created -/
theorem createParts_ok {bufSize pad : Nat} {names : List Str} {cs : List (List (κ × List (List Int)))} : ∀ {n : Nat},
    (createParts bufSize pad names n cs).res = .ok () →
    ∃ dbs : List (Db κ), List.Forall₂ (fun c db => Db.create bufSize names c = .ok db) cs dbs := by
  induction cs with
  | nil => intro n _; exact ⟨[], .nil⟩
  | cons c cs ih =>
    intro n h
    simp only [createParts] at h
    cases hc : Db.create bufSize names c with
    | error e => simp only [Writer.call, hc] at h; cases h
    | ok db =>
      simp only [Writer.call, hc] at h
      obtain ⟨dbs, hd⟩ := ih h
      exact ⟨db :: dbs, .cons hc hd⟩

/-- an effect of writing parts: it puts a file other than the flag -/
def Eff.isPart : Eff κ → Prop
  | .put n _ => n ≠ flagName
  | _ => False

theorem createParts_isPart {bufSize pad : Nat} {names : List Str} {cs : List (List (κ × List (List Int)))} : ∀ (n : Nat),
    ∀ e ∈ (createParts bufSize pad names n cs).fx, e.isPart := by
  have hcall : ∀ n c, ∀ e ∈ (Writer.call bufSize pad names n c : Fx κ (Str × Nat)).fx, e.isPart := by
    intro n c e he
    simp only [Writer.call] at he
    split at he
    · simp at he
    · simp only [List.mem_cons, List.not_mem_nil, or_false] at he
      rcases he with rfl | rfl | rfl | rfl
      · exact partName_ne_flag _ _
      · exact partName_ne_flag _ _
      · exact metaName_ne_flag _ _
      · exact metaName_ne_flag _ _
  induction cs with
  | nil => intro n e he; simp [createParts] at he
  | cons c cs ih =>
    intro n e he
    simp only [createParts] at he
    split at he
    · exact hcall n c e he
    · rcases List.mem_append.1 he with he | he
      · exact hcall n c e he
      · exact ih (n + 1) e he

/-- reading the `.meta` files of some parts in any order -/
theorem readMetas_ok {pad : Nat} {d : Dict Str (FileC κ)} : ∀ (q : List (Db κ × Nat)) (parts : Dict Str Nat),
    (∀ p ∈ q, Dict.get? d (withSuffix (partName pad p.2)) = some (.mta p.1.len)) →
    (Dict.keys parts ++ q.map fun p => partName pad p.2).Nodup →
    readMetas d parts (q.map fun p => withSuffix (partName pad p.2)) = .ok (parts ++ q.map fun p => (partName pad p.2, p.1.len)) := by
  intro q
  induction q with
  | nil => intro parts _ _; simp [readMetas]
  | cons p q ih =>
    intro parts h hn
    simp only [List.map_cons, readMetas, h p (by simp), rstripMeta_meta]
    have hnew : partName pad p.2 ∉ Dict.keys parts := by
      intro hm
      exact (List.nodup_append.1 hn).2.2 _ hm (partName pad p.2) (by simp) rfl
    rw [Dict.set_new hnew, ih _ (fun p hp => h p (by simp [hp]))]
    · simp
    · have : Dict.keys (parts ++ [(partName pad p.2, p.1.len)]) = Dict.keys parts ++ [partName pad p.2] := by simp [Dict.keys]
      rw [this, List.append_assoc]
      simpa using hn

theorem zipIdx_nodup_snd {α : Type} (l : List α) (n : Nat) : ((l.zipIdx n).map (·.2)).Nodup := by
  induction l generalizing n with
  | nil => simp
  | cons a l ih =>
    rw [List.zipIdx_cons, List.map_cons, List.nodup_cons]
    refine ⟨?_, ih (n + 1)⟩
    intro h
    obtain ⟨⟨b, i⟩, hp, e⟩ := List.mem_map.1 h
    have := List.mem_zipIdx hp
    simp only at e
    omega

/-- closing a directory that holds exactly the parts `dbs`: the flag lists every part, in some order -/
theorem close_ok {pad : Nat} {dbs : List (Db κ)} {names : List Str} {globOrd : List Str → List Str} (hg : ∀ l, (globOrd l).Perm l) :
    ∃ q : List (Db κ × Nat), q.Perm dbs.zipIdx ∧
      Writer.close globOrd names (some (partEntries pad 0 dbs)) =
        ⟨[.put flagName .broken, .put flagName (.success (q.map fun p => (partName pad p.2, p.1.len)) names)], .ok ()⟩ := by
  have hkeys : (Dict.keys (partEntries pad 0 dbs)).filter isMetaName = dbs.zipIdx.map fun p => withSuffix (partName pad p.2) := by
    rw [Dict.keys, partEntries, List.map_flatMap, List.filter_flatMap]
    have : ∀ p : Db κ × Nat, ([(partName pad p.2, FileC.db p.1), (withSuffix (partName pad p.2), .mta p.1.len)].map (·.1)).filter isMetaName =
        [withSuffix (partName pad p.2)] := by
      intro p
      simp only [List.map_cons, List.map_nil, List.filter_cons, isMetaName_part, isMetaName_meta, Bool.false_eq_true, if_false, if_true,
        List.filter_nil]
    simp only [this]
    exact List.map_eq_flatMap.symm
  have hperm : ((globOrd (Dict.keys (partEntries pad 0 dbs))).filter isMetaName).Perm (dbs.zipIdx.map fun p => withSuffix (partName pad p.2)) := by
    rw [← hkeys]; exact (hg _).filter _
  obtain ⟨q, hq, e⟩ := perm_map_inv hperm
  refine ⟨q, hq, ?_⟩
  have hr := readMetas_ok (pad := pad) (d := partEntries pad 0 dbs) q [] (fun p hp => (get?_partEntries (hq.mem_iff.1 hp)).2) (by
    have h1 : (q.map (·.2)).Nodup := (hq.map _).nodup_iff.2 (zipIdx_nodup_snd dbs 0)
    have h2 : ((q.map (·.2)).map (partName pad)).Nodup := h1.map_on (fun a _ b _ h => partName_injective h)
    rw [List.map_map] at h2
    simp only [Dict.keys, List.map_nil, List.nil_append]
    exact h2)
  simp only [Writer.close, e, hr, List.nil_append]

/-! ## Creating -/

theorem run_dels (ns : List Str) (d : Dir κ) (h : d ≠ none) : runFx (ns.map .del) d ≠ none := by
  induction ns generalizing d with
  | nil => exact h
  | cons n ns ih =>
    rw [List.map_cons, runFx_cons]
    apply ih
    cases d with
    | none => exact absurd rfl h
    | some d => simp [Eff.apply]

/-- the condition under which a writer starts -/
def Startable (overwrite : Bool) (dir : Dir κ) : Prop := overwrite = true ∨ dir = none ∨ dir = some []

theorem init_refused {rmOrd : List Str → List Str} {overwrite : Bool} {maxParts : Nat} {dir : Dir κ} (h : ¬ Startable overwrite dir) :
    Writer.init rmOrd overwrite maxParts dir = ⟨[], .error .exception⟩ := by
  simp only [Startable, not_or] at h
  match dir, h with
  | none, h => exact absurd rfl h.2.1
  | some [], h => exact absurd rfl h.2.2
  | some (e :: es), h => simp only [Writer.init, h.1, if_false]; rfl

theorem init_run {rmOrd : List Str → List Str} {overwrite : Bool} {maxParts : Nat} {dir : Dir κ} (h : Startable overwrite dir) :
    (Writer.init rmOrd overwrite maxParts dir).res = partPathPads maxParts ∧ runFx (Writer.init rmOrd overwrite maxParts dir).fx dir = some [] := by
  match dir, h with
  | none, _ => exact ⟨rfl, rfl⟩
  | some [], _ => exact ⟨rfl, rfl⟩
  | some (e :: es), h =>
    have ho : overwrite = true := by
      rcases h with h | h | h
      · exact h
      · cases h
      · cases h
    subst ho
    simp only [Writer.init, if_true, runFx_append, runFx_cons, runFx_nil, true_and]
    cases runFx ((rmOrd (Dict.keys (e :: es))).map Eff.del) (some (e :: es)) <;> rfl

/-- the effects of creating a database -/
theorem createFx_shape (env : Env) (hg : ∀ l, (env.globOrd l).Perm l) (overwrite : Bool) (partSize : Int) (maxParts : Nat) (names : List Str)
    (recs : List (κ × List (List Int))) (dir : Dir κ) :
    ∃ B C, (createFx env overwrite partSize maxParts names recs dir).fx = (Writer.init env.rmOrd overwrite maxParts dir).fx ++ (B ++ C) ∧
      (∀ e ∈ B, e.isPart) ∧ (C = [] ∨ ∃ cs pad, ∃ dbs : List (Db κ), ∃ q : List (Db κ × Nat), slices partSize recs = .ok cs ∧
        List.Forall₂ (fun c db => Db.create env.bufSize names c = .ok db) cs dbs ∧ q.Perm dbs.zipIdx ∧ Startable overwrite dir ∧
        C = [.put flagName .broken, .put flagName (.success (q.map fun p => (partName pad p.2, p.1.len)) names)] ∧
        runFx ((Writer.init env.rmOrd overwrite maxParts dir).fx ++ B) dir = some (partEntries pad 0 dbs)) := by
  by_cases hs : Startable overwrite dir
  · obtain ⟨hres, hrun⟩ := init_run (rmOrd := env.rmOrd) (maxParts := maxParts) hs
    cases hp : partPathPads maxParts with
    | error e =>
      refine ⟨[], [], ?_, by simp, Or.inl rfl⟩
      simp only [createFx, Fx.andThen, hres, hp, List.append_nil]
    | ok pad =>
      cases hsl : slices partSize recs with
      | error e =>
        refine ⟨[], [], ?_, by simp, Or.inl rfl⟩
        simp only [createFx, Fx.andThen, hres, hp, hsl, List.append_nil]
      | ok cs =>
        refine ⟨(createParts env.bufSize pad names 0 cs).fx, ?_⟩
        cases hc : (createParts env.bufSize pad names 0 cs).res with
        | error e =>
          refine ⟨[], ?_, createParts_isPart 0, Or.inl rfl⟩
          simp only [createFx, Fx.andThen, hres, hp, hsl, hc, List.append_nil]
        | ok u =>
          obtain ⟨dbs, hd⟩ := createParts_ok hc
          obtain ⟨_, hrun2⟩ := createParts_run (pad := pad) hd 0 [] (fun i _ => by simp [Dict.keys])
          rw [List.nil_append] at hrun2
          obtain ⟨q, hq, hcl⟩ := close_ok (pad := pad) (dbs := dbs) (names := names) hg
          refine ⟨_, ?_, createParts_isPart 0, Or.inr ⟨cs, pad, dbs, q, rfl, hd, hq, hs, rfl, ?_⟩⟩
          · simp only [createFx, Fx.andThen, hres, hp, hsl, hc, hrun, hrun2, hcl]
          · rw [runFx_append, hrun, hrun2]
  · refine ⟨[], [], ?_, by simp, Or.inl rfl⟩
    simp only [createFx, Fx.andThen, init_refused hs, List.append_nil]

/-- creating succeeds -/
theorem createFx_ok {env : Env} (hg : ∀ l, (env.globOrd l).Perm l) {overwrite : Bool} {partSize : Int} {maxParts : Nat} (hm : 1 ≤ maxParts)
    {names : List Str} {recs : List (κ × List (List Int))} {dir : Dir κ} (hs : Startable overwrite dir)
    {cs : List (List (κ × List (List Int)))} (hcs : slices partSize recs = .ok cs) {dbs : List (Db κ)}
    (hd : List.Forall₂ (fun c db => Db.create env.bufSize names c = .ok db) cs dbs) :
    ∃ q : List (Db κ × Nat), q.Perm dbs.zipIdx ∧
      (createFx env overwrite partSize maxParts names recs dir).res = .ok () ∧
      runFx (createFx env overwrite partSize maxParts names recs dir).fx dir =
        some (partEntries (Nat.clog 10 maxParts) 0 dbs ++ [(flagName, .success (q.map fun p => (partName (Nat.clog 10 maxParts) p.2, p.1.len)) names)]) := by
  obtain ⟨hres, hrun⟩ := init_run (rmOrd := env.rmOrd) (maxParts := maxParts) hs
  have hp : partPathPads maxParts = .ok (Nat.clog 10 maxParts) := by rw [partPathPads, if_neg (by omega)]
  obtain ⟨hc, hrun2⟩ := createParts_run (pad := Nat.clog 10 maxParts) hd 0 [] (fun i _ => by simp [Dict.keys])
  rw [List.nil_append] at hrun2
  obtain ⟨q, hq, hcl⟩ := close_ok (pad := Nat.clog 10 maxParts) (dbs := dbs) (names := names) hg
  refine ⟨q, hq, ?_, ?_⟩
  · simp only [createFx, Fx.andThen, hres, hp, hcs, hc, hrun, hrun2, hcl]
  · simp only [createFx, Fx.andThen, hres, hp, hcs, hc, hrun, hrun2, hcl]
    rw [runFx_append, runFx_append, hrun, hrun2]
    have hf : flagName ∉ Dict.keys (partEntries (Nat.clog 10 maxParts) 0 dbs) := by
      intro h
      obtain ⟨i, _, _, h | h⟩ := mem_keys_partEntries h
      · exact partName_ne_flag _ _ h.symm
      · exact metaName_ne_flag _ _ h.symm
    simp only [runFx_cons, runFx_nil, Eff.apply, Option.map_some]
    rw [Dict.set_new hf, Dict.set_last hf]

/-! ## Loading and iterating -/

theorem genBind_ok {α β : Type} {f : α → Gen β} {l : List α} : (genBind f l).exc = none ↔ ∀ a ∈ l, (f a).exc = none := by
  induction l with
  | nil => simp [genBind]
  | cons a l ih =>
    simp only [genBind, List.mem_cons, forall_eq_or_imp]
    cases h : (f a).exc with
    | some e => simp
    | none => simpa using ih

theorem genBind_out {α β : Type} {f : α → Gen β} {l : List α} (h : ∀ a ∈ l, (f a).exc = none) : (genBind f l).out = l.flatMap fun a => (f a).out := by
  induction l with
  | nil => rfl
  | cons a l ih =>
    simp only [genBind, h a (by simp), List.flatMap_cons, ih fun a ha => h a (by simp [ha])]

/-- iterating over an unshuffled database -/
theorem dbGen_ok {bufSize : Nat} {ns : List Str} (hns : ns.Nodup) {recs : List (κ × List (List Int))} (hv : Exact recs) {db : Db κ}
    (h : Db.create bufSize ns recs = .ok db) {ord : List κ → List κ} (hord : ∀ l, (ord l).Perm l) :
    ∃ rs, db.gen ord false = ⟨rs, none⟩ ∧ rs.Perm recs := by
  have hd := dbCreate_ok hns h
  have hl := (C38_lookup_partial hns hv h).2.1
  have hp : (ord db.ids).Perm (recs.map (·.1)) := (hord _).trans ((List.perm_ext_iff_of_nodup hd.idsNodup hd.nodup).2 hd.ids)
  obtain ⟨rs, h1, h2⟩ := perm_map_inv hp
  refine ⟨rs, ?_, h1⟩
  simp only [Db.gen, Bool.false_and, Bool.false_eq_true, if_false]
  rw [h2]
  apply genMap_ok
  rw [List.forall₂_map_left_iff]
  exact List.forall₂_same.2 fun r hr => hl r (h1.mem_iff.1 hr)

theorem loadParts_ok {dir : Dir κ} {ns : List Str} {dbs : List (Db κ)} : loadParts dir ns = .ok dbs ↔ List.Forall₂ (fun n db => loadPart dir n = .ok db) ns dbs := by
  induction ns generalizing dbs with
  | nil =>
    simp only [loadParts, List.forall₂_nil_left_iff, Except.ok.injEq]
    exact eq_comm
  | cons n ns ih =>
    simp only [loadParts]
    cases h1 : loadPart dir n with
    | error e =>
      simp only [reduceCtorEq, false_iff]
      intro h
      cases h with
      | cons h _ => rw [h1] at h; cases h
    | ok db =>
      simp only
      cases h2 : loadParts dir ns with
      | error e =>
        simp only [reduceCtorEq, false_iff]
        intro h
        cases h with
        | cons _ h => rw [ih.2 h] at h2; cases h2
      | ok dbs' =>
        have := ih.1 h2
        simp only [Except.ok.injEq]
        constructor
        · rintro rfl; exact .cons h1 this
        · intro h
          cases h with
          | cons ha hb => rw [h1] at ha; cases ha; rw [ih.2 hb] at h2; cases h2; rfl

end Verif
