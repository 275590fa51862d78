import Verif.Spec.Interleave
import Verif.Model.Spark
import Verif.Lemmas.MultipartRead
/-! # Lemmas for distributed jobs -/

namespace Verif
open Spec

/-! ## Interleavings -/

/-- one after the other is an interleaving -/
theorem Spec.Interleaved.flatten {α : Type} (ls : List (List α)) : Interleaved ls ls.flatten := by
  have key : ∀ n (es ls : List (List α)), ls.flatten.length + ls.length ≤ n → (∀ e ∈ es, e = []) → Interleaved (es ++ ls) ls.flatten := by
    intro n
    induction n with
    | zero =>
      intro es ls h he
      have : ls = [] := List.length_eq_zero_iff.1 (by omega)
      subst this
      exact .done (by simpa using he)
    | succ n ih =>
      intro es ls h he
      match ls, h with
      | [], _ => exact .done (by simpa using he)
      | [] :: r, h =>
        have := ih (es ++ [[]]) r (by simp at h ⊢; omega) (by
          intro e hx; rcases List.mem_append.1 hx with hx | hx
          · exact he e hx
          · simpa using hx)
        simpa using this
      | (a :: t) :: r, h => exact .step (ih es (t :: r) (by simp at h ⊢; omega) he)
  exact key _ [] ls (Nat.le_refl _) (by simp)

/-- elements of a kind found in at most one of the lists keep their order -/
theorem Spec.Interleaved.filter {α : Type} {p : α → Bool} {ls : List (List α)} {out : List α} (h : Interleaved ls out)
    (hp : ls.Pairwise fun a b => a.filter p = [] ∨ b.filter p = []) : out.filter p = ls.flatten.filter p := by
  induction h with
  | done h => simp [List.flatten_eq_nil_iff.2 h]
  | @step l₁ l₂ t out a _ ih =>
    have hp' : (l₁ ++ t :: l₂).Pairwise fun a b => a.filter p = [] ∨ b.filter p = [] := by
      have hmono : (a :: t).filter p = [] → t.filter p = [] := by
        intro h; rw [List.filter_cons] at h; split at h <;> simp_all
      rw [List.pairwise_append, List.pairwise_cons] at hp ⊢
      refine ⟨hp.1, ⟨fun b hb => (hp.2.1.1 b hb).imp hmono id, hp.2.1.2⟩, fun x hx y hy => ?_⟩
      rcases List.mem_cons.1 hy with rfl | hy
      · exact (hp.2.2 x hx _ (by simp)).imp id hmono
      · exact hp.2.2 x hx y (by simp [hy])
    have ih := ih hp'
    simp only [List.flatten_append, List.flatten_cons, List.filter_append] at ih ⊢
    rw [List.filter_cons, ih]
    split
    · rename_i ha
      have h1 : l₁.flatten.filter p = [] := by
        rw [List.filter_flatten, List.flatten_eq_nil_iff]
        intro x hx
        obtain ⟨y, hy, rfl⟩ := List.mem_map.1 hx
        rcases (List.pairwise_append.1 hp).2.2 y hy (a :: t) (by simp) with h | h
        · exact h
        · simp [ha] at h
      simp [h1, ha]
    · rename_i ha
      simp [ha]

/-- nothing else happens -/
theorem Spec.Interleaved.mem {α : Type} {ls : List (List α)} {out : List α} (h : Interleaved ls out) {a : α} : a ∈ out → ∃ l ∈ ls, a ∈ l := by
  induction h with
  | done _ => simp
  | @step l₁ l₂ t out b _ ih =>
    intro ha
    rcases List.mem_cons.1 ha with rfl | ha
    · exact ⟨a :: t, by simp, by simp⟩
    · obtain ⟨l, hl, hal⟩ := ih ha
      rcases List.mem_append.1 hl with hl | hl
      · exact ⟨l, by simp [hl], hal⟩
      · rcases List.mem_cons.1 hl with rfl | hl
        · exact ⟨b :: l, by simp, List.mem_cons_of_mem _ hal⟩
        · exact ⟨l, by simp [hl], hal⟩


/-! ## Directories with the same contents -/

section
variable {κ : Type} [DecidableEq κ]

/-- the file an effect writes -/
def Eff.target : Eff κ → Option Str
  | .put n _ => some n
  | _ => none

/-- the last contents written to a file -/
def lastPut (k : Str) : List (Eff κ) → Option (FileC κ)
  | [] => none
  | .put n c :: fx => match lastPut k fx with
    | some c' => some c'
    | none => if n = k then some c else none
  | _ :: fx => lastPut k fx

theorem target_put (n : Str) (c : FileC κ) : (Eff.put n c).target = some n := rfl

theorem lastPut_filter (k : Str) (fx : List (Eff κ)) : lastPut k (fx.filter fun e => e.target == some k) = lastPut k fx := by
  induction fx with
  | nil => rfl
  | cons e fx ih =>
    have hskip : e.target = none → lastPut k ((e :: fx).filter fun e => e.target == some k) = lastPut k (e :: fx) := by
      intro he
      rw [List.filter_cons, he, if_neg (by simp), ih]
      cases e <;> first | rfl | cases he
    cases e with
    | put n c =>
      rw [List.filter_cons, target_put]
      by_cases h : n = k
      · rw [if_pos (by simpa using h), lastPut, lastPut, ih]
      · rw [if_neg (by simpa using h), lastPut, ih, if_neg h]
        cases lastPut k fx <;> rfl
    | mkdir => exact hskip rfl
    | rmdir => exact hskip rfl
    | del n => exact hskip rfl

/-- what a sequence of writes leaves -/
theorem run_puts {fx : List (Eff κ)} (h : ∀ e ∈ fx, e.target ≠ none) (d : Dict Str (FileC κ)) (hn : (Dict.keys d).Nodup) :
    ∃ d', runFx fx (some d) = some d' ∧ (Dict.keys d').Nodup ∧
      ∀ k, Dict.get? d' k = match lastPut k fx with
        | some c => some c
        | none => Dict.get? d k := by
  induction fx generalizing d with
  | nil => exact ⟨d, rfl, hn, fun k => rfl⟩
  | cons e fx ih =>
    cases e with
    | put n c =>
      obtain ⟨d', h1, h2, h3⟩ := ih (fun e he => h e (by simp [he])) (Dict.set d n c) (Dict.nodup_keys_set hn _ _)
      refine ⟨d', h1, h2, fun k => ?_⟩
      rw [h3 k, lastPut]
      cases lastPut k fx with
      | some c' => rfl
      | none =>
        by_cases hk : n = k
        · subst hk; simp [Dict.get?_set_self]
        · simp only [if_neg hk]
          rw [Dict.get?_set_ne _ _ (by simpa using hk)]
    | mkdir => exact absurd rfl (h .mkdir (by simp))
    | rmdir => exact absurd rfl (h .rmdir (by simp))
    | del n => exact absurd rfl (h (.del n) (by simp))

/-- different orders of writing to different files leave the same files -/
theorem run_interleaved {ls : List (List (Eff κ))} {fx : List (Eff κ)} (h : Interleaved ls fx) (ht : ∀ l ∈ ls, ∀ e ∈ l, e.target ≠ none)
    (hd : ls.Pairwise fun a b => ∀ e ∈ a, ∀ e' ∈ b, e.target ≠ e'.target) (d : Dict Str (FileC κ)) (hn : (Dict.keys d).Nodup) :
    ∃ d1 d2, runFx fx (some d) = some d1 ∧ runFx ls.flatten (some d) = some d2 ∧ (Dict.keys d1).Nodup ∧ (Dict.keys d2).Nodup ∧
      ∀ k, Dict.get? d1 k = Dict.get? d2 k := by
  obtain ⟨d1, a1, a2, a3⟩ := run_puts (fx := fx) (fun e he => by obtain ⟨l, hl, h'⟩ := h.mem he; exact ht l hl e h') d hn
  obtain ⟨d2, b1, b2, b3⟩ := run_puts (fx := ls.flatten) (fun e he => by obtain ⟨l, hl, h'⟩ := List.mem_flatten.1 he; exact ht l hl e h') d hn
  refine ⟨d1, d2, a1, b1, a2, b2, fun k => ?_⟩
  have hf := h.filter (p := fun e => e.target == some k) (hd.imp fun {a b} hab => by
    by_cases ha : a.filter (fun e => e.target == some k) = []
    · exact .inl ha
    · right
      obtain ⟨e, he⟩ := List.exists_mem_of_ne_nil _ ha
      rw [List.mem_filter] at he
      rw [List.filter_eq_nil_iff]
      intro e' he' hk
      simp only [beq_iff_eq] at hk he
      exact hab e he.1 e' he' (he.2.trans hk.symm))
  rw [a3, b3, ← lastPut_filter k fx, ← lastPut_filter k ls.flatten, hf]

theorem readMetas_congr {d d' : Dict Str (FileC κ)} (h : ∀ k, Dict.get? d k = Dict.get? d' k) (ms : List Str) :
    ∀ parts, readMetas d parts ms = readMetas d' parts ms := by
  induction ms with
  | nil => intro _; rfl
  | cons m ms ih =>
    intro parts
    rw [readMetas, readMetas, h m]
    split
    · exact ih _
    · rfl

theorem keys_perm_of_get? {d d' : Dict Str (FileC κ)} (hn : (Dict.keys d).Nodup) (hn' : (Dict.keys d').Nodup)
    (h : ∀ k, Dict.get? d k = Dict.get? d' k) : (Dict.keys d).Perm (Dict.keys d') := by
  rw [List.perm_ext_iff_of_nodup hn hn']
  intro k
  rw [← Dict.isSome_get?_iff, ← Dict.isSome_get?_iff, h]

/-- closing depends on the contents of the files only, up to the order of listing -/
theorem close_congr {d d' : Dict Str (FileC κ)} (hn : (Dict.keys d).Nodup) (hn' : (Dict.keys d').Nodup)
    (h : ∀ k, Dict.get? d k = Dict.get? d' k) (names : List Str) {globOrd : List Str → List Str} (hg : ∀ l, (globOrd l).Perm l) :
    ∃ globOrd', (∀ l, (globOrd' l).Perm l) ∧ Writer.close globOrd names (some d) = Writer.close globOrd' names (some d') := by
  refine ⟨fun l => if l = Dict.keys d' then globOrd (Dict.keys d) else l, fun l => ?_, ?_⟩
  · dsimp only
    split
    · rename_i e; rw [e]; exact (hg _).trans (keys_perm_of_get? hn hn' h)
    · exact List.Perm.refl _
  · simp only [Writer.close, if_true]
    rw [readMetas_congr h]

/-! ## Parallel writing -/

/-- the tasks of a job -/
def writeTasks (bufSize pad : Nat) (names : List Str) (parts : List (List (κ × List (List Int)))) (n : Nat) : List (Fx κ (Str × Nat)) :=
  (parts.zipIdx n).map fun p => Writer.call bufSize pad names p.2 p.1

theorem call_target {bufSize pad : Nat} {names : List Str} {n : Nat} {c : List (κ × List (List Int))} :
    ∀ e ∈ (Writer.call bufSize pad names n c).fx, e.target = some (partName pad n) ∨ e.target = some (withSuffix (partName pad n)) := by
  intro e he
  rw [Writer.call] at he
  split at he
  · simp at he
  · simp only [List.mem_cons, List.not_mem_nil, or_false] at he
    rcases he with rfl | rfl | rfl | rfl
    · exact .inl rfl
    · exact .inl rfl
    · exact .inr rfl
    · exact .inr rfl

theorem tasks_targets {bufSize pad : Nat} {names : List Str} {parts : List (List (κ × List (List Int)))} {n : Nat} :
    ∀ l ∈ (writeTasks bufSize pad names parts n).map (·.fx), ∀ e ∈ l, ∃ i, n ≤ i ∧
      (e.target = some (partName pad i) ∨ e.target = some (withSuffix (partName pad i))) := by
  intro l hl e he
  simp only [writeTasks, List.map_map, List.mem_map] at hl
  obtain ⟨p, hp, rfl⟩ := hl
  exact ⟨p.2, (List.mem_zipIdx hp).1, call_target e he⟩

theorem tasks_disjoint {bufSize pad : Nat} {names : List Str} (parts : List (List (κ × List (List Int)))) : ∀ (n : Nat),
    ((writeTasks bufSize pad names parts n).map (·.fx)).Pairwise fun a b => ∀ e ∈ a, ∀ e' ∈ b, e.target ≠ e'.target := by
  induction parts with
  | nil => intro n; exact List.Pairwise.nil
  | cons c parts ih =>
    intro n
    rw [writeTasks, List.zipIdx_cons, List.map_cons, List.map_cons, List.pairwise_cons]
    refine ⟨fun l hl e he e' he' h => ?_, ih (n + 1)⟩
    obtain ⟨i, hi, h2⟩ := tasks_targets l hl e' he'
    have hne : n ≠ i := by omega
    rcases call_target e he with h1 | h1 <;> rcases h2 with h2 | h2 <;> rw [h1, h2] at h <;> injection h with h
    · exact hne (partName_injective h)
    · exact partName_ne_meta _ _ _ _ h
    · exact partName_ne_meta _ _ _ _ h.symm
    · exact hne (metaName_injective h)

theorem tasks_ok {bufSize pad : Nat} {names : List Str} {parts : List (List (κ × List (List Int)))} {dbs : List (Db κ)}
    (h : List.Forall₂ (fun c db => Db.create bufSize names c = .ok db) parts dbs) : ∀ n : Nat,
    (writeTasks bufSize pad names parts n).findSome? Fx.exc? = none ∧
    ((writeTasks bufSize pad names parts n).map (·.fx)).flatten = (createParts bufSize pad names n parts).fx := by
  induction h with
  | nil => intro n; exact ⟨rfl, rfl⟩
  | @cons c db _ _ hc _ ih =>
    intro n
    have h1 : (Writer.call bufSize pad names n c).res = .ok (partName pad n, db.len) := by rw [Writer.call, hc]
    obtain ⟨i1, i2⟩ := ih (n + 1)
    rw [writeTasks, List.zipIdx_cons, List.map_cons]
    constructor
    · rw [List.findSome?_cons]
      simp only [Fx.exc?, h1]
      exact i1
    · rw [List.map_cons, List.flatten_cons, createParts]
      simp only [h1]
      rw [← i2]
      rfl

theorem tasks_fail {bufSize pad : Nat} {names : List Str} {parts : List (List (κ × List (List Int)))} {c : List (κ × List (List Int))} {e : Exc}
    (hc : c ∈ parts) (he : Db.create bufSize names c = .error e) (n : Nat) :
    ∃ e', (writeTasks bufSize pad names parts n).findSome? Fx.exc? = some e' := by
  rw [← Option.isSome_iff_exists, List.findSome?_isSome_iff]
  obtain ⟨i, hi, rfl⟩ := List.mem_iff_getElem.1 hc
  refine ⟨Writer.call bufSize pad names (n + i) parts[i], List.mem_map.2 ⟨(parts[i], n + i), ?_, rfl⟩, ?_⟩
  · rw [List.mem_zipIdx_iff_le_and_getElem?_sub]
    exact ⟨by omega, by simp⟩
  · simp [Fx.exc?, Writer.call, he]

/-- the partitions that are written -/
def written (cl : Cluster κ) (repartition : Int) (parts : List (List (κ × List (List Int)))) : List (List (κ × List (List Int))) :=
  if 0 < repartition then cl.repart repartition.toNat parts else parts

/-- success of a distributed write -/
theorem rddAsDb_ok {cl : Cluster κ} (hg : ∀ l, (cl.globOrd l).Perm l) (hsch : ∀ ls, Interleaved ls (cl.sched ls)) {overwrite : Bool} {maxParts : Nat} (hm : 1 ≤ maxParts)
    {names : List Str} {repartition : Int} {parts : List (List (κ × List (List Int)))} {dir : Dir κ} (hs : Startable overwrite dir) {dbs : List (Db κ)}
    (hd : List.Forall₂ (fun c db => Db.create cl.bufSize names c = .ok db) (written cl repartition parts) dbs) :
    ∃ q : List (Db κ × Nat), q.Perm dbs.zipIdx ∧ (rddAsDb cl overwrite maxParts names repartition parts dir).res = .ok () ∧
      ∃ d, runFx (rddAsDb cl overwrite maxParts names repartition parts dir).fx dir = some d ∧
        Dict.get? d flagName = some (.success (q.map fun p => (partName (Nat.clog 10 maxParts) p.2, p.1.len)) names) ∧
        ∀ p ∈ dbs.zipIdx, Dict.get? d (partName (Nat.clog 10 maxParts) p.2) = some (.db p.1) := by
  obtain ⟨hres, hrun⟩ := init_run (rmOrd := cl.rmOrd) (maxParts := maxParts) hs
  have hp : partPathPads maxParts = .ok (Nat.clog 10 maxParts) := by rw [partPathPads, if_neg (by omega)]
  generalize Nat.clog 10 maxParts = pad at *
  obtain ⟨ht1, ht2⟩ := tasks_ok (pad := pad) hd 0
  obtain ⟨hc, hrun2⟩ := createParts_run (pad := pad) hd 0 [] (fun i _ => by simp [Dict.keys])
  rw [List.nil_append] at hrun2
  obtain ⟨d1, d2, e1, e2, e3, e4, e5⟩ := run_interleaved (hsch ((writeTasks cl.bufSize pad names (written cl repartition parts) 0).map (·.fx)))
    (fun l hl e he => by obtain ⟨i, _, h | h⟩ := tasks_targets l hl e he <;> rw [h] <;> simp) (tasks_disjoint _ 0) [] (by simp [Dict.keys])
  rw [ht2, hrun2] at e2
  cases e2
  obtain ⟨g', hg', hcg⟩ := close_congr e3 e4 e5 names hg
  obtain ⟨q, hq, hcl⟩ := close_ok (pad := pad) (dbs := dbs) (names := names) hg'
  rw [hcl] at hcg
  have hjob : runJob cl.sched cl.cut (writeTasks cl.bufSize pad names (written cl repartition parts) 0) =
      ⟨cl.sched ((writeTasks cl.bufSize pad names (written cl repartition parts) 0).map (·.fx)), .ok ()⟩ := by
    rw [runJob, ht1]
  have hall : rddAsDb cl overwrite maxParts names repartition parts dir =
      ⟨(Writer.init cl.rmOrd overwrite maxParts dir).fx ++ (cl.sched ((writeTasks cl.bufSize pad names (written cl repartition parts) 0).map (·.fx)) ++
        [.put flagName .broken, .put flagName (.success (q.map fun p => (partName pad p.2, p.1.len)) names)]), .ok ()⟩ := by
    rw [rddAsDb, Fx.andThen, hres, hp, hrun]
    simp only
    change _ = _
    have : (written cl repartition parts).zipIdx.map (fun p => Writer.call cl.bufSize pad names p.2 p.1) =
      writeTasks cl.bufSize pad names (written cl repartition parts) 0 := rfl
    rw [written] at this
    rw [this]
    rw [← written, hjob]
    simp only [Fx.andThen, e1, hcg]
  refine ⟨q, hq, by rw [hall], Dict.set (Dict.set d1 flagName .broken) flagName (.success (q.map fun p => (partName pad p.2, p.1.len)) names), ?_, ?_, ?_⟩
  · rw [hall, runFx_append, runFx_append, hrun, e1]
    rfl
  · rw [Dict.get?_set_self]
  · intro p hp
    rw [Dict.get?_set_ne _ _ (fun h => partName_ne_flag _ _ h.symm), Dict.get?_set_ne _ _ (fun h => partName_ne_flag _ _ h.symm), e5]
    exact (get?_partEntries hp).1

/-- failure of a distributed write: nothing that can be loaded is left -/
theorem rddAsDb_fails {cl : Cluster κ} (hsch : ∀ ls, Interleaved ls (cl.sched ls)) {overwrite : Bool} {maxParts : Nat} (hm : 1 ≤ maxParts)
    {names : List Str} {repartition : Int} {parts : List (List (κ × List (List Int)))} {dir : Dir κ} (hs : Startable overwrite dir)
    {c : List (κ × List (List Int))} {e : Exc} (hc : c ∈ written cl repartition parts) (he : Db.create cl.bufSize names c = .error e) :
    (∃ e', (rddAsDb cl overwrite maxParts names repartition parts dir).res = .error e') ∧
    ∀ keep shuffle, MDb.load keep shuffle (runFx (rddAsDb cl overwrite maxParts names repartition parts dir).fx dir) = .error .assertion := by
  obtain ⟨hres, hrun⟩ := init_run (rmOrd := cl.rmOrd) (maxParts := maxParts) hs
  have hp : partPathPads maxParts = .ok (Nat.clog 10 maxParts) := by rw [partPathPads, if_neg (by omega)]
  generalize Nat.clog 10 maxParts = pad at *
  obtain ⟨e', h1⟩ := tasks_fail (pad := pad) hc he 0
  have hjob : runJob cl.sched cl.cut (writeTasks cl.bufSize pad names (written cl repartition parts) 0) =
      ⟨(cl.sched ((writeTasks cl.bufSize pad names (written cl repartition parts) 0).map (·.fx))).take cl.cut, .error e'⟩ := by
    rw [runJob, h1]
  have hall : rddAsDb cl overwrite maxParts names repartition parts dir =
      ⟨(Writer.init cl.rmOrd overwrite maxParts dir).fx ++
        (cl.sched ((writeTasks cl.bufSize pad names (written cl repartition parts) 0).map (·.fx))).take cl.cut, .error e'⟩ := by
    rw [rddAsDb, Fx.andThen, hres, hp, hrun]
    simp only
    have : (written cl repartition parts).zipIdx.map (fun p => Writer.call cl.bufSize pad names p.2 p.1) =
      writeTasks cl.bufSize pad names (written cl repartition parts) 0 := rfl
    rw [written] at this
    rw [this, ← written, hjob]
    simp only [Fx.andThen]
  refine ⟨⟨e', by rw [hall]⟩, fun keep shuffle => ?_⟩
  have htg : ∀ e ∈ (cl.sched ((writeTasks cl.bufSize pad names (written cl repartition parts) 0).map (·.fx))).take cl.cut,
      ∃ i, e.target = some (partName pad i) ∨ e.target = some (withSuffix (partName pad i)) := by
    intro e he
    obtain ⟨l, hl, h⟩ := (hsch _).mem (List.mem_of_mem_take he)
    obtain ⟨i, _, hi⟩ := tasks_targets l hl e h
    exact ⟨i, hi⟩
  rw [hall, runFx_append, hrun]
  obtain ⟨d, g1, g2, g3⟩ := run_puts (fun e he => by obtain ⟨i, h | h⟩ := htg e he <;> rw [h] <;> simp) [] (by simp [Dict.keys])
  rw [g1]
  have : Dict.get? d flagName = none := by
    rw [g3, ← lastPut_filter, List.filter_eq_nil_iff.2]
    · rfl
    · intro e he h
      simp only [beq_iff_eq] at h
      obtain ⟨i, h' | h'⟩ := htg e he <;> rw [h'] at h <;> injection h with h
      · exact partName_ne_flag _ _ h
      · exact metaName_ne_flag _ _ h
  simp only [MDb.load, this]

end

end Verif
