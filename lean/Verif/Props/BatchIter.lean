import Mathlib.Tactic.Linarith
import Mathlib.Tactic.FieldSimp
import Mathlib.Tactic.Positivity
import Verif.Model.BatchIter
import Verif.Props.Multipart
import Verif.Lemmas.Nearest
import Verif.Lemmas.BpeRun
/-!
# Properties of `BatchIterable` (C90, C91)
-/

namespace Verif

variable {κ : Type} [DecidableEq κ]

/-- a sequence with the requested markers -/
def Spec.marked (b e : Bool) (bos eos : Int) (s : List Int) : List Int :=
  (if b = true ∧ s.head? ≠ some bos then [bos] else []) ++ s ++ (if e = true ∧ s.getLast? ≠ some eos then [eos] else [])

open Spec

/-- source of a record with its markers -/
def Spec.markX (m : BatchMeta) (r : κ × List (List Int)) : List Int := marked m.addBosX m.addEosX m.bos m.eos (r.2.getD 0 [])

/-- target of a record with its markers -/
def Spec.markY (m : BatchMeta) (r : κ × List (List Int)) : List Int := marked m.addBosY m.addEosY m.bos m.eos (r.2.getD 1 [])

/-- the numbers of tokens and of sentences that `batch_size` stands for: `n`, or `(n, s)` -/
inductive Spec.Limits : BatchSize → Nat → Option Nat → Prop
  | toks (n : Nat) : Limits (.toks n) n none
  | both (n s : Nat) : Limits (.both n s) n (some s)

/-- The records without empty columns are divided into groups, and the batches hold these group by group: every group is nonempty and
within the budget, with at most `sents` records, sources and targets are the columns with their markers, padded, in the same order. -/
def Spec.BatchesOf (m : BatchMeta) (sortDec bf : Bool) (maxToks : Nat) (sents : Option Nat) (recs : List (κ × List (List Int))) (out : List Batch) : Prop :=
  ∃ gs : List (List (κ × List (List Int))), gs.flatten.Perm (recs.filter fun r => decide (Full r)) ∧
    List.Forall₂ (fun g b => g ≠ [] ∧ WithinBudget maxToks g ∧ (∀ k, sents = some k → g.length ≤ k) ∧ b.len = g.length ∧ Holds bf m.pad (g.map (markX m)) b.x ∧
      (∃ ys, b.y = some ys ∧ Holds bf m.pad (g.map (markY m)) ys) ∧
      (sortDec = true → g.Pairwise fun r r' => (markX m r').length ≤ (markX m r).length)) gs out

/-! ## C91 -/

theorem batch_holds {m : BatchMeta} {sortDec bf : Bool} {g : List (κ × List (List Int))} {o : Batch × List (IdEx κ)}
    (h : Batch.make m sortDec bf (g.map toEx) = .ok o) :
    ∃ g' : List (κ × List (List Int)), g'.Perm g ∧ o.1.len = g'.length ∧ Holds bf m.pad (g'.map (markX m)) o.1.x ∧
      (∃ ys, o.1.y = some ys ∧ Holds bf m.pad (g'.map (markY m)) ys) ∧
      (sortDec = true → g'.Pairwise fun r r' => (markX m r').length ≤ (markX m r).length) := by
  obtain ⟨b, es'⟩ := o
  obtain ⟨h1, h2, h3, ⟨es1, h4, h5⟩, h6, h7⟩ := Batch.make_ok h
  have hperm : es'.Perm es1 := by
    rw [h5]
    split
    · exact List.perm_insertionSort _ _
    · exact List.Perm.refl _
  have hy : b.y.isSome = true := by
    cases hb : b.y with
    | some _ => rfl
    | none =>
      exfalso
      obtain ⟨e, he1, he2⟩ := h6 hb
      have he : e ∈ es1 := hperm.subset (List.mem_of_mem_head? he1)
      obtain ⟨e0, h01, h02⟩ := mem_of_forall₂_right h4 e he
      rw [hb] at h02
      obtain ⟨r, _, rfl⟩ := List.mem_map.1 h01
      have h03 := h02.2.2
      simp only [Option.isSome_none, Bool.false_eq_true, if_false, he2, toEx] at h03
      cases h03
  have hes : es1 = g.map fun r => { id := r.1, x := markX m r, y := some (markY m r) } := by
    rw [List.forall₂_map_left_iff] at h4
    apply forall₂_eq_map
    refine h4.imp ?_
    rintro r ⟨i, x, y⟩ ⟨k1, k2, k3⟩
    rw [if_pos hy] at k3
    obtain ⟨y0, y1, k4, k5, k6⟩ := k3
    simp only [toEx] at k1 k2 k4 k5
    rw [checkSeq_iff] at k2 k6
    cases k4
    simp only [k1, k5, k2.2.2.2, k6.2.2.2, markX, markY, marked]
  obtain ⟨g', p1, p2⟩ := perm_map_inv (hes ▸ hperm)
  have hx : es'.map (·.x) = g'.map (markX m) := by rw [p2]; simp [Function.comp_def]
  refine ⟨g', p1, by rw [h2, p2]; simp, ?_, ?_, ?_⟩
  · rw [← hx]; exact side_holds h3
  · obtain ⟨ys, hys⟩ := Option.isSome_iff_exists.1 hy
    obtain ⟨seqs, k1, k2⟩ := h7 ys hys
    refine ⟨ys, hys, ?_⟩
    have : seqs = g'.map (markY m) := by
      have hz : es'.map (·.y) = (g'.map (markY m)).map some := by rw [p2]; simp [Function.comp_def]
      rw [hz] at k1
      exact (List.map_injective_iff.2 (Option.some_injective _) k1).symm
    rw [← this]
    exact side_holds k2
  · intro hs
    have : es'.Pairwise fun a b => b.x.length ≤ a.x.length := by
      rw [h5, if_pos hs]
      exact List.pairwise_insertionSort (fun a b : IdEx κ => b.x.length ≤ a.x.length) es1
    rw [p2, List.pairwise_map] at this
    exact this

theorem batches_of {m : BatchMeta} {sortDec bf : Bool} {maxToks : Nat} {sents : Option Nat} {recs : List (κ × List (List Int))}
    {gs : List (List (κ × List (List Int)))} (hp : gs.flatten.Perm (recs.filter fun r => decide (Full r)))
    (hg : ∀ g ∈ gs, g ≠ [] ∧ WithinBudget maxToks g ∧ ∀ k, sents = some k → g.length ≤ k) {out : List (Batch × List (IdEx κ))}
    (ho : List.Forall₂ (fun g o => Batch.make m sortDec bf (g.map toEx) = .ok o) gs out) :
    BatchesOf m sortDec bf maxToks sents recs (out.map (·.1)) := by
  have key : ∀ {gs : List (List (κ × List (List Int)))} {out : List (Batch × List (IdEx κ))},
      List.Forall₂ (fun g o => Batch.make m sortDec bf (g.map toEx) = .ok o) gs out → (∀ g ∈ gs, g ≠ [] ∧ WithinBudget maxToks g ∧ ∀ k, sents = some k → g.length ≤ k) →
      ∃ gs', gs'.flatten.Perm gs.flatten ∧ List.Forall₂ (fun g b => g ≠ [] ∧ WithinBudget maxToks g ∧ (∀ k, sents = some k → g.length ≤ k) ∧ b.len = g.length ∧ Holds bf m.pad (g.map (markX m)) b.x ∧
        (∃ ys, b.y = some ys ∧ Holds bf m.pad (g.map (markY m)) ys) ∧
        (sortDec = true → g.Pairwise fun r r' => (markX m r').length ≤ (markX m r).length)) gs' (out.map (·.1)) := by
    intro gs out h
    induction h with
    | nil => intro _; exact ⟨[], List.Perm.refl _, .nil⟩
    | @cons g o gs out h1 _ ih =>
      intro hg
      obtain ⟨gs', i1, i2⟩ := ih fun g hg' => hg g (List.mem_cons_of_mem _ hg')
      obtain ⟨g', p1, p2, p3, p4, p5⟩ := batch_holds h1
      obtain ⟨k1, k2, k3⟩ := hg g List.mem_cons_self
      refine ⟨g' :: gs', p1.append i1, .cons ⟨?_, ?_, fun k hk => by rw [p1.length_eq]; exact k3 k hk, p2, p3, p4, p5⟩ i2⟩
      · rintro rfl; exact k1 p1.symm.eq_nil
      · intro r hr c hc
        rw [p1.length_eq]
        exact k2 r (p1.subset hr) c hc
  obtain ⟨gs', i1, i2⟩ := key ho hg
  exact ⟨gs', i1.trans hp, i2⟩

/-- the orders and shuffles rearrange -/
def Spec.Chance.Fair (ch : Chance κ) : Prop := (∀ i l, (ch.ordI i l).Perm l) ∧ (∀ n l, (ch.ord n l).Perm l) ∧ (∀ l, (ch.shufP l).Perm l) ∧
  (∀ n l, (ch.shuf n l).Perm l) ∧ ∀ n l, (ch.shufB n l).Perm l

theorem readAll_batches {m : BatchMeta} {sortDec bf : Bool} {maxToks : Nat} {maxSents : Option Nat} (h0 : maxSents ≠ some 0)
    {recs rs : List (κ × List (List Int))} (h2 : ∀ r ∈ recs, r.2.length = 2) (hp : rs.Perm recs)
    (hfit : ∀ r ∈ recs, Full r → ¬ Oversized maxToks r ∧ Markable m r) :
    ∃ out, readAll m sortDec bf maxToks maxSents ⟨rs, none⟩ = ⟨out, none⟩ ∧ BatchesOf m sortDec bf maxToks maxSents recs (out.map (·.1)) := by
  have h2' : ∀ r ∈ rs, r.2.length = 2 := fun r hr => h2 r (hp.subset hr)
  have hexc := (C48_sequential m sortDec bf maxToks h0 h2').2.1 fun r hr => hfit r (hp.subset hr)
  cases hg : readAll m sortDec bf maxToks maxSents ⟨rs, none⟩ with
  | mk out exc =>
    rw [hg] at hexc
    simp only at hexc
    subst hexc
    obtain ⟨gs, g1, g2, _, g4⟩ := C47_sequential h0 h2' hg
    exact ⟨out, rfl, batches_of (by rw [g1]; exact hp.filter _) g2 g4⟩

theorem eqLenAll_batches {m : BatchMeta} {sortDec bf : Bool} {maxToks : Nat} {sents : Option Nat} {recs : List (κ × List (List Int))} (h2 : ∀ r ∈ recs, r.2.length = 2)
    (hm : ∀ r ∈ recs, Full r → Markable m r) {bs : List (List (κ × List (List Int)))} (hp : bs.flatten.Perm (recs.filter fun r => decide (Full r)))
    (hb : ∀ b ∈ bs, b ≠ [] ∧ WithinBudget maxToks b ∧ ∀ k, sents = some k → b.length ≤ k + 1) :
    ∃ out, eqLenAll m sortDec bf ⟨bs, none⟩ = ⟨out, none⟩ ∧ BatchesOf m sortDec bf maxToks (sents.map (· + 1)) recs (out.map (·.1)) := by
  have hmem : ∀ b ∈ bs, ∀ r ∈ b, r ∈ recs ∧ Full r := by
    intro b hb r hr
    have := List.mem_filter.1 (hp.subset (List.mem_flatten.2 ⟨b, hb, hr⟩))
    exact ⟨this.1, by simpa using this.2⟩
  have hex : genMap mkExamples none bs = ⟨bs.map (List.map toEx), none⟩ := by
    apply genMap_ok
    rw [List.forall₂_map_right_iff, List.forall₂_same]
    exact fun b hb => mkExamples_ok fun r hr => h2 r (hmem b hb r hr).1
  have hmk : ∀ b, ∃ o, b ∈ bs → Batch.make m sortDec bf (b.map toEx) = .ok o := by
    intro b
    by_cases hbb : b ∈ bs
    · obtain ⟨o, ho⟩ := batch_succeeds (m := m) (sortDec := sortDec) (bf := bf) (hb b hbb).1 (fun r hr => h2 r (hmem b hbb r hr).1)
        (fun r hr => (hmem b hbb r hr).2) (fun r hr => hm r (hmem b hbb r hr).1 (hmem b hbb r hr).2)
      exact ⟨o, fun _ => ho⟩
    · exact ⟨⟨⟨0, ⟨[], 0, 0, []⟩, none⟩, []⟩, fun h => absurd h hbb⟩
  choose f hf using hmk
  have hall : List.Forall₂ (fun g o => Batch.make m sortDec bf (g.map toEx) = .ok o) bs (bs.map f) := by
    rw [List.forall₂_map_right_iff, List.forall₂_same]
    exact fun b hb => hf b hb
  refine ⟨bs.map f, ?_, batches_of hp (fun b h => ⟨(hb b h).1, (hb b h).2.1, fun k hk => ?_⟩) hall⟩
  swap
  · cases sents with
    | none => cases hk
    | some s => cases hk; exact (hb b h).2.2 s rfl
  simp only [eqLenAll, hex]
  apply genMap_ok
  rw [List.forall₂_map_left_iff]
  exact hall

/-- C91, for values up to 2^53 (missing: larger ones, see C35): a database file with two fields, opened under a `str` or a `Path`, in any
mode: if every record without empty columns fits in a batch and can be marked, and, for equal-length batching, there is such a record
(see C48), the batches come without error and hold these records, each once; with a limit of `s` sentences they have at most `s` records,
or `s + 1` for equal-length batching (see C46). -/
theorem C91_file_partial {bufSize : Nat} {nx ny : Str} (hn : nx ≠ ny) {recs : List (κ × List (List Int))} (hv : Exact recs) {db : Db κ}
    (h : Db.create bufSize [nx, ny] recs = .ok db) (isPath keep : Bool) {sortBy : Option Str}
    (hs : sortBy = none ∨ sortBy = some (lit "eq_len_rand_batch") ∨ sortBy = some (lit "random"))
    {m : BatchMeta} (sortDec bf : Bool) {size : BatchSize} {n : Nat} {s : Option Nat} (hb : Limits size n s) (h0 : s ≠ some 0)
    (hfit : ∀ r ∈ recs, Full r → ¬ Oversized n r ∧ Markable m r)
    (hsome : sortBy = some (lit "eq_len_rand_batch") → ∃ r ∈ recs, Full r) {ch : Chance κ} (hch : Chance.Fair ch) (dir : Dir κ) :
    ∃ data, BatchIterable.init isPath (.file (.ok db)) sortBy keep = .ok data ∧ data.len = recs.length ∧
      ∃ out, BatchIterable.iter m sortDec bf size sortBy ch dir data = ⟨out, none⟩ ∧
        BatchesOf m sortDec bf n (if sortBy = some (lit "eq_len_rand_batch") then s.map (· + 1) else s) recs (out.map (·.1)) := by
  obtain ⟨rfl, rfl⟩ : size.maxToks = n ∧ size.maxSents = s := by cases hb <;> exact ⟨rfl, rfl⟩
  have hns : [nx, ny].Nodup := by simp [hn]
  have hd := dbCreate_ok hns h
  have h2 : ∀ r ∈ recs, r.2.length = 2 := fun r hr => hd.width r hr
  obtain ⟨l1, l2, _⟩ := C38_lookup_partial hns hv h
  refine ⟨.single db, ?_, l1, ?_⟩
  · unfold BatchIterable.init
    rw [if_neg (by rw [not_not]; exact hs)]
  · unfold BatchIterable.iter
    by_cases he : sortBy = some eqLenName
    · rw [if_pos he, if_pos (show sortBy = some (lit "eq_len_rand_batch") from he)]
      obtain ⟨bs, b1, b2, b3⟩ := C45_partition hns h size.maxToks size.maxSents (hch.2.1 []) (hch.2.2.2.1 []) (hch.2.2.2.2 []) (hsome he)
        fun r hr hf => (hfit r hr hf).1
      have hp : bs.flatten.Perm (recs.filter fun r => decide (Full r)) := by
        obtain ⟨l', p1, p2⟩ := perm_map_inv b2
        have : bs.flatten = l' := by
          have key : ∀ {l l' : List (κ × List (List Int))}, l.map (·.1) = l'.map (·.1) → (∀ r ∈ l, db.get r.1 = .ok r) → (∀ r ∈ l', db.get r.1 = .ok r) → l = l' := by
            intro l
            induction l with
            | nil => intro l' h _ _; cases l' with
              | nil => rfl
              | cons => cases h
            | cons a l ih =>
              intro l' h h1 h2
              cases l' with
              | nil => cases h
              | cons b l' =>
                simp only [List.map_cons, List.cons.injEq] at h
                have e1 := h1 a List.mem_cons_self
                have e2 := h2 b List.mem_cons_self
                rw [h.1, e2] at e1
                injection e1 with e1
                rw [e1, ih h.2 (fun r hr => h1 r (List.mem_cons_of_mem _ hr)) fun r hr => h2 r (List.mem_cons_of_mem _ hr)]
          apply key p2
          · intro r hr
            obtain ⟨b, hb, hr⟩ := List.mem_flatten.1 hr
            exact (b3 b hb).2.2.2 r hr
          · intro r hr
            exact l2 r (List.mem_filter.1 (p1.subset hr)).1
        rw [this]
        exact p1
      simp only [Data.eqBatches, b1]
      exact eqLenAll_batches h2 (fun r hr hf => (hfit r hr hf).2) hp fun b hb => ⟨(b3 b hb).1, (b3 b hb).2.1, (b3 b hb).2.2.1⟩
    · rw [if_neg he, if_neg (show ¬ sortBy = some (lit "eq_len_rand_batch") from he)]
      have hgen : ∃ rs, Data.gen ch dir (.single db) = ⟨rs, none⟩ ∧ rs.Perm recs := by
        have hp : (ch.ordI 0 db.ids).Perm (recs.map (·.1)) := (hch.1 0 _).trans ((List.perm_ext_iff_of_nodup hd.idsNodup hd.nodup).2 hd.ids)
        obtain ⟨rs, p1, p2⟩ := perm_map_inv hp
        refine ⟨rs, ?_, p1⟩
        simp only [Data.gen, Db.gen, Bool.false_and, Bool.false_eq_true, if_false, p2]
        apply genMap_ok
        rw [List.forall₂_map_left_iff, List.forall₂_same]
        exact fun r hr => l2 r (p1.subset hr)
      obtain ⟨rs, g1, g2⟩ := hgen
      rw [g1]
      exact readAll_batches h0 h2 g2 hfit

/-- C91 for directories, as `C91_file_partial`: a multi-part database created in a new or empty directory, or over an old one, opened
under a `Path`.  For equal-length batching every part needs a record without empty columns. -/
theorem C91_directory_partial (env : Env) (hg : ∀ l, (env.globOrd l).Perm l) {nx ny : Str} (hn : nx ≠ ny)
    {recs : List (κ × List (List Int))} (hne : recs ≠ []) (hnd : (recs.map (·.1)).Nodup) (h2 : ∀ r ∈ recs, r.2.length = 2)
    (hv : Exact recs) (hlen : ((recs.map fun r => (r.2.map List.length).sum).sum : Nat) < 2 ^ 64) {partSize : Int} (hp : 1 ≤ partSize)
    {maxParts : Nat} (hmp : 1 ≤ maxParts) {overwrite : Bool} {old : Dir κ} (hold : overwrite = true ∨ old = none ∨ old = some [])
    (keep : Bool) {sortBy : Option Str} (hs : sortBy = none ∨ sortBy = some (lit "eq_len_rand_batch") ∨ sortBy = some (lit "random"))
    {m : BatchMeta} (sortDec bf : Bool) {size : BatchSize} {n : Nat} {s : Option Nat} (hb : Limits size n s) (h0 : s ≠ some 0)
    (hfit : ∀ r ∈ recs, Full r → ¬ Oversized n r ∧ Markable m r)
    (hsome : sortBy = some (lit "eq_len_rand_batch") → ∀ cs, Chunks partSize.toNat recs cs → ∀ c ∈ cs, ∃ r ∈ c, Full r)
    {ch : Chance κ} (hch : Chance.Fair ch) :
    ∃ d, runFx (createFx env overwrite partSize maxParts [nx, ny] recs old).fx old = some d ∧
    ∃ data, BatchIterable.init true (.dir d) sortBy keep = .ok data ∧ data.len = recs.length ∧
      ∃ out, BatchIterable.iter m sortDec bf size sortBy ch (some d) data = ⟨out, none⟩ ∧
        BatchesOf m sortDec bf n (if sortBy = some (lit "eq_len_rand_batch") then s.map (· + 1) else s) recs (out.map (·.1)) := by
  obtain ⟨rfl, rfl⟩ : size.maxToks = n ∧ size.maxSents = s := by cases hb <;> exact ⟨rfl, rfl⟩
  have hns : [nx, ny].Nodup := by simp [hn]
  obtain ⟨_, cs, hcs, hall⟩ := C41_roundtrip_partial env hg (by simp) hns hne hnd h2 hv hlen hp hmp hold
  obtain ⟨md, l1, l2, _, _, l3⟩ := hall keep false
  obtain ⟨d, hd⟩ : ∃ d, runFx (createFx env overwrite partSize maxParts [nx, ny] recs old).fx old = some d := by
    cases hr : runFx (createFx env overwrite partSize maxParts [nx, ny] recs old).fx old with
    | none => rw [hr] at l1; cases l1
    | some d => exact ⟨d, rfl⟩
  rw [hd] at l1 l3
  refine ⟨d, hd, .multi md, ?_, l2, ?_⟩
  · unfold BatchIterable.init
    rw [if_neg (by rw [not_not]; exact hs)]
    simp only [not_true, if_false, l1]
  · unfold BatchIterable.iter
    by_cases he : sortBy = some eqLenName
    · rw [if_pos he, if_pos (show sortBy = some (lit "eq_len_rand_batch") from he)]
      obtain ⟨md', k1, k2⟩ := C45_multipart env hg (by simp) hns hne hnd h2 hv hlen hp hmp hold hcs (hsome he cs hcs)
        (fun r hr hf => (hfit r hr hf).1) size.maxSents keep false
      rw [hd, l1] at k1
      cases k1
      obtain ⟨bs, b1, b2, b3⟩ := k2 ch.shufP hch.2.2.1 ch.ord hch.2.1 ch.shuf hch.2.2.2.1 ch.shufB hch.2.2.2.2
      rw [hd] at b1
      simp only [Data.eqBatches, b1]
      exact eqLenAll_batches h2 (fun r hr hf => (hfit r hr hf).2) b2 b3
    · rw [if_neg he, if_neg (show ¬ sortBy = some (lit "eq_len_rand_batch") from he)]
      obtain ⟨i1, i2⟩ := l3 id (fun l => List.Perm.refl _) ch.ordI hch.1 (by simp)
      have hgen : ∃ rs, Data.gen ch (some d) (.multi md) = ⟨rs, none⟩ ∧ rs.Perm recs := by
        refine ⟨(md.iter id ch.ordI (some d)).out, ?_, i2.perm.trans (by rw [hcs.1])⟩
        simp only [Data.gen]
        rw [← i1]
      obtain ⟨rs, g1, g2⟩ := hgen
      rw [g1]
      exact readAll_batches h0 h2 g2 hfit

omit [DecidableEq κ] in
/-- C91 refuted: a directory under a `str` is not opened, whatever is in it. -/
theorem C91_str_refuted (d : Dict Str (FileC κ)) {sortBy : Option Str}
    (hs : sortBy = none ∨ sortBy = some (lit "eq_len_rand_batch") ∨ sortBy = some (lit "random")) (keep : Bool) :
    BatchIterable.init false (.dir d) sortBy keep = .error .attr := by
  unfold BatchIterable.init
  rw [if_neg (by rw [not_not]; exact hs)]
  simp

/-- C91 refuted: `sort_by='random'` does not make the order random: nothing is shuffled, the batches are those of `sort_by=None`. -/
theorem C91_random_refuted (m : BatchMeta) (sortDec bf : Bool) (size : BatchSize) (ch ch' : Chance κ) (h : ch'.ordI = ch.ordI) (dir : Dir κ) (data : Data κ) :
    BatchIterable.iter m sortDec bf size (some (lit "random")) ch dir data = BatchIterable.iter m sortDec bf size none ch' dir data := by
  have h1 : (some (lit "random") : Option Str) ≠ some eqLenName := by decide
  have h2 : (none : Option Str) ≠ some eqLenName := by simp
  unfold BatchIterable.iter
  rw [if_neg h1, if_neg h2]
  cases data <;> simp [Data.gen, h]

omit [DecidableEq κ] in
/-- C91: other values of `sort_by` and paths where nothing is are refused. -/
theorem C91_refused (isPath keep : Bool) (a : AtPath κ) (sortBy : Option Str) :
    (sortBy ≠ none → sortBy ≠ some (lit "eq_len_rand_batch") → sortBy ≠ some (lit "random") →
      BatchIterable.init isPath a sortBy keep = .error .assertion) ∧
    BatchIterable.init isPath (.nothing : AtPath κ) sortBy keep = .error .assertion := by
  constructor
  · intro h1 h2 h3
    unfold BatchIterable.init
    rw [if_pos]
    rintro (h | h | h)
    · exact h1 h
    · exact h2 h
    · exact h3 h
  · unfold BatchIterable.init
    split <;> rfl

/-! ## C90 -/

theorem ceil_rnd64 {n k : ℕ} (hk : 0 < k) (hn : n < 2 ^ 53) : ⌈rnd64 ((n : ℚ) / (k : ℚ))⌉ = (((n + k - 1) / k : ℕ) : ℤ) := by
  set c := (n + k - 1) / k with hc
  have hk' : (0 : ℚ) < k := by exact_mod_cast hk
  have hle : n ≤ c * k := by
    have := Nat.div_add_mod (n + k - 1) k
    have h2 := Nat.mod_lt (n + k - 1) hk
    rw [← hc, Nat.mul_comm] at this
    omega
  have hlt : c * k < n + k := by
    have := Nat.div_mul_le_self (n + k - 1) k
    rw [← hc] at this
    omega
  have hcn : c ≤ n := by
    by_contra hcn
    rw [not_le] at hcn
    have : (n + 1) * k ≤ c * k := Nat.mul_le_mul_right _ hcn
    have h3 : n * 1 ≤ n * k := Nat.mul_le_mul_left _ hk
    nlinarith
  rw [Int.ceil_eq_iff]
  constructor
  · have herr := rnd64_err ((n : ℚ) / k)
    have hx0 : (0 : ℚ) ≤ (n : ℚ) / k := by positivity
    rw [abs_of_nonneg hx0, abs_le] at herr
    have h1 : ((c : ℚ) - 1) + 1 / k ≤ (n : ℚ) / k := by
      rw [← sub_nonneg]
      have : (n : ℚ) / k - ((c : ℚ) - 1 + 1 / k) = ((n : ℚ) + k - 1 - c * k) / k := by field_simp; ring
      rw [this]
      apply div_nonneg _ hk'.le
      have : (c : ℚ) * k + 1 ≤ n + k := by exact_mod_cast hlt
      linarith
    have h2 : (n : ℚ) / k / 2 ^ 53 < 1 / k := by
      rw [div_div, div_lt_div_iff₀ (by positivity) hk']
      have : (n : ℚ) < 2 ^ 53 := by exact_mod_cast hn
      nlinarith
    have h3 := herr.1
    push_cast
    linarith
  · have h1 : (n : ℚ) / k ≤ c := by
      rw [div_le_iff₀ hk']
      exact_mod_cast hle
    have h2 := rnd64_rounding.mono h1
    rw [rnd64_rounding.nat c (by omega)] at h2
    exact_mod_cast h2

omit [DecidableEq κ] in
/-- C90: the predicted number is the number of items divided by `max_toks`, rounded up, as long as the number of items is below 2^53;
`max_toks = 0` is a ZeroDivisionError. -/
theorem C90_value {size : BatchSize} {n : Nat} {s : Option Nat} (hb : Limits size n s) (data : Data κ) :
    (n = 0 → BatchIterable.numBatches size data = .error .zeroDiv) ∧
    (0 < n → data.len < 2 ^ 53 → BatchIterable.numBatches size data = .ok (((data.len + n - 1) / n : ℕ) : ℤ)) := by
  obtain rfl : size.maxToks = n := by cases hb <;> rfl
  constructor
  · intro h; simp [BatchIterable.numBatches, h]
  · intro h hn
    simp only [BatchIterable.numBatches, if_neg (show ¬ size.maxToks = 0 by omega), ceil_rnd64 h hn]

omit [DecidableEq κ] in
/-- C90, as far as it holds: for records without empty columns the prediction is at most the number of batches (C91).  Missing: equality
(`C90_refuted`), and the bound itself when records are skipped (`C90_skipped_refuted`). -/
theorem C90_lower_partial {m : BatchMeta} {sortDec bf : Bool} {size : BatchSize} {n : Nat} {s s' : Option Nat} (hb : Limits size n s) {recs : List (κ × List (List Int))} {out : List Batch}
    (h : BatchesOf m sortDec bf n s' recs out) (hf : ∀ r ∈ recs, Full r ∧ r.2 ≠ []) {data : Data κ} (hd : data.len = recs.length)
    (hn : recs.length < 2 ^ 53) {k : Int} (hk : BatchIterable.numBatches size data = .ok k) : k ≤ out.length := by
  have h0 : 0 < n := by
    rcases Nat.eq_zero_or_pos n with h0 | h0
    · rw [(C90_value hb data).1 h0] at hk; cases hk
    · exact h0
  rw [(C90_value hb data).2 h0 (by omega)] at hk
  injection hk with hk
  obtain ⟨gs, g1, g2⟩ := h
  have hfil : recs.filter (fun r => decide (Full r)) = recs := List.filter_eq_self.2 fun r hr => by simpa using (hf r hr).1
  rw [hfil] at g1
  have hlen : gs.flatten.length ≤ gs.length * n := by
    have key : ∀ {gs : List (List (κ × List (List Int)))}, (∀ g ∈ gs, g.length ≤ n) → gs.flatten.length ≤ gs.length * n := by
      intro gs
      induction gs with
      | nil => simp
      | cons g gs ih =>
        intro hg
        have := ih fun g hg' => hg g (List.mem_cons_of_mem _ hg')
        have h1 := hg g List.mem_cons_self
        rw [List.flatten_cons, List.length_append, List.length_cons, Nat.succ_mul]
        omega
    apply key
    intro g hg
    obtain ⟨i, hi, rfl⟩ := List.mem_iff_getElem.1 hg
    rw [List.forall₂_iff_get] at g2
    obtain ⟨k1, k2, _⟩ := g2.2 i hi (by rw [← g2.1]; exact hi)
    simp only [List.get_eq_getElem] at k1 k2
    obtain ⟨r, hr⟩ := List.exists_mem_of_ne_nil _ k1
    have hrr : r ∈ recs := g1.subset (List.mem_flatten.2 ⟨_, hg, hr⟩)
    obtain ⟨c, hc⟩ := List.exists_mem_of_ne_nil _ (hf r hrr).2
    have h1 := k2 r hr c hc
    have h2 : 1 ≤ c.length := List.length_pos_iff.2 ((hf r hrr).1 c hc)
    exact le_trans (Nat.le_mul_of_pos_right _ h2) h1
  rw [g1.length_eq, g2.length_eq] at hlen
  rw [← hk, hd]
  have : (recs.length + n - 1) / n ≤ out.length := by
    rw [Nat.div_le_iff_le_mul_add_pred h0]
    rw [Nat.mul_comm]
    omega
  exact_mod_cast this

/-- records, and the chance that changes nothing, for the examples -/
def exPairs : List (Nat × List (List Int)) := [(0, [[11, 12], [13, 14]]), (1, [[15, 16], [17, 18]]), (2, [[19, 20], [21, 22]])]
/-- see `exPairs` -/
def exChance : Chance Nat := ⟨fun _ l => l, fun _ l => l, fun l => l, fun _ l => l, fun _ l => l⟩
/-- batches of the records in a file -/
def exIter (size : BatchSize) (sortBy : Option Str) (recs : List (Nat × List (List Int))) : Option (Nat × Nat × Option Exc) :=
  match Db.create 4 [lit "x", lit "y"] recs with
  | .error _ => none
  | .ok db => match BatchIterable.init false (.file (.ok db)) sortBy false with
    | .error _ => none
    | .ok data =>
      let g := BatchIterable.iter exMeta false true size sortBy exChance none data
      some (data.len, g.out.length, g.exc)

theorem exIter_spec {size : BatchSize} {sortBy : Option Str} {recs : List (Nat × List (List Int))} {n k : Nat} {e : Option Exc} (h : exIter size sortBy recs = some (n, k, e)) :
    ∃ db data, Db.create 4 [lit "x", lit "y"] recs = .ok db ∧ BatchIterable.init false (.file (.ok db)) sortBy false = .ok data ∧ data.len = n ∧
      (BatchIterable.iter exMeta false true size sortBy exChance none data).out.length = k ∧
      (BatchIterable.iter exMeta false true size sortBy exChance none data).exc = e := by
  unfold exIter at h
  cases h1 : Db.create 4 [lit "x", lit "y"] recs with
  | error e => rw [h1] at h; cases h
  | ok db =>
    rw [h1] at h
    simp only at h
    cases h2 : BatchIterable.init false (.file (.ok db)) sortBy false with
    | error e => rw [h2] at h; cases h
    | ok data =>
      rw [h2] at h
      simp only [Option.some.injEq, Prod.mk.injEq] at h
      exact ⟨db, data, rfl, h2, h⟩

/-- C90 refuted: three records of two tokens a side, at most four tokens a batch: one batch is predicted, two are made, in both modes. -/
theorem C90_refuted {sortBy : Option Str} (hs : sortBy = none ∨ sortBy = some (lit "eq_len_rand_batch")) :
    ∃ db data, Db.create 4 [lit "x", lit "y"] exPairs = .ok db ∧ BatchIterable.init false (.file (.ok db)) sortBy false = .ok data ∧
      BatchIterable.numBatches (.toks 4) data = .ok 1 ∧ (BatchIterable.iter exMeta false true (.toks 4) sortBy exChance none data).out.length = 2 ∧
      (BatchIterable.iter exMeta false true (.toks 4) sortBy exChance none data).exc = none := by
  have h : exIter (.toks 4) sortBy exPairs = some (3, 2, none) := by
    rcases hs with rfl | rfl <;> decide +kernel
  obtain ⟨db, data, h1, h2, h3, h4, h5⟩ := exIter_spec h
  refine ⟨db, data, h1, h2, ?_, h4, h5⟩
  rw [(C90_value (.toks 4) data).2 (by decide) (by rw [h3]; decide), h3]
  rfl

/-- C90 refuted: it is not a lower bound either, as records with an empty side are counted but not put into batches. -/
theorem C90_skipped_refuted : ∃ db data, Db.create 4 [lit "x", lit "y"] [((0 : Nat), [[1], []]), (1, [[], [2]]), (2, [[3], [4]])] = .ok db ∧
    BatchIterable.init false (.file (.ok db)) none false = .ok data ∧ BatchIterable.numBatches (.toks 1) data = .ok 3 ∧
      (BatchIterable.iter exMeta false true (.toks 1) none exChance none data).out.length = 1 ∧
      (BatchIterable.iter exMeta false true (.toks 1) none exChance none data).exc = none := by
  have h : exIter (.toks 1) none [((0 : Nat), [[1], []]), (1, [[], [2]]), (2, [[3], [4]])] = some (3, 1, none) := by decide +kernel
  obtain ⟨db, data, h1, h2, h3, h4, h5⟩ := exIter_spec h
  refine ⟨db, data, h1, h2, ?_, h4, h5⟩
  rw [(C90_value (.toks 1) data).2 (by decide) (by rw [h3]; decide), h3]
  rfl

/-- the hypotheses of `C91_file_partial` and `C90_lower_partial` -/
example : Exact exPairs ∧ (∀ r ∈ exPairs, Full r ∧ r.2 ≠ []) ∧ (∀ r ∈ exPairs, Full r → ¬ Oversized 4 r ∧ Markable exMeta r) ∧ Chance.Fair exChance ∧
    lit "x" ≠ lit "y" := by
  refine ⟨by unfold Exact exPairs; decide, by unfold Full exPairs; decide, ?_, ?_, by decide⟩
  · intro r hr _
    constructor
    · unfold Oversized
      revert r
      unfold exPairs
      decide
    · intro c
      simp only [exPairs, List.mem_cons, List.not_mem_nil, or_false] at hr
      rcases hr with rfl | rfl | rfl <;>
        exact ⟨fun h => by simp only [List.getElem?_cons_zero, Option.some.injEq] at h; subst h; decide,
          fun h => by simp only [List.getElem?_cons_succ, List.getElem?_cons_zero, Option.some.injEq] at h; subst h; decide⟩
  · exact ⟨fun _ l => .refl l, fun _ l => .refl l, fun l => .refl l, fun _ l => .refl l, fun _ l => .refl l⟩

/-- two parts in a directory -/
example : (match createFx exEnv false 2 1001 [lit "x", lit "y"] exPairs none with
    | ⟨fx, _⟩ => match runFx fx none with
      | none => none
      | some d => match BatchIterable.init true (.dir d) (some (lit "eq_len_rand_batch")) false with
        | .error _ => none
        | .ok data =>
          let g := BatchIterable.iter exMeta false true (.toks 4) (some (lit "eq_len_rand_batch")) exChance (some d) data
          let g' := BatchIterable.iter exMeta false true (.toks 4) none exChance (some d) data
          some (g.out.map (·.1.x.seqs), g.exc, g'.out.map (·.1.x.seqs), g'.exc)) =
    some ([[[19, 20, 2]], [[11, 12, 2], [15, 16, 2]]], none, [[[19, 20, 2], [11, 12, 2]], [[15, 16, 2]]], none) := by decide +kernel

/-- a prediction that is right, and 2^53 + 1 items: in binary64 the item too many is lost -/
example : exIter (.toks 4) none [((0 : Nat), [[1, 2, 3, 4], [5]])] = some (1, 1, none) ∧ ⌈rnd64 (((2 ^ 53 + 1 : ℕ) : ℚ) / ((2 ^ 52 : ℕ) : ℚ))⌉ = 2 ∧
    (2 ^ 53 + 1 + 2 ^ 52 - 1) / 2 ^ 52 = 3 := by
  refine ⟨by decide +kernel, by decide +kernel, by decide⟩

/-- the paths of `C91_refused` and `C91_str_refuted` -/
example : (match BatchIterable.init true (.special : AtPath Nat) none false with | .error e => some e | .ok _ => none) = some .exception ∧
    (match BatchIterable.init false (.special : AtPath Nat) none false with | .error e => some e | .ok _ => none) = some .attr := by decide +kernel

omit [DecidableEq κ] in
/-- C90, `val_exists_at`: on a known side and at a known end, with a nonempty sequence, the marker is put there if it is wanted and not
there; the other side is untouched.  A marker that is not wanted stays (it is only logged), unlike in a batch (C50). -/
theorem C90_marker (pos : Int) (exist : Bool) (val : Int) (e : IdEx κ) :
    (e.x ≠ [] → (pos = 0 → e.valExistsAt (lit "x") pos exist val = .ok { e with x := marked exist false val val e.x }) ∧
      (pos = -1 → e.valExistsAt (lit "x") pos exist val = .ok { e with x := marked false exist val val e.x })) ∧
    (∀ y, e.y = some y → y ≠ [] →
      (pos = 0 → e.valExistsAt (lit "y") pos exist val = .ok { e with y := some (marked exist false val val y) }) ∧
      (pos = -1 → e.valExistsAt (lit "y") pos exist val = .ok { e with y := some (marked false exist val val y) })) := by
  have key : ∀ s : List Int, s ≠ [] → valAt 0 exist val s = .ok (marked exist false val val s) ∧ valAt (-1) exist val s = .ok (marked false exist val val s) := by
    intro s hs
    constructor
    · obtain ⟨a, s, rfl⟩ := List.exists_cons_of_ne_nil hs
      cases exist <;> simp [valAt, marked]
      split <;> simp
    · rcases List.eq_nil_or_concat s with rfl | ⟨t, a, rfl⟩
      · exact absurd rfl hs
      · cases exist <;> simp [valAt, marked]
        split <;> simp
  have hxy : lit "y" ≠ lit "x" := by decide
  refine ⟨fun hx => ⟨?_, ?_⟩, fun y hy hne => ⟨?_, ?_⟩⟩
  · rintro rfl
    simp [IdEx.valExistsAt, (key e.x hx).1]
  · rintro rfl
    simp [IdEx.valExistsAt, (key e.x hx).2]
  · rintro rfl
    simp [IdEx.valExistsAt, hxy, hy, (key y hne).1]
  · rintro rfl
    simp [IdEx.valExistsAt, hxy, hy, (key y hne).2]

omit [DecidableEq κ] in
/-- C90, `val_exists_at`: everything else is refused: other sides, other ends, empty sequences, and a target that is not there. -/
theorem C90_marker_refused (side : Str) (pos : Int) (exist : Bool) (val : Int) (e : IdEx κ) :
    (e.valExistsAt side pos exist val = .error .assertion ↔ (side ≠ lit "x" ∧ side ≠ lit "y") ∨ (pos ≠ 0 ∧ pos ≠ -1)) ∧
    ((pos = 0 ∨ pos = -1) → (e.x = [] → e.valExistsAt (lit "x") pos exist val = .error .index) ∧
      (e.y = none → e.valExistsAt (lit "y") pos exist val = .error .type) ∧ (e.y = some [] → e.valExistsAt (lit "y") pos exist val = .error .index)) := by
  have hne : ∀ s, valAt pos exist val s ≠ .error .assertion := by
    intro s
    unfold valAt
    repeat' split
    all_goals simp
  have hxy : lit "y" ≠ lit "x" := by decide
  constructor
  · unfold IdEx.valExistsAt
    split
    · rename_i h; rw [not_or] at h; simp [h]
    · rename_i h
      rw [not_not] at h
      have h' : ¬ (side ≠ lit "x" ∧ side ≠ lit "y") := by rintro ⟨a, b⟩; rcases h with h | h <;> contradiction
      split
      · rename_i h2; rw [not_or] at h2; simp [h2]
      · rename_i h2
        rw [not_not] at h2
        have h2' : ¬ (pos ≠ 0 ∧ pos ≠ -1) := by rintro ⟨a, b⟩; rcases h2 with h | h <;> contradiction
        have hf : ¬ ((side ≠ lit "x" ∧ side ≠ lit "y") ∨ (pos ≠ 0 ∧ pos ≠ -1)) := by rintro (h | h) <;> contradiction
        simp only [hf, iff_false]
        have h1 := hne e.x
        split
        · split
          · rename_i err he; intro hh; injection hh with hh; subst hh; exact h1 he
          · intro hh; cases hh
        · split
          · intro hh; cases hh
          · rename_i y _
            have h3 := hne y
            split
            · rename_i err he; intro hh; injection hh with hh; subst hh; exact h3 he
            · intro hh; cases hh
  · intro hp
    have hp' : ¬ ¬ (pos = 0 ∨ pos = -1) := by rw [not_not]; exact hp
    refine ⟨fun hx => ?_, fun hy => ?_, fun hy => ?_⟩
    · simp only [IdEx.valExistsAt, true_or, not_true, if_false, if_neg hp', hx]
      simp [valAt]
    · simp [IdEx.valExistsAt, hp, hxy, hy]
    · simp only [IdEx.valExistsAt, or_true, not_true, if_false, if_neg hp', hy, if_neg hxy]
      simp [valAt]

example : (match ({ id := 0, x := [7, 8], y := some [9] } : IdEx Nat).valExistsAt (lit "x") (-1) true 2 with | .ok e => some (e.x, e.y) | .error _ => none) =
      some ([7, 8, 2], some [9]) ∧
    (match ({ id := 0, x := [7, 8], y := some [9] } : IdEx Nat).valExistsAt (lit "y") 0 false 9 with | .ok e => some (e.x, e.y) | .error _ => none) =
      some ([7, 8], some [9]) := by decide +kernel

end Verif
