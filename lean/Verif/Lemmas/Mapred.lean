import Verif.Model.Mapred
import Verif.Lemmas.Dict
import Verif.Lemmas.Multipart
/-! # Lemmas on map-reduce -/

namespace Verif

/-! ## The lazy reducer -/

/-- join neighbours -/
def pairsOf {α : Type} : List (List α) → List (List α)
  | [] => []
  | [a] => [a]
  | a :: b :: t => (a ++ b) :: pairsOf t

theorem pairsOf_flatten {α : Type} : ∀ l : List (List α), (pairsOf l).flatten = l.flatten
  | [] => rfl
  | [a] => rfl
  | a :: b :: t => by simp [pairsOf, pairsOf_flatten t]

theorem pairsOf_length {α : Type} : ∀ l : List (List α), (pairsOf l).length = (l.length + 1) / 2
  | [] => by simp [pairsOf]
  | [a] => by simp [pairsOf]
  | a :: b :: t => by simp only [pairsOf, List.length_cons, pairsOf_length t]; omega

section
variable {σ V β : Type}

/-- `Rep ls bs live rem`: the stack of levels over the remaining input holds the values of `live`, each with the part of the input it
stands for, and will yield values for the parts `rem` -/
def Rep : List (Level V) → List β → List (V × List β) → List (List β) → Prop
  | [], bs, live, rem => live = [] ∧ rem = bs.map fun b => [b]
  | l :: ls, bs, live, rem => ∃ live0 rem0, Rep ls bs live0 rem0 ∧
      (l.fin = true → rem0 = []) ∧ (l.fin = false → l.st.idx % 2 = 0 ∧ 2 ≤ l.st.idx + rem0.length) ∧
      ((l.chain = none ∧ live = live0 ∧ rem = pairsOf rem0) ∨ ∃ v r, l.chain = some v ∧ live = (v, r) :: live0 ∧ rem = r :: pairsOf rem0)

theorem Rep.nil_live : ∀ {ls : List (Level V)} {bs : List β} {live : List (V × List β)}, Rep ls bs live [] → live = []
  | [], _, _, h => h.1
  | l :: ls, bs, live, h => by
    obtain ⟨live0, rem0, h1, _, _, h4 | ⟨v, r, _, _, h4⟩⟩ := h
    · obtain ⟨_, rfl, h5⟩ := h4
      have : rem0 = [] := by
        cases rem0 with
        | nil => rfl
        | cons a t => cases t <;> simp [pairsOf] at h5
      subst this
      exact h1.nil_live
    · cases h4

/-- what functions keep true: `I s live` says that in state `s` the values of `live` stand for their parts of the input -/
structure Keeps (I : σ → List (V × List β) → Prop) (f : σ → V → V → σ × V) (g : σ → β → σ × V) (dflt : V) : Prop where
  perm : ∀ {s L L'}, I s L → L.Perm L' → I s L'
  step : ∀ {s a b p q L}, I s ((a, p) :: (b, q) :: L) → I (f s a b).1 (((f s a b).2, p ++ q) :: L)
  odd : ∀ {s a p L}, I s ((a, p) :: L) → I (f s a dflt).1 (((f s a dflt).2, p) :: L)
  new : ∀ {s b L}, I s L → I (g s b).1 (((g s b).2, [b]) :: L)

variable {I : σ → List (V × List β) → Prop} {f : σ → V → V → σ × V} {g : σ → β → σ × V} {dflt : V}

/-- the next item of the pair generator when the source behaves -/
theorem pairNext_spec (hI : Keeps I f g dflt) {ls : List (Level V)} {n : Nat}
    (ih : ∀ {ls' : List (Level V)} {bs : List β} {live rem F s}, ls'.length = ls.length → Rep ls' bs live rem → I s (live ++ F) →
      (rem = [] → ∃ ls1 bs1, pull f g dflt n ls' bs s = .stop ls1 bs1 s ∧ ls1.length = ls'.length ∧ Rep ls1 bs1 [] []) ∧
      (∀ r rem', rem = r :: rem' → ∃ v ls1 bs1 s1 live1, pull f g dflt n ls' bs s = .item v ls1 bs1 s1 ∧ ls1.length = ls'.length ∧
        Rep ls1 bs1 live1 rem' ∧ I s1 ((v, r) :: live1 ++ F)))
    {st : PairSt V} (heven : st.idx % 2 = 0) {bs : List β} {live rem F} {s : σ} (hr : Rep ls bs live rem) (hs : I s (live ++ F)) :
    (rem = [] → 2 ≤ st.idx → ∃ ls1 bs1, pairNext f dflt (pull f g dflt n) 3 st ls bs s = .stop ls1 bs1 s ∧ ls1.length = ls.length + 1 ∧ Rep ls1 bs1 [] []) ∧
    (rem = [] → st.idx = 0 → pairNext f dflt (pull f g dflt n) 3 st ls bs s = .raise (some .assertion) s) ∧
    (∀ r, rem = [r] → st.idx = 0 → ∃ v s1, pairNext f dflt (pull f g dflt n) 3 st ls bs s = .raise (some (.singleton v)) s1 ∧ I s1 ((v, r) :: F)) ∧
    (∀ r rem', pairsOf rem = r :: rem' → 2 ≤ st.idx + rem.length → ∃ v l1 ls1 bs1 s1 live1, pairNext f dflt (pull f g dflt n) 3 st ls bs s = .item v (l1 :: ls1) bs1 s1 ∧
      ls1.length = ls.length ∧ l1.chain = none ∧ Rep (l1 :: ls1) bs1 live1 rem' ∧ I s1 ((v, r) :: live1 ++ F)) := by
  have hodd : (st.idx + 1) % 2 ≠ 0 := by omega
  have heven2 : (st.idx + 1 + 1) % 2 = 0 := by omega
  refine ⟨?_, ?_, ?_, ?_⟩
  · intro hrem h2
    obtain ⟨ls1, bs1, h3, h4, h5⟩ := (ih rfl hr hs).1 hrem
    refine ⟨⟨none, st, true⟩ :: ls1, bs1, ?_, by simp [h4], ⟨[], [], h5, fun _ => rfl, by simp, Or.inl ⟨rfl, rfl, rfl⟩⟩⟩
    have hf : st.finish dflt true = .stop := by
      simp only [PairSt.finish, Bool.true_and, decide_eq_true_eq, show ¬ ¬ 0 < st.idx by omega, if_false, show ¬ st.idx = 1 by omega,
        show ¬ st.idx % 2 = 1 by omega]
    simp only [pairNext, h3, hf]
  · intro hrem h0
    obtain ⟨ls1, bs1, h3, _⟩ := (ih rfl hr hs).1 hrem
    have hf : st.finish dflt true = .raise .assertion := by
      simp only [PairSt.finish, Bool.true_and, decide_eq_true_eq, h0]
      rfl
    simp only [pairNext, h3, hf]
  · intro r hrem h0
    obtain ⟨v, ls1, bs1, s1, live1, h3, h4, h5, h6⟩ := (ih rfl hr hs).2 r [] hrem
    obtain ⟨ls2, bs2, k3, _, _⟩ := (ih (F := (v, r) :: F) h4 h5 (hI.perm h6 (by
      rw [List.cons_append]; exact List.perm_middle.symm))).1 rfl
    refine ⟨v, s1, ?_, by have := h5.nil_live; subst this; exact h6⟩
    have hf : (PairSt.mk (st.idx + 1) v).finish dflt true = .raise (.singleton v) := by
      simp [PairSt.finish, h0]
    simp only [pairNext, h3, PairSt.feed, hodd, if_false, k3, hf]
  · intro r rem' hpr h2
    match rem, hpr, h2, hr with
    | [], hpr, _, _ => simp [pairsOf] at hpr
    | [r1], hpr, h2, hr =>
      simp only [pairsOf, List.cons.injEq] at hpr
      obtain ⟨rfl, rfl⟩ := hpr
      obtain ⟨v, ls1, bs1, s1, live1, h3, h4, h5, h6⟩ := (ih rfl hr hs).2 r1 [] rfl
      obtain ⟨ls2, bs2, k3, k4, k5⟩ := (ih (F := (v, r1) :: F) h4 h5 (hI.perm h6 (by
        rw [List.cons_append]; exact List.perm_middle.symm))).1 rfl
      have hl1 := h5.nil_live
      subst hl1
      refine ⟨_, ⟨none, ⟨st.idx + 1, v⟩, true⟩, ls2, bs2, _, [], ?_, by omega, rfl, ⟨[], [], k5, fun _ => rfl, by simp, Or.inl ⟨rfl, rfl, rfl⟩⟩, hI.odd h6⟩
      have hf : (PairSt.mk (st.idx + 1) v).finish dflt true = .last (v, dflt) := by
        simp only [PairSt.finish, Bool.true_and, decide_eq_true_eq, show ¬ ¬ 0 < st.idx + 1 by omega, if_false,
          show ¬ st.idx + 1 = 1 by simp at h2; omega, show (st.idx + 1) % 2 = 1 by omega, if_true]
      simp only [pairNext, h3, PairSt.feed, hodd, if_false, k3, hf]
    | r1 :: r2 :: t, hpr, h2, hr =>
      simp only [pairsOf, List.cons.injEq] at hpr
      obtain ⟨rfl, rfl⟩ := hpr
      obtain ⟨v, ls1, bs1, s1, live1, h3, h4, h5, h6⟩ := (ih rfl hr hs).2 r1 (r2 :: t) rfl
      obtain ⟨w, ls2, bs2, s2, live2, k3, k4, k5, k6⟩ := (ih (F := (v, r1) :: F) h4 h5 (hI.perm h6 (by
        rw [List.cons_append]; exact List.perm_middle.symm))).2 r2 t rfl
      have k7 : I s2 ((v, r1) :: (w, r2) :: (live2 ++ F)) := hI.perm k6 (by
        rw [List.cons_append]
        exact ((List.perm_middle (l₁ := live2)).cons _).trans (List.Perm.swap _ _ _))
      refine ⟨_, ⟨none, ⟨st.idx + 1 + 1, w⟩, false⟩, ls2, bs2, _, live2, ?_, by omega, rfl,
        ⟨live2, t, k5, by simp, fun _ => ⟨heven2, by simp only; omega⟩, Or.inl ⟨rfl, rfl, rfl⟩⟩, hI.step k7⟩
      simp only [pairNext, h3, PairSt.feed, hodd, if_false, k3, heven2, if_true]

/-- asking the top of a stack for an item -/
theorem pull_spec (hI : Keeps I f g dflt) : ∀ (n : Nat) {ls : List (Level V)} {bs : List β} {live rem F} {s : σ}, ls.length ≤ n → Rep ls bs live rem →
    I s (live ++ F) →
    (rem = [] → ∃ ls1 bs1, pull f g dflt n ls bs s = .stop ls1 bs1 s ∧ ls1.length = ls.length ∧ Rep ls1 bs1 [] []) ∧
    (∀ r rem', rem = r :: rem' → ∃ v ls1 bs1 s1 live1, pull f g dflt n ls bs s = .item v ls1 bs1 s1 ∧ ls1.length = ls.length ∧
      Rep ls1 bs1 live1 rem' ∧ I s1 ((v, r) :: live1 ++ F)) := by
  have hbase : ∀ (n : Nat) {bs : List β} {live rem F} {s : σ}, Rep ([] : List (Level V)) bs live rem → I s (live ++ F) →
      (rem = [] → ∃ ls1 bs1, pull f g dflt n [] bs s = .stop ls1 bs1 s ∧ ls1.length = ([] : List (Level V)).length ∧ Rep ls1 bs1 [] []) ∧
      (∀ r rem', rem = r :: rem' → ∃ v ls1 bs1 s1 live1, pull f g dflt n [] bs s = .item v ls1 bs1 s1 ∧ ls1.length = ([] : List (Level V)).length ∧
        Rep ls1 bs1 live1 rem' ∧ I s1 ((v, r) :: live1 ++ F)) := by
    intro n bs live rem F s hr hs
    obtain ⟨rfl, rfl⟩ := hr
    constructor
    · intro h
      have hbs : bs = [] := by simpa using h
      subst hbs
      cases n <;> exact ⟨[], [], by simp only [pull], rfl, rfl, rfl⟩
    · intro r rem' h
      cases bs with
      | nil => simp at h
      | cons b bs =>
        simp only [List.map_cons, List.cons.injEq] at h
        obtain ⟨rfl, rfl⟩ := h
        cases n <;> exact ⟨_, [], bs, _, [], by simp only [pull], rfl, ⟨rfl, rfl⟩, hI.new hs⟩
  intro n
  induction n with
  | zero =>
    intro ls bs live rem F s hn hr hs
    have : ls = [] := List.length_eq_zero_iff.1 (by omega)
    subst this
    exact hbase 0 hr hs
  | succ n ih =>
    intro ls bs live rem F s hn hr hs
    cases ls with
    | nil => exact hbase (n + 1) hr hs
    | cons l ls =>
      obtain ⟨live0, rem0, h1, h2, h3, h4⟩ := hr
      simp only [List.length_cons, Nat.add_le_add_iff_right] at hn
      rcases h4 with ⟨hc, rfl, rfl⟩ | ⟨v, r, hc, rfl, rfl⟩
      · cases hf : l.fin with
        | true =>
          have := h2 hf
          subst this
          have hl := h1.nil_live
          subst hl
          constructor
          · intro _
            refine ⟨l :: ls, bs, ?_, rfl, [], [], h1, h2, h3, Or.inl ⟨hc, rfl, rfl⟩⟩
            simp only [pull, hc, hf, if_true]
          · intro r rem' h
            simp [pairsOf] at h
        | false =>
          obtain ⟨he, h5⟩ := h3 hf
          have key := pairNext_spec (ls := ls) (n := n) hI (fun hlen hr' hs' => ih (by omega) hr' hs') he h1 hs
          have heq : pull f g dflt (n + 1) (l :: ls) bs s = pairNext f dflt (pull f g dflt n) 3 l.st ls bs s := by
            simp only [pull, hc, hf]
            rfl
          rw [heq]
          constructor
          · intro h
            have hr0 : rem0 = [] := by
              cases rem0 with
              | nil => rfl
              | cons a t => cases t <;> simp [pairsOf] at h
            subst hr0
            obtain ⟨ls1, bs1, k1, k2, k3⟩ := key.1 rfl (by simpa using h5)
            exact ⟨ls1, bs1, k1, by simpa using k2, k3⟩
          · intro r rem' h
            obtain ⟨v, l1, ls1, bs1, s1, live1, k1, k2, _, k4, k5⟩ := key.2.2.2 r rem' h h5
            exact ⟨v, l1 :: ls1, bs1, s1, live1, k1, by simp [k2], k4, k5⟩
      · constructor
        · intro h; cases h
        · intro r' rem' h
          simp only [List.cons.injEq] at h
          obtain ⟨rfl, rfl⟩ := h
          refine ⟨v, ⟨none, l.st, l.fin⟩ :: ls, bs, s, live0, ?_, rfl, ⟨live0, rem0, h1, h2, h3, Or.inl ⟨rfl, rfl, rfl⟩⟩, hs⟩
          simp only [pull, hc]

/-- the loop of the reducer -/
theorem reduceLoop_spec (none_ : V) (hI : Keeps I f g dflt) : ∀ (k : Nat) {ls : List (Level V)} {bs : List β} {live rem} {s : σ}, Rep ls bs live rem →
    I s live → rem ≠ [] → rem.length ≤ k → ∃ s1 v, reduceLoop none_ f g dflt k ls bs s = (s1, .ok v) ∧ I s1 [(v, rem.flatten)] := by
  intro k
  induction k with
  | zero => intro ls bs live rem s _ _ hne hlen; exact absurd (List.length_eq_zero_iff.1 (by omega)) hne
  | succ k ih =>
    intro ls bs live rem s hr hs hne hlen
    have key := pairNext_spec (ls := ls) (n := ls.length) (st := ⟨0, none_⟩) (F := []) hI (fun hl hr' hs' => pull_spec hI _ (by omega) hr' hs') rfl hr (by simpa using hs)
    have heq : pull f g dflt (ls.length + 1) (⟨none, ⟨0, none_⟩, false⟩ :: ls) bs s = pairNext f dflt (pull f g dflt ls.length) 3 ⟨0, none_⟩ ls bs s := by
      simp only [pull]
      rfl
    simp only [reduceLoop, heq]
    match rem, hne, hlen, hr, key with
    | [r], _, _, _, key =>
      obtain ⟨v, s1, k1, k2⟩ := key.2.2.1 r rfl rfl
      exact ⟨s1, v, by rw [k1], by simpa using k2⟩
    | r1 :: r2 :: t, _, hlen, _, key =>
      obtain ⟨v, l1, ls1, bs1, s1, live1, k1, k2, k3, k4, k5⟩ := key.2.2.2 (r1 ++ r2) (pairsOf t) rfl (by simp)
      rw [k1]
      simp only
      obtain ⟨live0, rem0, h1, h2, h3, h4⟩ := k4
      have hr' : Rep (⟨some v, l1.st, l1.fin⟩ :: ls1) bs1 ((v, r1 ++ r2) :: live1) ((r1 ++ r2) :: pairsOf t) := by
        refine ⟨live0, rem0, h1, h2, h3, Or.inr ⟨v, r1 ++ r2, rfl, ?_, ?_⟩⟩
        · rcases h4 with ⟨_, h, _⟩ | ⟨_, _, h, _⟩
          · rw [h]
          · rw [k3] at h; cases h
        · rcases h4 with ⟨_, _, h⟩ | ⟨_, _, h, _⟩
          · rw [h]
          · rw [k3] at h; cases h
      obtain ⟨s2, w, j1, j2⟩ := ih hr' (by simpa using k5) (by simp) (by
        have := pairsOf_length t
        simp only [List.length_cons] at hlen ⊢
        omega)
      refine ⟨s2, w, j1, ?_⟩
      have : ((r1 ++ r2) :: pairsOf t).flatten = (r1 :: r2 :: t).flatten := pairsOf_flatten (r1 :: r2 :: t)
      rwa [this] at j2

/-- the whole of map-reduce -/
theorem mapReduce_spec (none_ : V) (hI : Keeps I f g dflt) {input : List β} (hne : input ≠ []) {s : σ} (hs : I s []) :
    ∃ s1 v, mapReduce none_ g f dflt input s = (s1, .ok v) ∧ I s1 [(v, input)] := by
  obtain ⟨s1, v, h1, h2⟩ := reduceLoop_spec none_ hI (input.length + 1) (ls := []) (bs := input) ⟨rfl, rfl⟩ hs (by simpa using hne) (by simp)
  refine ⟨s1, v, h1, ?_⟩
  have : (input.map fun b => [b]).flatten = input := by
    rw [← List.flatMap_def]
    exact List.flatMap_pure_eq_map id input |>.trans (List.map_id input)
  rwa [this] at h2

theorem mapReduce_nil (none_ : V) (f : σ → V → V → σ × V) (g : σ → β → σ × V) (dflt : V) (s : σ) :
    mapReduce none_ g f dflt [] s = (s, .error .assertion) := by
  simp [mapReduce, reduceLoop, pull, pairNext, PairSt.finish]

end

/-! ## Merging counts -/

theorem cnt_mergeInto (dump keep : Dict Str Int) (hn : (Dict.keys dump).Nodup) (w : Str) :
    Dict.cnt (mergeInto keep dump) w = Dict.cnt keep w + Dict.cnt dump w := by
  induction dump generalizing keep with
  | nil => simp [mergeInto, Dict.cnt]
  | cons kv dump ih =>
    simp only [Dict.keys, List.map_cons, List.nodup_cons] at hn
    have h1 : mergeInto keep (kv :: dump) = mergeInto (Dict.incr keep kv.1 kv.2) dump := rfl
    rw [h1, ih _ hn.2, Dict.cnt_incr]
    obtain ⟨k, v⟩ := kv
    simp only [Dict.cnt, Dict.get?_cons]
    split
    · rename_i h
      have : Dict.get? dump w = none := by
        rw [Dict.get?_eq_none_iff]
        rw [← h]; exact hn.1
      simp [this]
    · simp

theorem keys_mergeInto (dump keep : Dict Str Int) (w : Str) : w ∈ Dict.keys (mergeInto keep dump) ↔ w ∈ Dict.keys keep ∨ w ∈ Dict.keys dump := by
  induction dump generalizing keep with
  | nil => simp [mergeInto, Dict.keys]
  | cons kv dump ih =>
    have h1 : mergeInto keep (kv :: dump) = mergeInto (Dict.incr keep kv.1 kv.2) dump := rfl
    rw [h1, ih, Dict.mem_keys_incr]
    have h2 : Dict.keys (kv :: dump) = kv.1 :: Dict.keys dump := rfl
    rw [h2, List.mem_cons]
    tauto

theorem nodup_mergeInto (dump keep : Dict Str Int) (h : (Dict.keys keep).Nodup) : (Dict.keys (mergeInto keep dump)).Nodup := by
  induction dump generalizing keep with
  | nil => exact h
  | cons kv dump ih =>
    have h1 : mergeInto keep (kv :: dump) = mergeInto (Dict.incr keep kv.1 kv.2) dump := rfl
    rw [h1]
    exact ih _ (Dict.nodup_keys_incr h _ _)

/-- number of occurrences of a word in lines -/
def occ (lines : List Str) (w : Str) : Nat := (lines.map fun l => (split l).count w).sum

theorem occ_append (a b : List Str) (w : Str) : occ (a ++ b) w = occ a w + occ b w := by simp [occ]

/-- a dictionary holds exactly the counts of the lines -/
def Counts (d : Dict Str Int) (lines : List Str) : Prop :=
  (Dict.keys d).Nodup ∧ (∀ w, Dict.cnt d w = occ lines w) ∧ ∀ w, w ∈ Dict.keys d ↔ 0 < occ lines w

theorem Counts.line (l : Str) : Counts (wordCountLine l) [l] := by
  refine ⟨Dict.nodup_keys_count (by simp [Dict.keys]) _, fun w => ?_, fun w => ?_⟩
  · rw [wordCountLine, Dict.cnt_count]
    simp [Dict.cnt, occ]
  · rw [wordCountLine, Dict.mem_keys_count]
    simp [occ, Dict.keys, List.count_pos_iff]

theorem Counts.merge {d e : Dict Str Int} {a b : List Str} (h : Counts d a) (h' : Counts e b) : Counts (mergeInto d e) (a ++ b) := by
  refine ⟨nodup_mergeInto _ _ h.1, fun w => ?_, fun w => ?_⟩
  · rw [cnt_mergeInto _ _ h'.1, h.2.1, h'.2.1, occ_append]
    push_cast; rfl
  · rw [keys_mergeInto, h.2.2, h'.2.2, occ_append]
    omega

theorem Counts.swap {d : Dict Str Int} {a b : List Str} (h : Counts d (b ++ a)) : Counts d (a ++ b) := by
  have : ∀ w, occ (b ++ a) w = occ (a ++ b) w := fun w => by rw [occ_append, occ_append]; omega
  exact ⟨h.1, fun w => by rw [← this]; exact h.2.1 w, fun w => by rw [← this]; exact h.2.2 w⟩

theorem Counts.nil : Counts [] [] := ⟨by simp [Dict.keys], fun w => by simp [Dict.cnt, occ], fun w => by simp [Dict.keys, occ]⟩

theorem Counts.mergeFreqs {d e : Dict Str Int} {a b : List Str} (h : Counts d a) (h' : Counts e b) : Counts (mergeFreqs d e) (a ++ b) := by
  unfold Verif.mergeFreqs
  split
  · exact (h'.merge h).swap
  · exact h.merge h'

/-- what holds of the heap while counting: the default dictionary is empty, the live references are distinct and hold the counts of
their lines -/
structure HeapInv (dflt : Nat) (h0 : Heap) (h : Heap) (live : List (Nat × List Str)) : Prop where
  dflt : h[dflt]? = some []
  old : ∀ i, i < h0.length → h[i]? = h0[i]?
  nodup : (live.map (·.1)).Nodup
  refs : ∀ p ∈ live, h0.length ≤ p.1 ∧ ∃ d, h[p.1]? = some d ∧ Counts d p.2

theorem heap_keeps {dflt : Nat} {h0 : Heap} (hd : dflt < h0.length) : Keeps (HeapInv dflt h0) mergeFreqsAt wordCountAt dflt where
  perm := by
    intro s L L' h hp
    exact ⟨h.dflt, h.old, (hp.map _).nodup_iff.1 h.nodup, fun p hm => h.refs p (hp.mem_iff.2 hm)⟩
  new := by
    intro s b L h
    have hlen : h0.length ≤ s.length := by
      by_contra hlt
      have := h.old s.length (by omega)
      rw [List.getElem?_eq_none (by omega), eq_comm, List.getElem?_eq_none_iff] at this
      omega
    refine ⟨?_, ?_, ?_, ?_⟩
    · rw [wordCountAt, List.getElem?_append_left (by omega)]; exact h.dflt
    · intro i hi
      rw [wordCountAt, List.getElem?_append_left (by omega)]; exact h.old i hi
    · simp only [List.map_cons, List.nodup_cons]
      refine ⟨?_, h.nodup⟩
      intro hm
      obtain ⟨p, hp, he⟩ := List.mem_map.1 hm
      obtain ⟨_, d, hpd, _⟩ := h.refs p hp
      have := (List.getElem?_eq_some_iff.1 hpd).1
      simp only [wordCountAt] at he
      omega
    · intro p hp
      rcases List.mem_cons.1 hp with rfl | hp
      · exact ⟨hlen, wordCountLine b, by simp [wordCountAt], Counts.line b⟩
      · obtain ⟨h1, d, h2, h3⟩ := h.refs p hp
        refine ⟨h1, d, ?_, h3⟩
        rw [wordCountAt, List.getElem?_append_left (List.getElem?_eq_some_iff.1 h2).1]
        exact h2
  step := by
    intro s a b p q L h
    obtain ⟨a1, da, a2, a3⟩ := h.refs (a, p) (by simp)
    obtain ⟨b1, db, b2, b3⟩ := h.refs (b, q) (by simp)
    have hn := h.nodup
    simp only [List.map_cons, List.nodup_cons, List.mem_cons, not_or] at hn
    obtain ⟨⟨hab, haL⟩, hbL, hL⟩ := hn
    have ga : s.getD a [] = da := by simp only at a2; rw [List.getD_eq_getElem?_getD, a2]; rfl
    have gb : s.getD b [] = db := by simp only at b2; rw [List.getD_eq_getElem?_getD, b2]; rfl
    have hset : ∀ (r : Nat) (d : Dict Str Int), h0.length ≤ r → r < s.length → r ∉ L.map (·.1) → Counts d (p ++ q) →
        HeapInv dflt h0 (s.set r d) ((r, p ++ q) :: L) := by
      intro r d hr hrs hrL hc
      refine ⟨?_, ?_, ?_, ?_⟩
      · rw [List.getElem?_set_ne (by omega)]; exact h.dflt
      · intro i hi
        rw [List.getElem?_set_ne (by omega)]; exact h.old i hi
      · simp only [List.map_cons, List.nodup_cons]
        exact ⟨hrL, hL⟩
      · intro x hx
        rcases List.mem_cons.1 hx with rfl | hx
        · exact ⟨hr, d, by simp [hrs], hc⟩
        · obtain ⟨x1, dx, x2, x3⟩ := h.refs x (by simp [hx])
          refine ⟨x1, dx, ?_, x3⟩
          rw [List.getElem?_set_ne (fun e => hrL (List.mem_map.2 ⟨x, hx, e.symm⟩))]
          exact x2
    simp only [mergeFreqsAt, ga, gb]
    split
    · exact hset b _ b1 (List.getElem?_eq_some_iff.1 b2).1 hbL (b3.merge a3).swap
    · exact hset a _ a1 (List.getElem?_eq_some_iff.1 a2).1 haL (a3.merge b3)
  odd := by
    intro s a p L h
    obtain ⟨a1, da, a2, a3⟩ := h.refs (a, p) (by simp)
    have ga : s.getD a [] = da := by simp only at a2; rw [List.getD_eq_getElem?_getD, a2]; rfl
    have gd : s.getD dflt [] = [] := by rw [List.getD_eq_getElem?_getD, h.dflt]; rfl
    have hm : mergeFreqsAt s a dflt = (s.set a da, a) := by
      simp only [mergeFreqsAt, ga, gd, mergeInto, List.length_nil, Nat.not_lt_zero, if_false, List.foldl_nil]
    have hs : s.set a da = s := by
      simp only at a2
      obtain ⟨hl, he⟩ := List.getElem?_eq_some_iff.1 a2
      rw [← he]
      exact List.set_getElem_self hl
    rw [hm, hs]
    exact h

/-! ## imap -/

section
variable {ρ : Type}

/-- the state after the results with indices `D` have arrived -/
structure IMapInv (R : List ρ) (D : List Nat) (st : IMap ρ) : Prop where
  items : st.items = R.take st.index
  le : st.index ≤ R.length
  nodup : (Dict.keys st.early).Nodup
  early : ∀ j, st.index ≤ j → Dict.get? st.early j = if j ∈ D then R[j]? else none
  past : ∀ j, j < st.index → Dict.get? st.early j = none ∧ j ∈ D

theorem take_succ_snoc {R : List ρ} {i : Nat} {r : ρ} (h : R[i]? = some r) : R.take i ++ [r] = R.take (i + 1) := by
  rw [List.take_add_one, h]; rfl

theorem IMapInv.drain {R : List ρ} {D : List Nat} (hD : ∀ j ∈ D, j < R.length) : ∀ (k : Nat) {st : IMap ρ}, IMapInv R D st → st.early.length ≤ k →
    IMapInv R D (IMap.drain k st) ∧ (IMap.drain k st).index ∉ D := by
  intro k
  induction k with
  | zero =>
    intro st h hk
    refine ⟨h, fun hm => ?_⟩
    have h1 := h.early st.index (le_refl _)
    have h2 : st.early = [] := List.length_eq_zero_iff.1 (by omega)
    simp only [IMap.drain] at hm
    rw [if_pos hm, h2, Dict.get?_nil, List.getElem?_eq_getElem (hD _ hm)] at h1
    cases h1
  | succ k ih =>
    intro st h hk
    simp only [IMap.drain]
    cases he : Dict.get? st.early st.index with
    | none =>
      refine ⟨h, fun hm => ?_⟩
      have h1 := h.early st.index (le_refl _)
      simp only at hm
      rw [if_pos hm, he, List.getElem?_eq_getElem (hD _ hm)] at h1
      cases h1
    | some r =>
      have h1 := h.early st.index (le_refl _)
      have hm : st.index ∈ D := by
        by_contra hm
        rw [if_neg hm, he] at h1
        cases h1
      rw [if_pos hm, he] at h1
      have hlt := hD _ hm
      simp only
      refine ih ⟨?_, hlt, Dict.nodup_keys_erase h.nodup _, ?_, ?_⟩ ?_
      · simp only [h.items]
        exact take_succ_snoc h1.symm
      · intro j hj
        simp only at hj ⊢
        rw [Dict.get?_erase_cases h.nodup, if_neg (by omega)]
        exact h.early j (by omega)
      · intro j hj
        simp only at hj ⊢
        rw [Dict.get?_erase_cases h.nodup]
        by_cases hji : st.index = j
        · subst hji
          exact ⟨by simp, hm⟩
        · rw [if_neg hji]
          exact h.past j (by omega)
      · have := Dict.length_erase_of_mem (d := st.early) (k := st.index) (by rw [← Dict.isSome_get?_iff, he]; rfl)
        simp only
        omega

theorem IMapInv.put {R : List ρ} {D : List Nat} (hD : ∀ j ∈ D, j < R.length) {st : IMap ρ} (h : IMapInv R D st) (hi : st.index ∉ D) {i : Nat} {r : ρ}
    (hnew : i ∉ D) (hr : R[i]? = some r) : IMapInv R (i :: D) (st.put i r) ∧ (st.put i r).index ∉ i :: D := by
  have hil : i < R.length := (List.getElem?_eq_some_iff.1 hr).1
  have hD' : ∀ j ∈ i :: D, j < R.length := by
    intro j hj
    rcases List.mem_cons.1 hj with rfl | hj
    · exact hil
    · exact hD j hj
  have hge : st.index ≤ i := by
    by_contra hlt
    exact hnew (h.past i (by omega)).2
  simp only [IMap.put]
  split
  · rename_i he
    subst he
    refine IMapInv.drain hD' _ ⟨?_, hil, h.nodup, ?_, ?_⟩ (le_refl _)
    · simp only [h.items]
      exact take_succ_snoc hr
    · intro j hj
      simp only at hj ⊢
      rw [h.early j (by omega)]
      have : j ≠ st.index := by omega
      simp [this]
    · intro j hj
      simp only at hj ⊢
      by_cases hji : j = st.index
      · subst hji
        refine ⟨?_, by simp⟩
        rw [h.early _ (le_refl _), if_neg hnew]
      · obtain ⟨a, b⟩ := h.past j (by omega)
        exact ⟨a, by simp [b]⟩
  · rename_i he
    refine ⟨⟨h.items, h.le, Dict.nodup_keys_set h.nodup _ _, ?_, ?_⟩, ?_⟩
    · intro j hj
      simp only at hj ⊢
      rw [Dict.get?_set]
      by_cases hji : i = j
      · subst hji
        simp [hr]
      · rw [if_neg hji, h.early j hj]
        simp [Ne.symm hji]
    · intro j hj
      simp only at hj ⊢
      obtain ⟨a, b⟩ := h.past j hj
      rw [Dict.get?_set, if_neg (by omega)]
      exact ⟨a, by simp [b]⟩
    · simp only [List.mem_cons, not_or]
      exact ⟨he, hi⟩

theorem imap_fold {R : List ρ} : ∀ (L : List (Nat × ρ)) {D : List Nat} {st : IMap ρ}, (∀ p ∈ L, R[p.1]? = some p.2) → (L.map (·.1)).Nodup →
    (∀ p ∈ L, p.1 ∉ D) → (∀ j ∈ D, j < R.length) → IMapInv R D st → st.index ∉ D →
    ∃ D', IMapInv R D' (L.foldl (fun st r => st.put r.1 r.2) st) ∧ (L.foldl (fun st r => st.put r.1 r.2) st).index ∉ D' ∧
      ∀ j, j ∈ D' ↔ j ∈ D ∨ j ∈ L.map (·.1) := by
  intro L
  induction L with
  | nil => intro D st _ _ _ _ h hi; exact ⟨D, h, hi, by simp⟩
  | cons p L ih =>
    intro D st hR hn hnew hD h hi
    simp only [List.map_cons, List.nodup_cons] at hn
    obtain ⟨h1, h2⟩ := h.put hD hi (hnew p (by simp)) (hR p (by simp))
    obtain ⟨D', d1, d2, d3⟩ := ih (D := p.1 :: D) (fun q hq => hR q (by simp [hq])) hn.2 (by
      intro q hq
      simp only [List.mem_cons, not_or]
      exact ⟨fun e => hn.1 (List.mem_map.2 ⟨q, hq, e⟩), hnew q (by simp [hq])⟩) (by
      intro j hj
      rcases List.mem_cons.1 hj with rfl | hj
      · exact (List.getElem?_eq_some_iff.1 (hR p (by simp))).1
      · exact hD j hj) h1 h2
    refine ⟨D', d1, d2, fun j => ?_⟩
    rw [d3]
    simp only [List.mem_cons, List.map_cons]
    tauto

/-- whatever the order of arrival, the results come out in order -/
theorem imap_items (R : List ρ) {L : List (Nat × ρ)} (hL : L.Perm ((List.range R.length).zip R)) :
    (L.foldl (fun (st : IMap ρ) r => st.put r.1 r.2) ⟨[], [], 0⟩).items = R := by
  have hz : ∀ p ∈ L, R[p.1]? = some p.2 := by
    intro p hp
    obtain ⟨i, hi, he⟩ := List.mem_iff_getElem.1 (hL.mem_iff.1 hp)
    simp only [List.getElem_zip, List.getElem_range] at he
    subst he
    simp only [List.length_zip, List.length_range] at hi
    simp only
    exact List.getElem?_eq_getElem (by omega)
  have hm : (L.map (·.1)).Perm (List.range R.length) := by
    have := hL.map (·.1)
    rwa [List.map_fst_zip (by simp)] at this
  obtain ⟨D', d1, d2, d3⟩ := imap_fold L (D := []) (st := ⟨[], [], 0⟩) hz (hm.nodup_iff.2 List.nodup_range) (by simp) (by simp)
    ⟨by simp, by simp, by simp [Dict.keys], by simp, by simp⟩ (by simp)
  have hidx : (L.foldl (fun (st : IMap ρ) r => st.put r.1 r.2) ⟨[], [], 0⟩).index = R.length := by
    by_contra hne
    have hlt := lt_of_le_of_ne d1.le hne
    exact d2 ((d3 _).2 (Or.inr (hm.mem_iff.2 (List.mem_range.2 hlt))))
  rw [d1.items, hidx, List.take_length]

end

theorem mapChunk_ok {α β : Type} {f : α → Py β} {h : α → β} {c : List α} (hc : ∀ a ∈ c, f a = .ok (h a)) : mapChunk f c = .ok (c.map h) := by
  induction c with
  | nil => rfl
  | cons a c ih => simp only [mapChunk, hc a (by simp), ih fun a ha => hc a (by simp [ha]), List.map_cons]

theorem imapOut_ok {β : Type} (bss : List (List β)) : imapOut (bss.map Except.ok) = ⟨bss.flatten, none⟩ := by
  induction bss with
  | nil => rfl
  | cons b bss ih => simp only [List.map_cons, imapOut, ih, List.flatten_cons]

end Verif
