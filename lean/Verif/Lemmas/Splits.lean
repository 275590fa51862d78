import Mathlib.Data.List.Nodup
import Verif.Spec.Splits
import Mathlib.Data.List.Basic
/-! # Lemmas on decompositions -/

namespace Verif
open Spec

/-- tree-shaped derivation of a decomposition -/
inductive Derives : Ty → List Ty → Prop where
  | self (t : Ty) : Derives t [t]
  | kids {t a b : Ty} {x y : List Ty} : t.kids = [a, b] → Derives a x → Derives b y → Derives t (x ++ y)

/-- a list derives pointwise -/
inductive DerivesL : List Ty → List Ty → Prop where
  | nil : DerivesL [] []
  | cons {t : Ty} {ts x y : List Ty} : Derives t x → DerivesL ts y → DerivesL (t :: ts) (x ++ y)

theorem DerivesL.refl (l : List Ty) : DerivesL l l := by
  induction l with
  | nil => exact .nil
  | cons t ts ih => exact .cons (.self t) ih

theorem SplitStep.append_left (p : List Ty) {a b : List Ty} (h : SplitStep a b) : SplitStep (p ++ a) (p ++ b) := by
  cases h with
  | @mk l r t x y hk =>
    have := SplitStep.mk (l := p ++ l) (r := r) hk
    simpa using this

theorem SplitStep.append_right (p : List Ty) {a b : List Ty} (h : SplitStep a b) : SplitStep (a ++ p) (b ++ p) := by
  cases h with
  | @mk l r t x y hk =>
    have := SplitStep.mk (l := l) (r := r ++ p) hk
    simpa using this

theorem SplitsTo.append {a b c d : List Ty} (h1 : SplitsTo a b) (h2 : SplitsTo c d) : SplitsTo (a ++ c) (b ++ d) := by
  have e1 : SplitsTo (a ++ c) (b ++ c) := by
    induction h1 with
    | refl => exact .refl
    | tail _ hs ih => exact ih.tail (SplitStep.append_right _ hs)
  have e2 : SplitsTo (b ++ c) (b ++ d) := by
    induction h2 with
    | refl => exact .refl
    | tail _ hs ih => exact ih.tail (SplitStep.append_left _ hs)
  exact e1.trans e2

theorem Derives.splitsTo {t : Ty} {ps : List Ty} (h : Derives t ps) : SplitsTo [t] ps := by
  induction h with
  | self t => exact .refl
  | @kids t a b x y hk _ _ ih1 ih2 =>
    have s : SplitStep [t] [a, b] := SplitStep.mk (l := []) (r := []) hk
    exact (Relation.ReflTransGen.single s).trans (SplitsTo.append ih1 ih2)

theorem DerivesL.append_inv {a b ps : List Ty} (h : DerivesL (a ++ b) ps) :
    ∃ x y, ps = x ++ y ∧ DerivesL a x ∧ DerivesL b y := by
  induction a generalizing ps with
  | nil => exact ⟨[], ps, rfl, .nil, h⟩
  | cons t ts ih =>
    cases h with
    | @cons _ _ u v h1 h2 =>
      obtain ⟨x, y, rfl, hx, hy⟩ := ih h2
      exact ⟨u ++ x, y, by simp, .cons h1 hx, hy⟩

theorem DerivesL.append {a b x y : List Ty} (h1 : DerivesL a x) (h2 : DerivesL b y) : DerivesL (a ++ b) (x ++ y) := by
  induction h1 with
  | nil => exact h2
  | cons h _ ih => rw [List.append_assoc]; exact .cons h ih

/-- a derivation may be preceded by a step -/
theorem DerivesL.of_step {a b c : List Ty} (hs : SplitStep a b) (h : DerivesL b c) : DerivesL a c := by
  cases hs with
  | @mk l r t u v hk =>
    obtain ⟨x, y, rfl, hx, hy⟩ := DerivesL.append_inv h
    cases hy with
    | @cons _ _ p q hp hq =>
      cases hq with
      | @cons _ _ p2 q2 hp2 hq2 =>
        refine DerivesL.append hx ?_
        rw [← List.append_assoc]
        exact .cons (.kids hk hp hp2) hq2

theorem splitsTo_iff_derivesL (a b : List Ty) : SplitsTo a b ↔ DerivesL a b := by
  constructor
  · intro h
    induction h using Relation.ReflTransGen.head_induction_on with
    | refl => exact DerivesL.refl _
    | head hs _ ih => exact DerivesL.of_step hs ih
  · intro h
    induction h with
    | nil => exact .refl
    | cons h _ ih => exact SplitsTo.append (a := [_]) h.splitsTo ih

theorem splitsTo_single_iff (t : Ty) (ps : List Ty) : SplitsTo [t] ps ↔ Derives t ps := by
  rw [splitsTo_iff_derivesL]
  constructor
  · intro h
    cases h with
    | @cons _ _ x y h1 h2 => cases h2; simpa using h1
  · intro h
    have := DerivesL.cons h .nil
    simpa using this

theorem Derives.leaf_inv {t : Ty} {ps : List Ty} (h : Derives t ps) (hk : t.kids = []) : ps = [t] := by
  cases h with
  | self => rfl
  | kids hk' _ _ => rw [hk] at hk'; simp at hk'

theorem Derives.ne_nil {t : Ty} {ps : List Ty} (h : Derives t ps) : ps ≠ [] := by
  induction h with
  | self => simp
  | kids _ _ _ ih _ => simp [ih]

theorem getPermutations_node {t a b : Ty} (h : t.kids = [a, b]) : t.getPermutations =
    match a.getPermutations, b.getPermutations with
    | .ok ls, .ok rs => .ok ([t] :: ls.flatMap fun x => rs.map fun y => x ++ y)
    | .error e, _ => .error e
    | .ok _, .error e => .error e := by
  obtain ⟨n, l, i, f, ks⟩ := t
  simp only at h; subst h
  rw [Ty.getPermutations]
  cases a.getPermutations <;> cases b.getPermutations <;> rfl

theorem getPermutations_leaf {t : Ty} (h : t.kids = []) : t.getPermutations = .ok [[t]] := by
  obtain ⟨n, l, i, f, ks⟩ := t
  simp only at h; subst h
  rw [Ty.getPermutations]

theorem getPermutations_spec {t : Ty} (h : Binary t) :
    ∃ L, t.getPermutations = .ok L ∧ L.head? = some [t] ∧ ∀ ps, ps ∈ L ↔ Derives t ps := by
  induction h with
  | @leaf t hk =>
    refine ⟨[[t]], getPermutations_leaf hk, rfl, ?_⟩
    intro ps
    simp only [List.mem_singleton]
    exact ⟨fun e => e ▸ .self t, fun h => h.leaf_inv hk⟩
  | @node t a b hk _ _ iha ihb =>
    obtain ⟨A, ha1, _, ha3⟩ := iha
    obtain ⟨B, hb1, _, hb3⟩ := ihb
    refine ⟨_, by rw [getPermutations_node hk, ha1, hb1], rfl, ?_⟩
    intro ps
    simp only [List.mem_cons, List.mem_flatMap, List.mem_map]
    constructor
    · rintro (rfl | ⟨x, hx, y, hy, rfl⟩)
      · exact .self t
      · exact .kids hk ((ha3 x).1 hx) ((hb3 y).1 hy)
    · intro h
      cases h with
      | self => exact Or.inl rfl
      | @kids _ a' b' x y hk' h1 h2 =>
        rw [hk] at hk'
        simp at hk'
        obtain ⟨rfl, rfl⟩ := hk'
        exact Or.inr ⟨x, (ha3 x).2 h1, y, (hb3 y).2 h2, rfl⟩

theorem Derives.spell {t : Ty} (hs : Spelled t) {ps : List Ty} (h : Derives t ps) : (ps.map (·.name)).flatten = t.name := by
  induction h with
  | self t => simp
  | @kids t a b x y hk _ _ ih1 ih2 =>
    cases hs with
    | leaf hk' => rw [hk] at hk'; simp at hk'
    | node hk' hn sa sb =>
      rw [hk] at hk'; simp at hk'
      obtain ⟨rfl, rfl⟩ := hk'
      simp [ih1 sa, ih2 sb, hn]

theorem stochasticSplit_leaf {t : Ty} (rng : Nat → Bool) (i : Nat) (h : t.kids = []) : t.stochasticSplit rng i = .ok ([t], i) := by
  obtain ⟨n, l, j, f, ks⟩ := t
  simp only at h; subst h
  rw [Ty.stochasticSplit]

theorem stochasticSplit_node {t a b : Ty} (rng : Nat → Bool) (i : Nat) (h : t.kids = [a, b]) : t.stochasticSplit rng i =
    if rng i then
      match a.stochasticSplit rng (i + 1) with
      | .error e => .error e
      | .ok (x, j) => match b.stochasticSplit rng j with
        | .error e => .error e
        | .ok (y, k) => .ok (x ++ y, k)
    else .ok ([t], i + 1) := by
  obtain ⟨n, l, j, f, ks⟩ := t
  simp only at h; subst h
  rw [Ty.stochasticSplit]
  rfl

/-- every stochastic split is a decomposition, whatever the draws -/
theorem stochasticSplit_derives {t : Ty} (h : Binary t) (rng : Nat → Bool) (i : Nat) :
    ∃ ps j, t.stochasticSplit rng i = .ok (ps, j) ∧ Derives t ps := by
  induction h generalizing i with
  | @leaf t hk => exact ⟨[t], i, stochasticSplit_leaf rng i hk, .self t⟩
  | @node t a b hk _ _ iha ihb =>
    rw [stochasticSplit_node rng i hk]
    by_cases hr : rng i = true
    · obtain ⟨x, j, hx, dx⟩ := iha (i + 1)
      obtain ⟨y, k, hy, dy⟩ := ihb j
      exact ⟨x ++ y, k, by simp [hr, hx, hy], .kids hk dx dy⟩
    · exact ⟨[t], i + 1, by simp [hr], .self t⟩

/-- every decomposition is the outcome of some draws -/
theorem derives_stochasticSplit {t : Ty} {ps : List Ty} (h : Derives t ps) (hb : Binary t) :
    ∀ (i : Nat) (rng0 : Nat → Bool), ∃ (rng : Nat → Bool) (j : Nat), i ≤ j ∧ (∀ k, k < i → rng k = rng0 k) ∧
      ∀ rng', (∀ k, k < j → rng' k = rng k) → t.stochasticSplit rng' i = .ok (ps, j) := by
  induction h with
  | self t =>
    intro i rng0
    cases hb with
    | leaf hk => exact ⟨rng0, i, Nat.le_refl _, fun _ _ => rfl, fun rng' _ => stochasticSplit_leaf rng' i hk⟩
    | node hk _ _ =>
      refine ⟨fun k => if k < i then rng0 k else false, i + 1, by omega, fun k hk => by simp [hk], ?_⟩
      intro rng' hr
      rw [stochasticSplit_node rng' i hk]
      have := hr i (by omega)
      simp at this
      simp [this]
  | @kids t a b x y hk _ _ iha ihb =>
    intro i rng0
    cases hb with
    | leaf hk' => rw [hk] at hk'; simp at hk'
    | node hk' ba bb =>
      rw [hk] at hk'; simp at hk'
      obtain ⟨rfl, rfl⟩ := hk'
      obtain ⟨r1, j, hj, hr1, h1⟩ := iha ba (i + 1) (fun k => if k < i then rng0 k else true)
      obtain ⟨r2, k, hk2, hr2, h2⟩ := ihb bb j r1
      refine ⟨r2, k, by omega, ?_, ?_⟩
      · intro m hm
        rw [hr2 m (by omega), hr1 m (by omega)]
        simp [hm]
      · intro rng' hr
        rw [stochasticSplit_node rng' i hk]
        have e0 : rng' i = true := by
          rw [hr i (by omega), hr2 i (by omega), hr1 i (by omega)]
          simp
        have e1 := h1 rng' (fun m hm => by rw [hr m (by omega), hr2 m hm])
        have e2 := h2 rng' hr
        simp [e0, e1, e2]

/-- number of leaves -/
def leaves : Ty → Nat
  | ⟨_, _, _, _, ks⟩ => go ks
where
  /-- over lists -/
  go : List Ty → Nat
    | [] => 1
    | [k] => leaves k
    | k :: ks => leaves k + go ks

theorem leaves_node {t a b : Ty} (h : t.kids = [a, b]) : leaves t = leaves a + leaves b := by
  obtain ⟨n, l, j, f, ks⟩ := t
  simp only at h; subst h
  simp [leaves, leaves.go]

theorem leaves_leaf {t : Ty} (h : t.kids = []) : leaves t = 1 := by
  obtain ⟨n, l, j, f, ks⟩ := t
  simp only at h; subst h
  simp [leaves, leaves.go]

theorem leaves_pos {t : Ty} (h : Binary t) : 0 < leaves t := by
  induction h with
  | leaf hk => rw [leaves_leaf hk]; omega
  | node hk _ _ iha ihb => rw [leaves_node hk]; omega

theorem Derives.binary {t : Ty} {ps : List Ty} (h : Derives t ps) (hb : Binary t) : ∀ p ∈ ps, Binary p := by
  induction h with
  | self t => simpa using hb
  | @kids t a b x y hk _ _ iha ihb =>
    cases hb with
    | leaf hk' => rw [hk] at hk'; simp at hk'
    | node hk' ba bb =>
      rw [hk] at hk'; simp at hk'
      obtain ⟨rfl, rfl⟩ := hk'
      intro p hp
      rcases List.mem_append.1 hp with hp | hp
      · exact iha ba p hp
      · exact ihb bb p hp

theorem Derives.leaves_sum {t : Ty} {ps : List Ty} (h : Derives t ps) : (ps.map leaves).sum = leaves t := by
  induction h with
  | self t => simp
  | @kids t a b x y hk _ _ iha ihb => rw [List.map_append, List.sum_append, iha, ihb, leaves_node hk]

/-- equal leaf totals and a common extension force equal prefixes -/
theorem append_inj_leaves {x x' y y' : List Ty} (h : x ++ y = x' ++ y') (hs : (x.map leaves).sum = (x'.map leaves).sum)
    (hx : ∀ p ∈ x, 0 < leaves p) (hx' : ∀ p ∈ x', 0 < leaves p) : x = x' ∧ y = y' := by
  induction x generalizing x' with
  | nil =>
    cases x' with
    | nil => exact ⟨rfl, by simpa using h⟩
    | cons p ps =>
      have := hx' p (by simp)
      simp at hs; omega
  | cons q qs ih =>
    cases x' with
    | nil =>
      have := hx q (by simp)
      simp at hs; omega
    | cons p ps =>
      simp only [List.cons_append, List.cons.injEq] at h
      obtain ⟨rfl, h⟩ := h
      obtain ⟨a, b⟩ := ih h (by simpa using hs) (fun p hp => hx p (by simp [hp])) (fun p hp => hx' p (by simp [hp]))
      exact ⟨by rw [a], b⟩

theorem getPermutations_nodup {t : Ty} (h : Binary t) : ∀ L, t.getPermutations = .ok L → L.Nodup := by
  induction h with
  | @leaf t hk =>
    intro L hL
    rw [getPermutations_leaf hk] at hL
    cases hL; simp
  | @node t a b hk ba bb iha ihb =>
    intro L hL
    obtain ⟨A, ha1, _, ha3⟩ := getPermutations_spec ba
    obtain ⟨B, hb1, _, hb3⟩ := getPermutations_spec bb
    rw [getPermutations_node hk, ha1, hb1] at hL
    cases hL
    rw [List.nodup_cons]
    have pos : ∀ {u : Ty} {z : List Ty}, Binary u → Derives u z → ∀ p ∈ z, 0 < leaves p :=
      fun hb hd p hp => leaves_pos (hd.binary hb p hp)
    constructor
    · intro hm
      simp only [List.mem_flatMap, List.mem_map] at hm
      obtain ⟨x, hx, y, hy, he⟩ := hm
      have h1 := ((ha3 x).1 hx).ne_nil
      have h2 := ((hb3 y).1 hy).ne_nil
      have hl := congrArg List.length he
      have p1 := List.length_pos_iff.2 h1
      have p2 := List.length_pos_iff.2 h2
      simp at hl; omega
    · rw [List.nodup_flatMap]
      constructor
      · intro x _
        exact (ihb B hb1).map (fun y y' e => List.append_cancel_left e)
      · refine (iha A ha1).imp_of_mem ?_
        intro x x' hx hx' hne
        rw [Function.onFun, List.disjoint_iff_ne]
        intro u hu v hv e
        obtain ⟨y, hy, rfl⟩ := List.mem_map.1 hu
        obtain ⟨y', hy', rfl⟩ := List.mem_map.1 hv
        have dx := (ha3 x).1 hx
        have dx' := (ha3 x').1 hx'
        exact hne (append_inj_leaves e (by rw [dx.leaves_sum, dx'.leaves_sum]) (pos ba dx) (pos ba dx')).1

end Verif
