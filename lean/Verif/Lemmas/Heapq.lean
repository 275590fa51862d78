import Verif.Model.Heapq
import Mathlib.Data.List.Basic
/-! # `heapq` keeps the heap order and the entries -/

namespace Verif.Heapq

variable {α : Type} {lt : α → α → Bool}

/-- `lt` is the strict part of a total preorder -/
structure Ord (lt : α → α → Bool) : Prop where
  trans : ∀ {x y z : α}, lt y x = false → lt z y = false → lt z x = false
  asymm : ∀ {x y : α}, lt x y = true → lt y x = false
  refl : ∀ x : α, lt x x = false

/-- heap order for the edges whose parent is at `lo` or later -/
def Edges (lt : α → α → Bool) (lo : Nat) (h : List α) : Prop :=
  ∀ c x y, 0 < c → lo ≤ (c - 1) / 2 → h[(c - 1) / 2]? = some x → h[c]? = some y → lt y x = false

/-- heap order -/
def IsHeap (lt : α → α → Bool) (h : List α) : Prop := Edges lt 0 h

/-- `p` is in the subtree of `s` -/
inductive Desc (s : Nat) : Nat → Prop
  | refl : Desc s s
  | left {p : Nat} : Desc s p → Desc s (2 * p + 1)
  | right {p : Nat} : Desc s p → Desc s (2 * p + 2)

theorem Desc.le {s p : Nat} (h : Desc s p) : s ≤ p := by
  induction h with
  | refl => exact Nat.le_refl _
  | left _ ih => omega
  | right _ ih => omega

theorem Desc.parent {s p : Nat} (h : Desc s p) (hne : s < p) : Desc s ((p - 1) / 2) := by
  cases h with
  | refl => omega
  | @left q h => rw [show (2 * q + 1 - 1) / 2 = q by omega]; exact h
  | @right q h => rw [show (2 * q + 2 - 1) / 2 = q by omega]; exact h

theorem desc_zero (p : Nat) : Desc 0 p := by
  induction p using Nat.strongRecOn with
  | _ p ih =>
    by_cases h0 : p = 0
    · subst h0; exact .refl
    · have := ih ((p - 1) / 2) (by omega)
      by_cases ho : p % 2 = 1
      · have e : p = 2 * ((p - 1) / 2) + 1 := by omega
        rw [e]; exact .left this
      · have e : p = 2 * ((p - 1) / 2) + 2 := by omega
        rw [e]; exact .right this

theorem set_swap_perm {h : List α} {i j : Nat} {x y : α} (hij : i ≠ j) (hj : h[j]? = some y) (hi : i < h.length) :
    ((h.set i y).set j x).Perm (h.set i x) := by
  have hjl : j < h.length := (List.getElem?_eq_some_iff.1 hj).1
  have hjy : h[j] = y := (List.getElem?_eq_some_iff.1 hj).2
  have := List.set_set_perm (as := h.set i x) (i := i) (j := j) (by simpa using hi) (by simpa using hjl)
  rw [List.getElem_set_self, List.getElem_set_ne hij, hjy, List.set_set] at this
  exact this

theorem siftdown_spec (ho : Ord lt) (new : α) (start : Nat) : ∀ (fuel pos : Nat) (h : List α), pos < fuel → pos < h.length →
    Desc start pos →
    (∀ c x y, 0 < c → start ≤ (c - 1) / 2 → c ≠ pos → (h.set pos new)[(c - 1) / 2]? = some x → (h.set pos new)[c]? = some y →
      lt y x = false) →
    (∀ c x y, start < pos → 0 < c → (c - 1) / 2 = pos → h[(pos - 1) / 2]? = some x → h[c]? = some y → lt y x = false) →
    (siftdown lt new start fuel pos h).Perm (h.set pos new) ∧ Edges lt start (siftdown lt new start fuel pos h) := by
  intro fuel
  induction fuel with
  | zero => intro pos h hf; omega
  | succ fuel ih =>
    intro pos h hf hp hd hE hG
    simp only [siftdown]
    by_cases hs : start < pos
    · rw [if_pos hs]
      have hq : (pos - 1) / 2 < pos := by omega
      obtain ⟨parent, hpar⟩ : ∃ y, h[(pos - 1) / 2]? = some y := ⟨h[(pos - 1) / 2]'(by omega), List.getElem?_eq_getElem (by omega)⟩
      rw [hpar]
      simp only
      by_cases hlt : lt new parent = true
      · rw [if_pos hlt]
        have hle := ho.asymm hlt
        obtain ⟨h1, h2⟩ := ih ((pos - 1) / 2) (h.set pos parent) (by omega) (by simp; omega) (hd.parent hs) (by
          intro c x y hc hlo hcq hx hy
          have base : ∀ c x y, 0 < c → start ≤ (c - 1) / 2 → c ≠ pos → (c - 1) / 2 ≠ pos → h[(c - 1) / 2]? = some x → h[c]? = some y →
              lt y x = false := by
            intro c x y a1 a2 a3 a4 a5 a6
            exact hE c x y a1 a2 a3 (by rw [List.getElem?_set_ne (Ne.symm a4)]; exact a5) (by rw [List.getElem?_set_ne (Ne.symm a3)]; exact a6)
          by_cases hcp : c = pos
          · -- the edge into `pos`: new over parent
            subst hcp
            rw [List.getElem?_set_self (by simp; omega)] at hx
            rw [List.getElem?_set_ne (by omega), List.getElem?_set_self hp] at hy
            cases hx; cases hy
            exact hle
          · by_cases hpp : (c - 1) / 2 = pos
            · -- children of `pos`: parent over child
              rw [hpp, List.getElem?_set_ne (by omega), List.getElem?_set_self hp] at hx
              rw [List.getElem?_set_ne (by omega), List.getElem?_set_ne (by omega)] at hy
              cases hx
              exact hG c parent y hs hc hpp hpar hy
            · rw [List.getElem?_set_ne (fun e => hcq e.symm), List.getElem?_set_ne (fun e => hcp e.symm)] at hy
              by_cases hpq : (c - 1) / 2 = (pos - 1) / 2
              · -- the sibling of `pos`
                rw [hpq, List.getElem?_set_self (by simp; omega)] at hx
                cases hx
                have := base c parent y hc hlo hcp hpp (by rw [hpq]; exact hpar) hy
                exact ho.trans hle this
              · rw [List.getElem?_set_ne (fun e => hpq e.symm), List.getElem?_set_ne (fun e => hpp e.symm)] at hx
                exact base c x y hc hlo hcp hpp hx hy) (by
          intro c x y hsq hc hcq hx hy
          rw [List.getElem?_set_ne (by omega)] at hx
          have hup : ∀ z, h[(pos - 1) / 2]? = some z → lt z x = false := by
            intro z hz
            refine hE ((pos - 1) / 2) x z (by omega) ?_ (by omega) (by rw [List.getElem?_set_ne (by omega)]; exact hx)
              (by rw [List.getElem?_set_ne (by omega)]; exact hz)
            exact ((hd.parent hs).parent hsq).le
          by_cases hcp : c = pos
          · subst hcp
            rw [List.getElem?_set_self hp] at hy
            cases hy
            exact hup _ hpar
          · rw [List.getElem?_set_ne (fun e => hcp e.symm)] at hy
            have := hE c parent y hc (by rw [hcq]; exact (hd.parent hs).le) hcp
              (by rw [hcq, List.getElem?_set_ne (by omega)]; exact hpar) (by rw [List.getElem?_set_ne (fun e => hcp e.symm)]; exact hy)
            exact ho.trans (hup _ hpar) this)
        exact ⟨h1.trans (set_swap_perm (by omega) hpar hp), h2⟩
      · rw [if_neg hlt]
        refine ⟨List.Perm.refl _, ?_⟩
        intro c x y hc hlo hx hy
        by_cases hcp : c = pos
        · subst hcp
          rw [List.getElem?_set_ne (by omega), hpar] at hx
          rw [List.getElem?_set_self hp] at hy
          cases hx; cases hy
          simpa using hlt
        · exact hE c x y hc hlo hcp hx hy
    · rw [if_neg hs]
      refine ⟨List.Perm.refl _, ?_⟩
      intro c x y hc hlo hx hy
      have := hd.le
      exact hE c x y hc hlo (by omega) hx hy

theorem smallChild_spec (ho : Ord lt) {h : List α} {pos : Nat} (hl : 2 * pos + 1 < h.length) :
    (smallChild lt h pos = 2 * pos + 1 ∨ smallChild lt h pos = 2 * pos + 2) ∧ ∃ m, h[smallChild lt h pos]? = some m ∧
      ∀ c y, 0 < c → (c - 1) / 2 = pos → h[c]? = some y → lt y m = false := by
  obtain ⟨l, hll⟩ : ∃ y, h[2 * pos + 1]? = some y := ⟨h[2 * pos + 1], List.getElem?_eq_getElem hl⟩
  have hchild : ∀ c, 0 < c → (c - 1) / 2 = pos → c = 2 * pos + 1 ∨ c = 2 * pos + 2 := by omega
  cases hr : h[2 * pos + 2]? with
  | none =>
    have e : smallChild lt h pos = 2 * pos + 1 := by simp only [smallChild, hll, hr]
    rw [e]
    refine ⟨Or.inl rfl, l, hll, ?_⟩
    intro c y hc hp hy
    rcases hchild c hc hp with rfl | rfl
    · rw [hll] at hy; cases hy; exact ho.refl _
    · rw [hr] at hy; cases hy
  | some r =>
    by_cases hlt : lt l r = true
    · have e : smallChild lt h pos = 2 * pos + 1 := by simp only [smallChild, hll, hr, hlt, if_true]
      rw [e]
      refine ⟨Or.inl rfl, l, hll, ?_⟩
      intro c y hc hp hy
      rcases hchild c hc hp with rfl | rfl
      · rw [hll] at hy; cases hy; exact ho.refl _
      · rw [hr] at hy; cases hy; exact ho.asymm hlt
    · have e : smallChild lt h pos = 2 * pos + 2 := by simp only [smallChild, hll, hr]; rw [if_neg hlt]
      rw [e]
      refine ⟨Or.inr rfl, r, hr, ?_⟩
      intro c y hc hp hy
      rcases hchild c hc hp with rfl | rfl
      · rw [hll] at hy; cases hy; simpa using hlt
      · rw [hr] at hy; cases hy; exact ho.refl _

theorem siftup_spec (ho : Ord lt) (new : α) (start : Nat) : ∀ (fuel pos : Nat) (h : List α), h.length < fuel + pos → pos < h.length →
    Desc start pos →
    (∀ c x y, 0 < c → start ≤ (c - 1) / 2 → c ≠ pos → (c - 1) / 2 ≠ pos → h[(c - 1) / 2]? = some x → h[c]? = some y → lt y x = false) →
    (∀ c x y, start < pos → 0 < c → (c - 1) / 2 = pos → h[(pos - 1) / 2]? = some x → h[c]? = some y → lt y x = false) →
    (siftup lt new start fuel pos h).Perm (h.set pos new) ∧ Edges lt start (siftup lt new start fuel pos h) := by
  intro fuel
  induction fuel with
  | zero => intro pos h hf hp; omega
  | succ fuel ih =>
    intro pos h hf hp hd hE hG
    simp only [siftup]
    by_cases hl : 2 * pos + 1 < h.length
    · rw [if_pos hl]
      obtain ⟨hsc, m, hm, hmin⟩ := smallChild_spec ho hl
      rw [hm]
      simp only
      generalize smallChild lt h pos = k at *
      have hk : (k - 1) / 2 = pos ∧ pos < k := by omega
      have hkl : k < h.length := (List.getElem?_eq_some_iff.1 hm).1
      have hdk : Desc start k := by
        rcases hsc with rfl | rfl
        · exact .left hd
        · exact .right hd
      obtain ⟨h1, h2⟩ := ih k (h.set pos m) (by simp; omega) (by simpa using hkl) hdk (by
        intro c x y hc hlo hck hpk hx hy
        by_cases hcp : c = pos
        · subst hcp
          rw [List.getElem?_set_self hp] at hy
          rw [List.getElem?_set_ne (by omega)] at hx
          cases hy
          exact hG k x m (by omega) (by omega) hk.1 hx hm
        · rw [List.getElem?_set_ne (fun e => hcp e.symm)] at hy
          by_cases hpp : (c - 1) / 2 = pos
          · rw [hpp, List.getElem?_set_self hp] at hx
            cases hx
            exact hmin c y hc hpp hy
          · rw [List.getElem?_set_ne (fun e => hpp e.symm)] at hx
            exact hE c x y hc hlo hcp hpp hx hy) (by
        intro c x y hsk hc hck hx hy
        rw [hk.1, List.getElem?_set_self hp] at hx
        rw [List.getElem?_set_ne (by omega)] at hy
        cases hx
        exact hE c m y hc (by rw [hck]; exact hdk.le) (by omega) (by omega) (by rw [hck]; exact hm) hy)
      exact ⟨h1.trans (set_swap_perm (by omega) hm hp), h2⟩
    · rw [if_neg hl]
      apply siftdown_spec ho new start (pos + 1) pos h (by omega) hp hd
      · intro c x y hc hlo hcp hx hy
        rw [List.getElem?_set_ne (fun e => hcp e.symm)] at hy
        have hcl := (List.getElem?_eq_some_iff.1 hy).1
        rw [List.getElem?_set_ne (by omega)] at hx
        exact hE c x y hc hlo hcp (by omega) hx hy
      · intro c x y _ hc hcp _ hy
        have hcl := (List.getElem?_eq_some_iff.1 hy).1
        omega

theorem siftupAt_spec (ho : Ord lt) {h : List α} {pos : Nat} (hp : pos < h.length) (hE : Edges lt (pos + 1) h) :
    (siftupAt lt h pos).Perm h ∧ Edges lt pos (siftupAt lt h pos) := by
  have hg := List.getElem?_eq_getElem hp
  simp only [siftupAt, hg]
  have := siftup_spec ho h[pos] pos (h.length + 1) pos h (by omega) hp .refl (by
    intro c x y hc hlo _ hne hx hy
    exact hE c x y hc (by omega) hx hy) (by intro c x y h; omega)
  rw [List.set_getElem_self] at this
  exact this

theorem heapify_spec (ho : Ord lt) (h : List α) : (heapify lt h).Perm h ∧ IsHeap lt (heapify lt h) := by
  have gen : ∀ (i : Nat) (h : List α), i ≤ h.length → Edges lt i h → (heapifyFrom lt i h).Perm h ∧ IsHeap lt (heapifyFrom lt i h) := by
    intro i
    induction i with
    | zero => intro h _ hE; exact ⟨List.Perm.refl _, hE⟩
    | succ i ih =>
      intro h hi hE
      obtain ⟨h1, h2⟩ := siftupAt_spec ho (pos := i) (by omega) hE
      obtain ⟨h3, h4⟩ := ih (siftupAt lt h i) (by rw [h1.length_eq]; omega) h2
      exact ⟨h3.trans h1, h4⟩
  apply gen _ _ (by omega)
  intro c x y hc hlo hx hy
  have := (List.getElem?_eq_some_iff.1 hy).1
  omega

theorem heappush_spec (ho : Ord lt) {h : List α} (hh : IsHeap lt h) (x : α) :
    (heappush lt h x).Perm (x :: h) ∧ IsHeap lt (heappush lt h x) := by
  have e : (h ++ [x]).set h.length x = h ++ [x] := by
    rw [List.set_append_right _ _ (Nat.le_refl _)]; simp
  have := siftdown_spec ho x 0 (h.length + 1) h.length (h ++ [x]) (by omega) (by simp) (desc_zero _) (by
    rw [e]
    intro c u v hc hlo hcl hu hv
    have hl := (List.getElem?_eq_some_iff.1 hv).1
    simp only [List.length_append, List.length_singleton] at hl
    rw [List.getElem?_append_left (by omega)] at hu hv
    exact hh c u v hc hlo hu hv) (by
    intro c u v _ hc hcl _ hv
    have hl := (List.getElem?_eq_some_iff.1 hv).1
    simp only [List.length_append, List.length_singleton] at hl
    omega)
  rw [e] at this
  exact ⟨this.1.trans (List.perm_append_singleton x h), this.2⟩

/-- the first entry is the smallest -/
theorem IsHeap.root (ho : Ord lt) {h : List α} (hh : IsHeap lt h) {m : α} (hm : h[0]? = some m) : ∀ y ∈ h, lt y m = false := by
  have gen : ∀ (i : Nat) (y : α), h[i]? = some y → lt y m = false := by
    intro i
    induction i using Nat.strongRecOn with
    | _ i ih =>
      intro y hy
      by_cases h0 : i = 0
      · subst h0; rw [hm] at hy; cases hy; exact ho.refl _
      · have hl := (List.getElem?_eq_some_iff.1 hy).1
        have hg : h[(i - 1) / 2]? = some (h[(i - 1) / 2]'(by omega)) := List.getElem?_eq_getElem (by omega)
        exact ho.trans (ih ((i - 1) / 2) (by omega) _ hg) (hh i _ y (by omega) (Nat.zero_le _) hg hy)
  intro y hy
  obtain ⟨i, hi⟩ := List.mem_iff_getElem?.1 hy
  exact gen i y hi

theorem heappop_spec (ho : Ord lt) {h : List α} (hh : IsHeap lt h) (hne : h ≠ []) :
    ∃ m h', heappop lt h = .ok (m, h') ∧ h[0]? = some m ∧ (∀ y ∈ h, lt y m = false) ∧ h.Perm (m :: h') ∧ IsHeap lt h' := by
  obtain ⟨last, hlast⟩ : ∃ l, h.getLast? = some l := ⟨h.getLast hne, List.getLast?_eq_some_getLast hne⟩
  have hdl : h = h.dropLast ++ [last] := by
    rw [List.getLast?_eq_some_getLast hne] at hlast
    cases hlast
    exact (List.dropLast_append_getLast hne).symm
  simp only [heappop, hlast]
  cases hd : h.dropLast with
  | nil =>
    rw [hd] at hdl
    simp only [List.nil_append] at hdl
    refine ⟨last, [], rfl, by rw [hdl]; rfl, by rw [hdl]; simp [ho.refl], by rw [hdl], ?_⟩
    intro c x y _ _ _ hy; simp at hy
  | cons x xs =>
    rw [hd] at hdl
    have h0 : h[0]? = some x := by rw [hdl]; rfl
    have hedge : Edges lt 1 (last :: xs) := by
      intro c u v hc hlo hu hv
      have hl := (List.getElem?_eq_some_iff.1 hv).1
      simp only [List.length_cons] at hl
      have conv : ∀ i, 0 < i → i < xs.length + 1 → h[i]? = (last :: xs)[i]? := by
        intro i hi hil
        rw [hdl, List.getElem?_append_left (by simpa using hil)]
        cases i with
        | zero => omega
        | succ i => rfl
      exact hh c u v hc (Nat.zero_le _) (by rw [conv _ (by omega) (by omega)]; exact hu) (by rw [conv _ hc hl]; exact hv)
    obtain ⟨h1, h2⟩ := siftupAt_spec ho (h := last :: xs) (pos := 0) (by simp) hedge
    refine ⟨x, _, rfl, h0, hh.root ho h0, ?_, h2⟩
    refine List.Perm.trans ?_ (List.Perm.cons x h1.symm)
    rw [hdl, List.cons_append]
    exact List.Perm.cons x (List.perm_append_singleton last xs)

end Verif.Heapq
