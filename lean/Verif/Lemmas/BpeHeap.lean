import Verif.Lemmas.BpePass
import Verif.Lemmas.Heapq
/-! # The heap and the corrections to its entries -/

namespace Verif
open Spec

theorem HItem.lt_iff (x y : HItem) : HItem.lt y x = false ↔ x.1 < y.1 ∨ (x.1 = y.1 ∧ pairLe x.2 y.2) := by
  rw [← Bool.not_eq_true]
  simp only [HItem.lt, pairLe, Bool.or_eq_true, Bool.and_eq_true, decide_eq_true_eq]
  omega

theorem HItem.ord : Heapq.Ord HItem.lt where
  trans := by
    intro x y z h1 h2
    rw [HItem.lt_iff] at *; simp only [pairLe] at *; omega
  asymm := by
    intro x y h
    rw [HItem.lt_iff]
    simp only [HItem.lt, pairLe, Bool.or_eq_true, Bool.and_eq_true, decide_eq_true_eq] at h ⊢
    omega
  refl := by
    intro x
    rw [HItem.lt_iff]; exact Or.inr ⟨rfl, Or.inr ⟨rfl, Nat.le_refl _⟩⟩

/-- the order is total, so the smallest entry is unique -/
theorem HItem.antisymm {x y : HItem} (h1 : HItem.lt y x = false) (h2 : HItem.lt x y = false) : x = y := by
  rw [HItem.lt_iff] at *; simp only [pairLe] at *
  obtain ⟨a, b, c⟩ := x; obtain ⟨d, e, f⟩ := y
  simp only [Prod.mk.injEq] at *; omega

theorem heapPop_spec {h : List HItem} (hh : Heapq.IsHeap HItem.lt h) (hne : h ≠ []) : ∃ m h', m ∈ h ∧
    (∀ x ∈ h, HItem.lt x m = false) ∧ heapPop h = .ok ((m.2, -m.1), h') ∧ h.Perm (m :: h') ∧ Heapq.IsHeap HItem.lt h' := by
  obtain ⟨m, h', e, _, hmin, hp, hh'⟩ := Heapq.heappop_spec HItem.ord hh hne
  exact ⟨m, h', hp.symm.subset (by simp), hmin, by simp only [heapPop, e], hp, hh'⟩

theorem heapPush_spec {h : List HItem} (hh : Heapq.IsHeap HItem.lt h) (p : Pair) (v : Int) :
    (heapPush h p v).Perm ((-v, p) :: h) ∧ Heapq.IsHeap HItem.lt (heapPush h p v) := Heapq.heappush_spec HItem.ord hh _

theorem heapInit_spec (d : Dict Pair Int) : (heapInit d).Perm (d.map fun p => (-p.2, p.1)) ∧ Heapq.IsHeap HItem.lt (heapInit d) :=
  Heapq.heapify_spec HItem.ord _

/-- the heap with its corrections represents the counts `c` of the pairs other than `ex` -/
structure HInv (c : Pair → Int) (L : Nat) (ex : Pair → Prop) (heap : List HItem) (dirty : Dict Pair Int) : Prop where
  ord : Heapq.IsHeap HItem.lt heap
  nodup : (heap.map (·.2)).Nodup
  dnd : (Dict.keys dirty).Nodup
  val : ∀ f q, (f, q) ∈ heap → -f + Dict.cnt dirty q = c q
  pos : ∀ f q, (f, q) ∈ heap → f < 0
  cover : ∀ q, 0 < c q → ¬ ex q → q ∈ heap.map (·.2)
  neg : ∀ q u, Dict.get? dirty q = some u → u < 0
  hb : ∀ q ∈ heap.map (·.2), q.1 < L ∧ q.2 < L
  db : ∀ q ∈ Dict.keys dirty, q.1 < L ∧ q.2 < L
  hex : ∀ q ∈ heap.map (·.2), ¬ ex q

theorem cnt_of_get? {κ : Type} [DecidableEq κ] {d : Dict κ Int} {k : κ} {v : Int} (h : Dict.get? d k = some v) : Dict.cnt d k = v := by
  simp [Dict.cnt, h]

theorem cnt_none {κ : Type} [DecidableEq κ] {d : Dict κ Int} {k : κ} (h : Dict.get? d k = none) : Dict.cnt d k = 0 := by
  simp [Dict.cnt, h]

theorem HInv.cnt_nonpos {c : Pair → Int} {L : Nat} {ex : Pair → Prop} {heap : List HItem} {dirty : Dict Pair Int}
    (h : HInv c L ex heap dirty) (q : Pair) : Dict.cnt dirty q ≤ 0 := by
  cases hg : Dict.get? dirty q with
  | none => rw [cnt_none hg]
  | some u => rw [cnt_of_get? hg]; exact le_of_lt (h.neg q u hg)

theorem nodup_rest_snd {h h' : List HItem} {m : HItem} (hn : (h.map (·.2)).Nodup) (hp : h.Perm (m :: h')) :
    (h'.map (·.2)).Nodup ∧ m.2 ∉ h'.map (·.2) := by
  have := (hp.map (·.2)).nodup_iff.1 hn
  rw [List.map_cons, List.nodup_cons] at this
  exact ⟨this.2, this.1⟩

/-- popping finds the best pair -/
theorem popClean_spec {c : Pair → Int} (hc : ∀ q, 0 ≤ c q) {L : Nat} :
    ∀ (fuel : Nat) (heap : List HItem) (dirty : Dict Pair Int), HInv c L (fun _ => False) heap dirty → dirty.length < fuel →
      (popClean fuel heap dirty = .error .index ∧ ∀ q, c q = 0) ∨
      ∃ p h1 d1, popClean fuel heap dirty = .ok ((p, c p), h1, d1) ∧ 0 < c p ∧ (∀ q, c q < c p ∨ (c q = c p ∧ pairLe p q)) ∧
        p.1 < L ∧ p.2 < L ∧ HInv c L (fun q => q = p) h1 d1 := by
  intro fuel
  induction fuel with
  | zero => intro heap dirty _ hl; omega
  | succ fuel ih =>
    intro heap dirty h hl
    by_cases hne : heap = []
    · left
      subst hne
      refine ⟨rfl, fun q => ?_⟩
      by_contra hq
      have := h.cover q (lt_of_le_of_ne (hc q) (Ne.symm hq)) (by simp)
      simp at this
    · obtain ⟨⟨g, p⟩, hr, hm, hmin, hpop, hperm, hord⟩ := heapPop_spec h.ord hne
      have hbp := h.hb p (List.mem_map.2 ⟨_, hm, rfl⟩)
      have hval := h.val g p hm
      have hpos := h.pos g p hm
      have her := nodup_rest_snd h.nodup hperm
      have hsub : ∀ x, x ∈ hr → x ∈ heap := fun x hx => hperm.symm.subset (by simp [hx])
      have hrest : ∀ x, x ∈ heap → x ≠ (g, p) → x ∈ hr := fun x hx hne => by
        rcases List.mem_cons.1 (hperm.subset hx) with h | h
        · exact absurd h hne
        · exact h
      simp only [popClean, hpop]
      cases hg : Dict.get? dirty p with
      | none =>
        right
        have hcp : -g = c p := by rw [cnt_none hg] at hval; omega
        refine ⟨p, hr, dirty, by simp only [hcp], by omega, ?_, hbp.1, hbp.2, ?_⟩
        · intro q
          by_cases hq : 0 < c q
          · obtain ⟨⟨g', q'⟩, hq', e⟩ := List.mem_map.1 (h.cover q hq (by simp))
            simp only at e; subst e
            have h1 := h.val g' q' hq'
            have h2 := h.cnt_nonpos q'
            have h3 := hmin _ hq'
            rw [HItem.lt_iff] at h3
            simp only at h3
            rcases h3 with h3 | ⟨h3, h4⟩
            · left; omega
            · by_cases hlt : c q' < c p
              · exact Or.inl hlt
              · exact Or.inr ⟨by omega, h4⟩
          · left; have := hc q; omega
        · refine { ord := hord, nodup := her.1, dnd := h.dnd, val := fun f q hq => h.val f q (hsub _ hq), pos := fun f q hq => h.pos f q (hsub _ hq),
                   cover := ?_, neg := h.neg, hb := ?_, db := h.db, hex := ?_ }
          · intro q hq hqp
            obtain ⟨⟨g', q'⟩, hq', e⟩ := List.mem_map.1 (h.cover q hq (by simp))
            simp only at e; subst e
            refine List.mem_map.2 ⟨(g', q'), ?_, rfl⟩
            exact hrest _ hq' (by rintro e; injection e with _ e; exact hqp e)
          · intro q hq
            obtain ⟨x, hx, e⟩ := List.mem_map.1 hq
            exact h.hb q (List.mem_map.2 ⟨x, hsub x hx, e⟩)
          · rintro q hq rfl; exact her.2 hq
      | some u =>
        have hu := h.neg p u hg
        rw [cnt_of_get? hg] at hval
        have hfu : -g + u = c p := hval
        have hcp := hc p
        simp only [hu, not_true_eq_false, if_false, hfu, hcp]
        have hkey : p ∈ Dict.keys dirty := (Dict.isSome_get?_iff dirty p).1 (by simp [hg])
        have hlen := Dict.length_erase_of_mem hkey
        apply ih
        · have hget : ∀ q, Dict.get? (Dict.erase dirty p) q = if p = q then none else Dict.get? dirty q := Dict.get?_erase h.dnd p
          have hcnt : ∀ q, Dict.cnt (Dict.erase dirty p) q = if p = q then 0 else Dict.cnt dirty q := by
            intro q; unfold Dict.cnt; rw [hget]; split <;> rfl
          obtain ⟨hpush, hpord⟩ := heapPush_spec hord p (c p)
          have hmem : ∀ x, x ∈ (if 0 < c p then heapPush hr p (c p) else hr) ↔
              (0 < c p ∧ x = (-(c p), p)) ∨ x ∈ hr := by
            intro x
            split
            · rename_i h0
              rw [hpush.mem_iff]; simp [h0]
            · simp [*]
          have hkeys : ∀ q, q ∈ (if 0 < c p then heapPush hr p (c p) else hr).map (·.2) →
              q = p ∨ q ∈ hr.map (·.2) := by
            intro q hq
            obtain ⟨x, hx, e⟩ := List.mem_map.1 hq
            rcases (hmem x).1 hx with ⟨_, h2⟩ | h2
            · subst h2; exact Or.inl e.symm
            · exact Or.inr (List.mem_map.2 ⟨x, h2, e⟩)
          have hold : ∀ q, q ∈ hr.map (·.2) → q ∈ heap.map (·.2) := by
            intro q hq
            obtain ⟨x, hx, e⟩ := List.mem_map.1 hq
            exact List.mem_map.2 ⟨x, hsub x hx, e⟩
          refine { ord := ?_, nodup := ?_, dnd := Dict.nodup_keys_erase h.dnd p, val := ?_, pos := ?_, cover := ?_, neg := ?_, hb := ?_, db := ?_,
                   hex := by simp }
          · split
            · exact hpord
            · exact hord
          · split
            · rw [(hpush.map (·.2)).nodup_iff, List.map_cons, List.nodup_cons]; exact ⟨her.2, her.1⟩
            · exact her.1
          · intro f q hq
            rcases (hmem (f, q)).1 hq with ⟨h1, h2⟩ | h2
            · injection h2 with h2 h3
              subst h3
              rw [hcnt, if_pos rfl, h2]; omega
            · have hqp : p ≠ q := by rintro rfl; exact her.2 (List.mem_map.2 ⟨_, h2, rfl⟩)
              rw [hcnt, if_neg hqp]; exact h.val f q (hsub _ h2)
          · intro f q hq
            rcases (hmem (f, q)).1 hq with ⟨h1, h2⟩ | h2
            · injection h2 with h2 h3; omega
            · exact h.pos f q (hsub _ h2)
          · intro q hq _
            by_cases hqp : q = p
            · subst hqp; exact List.mem_map.2 ⟨(-(c q), q), (hmem _).2 (Or.inl ⟨hq, rfl⟩), rfl⟩
            · obtain ⟨⟨g', q'⟩, hq', e⟩ := List.mem_map.1 (h.cover q hq (by simp))
              simp only at e; subst e
              refine List.mem_map.2 ⟨(g', q'), (hmem _).2 (Or.inr ?_), rfl⟩
              exact hrest _ hq' (by rintro e; injection e with _ e; exact hqp e)
          · intro q v hv
            rw [hget] at hv
            split at hv
            · simp at hv
            · exact h.neg q v hv
          · intro q hq
            rcases hkeys q hq with rfl | h1
            · exact hbp
            · exact h.hb q (hold q h1)
          · intro q hq; exact h.db q (Dict.keys_erase_subset _ _ _ hq)
        · omega

/-- effect of the loop over the collected changes -/
theorem applyDeltas_spec {R : Nat} : ∀ (ds : Dict Pair Int) (h : List HItem) (d : Dict Pair Int), Heapq.IsHeap HItem.lt h →
    (Dict.keys ds).Nodup → (Dict.keys d).Nodup → (∀ q u, Dict.get? d q = some u → u < 0) →
    (∀ q δ, (q, δ) ∈ ds → (0 < δ → R = q.1 ∨ R = q.2) ∧ (δ < 0 → ¬ (R = q.1 ∨ R = q.2))) →
    ∃ h' d', applyDeltas R ds h d = .ok (h', d') ∧ Heapq.IsHeap HItem.lt h' ∧
      (∀ x, x ∈ h' ↔ x ∈ h ∨ ∃ q δ, (q, δ) ∈ ds ∧ 0 < δ ∧ x = (-δ, q)) ∧
      (((h.map (·.2)).Nodup ∧ ∀ q δ, (q, δ) ∈ ds → 0 < δ → q ∉ h.map (·.2)) → (h'.map (·.2)).Nodup) ∧
      (Dict.keys d').Nodup ∧ (∀ q u, Dict.get? d' q = some u → u < 0) ∧
      (∀ q, Dict.cnt d' q = Dict.cnt d q + min (Dict.cnt ds q) 0) ∧
      (∀ q ∈ Dict.keys d', q ∈ Dict.keys d ∨ Dict.cnt ds q < 0) := by
  intro ds
  induction ds with
  | nil =>
    intro h d hh _ hd hneg _
    refine ⟨h, d, rfl, hh, by simp, fun x => x.1, hd, hneg, ?_, fun q hq => Or.inl hq⟩
    intro q; simp [Dict.cnt]
  | cons x ds ih =>
    obtain ⟨p, δ⟩ := x
    intro h d hh hn hd hneg hR
    have hn' : (Dict.keys ds).Nodup := (List.nodup_cons.1 hn).2
    have hpn : p ∉ Dict.keys ds := (List.nodup_cons.1 hn).1
    have hp0 : Dict.cnt ds p = 0 := cnt_none ((Dict.get?_eq_none_iff ds p).2 hpn)
    have hR' : ∀ q δ, (q, δ) ∈ ds → (0 < δ → R = q.1 ∨ R = q.2) ∧ (δ < 0 → ¬ (R = q.1 ∨ R = q.2)) :=
      fun q δ hq => hR q δ (by simp [hq])
    have hRp := hR p δ (by simp)
    have hcons : ∀ q, Dict.cnt ((p, δ) :: ds) q = if p = q then δ else Dict.cnt ds q := by
      intro q; simp only [Dict.cnt, Dict.get?_cons]; split <;> rfl
    by_cases h1 : 0 < δ
    · obtain ⟨hpush, hpord⟩ := heapPush_spec hh p δ
      obtain ⟨h', d', e, hh', hm, hnd, hd', hneg', hc', hk'⟩ := ih (heapPush h p δ) d hpord hn' hd hneg hR'
      refine ⟨h', d', by simp only [applyDeltas, h1, hRp.1 h1, if_true]; exact e, hh', ?_, ?_, hd', hneg', ?_, ?_⟩
      · intro x
        rw [hm]
        simp only [hpush.mem_iff, List.mem_cons, Prod.mk.injEq]
        constructor
        · rintro ((rfl | h2) | ⟨q, δ', h2, h3, h4⟩)
          · exact Or.inr ⟨p, δ, Or.inl ⟨rfl, rfl⟩, h1, rfl⟩
          · exact Or.inl h2
          · exact Or.inr ⟨q, δ', Or.inr h2, h3, h4⟩
        · rintro (h2 | ⟨q, δ', ⟨rfl, rfl⟩ | h2, h3, h4⟩)
          · exact Or.inl (Or.inr h2)
          · exact Or.inl (Or.inl h4)
          · exact Or.inr ⟨q, δ', h2, h3, h4⟩
      · rintro ⟨h2, h3⟩
        apply hnd
        simp only [(hpush.map (·.2)).nodup_iff, (hpush.map (·.2)).mem_iff, List.map_cons, List.nodup_cons, List.mem_cons, not_or]
        refine ⟨⟨h3 p δ (by simp) h1, h2⟩, ?_⟩
        intro q δ' hq hδ'
        refine ⟨?_, h3 q δ' (by simp [hq]) hδ'⟩
        rintro rfl
        exact hpn (List.mem_map.2 ⟨_, hq, rfl⟩)
      · intro q
        rw [hc', hcons]
        split
        · rename_i hpq; subst hpq; rw [hp0]; omega
        · rfl
      · intro q hq
        rcases hk' q hq with h2 | h2
        · exact Or.inl h2
        · right
          rw [hcons]
          split
          · rename_i hpq; subst hpq; omega
          · exact h2
    · by_cases h2 : δ < 0
      · have hc1 : ∀ q, Dict.cnt (Dict.incr d p δ) q = Dict.cnt d q + if p = q then δ else 0 := fun q => Dict.cnt_incr d p δ q
        obtain ⟨h', d', e, hh', hm, hnd, hd', hneg', hc', hk'⟩ := ih h (Dict.incr d p δ) hh hn' (Dict.nodup_keys_incr hd _ _) (by
          intro q u hu
          rw [Dict.get?_incr] at hu
          split at hu
          · injection hu with hu
            cases hg : Dict.get? d p with
            | none => simp [hg] at hu; omega
            | some w => have := hneg p w hg; simp [hg] at hu; omega
          · exact hneg q u hu) hR'
        refine ⟨h', d', by simp only [applyDeltas, h1, h2, hRp.2 h2, if_true, if_false]; exact e, hh', ?_, ?_, hd', hneg', ?_, ?_⟩
        · intro x
          rw [hm]
          simp only [List.mem_cons, Prod.mk.injEq]
          constructor
          · rintro (h3 | ⟨q, δ', h3, h4, h5⟩)
            · exact Or.inl h3
            · exact Or.inr ⟨q, δ', Or.inr h3, h4, h5⟩
          · rintro (h3 | ⟨q, δ', ⟨rfl, rfl⟩ | h3, h4, h5⟩)
            · exact Or.inl h3
            · exact absurd h4 h1
            · exact Or.inr ⟨q, δ', h3, h4, h5⟩
        · rintro ⟨h3, h4⟩
          exact hnd ⟨h3, fun q δ' hq => h4 q δ' (by simp [hq])⟩
        · intro q
          rw [hc', hcons, hc1]
          split
          · rename_i hpq; subst hpq; rw [hp0]; omega
          · omega
        · intro q hq
          rcases hk' q hq with h3 | h3
          · rcases (Dict.mem_keys_incr d p δ q).1 h3 with h4 | h4
            · exact Or.inl h4
            · subst h4; right; rw [hcons, if_pos rfl]; exact h2
          · right
            rw [hcons]
            split
            · rename_i hpq; subst hpq; omega
            · exact h3
      · have h0 : δ = 0 := by omega
        obtain ⟨h', d', e, hh', hm, hnd, hd', hneg', hc', hk'⟩ := ih h d hh hn' hd hneg hR'
        refine ⟨h', d', by simp only [applyDeltas, h1, h2, if_false]; exact e, hh', ?_, ?_, hd', hneg', ?_, ?_⟩
        · intro x
          rw [hm]
          simp only [List.mem_cons, Prod.mk.injEq]
          constructor
          · rintro (h3 | ⟨q, δ', h3, h4, h5⟩)
            · exact Or.inl h3
            · exact Or.inr ⟨q, δ', Or.inr h3, h4, h5⟩
          · rintro (h3 | ⟨q, δ', ⟨rfl, rfl⟩ | h3, h4, h5⟩)
            · exact Or.inl h3
            · exact absurd h4 h1
            · exact Or.inr ⟨q, δ', h3, h4, h5⟩
        · rintro ⟨h3, h4⟩
          exact hnd ⟨h3, fun q δ' hq => h4 q δ' (by simp [hq])⟩
        · intro q
          rw [hc', hcons]
          split
          · rename_i hpq; subst hpq; rw [hp0]; omega
          · rfl
        · intro q hq
          rcases hk' q hq with h3 | h3
          · exact Or.inl h3
          · right
            rw [hcons]
            split
            · rename_i hpq; subst hpq; omega
            · exact h3

end Verif
