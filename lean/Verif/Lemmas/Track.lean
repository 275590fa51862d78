import Verif.Model.Track
import Verif.Spec.Track
import Verif.Lemmas.BpeIndex
import Verif.Lemmas.Quality

namespace Verif
open Spec

/-- nodes, index and (ghost) counts represent the corpus; symbols are below `bound` -/
structure TrackBase (mem : Mem) (ix : Dict Pair (List Nat)) (g : Dict Nat Int) (bound : Nat) (G : Segs) : Prop where
  wf : Wf mem G
  keys : (Dict.keys ix).Nodup
  nodup : ∀ q, (ids ix q).Nodup
  ixmem : ∀ q j, j ∈ ids ix q ↔ At mem G j q
  uni : ∀ v, Dict.cnt g v = symCount (corpusOf mem G) v
  uknd : (Dict.keys g).Nodup
  freqs : ∀ s ∈ G, 0 < s.2
  nonempty : ∀ s ∈ G, s.1 ≠ []
  vals : ∀ s ∈ corpusOf mem G, ∀ v ∈ s.1, v < bound

/-- the (ghost) counts after the first corrections -/
def startUni (g : Dict Nat Int) (a b R : Nat) (f : Int) : Dict Nat Int := Dict.incr (Dict.incr (Dict.set g R f) a (-f)) b (-f)

theorem pass_start {mem : Mem} {ix : Dict Pair (List Nat)} {g : Dict Nat Int} {R : Nat} {G : Segs} (h : TrackBase mem ix g R G) {a b : Nat}
    (ha : a < R) (hb : b < R) {todo : List Nat} (ht : todo.Perm (ids ix (a, b))) :
    PInv a b R (corpusOf mem G) todo
      { mem := mem, ix := Dict.erase ix (a, b), uni := startUni g a b R (isum (todo.map fun n => (mem n).freq)), deltas := [] } G := by
  have haR : a ≠ R := by omega
  have hbR : b ≠ R := by omega
  have hvals := h.vals
  have huni0 := h.uni
  generalize hC : corpusOf mem G = C at *
  have hget : ∀ q, Dict.get? (Dict.erase ix (a, b)) q = if (a, b) = q then none else Dict.get? ix q := Dict.get?_erase h.keys _
  have hidse : ∀ q, ids (Dict.erase ix (a, b)) q = if (a, b) = q then [] else ids ix q := by
    intro q; unfold ids; rw [hget]; split <;> rfl
  have hnR : ∀ s ∈ C, R ∉ s.1 := fun s hs hm => absurd (hvals s hs R hm) (by omega)
  have hRset : Dict.cnt g R = 0 := by rw [huni0, symCount_eq_zero hnR]
  have hmemo : ∀ u, u ∈ todo ↔ At mem G u (a, b) := by
    intro u; rw [ht.mem_iff]; exact h.ixmem _ u
  refine { wf := h.wf, ixok := ⟨Dict.nodup_keys_erase h.keys _, by rw [hget, if_pos rfl], ?_⟩, ixmem := ?_,
           tnd := ht.nodup_iff.2 (h.nodup (a, b)), tcase := fun u hu => Or.inl ((hmemo u).1 hu),
           tall := fun j hj => (hmemo j).2 hj, uni := ?_, uknd := ?_, dsnd := by simp [Dict.keys], ds := ?_, dsab := by simp [Dict.cnt],
           rel := by rw [hC]; exact Rel.refl _ _ _ _, freqs := h.freqs, nonempty := h.nonempty }
  · intro q; rw [hidse]; split
    · exact List.nodup_nil
    · exact h.nodup q
  · intro q hq j
    rw [hidse, if_neg (Ne.symm hq)]; exact h.ixmem q j
  · intro v
    generalize isum (todo.map fun u => (mem u).freq) = f
    have e2 : Dict.cnt (Dict.set g R f) v = if R = v then f else Dict.cnt g v := by
      unfold Dict.cnt; rw [Dict.get?_set]; split <;> rfl
    have e3 := huni0 v
    simp only [startUni]
    rw [Dict.cnt_incr, Dict.cnt_incr, e2, hC]
    simp only [ind]
    by_cases hRv : R = v
    · subst hRv
      rw [hRset] at e3
      rw [← e3]
      simp [haR, hbR]
    · rw [if_neg hRv, if_neg hRv, e3]
      split <;> split <;> ring
  · exact Dict.nodup_keys_incr (Dict.nodup_keys_incr (Dict.nodup_keys_set h.uknd _ _) _ _) _ _
  · intro q _; rw [hC]; simp [Dict.cnt]

theorem pass_finish {R a b : Nat} (ha : a < R) (hb : b < R) {C : Corpus} (hC : ∀ s ∈ C, ∀ v ∈ s.1, v < R) {P : Pass} {G : Segs}
    (h : PInv a b R C [] P G) : TrackBase P.mem P.ix P.uni (R + 1) G ∧ Merged (a, b) R C (corpusOf P.mem G) := by
  have hnoat : ∀ j, ¬ At P.mem G j (a, b) := fun j hj => by simpa using h.tall j hj
  have hzero : ∀ s ∈ corpusOf P.mem G, pairOcc (a, b) s.1 = 0 := pairOcc_zero_of_not_at h.wf hnoat
  have hrel := h.rel
  refine ⟨{ wf := h.wf, keys := h.ixok.keys, nodup := h.ixok.nodup, ixmem := ?_, uni := ?_, uknd := h.uknd, freqs := h.freqs,
            nonempty := h.nonempty, vals := ?_ }, ?_⟩
  · intro q j
    by_cases hq : q = (a, b)
    · subst hq
      simp only [ids, h.ixok.none]
      simp [hnoat j]
    · exact h.ixmem q hq j
  · intro v
    have := h.uni v
    simp only [List.map_nil] at this
    rw [this]; simp [isum]
  · intro t ht v hv
    obtain ⟨s, hs, _, hx⟩ := Rel.mem hrel t ht
    rcases hx v hv with h3 | h3
    · have := hC s hs v h3; omega
    · omega
  · unfold Merged
    generalize corpusOf P.mem G = C' at *
    clear * - hrel hzero
    induction hrel with
    | nil => exact .nil
    | cons hx h ih => exact .cons ⟨hx.1, hx.2, hzero _ (by simp)⟩ (ih (fun t ht => hzero t (by simp [ht])))

/-- a pair that is not indexed does not occur -/
theorem pass_none {mem : Mem} {ix : Dict Pair (List Nat)} {g : Dict Nat Int} {R : Nat} {G : Segs} (h : TrackBase mem ix g R G) {a b : Nat}
    (hn : ids ix (a, b) = []) : TrackBase mem (Dict.erase ix (a, b)) g (R + 1) G ∧ TrackBase mem ix g (R + 1) G ∧
      Merged (a, b) R (corpusOf mem G) (corpusOf mem G) := by
  have hnoat : ∀ j, ¬ At mem G j (a, b) := fun j hj => by
    have := (h.ixmem (a, b) j).2 hj
    rw [hn] at this; simp at this
  have hzero := pairOcc_zero_of_not_at h.wf hnoat
  have hvals : ∀ s ∈ corpusOf mem G, ∀ v ∈ s.1, v < R + 1 := fun s hs v hv => by
    have := h.vals s hs v hv; omega
  have hget : ∀ q, Dict.get? (Dict.erase ix (a, b)) q = if (a, b) = q then none else Dict.get? ix q := Dict.get?_erase h.keys _
  have hidse : ∀ q, ids (Dict.erase ix (a, b)) q = ids ix q := by
    intro q; unfold ids; rw [hget]
    split
    · rename_i e; subst e; unfold ids at hn; rw [hn]; rfl
    · rfl
  refine ⟨{ h with keys := Dict.nodup_keys_erase h.keys _, nodup := fun q => by rw [hidse]; exact h.nodup q,
                   ixmem := fun q j => by rw [hidse]; exact h.ixmem q j, vals := hvals }, { h with vals := hvals }, ?_⟩
  unfold Merged
  generalize corpusOf mem G = C at *
  clear * - hzero
  induction C with
  | nil => exact .nil
  | cons s C ih => 
    refine .cons ⟨rfl, ?_, hzero s (by simp)⟩ (ih (fun t ht => hzero t (by simp [ht])))
    have : ∀ l : List Nat, Replaces a b R l l := by
      intro l
      induction l with
      | nil => exact .nil
      | cons x l ih => exact .keep x ih
    exact this _

/-! ## arrays -/

theorem arrAdd_ok {arr : List Int} {i : Nat} (h : i < arr.length) (x : Int) :
    ∃ out, arrAdd arr i x = .ok out ∧ out.length = arr.length ∧ ∀ j, j < arr.length → out[j]! = arr[j]! + if j = i then x else 0 := by
  refine ⟨arr.set i (arr[i] + x), by simp [arrAdd, h], by simp, fun j hj => ?_⟩
  have h1 : (arr.set i (arr[i] + x))[j]! = (arr.set i (arr[i] + x))[j]'(by simpa using hj) := getElem!_pos _ _ _
  have h2 : arr[j]! = arr[j] := getElem!_pos _ _ _
  rw [h1, h2, List.getElem_set]
  by_cases hji : i = j
  · subst hji; simp
  · rw [if_neg hji, if_neg (fun h => hji h.symm)]; simp

theorem arrSet_ok {arr : List Int} {i : Nat} (h : i < arr.length) (x : Int) :
    ∃ out, arrSet arr i x = .ok out ∧ out.length = arr.length ∧ ∀ j, j < arr.length → out[j]! = if j = i then x else arr[j]! := by
  refine ⟨arr.set i x, by simp [arrSet, h], by simp, fun j hj => ?_⟩
  have h1 : (arr.set i x)[j]! = (arr.set i x)[j]'(by simpa using hj) := getElem!_pos _ _ _
  have h2 : arr[j]! = arr[j] := getElem!_pos _ _ _
  rw [h1, h2, List.getElem_set]
  by_cases hji : i = j
  · subst hji; simp
  · rw [if_neg hji, if_neg (fun h => hji h.symm)]

/-- the array agrees with the counts, except that it is too small by `sh` -/
def UniOk (arr : List Int) (total : Nat) (sh : Nat → Int) (g : Dict Nat Int) : Prop :=
  arr.length = total ∧ ∀ v, v < total → arr[v]! = Dict.cnt g v - sh v

theorem UniOk.start {arr : List Int} {total : Nat} {sh : Nat → Int} {g : Dict Nat Int} (h : UniOk arr total sh g) {a b R : Nat}
    (ha : a < total) (hb : b < total) (hR : R < total) (hR0 : sh R = 0) (f : Int) :
    ∃ u1 u2 u3, arrSet arr R f = .ok u1 ∧ arrAdd u1 a (-f) = .ok u2 ∧ arrAdd u2 b (-f) = .ok u3 ∧
      UniOk u3 total sh (startUni g a b R f) := by
  obtain ⟨u1, e1, l1, h1⟩ := arrSet_ok (by rw [h.1]; exact hR : R < arr.length) f
  obtain ⟨u2, e2, l2, h2⟩ := arrAdd_ok (by rw [l1, h.1]; exact ha : a < u1.length) (-f)
  obtain ⟨u3, e3, l3, h3⟩ := arrAdd_ok (by rw [l2, l1, h.1]; exact hb : b < u2.length) (-f)
  refine ⟨u1, u2, u3, e1, e2, e3, by rw [l3, l2, l1, h.1], fun v hv => ?_⟩
  have hl := h.1
  rw [h3 v (by omega), h2 v (by omega), h1 v (by omega)]
  simp only [startUni]
  rw [Dict.cnt_incr, Dict.cnt_incr]
  have e2 : Dict.cnt (Dict.set g R f) v = if R = v then f else Dict.cnt g v := by
    unfold Dict.cnt; rw [Dict.get?_set]; split <;> rfl
  rw [e2]
  have hh := h.2 v hv
  have c1 : (v = R) = (R = v) := propext eq_comm
  have c2 : (v = a) = (a = v) := propext eq_comm
  have c3 : (v = b) = (b = v) := propext eq_comm
  simp only [c1, c2, c3]
  by_cases hRv : R = v
  · subst hRv
    rw [hR0]
    simp only [if_true]
    split <;> split <;> linarith
  · simp only [if_neg hRv]
    split <;> split <;> linarith

theorem UniOk.skip {arr : List Int} {total : Nat} {sh : Nat → Int} {g : Dict Nat Int} (h : UniOk arr total sh g) {a R : Nat}
    (ha : a < total) (hR : R < total) (f : Int) :
    ∃ u, trackSkip a a R f arr = .ok u ∧
      UniOk u total (fun v => sh v + if a = v then 2 * f else 0) (Dict.incr (Dict.incr (Dict.incr g a f) a f) R (-f)) := by
  obtain ⟨u1, e1, l1, h1⟩ := arrAdd_ok (by rw [h.1]; exact hR : R < arr.length) (-f)
  obtain ⟨u2, e2, l2, h2⟩ := arrAdd_ok (by rw [l1, h.1]; exact ha : a < u1.length) f
  obtain ⟨u3, e3, l3, h3⟩ := arrAdd_ok (by rw [l2, l1, h.1]; exact ha : a < u2.length) (-f)
  refine ⟨u3, by simp only [trackSkip, e1, e2, e3], by rw [l3, l2, l1, h.1], fun v hv => ?_⟩
  have hl := h.1
  rw [h3 v (by omega), h2 v (by omega), h1 v (by omega), Dict.cnt_incr, Dict.cnt_incr, Dict.cnt_incr]
  have hh := h.2 v hv
  have c1 : (v = R) = (R = v) := propext eq_comm
  have c2 : (v = a) = (a = v) := propext eq_comm
  simp only [c1, c2]
  split <;> split <;> linarith

/-! ## one node -/

/-- lengths and owners of the segments -/
structure Own (T : Track) (G : Segs) : Prop where
  lens : T.lens = G.map fun s => (s.1.length : Int)
  owner : ∀ i s, G[i]? = some s → ∀ n ∈ s.1, T.owner n = i
  fpos : ∀ n, 0 ≤ (T.mem n).freq

theorem mergeMem_comm {m : Mem} {n k R : Nat} (h : n ≠ k) : deleteNode (m.upd n { m n with val := R }) k = mergeMem m n k R := by
  funext j
  have hk : (m.upd n { m n with val := R }) k = m k := by simp [Mem.upd, Ne.symm h]
  simp only [mergeMem, deleteNode, hk]
  cases hl : (m k).left with
  | none =>
    cases hr : (m k).right with
    | none =>
      simp only [setRight, setLeft, Mem.upd]
      by_cases h1 : j = n
      · subst h1; simp [h]
      · by_cases h2 : j = k
        · subst h2; simp [h1]
        · simp [h1, h2]
    | some y =>
      simp only [setRight, setLeft, Mem.upd]
      by_cases h1 : j = n
      · subst h1
        by_cases h3 : j = y
        · subst h3; simp [h]
        · simp [h, h3]
      · by_cases h2 : j = k
        · subst h2
          by_cases h3 : j = y
          · subst h3; simp [h1]
          · simp [h1, h3]
        · by_cases h3 : j = y
          · subst h3; simp [h1, h2]
          · simp [h1, h2, h3]
  | some x =>
    cases hr : (m k).right with
    | none =>
      simp only [setRight, setLeft, Mem.upd]
      by_cases h1 : j = n
      · subst h1
        by_cases h3 : j = x
        · subst h3; simp [h]
        · simp [h, h3]
      · by_cases h2 : j = k
        · subst h2
          by_cases h3 : j = x
          · subst h3; simp [h1]
          · simp [h1, h3]
        · by_cases h3 : j = x
          · subst h3; simp [h1, h2]
          · simp [h1, h2, h3]
    | some y =>
      simp only [setRight, setLeft, Mem.upd]
      by_cases h1 : j = n
      · subst h1
        by_cases h3 : j = x
        · subst h3
          by_cases h4 : j = y
          · subst h4; simp [h]
          · simp [h, h4]
        · by_cases h4 : j = y
          · subst h4; simp [h, h3]
          · simp [h, h3, h4]
      · by_cases h2 : j = k
        · subst h2
          by_cases h3 : j = x
          · subst h3
            by_cases h4 : j = y
            · subst h4; simp [h1]
            · simp [h1, h4]
          · by_cases h4 : j = y
            · subst h4; simp [h1, h3]
            · simp [h1, h3, h4]
        · by_cases h3 : j = x
          · subst h3
            by_cases h4 : j = y
            · subst h4; simp [h1, h2]
            · simp [h1, h2, h4]
          · by_cases h4 : j = y
            · subst h4; simp [h1, h2, h3]
            · simp [h1, h2, h3, h4]

theorem trackLeft_of {a R : Nat} {m : Mem} {x : Option Nat} {ix ix' : Dict Pair (List Nat)} {ds ds' : Dict Pair Int}
    (h : passLeft a R m x ix ds = .ok (ix', ds')) : trackLeft a R m x ix = .ok ix' := by
  cases x with
  | none => simp only [passLeft, Except.ok.injEq, Prod.mk.injEq] at h; simp only [trackLeft, h.1]
  | some x =>
    simp only [passLeft] at h
    simp only [trackLeft]
    cases hr : ixRemove ix ((m x).val, a) x with
    | error e => rw [hr] at h; simp at h
    | ok ix1 => rw [hr] at h; simp only [Except.ok.injEq, Prod.mk.injEq] at h ⊢; exact h.1

theorem trackRight_of {b R n bn : Nat} {m : Mem} {y : Option Nat} {ix ix' : Dict Pair (List Nat)} {ds ds' : Dict Pair Int}
    (h : passRight b R m n bn y ix ds = .ok (ix', ds')) : trackRight b R m n bn y ix = .ok ix' := by
  cases y with
  | none => simp only [passRight, Except.ok.injEq, Prod.mk.injEq] at h; simp only [trackRight, h.1]
  | some y =>
    simp only [passRight] at h
    simp only [trackRight]
    cases hr : ixRemove ix (b, (m y).val) bn with
    | error e => rw [hr] at h; simp at h
    | ok ix1 => rw [hr] at h; simp only [Except.ok.injEq, Prod.mk.injEq] at h ⊢; exact h.1

/-- what is kept along one pass -/
structure Sim (a b R : Nat) (f : Int) (total : Nat) (sh : Nat → Int) (T : Track) (P : Pass) (S : Segs) : Prop where
  mem : T.mem = P.mem
  ix : T.ix = P.ix
  own : Own T S
  uni : UniOk T.uni total (fun v => sh v + if a = b ∧ a = v then 2 * (f - Dict.cnt P.uni R) else 0) P.uni

theorem trackNode_ok {a b R total : Nat} {ff : Int} {sh : Nat → Int} (ha : a < R) (hb : b < R) (hR : R < total) {C0 : Corpus} {n : Nat}
    {todo : List Nat} {P : Pass} {S : Segs} {T : Track} (h : PInv a b R C0 (n :: todo) P S) (hS : Sim a b R ff total sh T P S) :
    ∃ T' P' S', trackNode a b R T n = .ok T' ∧ PInv a b R C0 todo P' S' ∧ Sim a b R ff total sh T' P' S' := by
  have haR : a ≠ R := by omega
  have hbR : b ≠ R := by omega
  obtain ⟨P', S', e, hd, h'⟩ := passNode_ok' haR hbR h
  rcases hd with ⟨S1, A, k, B, f, S2, rfl, rfl, hmem, huni, hva, hr, hvb⟩ | ⟨hab, rfl, hcase, rfl⟩
  · -- merged
    have p := h.wf.place
    have hun : (P.mem n).isUnlinked = false := by simp [Node.isUnlinked, hr]
    have hc : ¬ (a = b ∧ (R = a ∨ R = b)) := by rintro ⟨_, h | h⟩ <;> omega
    have hm : deleteNode (P.mem.upd n ⟨R, (P.mem n).left, some k, (P.mem n).freq⟩) k = mergeMem P.mem n k R := by
      rw [← hr]; exact mergeMem_comm p.hnk
    have hleft : (mergeMem P.mem n k R n).left = (P.mem n).left := by rw [p.merge, if_pos rfl]
    have hright : (mergeMem P.mem n k R n).right = (P.mem k).right := by rw [p.merge, if_pos rfl, p.rightk]
    have hf : (P.mem n).freq = (P.mem k).freq := by rw [p.freqn, p.freqk]
    -- what passNode did
    simp only [passNode, hun, hr, hc, hva, hvb, hf, if_false, Bool.false_eq_true, ne_eq, not_true_eq_false, or_self] at e
    change (match passLeft a R (mergeMem P.mem n k R) (P.mem n).left P.ix P.deltas with
      | .error e => .error e
      | .ok (ix1, ds1) => match passRight b R (mergeMem P.mem n k R) n k (P.mem k).right ix1 ds1 with
        | .error e => .error e
        | .ok (ix2, ds2) => .ok { mem := mergeMem P.mem n k R, ix := ix2, uni := P.uni, deltas := ds2 }) = Except.ok P' at e
    cases hl : passLeft a R (mergeMem P.mem n k R) (P.mem n).left P.ix P.deltas with
    | error e' => rw [hl] at e; simp at e
    | ok r1 =>
      obtain ⟨ix1, ds1⟩ := r1
      rw [hl] at e
      simp only at e
      cases hl2 : passRight b R (mergeMem P.mem n k R) n k (P.mem k).right ix1 ds1 with
      | error e' => rw [hl2] at e; simp at e
      | ok r2 =>
        obtain ⟨ix2, ds2⟩ := r2
        rw [hl2] at e
        simp only [Except.ok.injEq] at e
        subst e
        -- the length of the sequence
        have hi : (S1 ++ (A ++ n :: k :: B, f) :: S2)[S1.length]? = some (A ++ n :: k :: B, f) := by simp
        have hown : T.owner n = S1.length := hS.own.owner _ _ hi n (by simp)
        have hlen : S1.length < T.lens.length := by rw [hS.own.lens]; simp
        have hget : T.lens[S1.length]? = some ((A ++ n :: k :: B).length : Int) := by
          rw [hS.own.lens, List.getElem?_map, hi]; rfl
        have hadd : arrAdd T.lens S1.length (-1) = .ok (T.lens.set S1.length (((A ++ n :: k :: B).length : Int) + -1)) := by
          simp only [arrAdd, hget]
        have hget2 : (T.lens.set S1.length (((A ++ n :: k :: B).length : Int) + -1))[S1.length]? =
            some (((A ++ n :: k :: B).length : Int) + -1) := List.getElem?_set_self hlen
        have hpos : (0 : Int) < ((A ++ n :: k :: B).length : Int) + -1 := by simp; omega
        have hlens : T.lens.set S1.length (((A ++ n :: k :: B).length : Int) + -1) =
            (S1 ++ (A ++ n :: B, f) :: S2).map fun s => (s.1.length : Int) := by
          rw [hS.own.lens]
          simp only [List.map_append, List.map_cons]
          have : S1.length = (S1.map fun s => (s.1.length : Int)).length := by simp
          rw [this, List.set_append_right (h := le_refl _), Nat.sub_self, List.set_cons_zero]
          congr 2
          simp; omega
        refine ⟨{ T with mem := mergeMem P.mem n k R, ix := ix2, lens := T.lens.set S1.length (((A ++ n :: k :: B).length : Int) + -1) }, _, _, ?_, h', rfl, rfl, ⟨hlens, ?_, ?_⟩, hS.uni⟩
        · simp only [trackNode, hS.mem, hS.ix, hun, hr, hc, hva, hvb, if_false, Bool.false_eq_true, ne_eq, not_true_eq_false, hm, hleft, hright, hown,
            hadd, hget2, hpos, if_true, trackLeft_of hl, trackRight_of hl2]
        · intro i s hs j hj
          by_cases hi2 : i = S1.length
          · subst hi2
            simp at hs; subst hs
            refine hS.own.owner _ _ hi j ?_
            simp only [List.mem_append, List.mem_cons] at hj ⊢; tauto
          · refine hS.own.owner i s ?_ j hj
            rw [← hs]
            rcases Nat.lt_or_gt_of_ne hi2 with h1 | h1
            · rw [List.getElem?_append_left h1, List.getElem?_append_left h1]
            · rw [List.getElem?_append_right (by omega), List.getElem?_append_right (by omega)]
              obtain ⟨j', hj'⟩ : ∃ j', i - S1.length = j' + 1 := ⟨i - S1.length - 1, by omega⟩
              rw [hj']; simp
        · intro j
          have h0 := hS.own.fpos
          rw [hS.mem] at h0
          simp only
          rw [p.merge]
          split
          · exact h0 n
          · split
            · exact h0 k
            · split <;> exact h0 j
  · -- skipped
    subst hab
    obtain ⟨u, e2, hu⟩ := hS.uni.skip (by omega : a < total) hR (T.mem n).freq
    have hskip : trackNode a a R T n = .ok { T with uni := u } := by
      rcases hcase with h1 | ⟨w, h1, h2⟩
      · simp only [trackNode, hS.mem]
        rw [if_pos h1]
        rw [hS.mem] at e2
        simp only [e2]
      · have hun : (P.mem n).isUnlinked = false := by simp [Node.isUnlinked, h1]
        simp only [trackNode, hS.mem, hun, h1, h2, if_false, Bool.false_eq_true, or_true, and_self, if_true]
        rw [hS.mem] at e2
        simp only [e2]
    rw [hS.mem] at hu
    refine ⟨_, _, _, hskip, h', hS.mem, hS.ix, ⟨hS.own.lens, hS.own.owner, hS.own.fpos⟩, hu.1, fun v hv => ?_⟩
    rw [hu.2 v hv]
    simp only [Dict.cnt_incr, true_and]
    split
    · simp
      ring
    · simp

theorem trackNodes_ok {a b R total : Nat} {ff : Int} {sh : Nat → Int} (ha : a < R) (hb : b < R) (hR : R < total) {C0 : Corpus} :
    ∀ (todo : List Nat) {P : Pass} {S : Segs} {T : Track}, PInv a b R C0 todo P S → Sim a b R ff total sh T P S →
    ∃ T' P' S', trackNodes a b R todo T = .ok T' ∧ PInv a b R C0 [] P' S' ∧ Sim a b R ff total sh T' P' S' := by
  intro todo
  induction todo with
  | nil => intro P S T h hS; exact ⟨T, P, S, rfl, h, hS⟩
  | cons n todo ih =>
    intro P S T h hS
    obtain ⟨T1, P1, S1, e1, h1, hS1⟩ := trackNode_ok ha hb hR h hS
    obtain ⟨T2, P2, S2, e2, h2, hS2⟩ := ih h1 hS1
    exact ⟨T2, P2, S2, by simp only [trackNodes, e1, e2], h2, hS2⟩

/-- the state of the tracker between merges -/
structure TInv (total : Nat) (sh : Nat → Int) (bound : Nat) (T : Track) (G : Segs) (g : Dict Nat Int) : Prop where
  base : TrackBase T.mem T.ix g bound G
  own : Own T G
  uni : UniOk T.uni total sh g
  fresh : ∀ v, bound ≤ v → sh v = 0

/-- the shortfall after one more merge -/
def moreShort (sh : Nat → Int) (a b R : Nat) (C C1 : Corpus) (v : Nat) : Int :=
  sh v + if a = b ∧ a = v then 2 * (pairCount C (a, b) - symTotal C1 R) else 0

theorem trackMerge_ok {ord : List Nat → List Nat} (hord : ∀ l, (ord l).Perm l) {a b R total : Nat} {sh : Nat → Int} (ha : a < R) (hb : b < R)
    (hR : R < total) {T : Track} {G : Segs} {g : Dict Nat Int} (h : TInv total sh R T G g) :
    ∃ T' G' g', trackMerge ord a b R T = .ok T' ∧ TInv total (moreShort sh a b R (corpusOf T.mem G) (corpusOf T'.mem G')) (R + 1) T' G' g' ∧
      Merged (a, b) R (corpusOf T.mem G) (corpusOf T'.mem G') := by
  have hR0 : symTotal (corpusOf T.mem G) R = 0 := by
    refine symCount_eq_zero fun s hs hm => ?_
    have := h.base.vals s hs R hm
    omega
  have hcount : pairCount (corpusOf T.mem G) (a, b) = isum ((ids T.ix (a, b)).map fun n => (T.mem n).freq) :=
    pairCount_eq_ids h.base.wf (h.base.nodup (a, b)) (h.base.ixmem (a, b))
  have hfresh : ∀ C1 v, R + 1 ≤ v → moreShort sh a b R (corpusOf T.mem G) C1 v = 0 := by
    intro C1 v hv
    simp only [moreShort]
    rw [h.fresh v (by omega), if_neg (by omega)]; rfl
  have hsame : ids T.ix (a, b) = [] → moreShort sh a b R (corpusOf T.mem G) (corpusOf T.mem G) = sh := by
    intro he
    funext v
    rw [moreShort, hcount, hR0, he]
    simp [isum]
  cases hg : Dict.get? T.ix (a, b) with
  | none =>
    have he : ids T.ix (a, b) = [] := by simp [ids, hg]
    obtain ⟨_, h2, h3⟩ := pass_none h.base he
    refine ⟨T, G, g, by simp only [trackMerge, hg], ⟨h2, h.own, ?_, hfresh _⟩, h3⟩
    rw [hsame he]; exact h.uni
  | some nodes =>
    by_cases hn : nodes = []
    · have he : ids T.ix (a, b) = [] := by simp [ids, hg, hn]
      obtain ⟨h2, _, h3⟩ := pass_none h.base he
      refine ⟨{ T with ix := Dict.erase T.ix (a, b) }, G, g, by simp only [trackMerge, hg, hn, if_true], ⟨h2, ⟨h.own.lens, h.own.owner, h.own.fpos⟩, ?_, hfresh _⟩, h3⟩
      rw [hsame he]; exact h.uni
    · have hids : ids T.ix (a, b) = nodes := by simp [ids, hg]
      have hP := pass_start h.base ha hb (todo := ord nodes) (by rw [hids]; exact hord nodes)
      generalize hf : isum ((ord nodes).map fun n => (T.mem n).freq) = f at hP
      have hfc : f = pairCount (corpusOf T.mem G) (a, b) := by
        rw [hcount, hids, ← hf]
        exact isum_perm ((hord nodes).map _)
      obtain ⟨u1, u2, u3, e1, e2, e3, hu⟩ := h.uni.start (by omega : a < total) (by omega : b < total) hR (h.fresh R (le_refl _)) f
      have hcR : Dict.cnt (startUni g a b R f) R = f := by
        have e2 : Dict.cnt (Dict.set g R f) R = f := by
          unfold Dict.cnt; rw [Dict.get?_set, if_pos rfl]; rfl
        simp only [startUni, Dict.cnt_incr, e2]
        rw [if_neg (by omega), if_neg (by omega)]; ring
      have hS : Sim a b R f total sh { T with ix := Dict.erase T.ix (a, b), uni := u3 }
        { mem := T.mem, ix := Dict.erase T.ix (a, b), uni := startUni g a b R f, deltas := [] } G :=
        ⟨rfl, rfl, ⟨h.own.lens, h.own.owner, h.own.fpos⟩, by simpa [hcR] using hu⟩
      obtain ⟨T', P', S', e4, h4, hS'⟩ := trackNodes_ok ha hb hR _ hP hS
      obtain ⟨h5, h6⟩ := pass_finish ha hb h.base.vals h4
      refine ⟨T', S', P'.uni, ?_, ⟨?_, hS'.own, ?_, hfresh _⟩, ?_⟩
      · simp only [trackMerge, hg, hn, if_false, hf, e1, e2, e3, e4]
      · rw [hS'.mem, hS'.ix]; exact h5
      · have := hS'.uni
        rw [hfc] at this
        have e : Dict.cnt P'.uni R = symTotal (corpusOf T'.mem S') R := by rw [hS'.mem]; exact h5.uni R
        rw [e] at this
        exact this
      · rw [hS'.mem]; exact h6

/-! ## the index -/

theorem indexSeq_track : ∀ (seq : List Nat) (n : Nat) {I I' : Index}, indexSeq 1 n seq I = .ok I' →
    I'.ix = trackPairs n seq I.ix ∧ I'.uni = seq.foldl (fun d v => Dict.incr d v 1) I.uni ∧ I'.mem = I.mem ∧ I'.next = I.next := by
  intro seq
  induction seq with
  | nil => intro n I I' h; simp only [indexSeq, Except.ok.injEq] at h; subst h; exact ⟨rfl, rfl, rfl, rfl⟩
  | cons a seq ih =>
    intro n I I' h
    cases seq with
    | nil => simp only [indexSeq, Except.ok.injEq] at h; subst h; exact ⟨rfl, rfl, rfl, rfl⟩
    | cons b rest =>
      simp only [indexSeq] at h
      split at h
      · simp at h
      · rename_i hn
        obtain ⟨h1, h2, h3, h4⟩ := ih (n + 1) h
        refine ⟨?_, ?_, h3, h4⟩
        · rw [h1]
          simp only [trackPairs, ixAdd, hn, if_false]
        · rw [h2]; rfl

theorem trackSeqs_ok : ∀ (seqs : List (List Nat)) {T : TrackIndex} {I : Index} {G : Segs}, (∀ s ∈ seqs, s ≠ []) → IInv I G → T.mem = I.mem →
    T.next = I.next → T.ix = I.ix → T.uni = I.uni → T.lens = (G.map fun s => (s.1.length : Int)) →
    (∀ i s, G[i]? = some s → ∀ n ∈ s.1, T.owner n = i) → (∀ n, 0 ≤ (T.mem n).freq) →
    ∃ I' G', IInv I' G' ∧ (trackSeqs seqs T).mem = I'.mem ∧ (trackSeqs seqs T).ix = I'.ix ∧ (trackSeqs seqs T).uni = I'.uni ∧
      (trackSeqs seqs T).lens = (G'.map fun s => (s.1.length : Int)) ∧ (∀ i s, G'[i]? = some s → ∀ n ∈ s.1, (trackSeqs seqs T).owner n = i) ∧
      (∀ n, 0 ≤ ((trackSeqs seqs T).mem n).freq) ∧ corpusOf I'.mem G' = corpusOf I.mem G ++ plain seqs := by
  intro seqs
  induction seqs with
  | nil => intro T I G _ h e1 _ e3 e4 e5 e6 e7; exact ⟨I, G, h, e1, e3, e4, e5, e6, e7, by simp [plain]⟩
  | cons seq seqs ih =>
    intro T I G hne h e1 e2 e3 e4 e5 e6 e7
    have h0 : seq ≠ [] := hne seq (by simp)
    obtain ⟨I1, he, h1, hc⟩ := createIndex_step h (seq := seq) (freq := 1) (by omega) h0
    obtain ⟨t1, t2, t3, t4⟩ := indexSeq_track seq I.next he
    simp only at t1 t2 t3 t4
    have hlen : T.lens.length = G.length := by rw [e5]; simp
    let T1 : TrackIndex :=
    { mem := fromSeq T.mem T.next seq 1, next := T.next + seq.length, ix := trackPairs T.next seq T.ix,
      uni := seq.foldl (fun d v => Dict.incr d v 1) T.uni, lens := T.lens ++ [(seq.length : Int)],
      owner := fun n => if T.next ≤ n ∧ n < T.next + seq.length then T.lens.length else T.owner n }
    obtain ⟨I', G', r1, r2, r3, r4, r5, r6, r7, r8⟩ := ih (T := T1) (fun s hs => hne s (by simp [hs])) h1
      (by simp only [T1, t3, e1, e2]) (by simp only [T1, t4, e2]) (by simp only [T1, t1, e2, e3]) (by simp only [T1, t2, e4])
      (by simp only [T1, e5, List.map_append, List.map_cons, List.map_nil]; simp [newAddrs])
      (by
        intro i s hs n hn
        simp only [T1]
        by_cases hi : i < G.length
        · rw [List.getElem?_append_left hi] at hs
          have hlive := h.fresh n (mem_liveOf.2 ⟨s, List.mem_of_getElem? hs, hn⟩)
          rw [if_neg (by omega)]
          exact e6 i s hs n hn
        · have hi2 : i = G.length := by
            by_contra hc2
            rw [List.getElem?_append_right (by omega)] at hs
            obtain ⟨j, hj⟩ : ∃ j, i - G.length = j + 1 := ⟨i - G.length - 1, by omega⟩
            rw [hj] at hs; simp at hs
          subst hi2
          simp only [List.getElem?_concat_length, Option.some.injEq] at hs
          subst hs
          simp only [newAddrs, List.mem_range'_1] at hn
          rw [if_pos (by omega), hlen])
      (by
        intro n
        simp only [T1, fromSeq]
        split
        · split
          · simp
          · exact e7 n
        · exact e7 n)
    refine ⟨I', G', r1, r2, r3, r4, r5, r6, r7, ?_⟩
    rw [r8, hc]; simp [plain]

theorem fillUni_ok : ∀ (items : List (Nat × Int)) (arr : List Int), (Dict.keys items).Nodup → (∀ v ∈ Dict.keys items, v < arr.length) →
    ∃ out, fillUni items arr = .ok out ∧ out.length = arr.length ∧ ∀ v, v < arr.length → out[v]! = (Dict.get? items v).getD (arr[v]!) := by
  intro items
  induction items with
  | nil => intro arr _ _; exact ⟨arr, rfl, rfl, fun v _ => rfl⟩
  | cons x items ih =>
    obtain ⟨i, f⟩ := x
    intro arr hnd hb
    have hnd' : i ∉ Dict.keys items ∧ (Dict.keys items).Nodup := by
      simpa [Dict.keys] using hnd
    obtain ⟨a1, e1, l1, h1⟩ := arrSet_ok (hb i (by simp [Dict.keys]) : i < arr.length) f
    obtain ⟨out, e2, l2, h2⟩ := ih a1 hnd'.2 (fun v hv => by rw [l1]; exact hb v (by simp only [Dict.keys, List.map_cons, List.mem_cons]; exact Or.inr hv))
    refine ⟨out, by simp only [fillUni, e1, e2], by rw [l2, l1], fun v hv => ?_⟩
    rw [h2 v (by omega), h1 v hv, Dict.get?_cons]
    by_cases hvi : v = i
    · subst hvi
      rw [(Dict.get?_eq_none_iff items v).2 hnd'.1]; simp
    · have : ¬ i = v := fun e => hvi e.symm
      simp [this, hvi]

theorem trackInit_ok {total bound : Nat} (hbt : bound ≤ total) {seqs : List (List Nat)} (hne : ∀ s ∈ seqs, s ≠ []) (hv : ∀ s ∈ seqs, ∀ v ∈ s, v < bound) :
    ∃ T G g, trackInit total seqs = .ok T ∧ TInv total (fun _ => 0) bound T G g ∧ corpusOf T.mem G = plain seqs := by
  have hempty : IInv { mem := fun _ => ⟨0, none, none, 0⟩, next := 0, bi := [], ix := [], uni := [] } [] := by
    refine { wf := ⟨by simp, by simp [liveOf]⟩, fresh := by simp [liveOf], ixmem := ?_, nodup := by simp [ids], keys := by simp [Dict.keys],
             uknd := by simp [Dict.keys], bikeys := rfl, bipos := by simp [Dict.keys], bi := ?_, uni := ?_, ukeys := ?_, freqs := by simp,
             nonempty := by simp }
    · intro q j; simp [ids, At, liveOf]
    · intro q; simp [Dict.cnt, corpusOf, pairCount]
    · intro v; simp [Dict.cnt, corpusOf, symCount]
    · intro v; simp [Dict.keys, corpusOf]
  obtain ⟨I, G, h, r1, r2, r3, r4, r5, r6, r7⟩ := trackSeqs_ok seqs (T := { mem := fun _ => ⟨0, none, none, 0⟩, next := 0, ix := [], uni := [], lens := [], owner := fun _ => 0 })
    hne hempty rfl rfl rfl rfl rfl (by simp) (by simp)
  generalize hT : trackSeqs seqs { mem := fun _ => ⟨0, none, none, 0⟩, next := 0, ix := [], uni := [], lens := [], owner := fun _ => 0 } = TI at *
  have hc : corpusOf I.mem G = plain seqs := by rw [r7]; simp [corpusOf]
  have hb : ∀ s ∈ corpusOf I.mem G, ∀ v ∈ s.1, v < bound := by
    rw [hc]
    intro s hs
    obtain ⟨s', hs', rfl⟩ := List.mem_map.1 hs
    exact hv s' hs'
  obtain ⟨u, e, l, hu⟩ := fillUni_ok TI.uni (List.replicate total 0) (by rw [r3]; exact h.uknd) (by
    rw [r3]
    intro v hv'
    obtain ⟨s, hs, hm⟩ := (h.ukeys v).1 hv'
    have := hb s hs v hm
    simp; omega)
  refine ⟨{ mem := TI.mem, ix := TI.ix, uni := u, lens := TI.lens, owner := TI.owner }, G, I.uni, by simp only [trackInit, hT, e],
    ⟨⟨?_, ?_, ?_, ?_, ?_, h.uknd, h.freqs, h.nonempty, ?_⟩, ⟨r4, r5, r6⟩, ⟨by simpa using l, ?_⟩, fun _ _ => rfl⟩, ?_⟩
  · simp only [r1]; exact h.wf
  · simp only [r2]; exact h.keys
  · simp only [r2]; exact h.nodup
  · simp only [r1, r2]; exact h.ixmem
  · simp only [r1]; exact h.uni
  · simp only [r1]; exact hb
  · intro v hv'
    have := hu v (by simpa using hv')
    simp only
    rw [this, r3]
    have h0 : (List.replicate total (0 : Int))[v]! = 0 := by
      have : v < (List.replicate total (0 : Int)).length := by simpa using hv'
      rw [getElem!_pos (List.replicate total (0 : Int)) v this]; simp
    rw [h0, Int.sub_zero]
    rfl
  · simp only [r1]; exact hc

/-! ## rows -/

theorem TInv.lens {total bound : Nat} {sh : Nat → Int} {T : Track} {G : Segs} {g : Dict Nat Int} (h : TInv total sh bound T G g) :
    T.lens = seqLens (corpusOf T.mem G) := by
  rw [h.own.lens]; simp [seqLens, corpusOf]

theorem TInv.counts {total bound : Nat} {sh : Nat → Int} {T : Track} {G : Segs} {g : Dict Nat Int} (h : TInv total sh bound T G g) {v : Nat} (hv : v < total) :
    T.uni[v]! = symTotal (corpusOf T.mem G) v - sh v := by
  rw [h.uni.2 v hv, h.base.uni v]
  rfl

theorem trackRow_ok {total bound : Nat} {sh : Nat → Int} {T : Track} {G : Segs} {g : Dict Nat Int} (h : TInv total sh bound T G g) {k : Nat}
    (hk : 0 < k) (hkt : k ≤ total) : ∃ row, trackRow k T = .ok row ∧ RowOf sh k (corpusOf T.mem G) row := by
  have hlen : (T.uni.take k).length = k := by rw [List.length_take, h.uni.1]; omega
  have hcast : ((T.uni.take k).map fun (x : Int) => (x : ℚ)).sum = ((T.uni.take k).sum : Int) := by
    generalize T.uni.take k = l
    induction l with
    | nil => simp
    | cons x l ih => simp only [List.map_cons, List.sum_cons, ih]; push_cast; rfl
  have hmean : meanLen T.lens = meanOf (seqLens (corpusOf T.mem G)) := by
    rw [h.lens]; simp only [meanLen, meanOf, isum_eq_sum]
  have hrow : trackRow k T = .ok (k, imbalance (T.uni.take k), meanOf (seqLens (corpusOf T.mem G))) := by
    have hk0 : k ≠ 0 := by omega
    have hz : ((T.uni.take k).sum : ℚ) = 0 ↔ (T.uni.take k).sum = 0 := by norm_cast
    simp only [trackRow, trackerEmd, List.length_map, hlen, hk0, if_false, hcast, imbalance, hz, hmean]
    by_cases h0 : (T.uni.take k).sum = 0
    · simp only [h0, if_true]
    · simp only [h0, if_false, List.map_map]
      congr 4
      rw [one_div_mul_eq_div]; rfl
  refine ⟨_, hrow, rfl, rfl, ?_⟩
  simp only
  congr 1
  apply List.ext_getElem
  · simp [hlen]
  · intro i h1 h2
    simp only [List.length_map, List.length_range] at h2
    have hb := h.counts (by omega : i < total)
    simp only [List.getElem_take, List.getElem_map, List.getElem_range]
    rw [← hb]
    exact (getElem!_pos T.uni i (by rw [h.uni.1]; omega)).symm

theorem trackMergesBy_ok {mkRow : Nat → Track → Py TrackRow} {R : (Nat → Int) → Nat → Corpus → TrackRow → Prop} {total : Nat}
    (hR : ∀ {bound : Nat} {sh : Nat → Int} {T : Track} {G : Segs} {g : Dict Nat Int}, TInv total sh bound T G g → ∀ {k : Nat}, 0 < k → k ≤ total →
      ∃ row, mkRow k T = .ok row ∧ R sh k (corpusOf T.mem G) row)
    {ord : Nat → List Nat → List Nat} (hord : ∀ i l, (ord i l).Perm l) : ∀ (n : Nat) {x : CodecXt} {T : Track} {G : Segs}
    {g : Dict Nat Int} {sh : Nat → Int}, 0 < x.scheme.table.length → (∀ i t, x.buffer[i]? = some t → t.idx = x.scheme.table.length + i) →
    (∀ t ∈ x.buffer, ∃ ta tb, t.kids = [ta, tb] ∧ ta.idx < t.idx ∧ tb.idx < t.idx) → n ≤ x.buffer.length →
    x.scheme.table.length + x.buffer.length = total → TInv total sh x.scheme.table.length T G g →
    ∃ rows x' T' Cs G' g', trackMergesBy mkRow ord n x T = .ok (rows, x', T') ∧ x.mergeN n = .ok x' ∧ Stages (x.buffer.take n) (corpusOf T.mem G :: Cs) ∧
      rows.length = n + 1 ∧
      (∀ i row C, rows[i]? = some row → (corpusOf T.mem G :: Cs)[i]? = some C →
        R (fun v => sh v + shortfall v (x.buffer.take i) (corpusOf T.mem G :: Cs)) (x.scheme.table.length + i) C row) ∧
      TInv total (fun v => sh v + shortfall v (x.buffer.take n) (corpusOf T.mem G :: Cs)) (x.scheme.table.length + n) T' G' g' ∧
      (corpusOf T.mem G :: Cs).getLast? = some (corpusOf T'.mem G') := by
  intro n
  induction n with
  | zero =>
    intro x T G g sh hpos _ _ _ htot h
    obtain ⟨row, e, hrow⟩ := hR h hpos (by omega)
    have hs0 : (fun v => sh v + shortfall v [] [corpusOf T.mem G]) = sh := by
      funext v; simp [shortfall]
    refine ⟨[row], x, T, [], G, g, by simp only [trackMergesBy, e], rfl, .last _, rfl, ?_, by simpa only [List.take_zero, hs0, Nat.add_zero] using h, rfl⟩
    intro i r C hr hC
    cases i with
    | zero =>
      simp only [List.getElem?_cons_zero, Option.some.injEq] at hr hC
      subst hr hC
      simpa only [List.take_zero, hs0, Nat.add_zero] using hrow
    | succ i => simp at hr
  | succ n ih =>
    intro x T G g sh hpos hidx hk hn htot h
    obtain ⟨row, e, hrow⟩ := hR h hpos (by omega)
    obtain ⟨s, buf⟩ := x
    cases buf with
    | nil => simp at hn
    | cons t buf =>
      simp only at *
      have ht0 : t.idx = s.table.length := by have := hidx 0 t rfl; omega
      obtain ⟨ta, tb, hkids, hta, htb⟩ := hk t (by simp)
      let s' : Scheme := { s with table := s.table ++ [t], s2i := Dict.set s.s2i t.name t.idx, root := s.root.insert t.name t }
      have hmerge : CodecXt.merge ⟨s, t :: buf⟩ = .ok (⟨s', buf⟩, t) := by
        simp only [CodecXt.merge, ht0, if_true, s']
      have hs'len : s'.table.length = s.table.length + 1 := by simp [s']
      simp only [List.length_cons] at htot hn
      obtain ⟨T1, G1, g1, e1, h1, hm⟩ := trackMerge_ok (hord n) hta htb (by omega : t.idx < total) (by rw [ht0]; exact h)
      obtain ⟨rows, x', T', Cs, G', g', e2, e3, hst, hl, hrows, hfin, hlast⟩ := ih (x := ⟨s', buf⟩) (T := T1) (G := G1) (g := g1)
        (sh := moreShort sh ta.idx tb.idx t.idx (corpusOf T.mem G) (corpusOf T1.mem G1)) (by rw [hs'len]; omega)
        (by
          intro i t' ht'
          have := hidx (i + 1) t' (by simpa using ht')
          rw [hs'len]; omega)
        (fun t' ht' => hk t' (by simp [ht'])) (by simpa using hn) (by rw [hs'len]; simp only; omega)
        (by rw [hs'len, ← ht0]; exact h1)
      have hsh : ∀ (m : Nat), (fun v => sh v + shortfall v ((t :: buf).take (m + 1)) (corpusOf T.mem G :: corpusOf T1.mem G1 :: Cs)) =
          fun v => moreShort sh ta.idx tb.idx t.idx (corpusOf T.mem G) (corpusOf T1.mem G1) v + shortfall v (buf.take m) (corpusOf T1.mem G1 :: Cs) := by
        intro m
        funext v
        rw [List.take_succ_cons, shortfall, moreShort, hkids, add_assoc]
        congr 2
        simp only [List.map_cons, List.map_nil, List.cons.injEq, and_true]
        by_cases hc : ta.idx = tb.idx ∧ ta.idx = v
        · obtain ⟨c1, c2⟩ := hc
          rw [if_pos ⟨c2, c1 ▸ c2⟩, if_pos ⟨c1, c2⟩, ← c1, c2]
        · rw [if_neg (fun h => hc ⟨h.1.trans h.2.symm, h.1⟩), if_neg hc]
      refine ⟨row :: rows, x', T', corpusOf T1.mem G1 :: Cs, G', g', ?_, ?_, ?_, by simp [hl], ?_, ?_, ?_⟩
      · simp only [trackMergesBy, e, hmerge, hkids, e1, e2]
      · simp only [CodecXt.mergeN, hmerge, e3]
      · rw [List.take_succ_cons]
        exact .step hkids hm hst
      · intro i r C hr hC
        cases i with
        | zero =>
          simp only [List.getElem?_cons_zero, Option.some.injEq] at hr hC
          subst hr hC
          have hs0 : (fun v => sh v + shortfall v [] (corpusOf T.mem G :: corpusOf T1.mem G1 :: Cs)) = sh := by
            funext v; simp [shortfall]
          simpa only [List.take_zero, hs0, Nat.add_zero] using hrow
        | succ i =>
          simp only [List.getElem?_cons_succ] at hr hC
          rw [hsh i]
          have hk2 : s'.table.length + i = s.table.length + (i + 1) := by omega
          rw [← hk2]
          exact hrows i r C hr hC
      · have hk2 : s'.table.length + n = s.table.length + (n + 1) := by omega
        rw [hsh n, ← hk2]
        exact hfin
      · rw [List.getLast?_cons_cons]; exact hlast

/-! ## the codec -/

theorem mergeN_ok : ∀ (n : Nat) {x : CodecXt}, (∀ i t, x.buffer[i]? = some t → t.idx = x.scheme.table.length + i) → n ≤ x.buffer.length →
    ∃ x', x.mergeN n = .ok x' ∧ x'.buffer = x.buffer.drop n ∧ x'.scheme.table = x.scheme.table ++ x.buffer.take n ∧ x'.scheme.kind = x.scheme.kind ∧
      x'.scheme.root = (x.buffer.take n).foldl (fun root t => root.insert t.name t) x.scheme.root ∧
      ∀ w, Dict.get? x'.scheme.s2i w = match lastNamed (x.buffer.take n) w with
        | some t => some t.idx
        | none => Dict.get? x.scheme.s2i w := by
  intro n
  induction n with
  | zero => intro x _ _; exact ⟨x, rfl, rfl, by simp, rfl, rfl, fun w => by simp [lastNamed]⟩
  | succ n ih =>
    intro x hidx hn
    obtain ⟨s, buf⟩ := x
    cases buf with
    | nil => simp at hn
    | cons t buf =>
      simp only at *
      have ht0 : t.idx = s.table.length := by have := hidx 0 t rfl; omega
      let s' : Scheme := { s with table := s.table ++ [t], s2i := Dict.set s.s2i t.name t.idx, root := s.root.insert t.name t }
      have hmerge : CodecXt.merge ⟨s, t :: buf⟩ = .ok (⟨s', buf⟩, t) := by
        simp only [CodecXt.merge, ht0, if_true, s']
      obtain ⟨x', e, h1, h2, h3, h4, h5⟩ := ih (x := ⟨s', buf⟩) (by
          intro i t' ht'
          have := hidx (i + 1) t' (by simpa using ht')
          simp only [s', List.length_append, List.length_cons, List.length_nil]; omega) (by simpa using hn)
      refine ⟨x', by simp only [CodecXt.mergeN, hmerge, e], by rw [h1]; rfl, by rw [h2]; simp [s'], by rw [h3], by rw [h4]; rfl, fun w => ?_⟩
      rw [h5 w, List.take_succ_cons]
      simp only [s', Dict.get?_set]
      by_cases hw : t.name = w
      · simp only [hw, if_true, lastNamed, List.filter_cons, decide_true]
        rw [List.getLast?_cons]
        cases hl : (List.filter (fun t => decide (t.name = w)) (buf.take n)).getLast? <;> simp
      · simp [hw, lastNamed]

end Verif
