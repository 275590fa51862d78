import Verif.Model.TrackViews
import Verif.Props.Track
/-!
# Sizes of a tracked codec (C70)
-/

namespace Verif
open Spec

/-- C70: after `n` merges of a file of types `init ++ ms` the codec has `n` types more and `n` merges less than at first, in total as many types as the
file, and `peek_merge` tells what `merge` returns next; when no merge is left, the first raises IndexError and the second AssertionError. -/
theorem C70_sizes {init ms : List Ty} (h : MergeTable init ms) {s : Scheme} (hs : Scheme.make .bpe init = .ok s) {n : Nat} (hn : n ≤ ms.length) :
    ∃ x x', xtInit (some 1) (init ++ ms) = .ok x ∧ x.mergeN n = .ok x' ∧ x'.size = init.length + n ∧ x'.remaining = ms.length - n ∧
      x'.totalTypes = (init ++ ms).length ∧
      (∀ t, ms[n]? = some t → x'.peek = .ok t ∧ ∃ x'', x'.merge = .ok (x'', t) ∧ x.mergeN (n + 1) = .ok x'') ∧
      (n = ms.length → x'.peek = .error .index ∧ x'.merge = .error .assertion) := by
  obtain ⟨x, x', h1, h2, h3, h4, _⟩ := C70_merges_partial h hs hn
  refine ⟨x, x', h1, h2, ?_, ?_, ?_, ?_, ?_⟩
  · rw [CodecXt.size, h3, List.length_append, List.length_take, Nat.min_eq_left hn]
  · rw [CodecXt.remaining, h4, List.length_drop]
  · rw [CodecXt.totalTypes, CodecXt.size, CodecXt.remaining, h3, h4, List.length_append, List.length_append, List.length_take, List.length_drop]
    omega
  · intro t ht
    have hlt : n < ms.length := (List.getElem?_eq_some_iff.1 ht).1
    have hb : x'.buffer = t :: ms.drop (n + 1) := by
      rw [h4, List.drop_eq_getElem_cons hlt]
      rw [List.getElem?_eq_getElem hlt] at ht
      rw [Option.some.inj ht]
    obtain ⟨y, y', g1, g2, _, g4, _⟩ := C70_merges_partial h hs (n := n + 1) hlt
    rw [h1] at g1
    cases g1
    have step : ∀ (n : Nat) (a b : CodecXt), a.mergeN n = .ok b → a.mergeN (n + 1) = match b.merge with | .error e => .error e | .ok (c, _) => .ok c := by
      intro n
      induction n with
      | zero => intro a b hab; cases hab; simp only [CodecXt.mergeN]; cases a.merge with
        | error e => rfl
        | ok p => rfl
      | succ n ih =>
        intro a b hab
        rw [CodecXt.mergeN] at hab ⊢
        cases hm : a.merge with
        | error e => rw [hm] at hab; cases hab
        | ok p =>
          rw [hm] at hab
          exact ih _ _ hab
    refine ⟨by rw [CodecXt.peek, hb]; rfl, ?_⟩
    have h5 := step n x x' h2
    rw [g2] at h5
    cases hm : x'.merge with
    | error e => rw [hm] at h5; cases h5
    | ok p =>
      obtain ⟨c, u⟩ := p
      rw [hm] at h5
      cases h5
      have hu : u = t := by
        rw [CodecXt.merge, hb] at hm
        dsimp only at hm
        split at hm
        · cases hm; rfl
        · cases hm
      exact ⟨y', by rw [hu], g2⟩
  · intro hlast
    have hb : x'.buffer = [] := by rw [h4, hlast, List.drop_length]
    exact ⟨by rw [CodecXt.peek, hb]; rfl, by rw [CodecXt.merge, hb]⟩

/-- eight types and three merges; two merges later -/
example : (match xtInit (some 1) (exTrackInit ++ exTrackMerges) with
    | .error _ => none
    | .ok x => match x.mergeN 2 with
      | .error _ => none
      | .ok y => some [x.size, x.remaining, x.totalTypes, y.size, y.remaining, y.totalTypes, match y.peek with | .ok t => t.idx | .error _ => 0]) =
    some [8, 3, 11, 10, 1, 11, 10] := by decide +kernel

end Verif
