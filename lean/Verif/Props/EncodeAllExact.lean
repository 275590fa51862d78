import Verif.Props.EncodeAll
import Verif.Props.Byte
import Verif.Props.Bytes
import Verif.Props.CliClass
/-!
# Property C122: when a byte scheme gives the same sequences in one process and in many
-/

namespace Verif
open Spec

/-- C122 for bytes, exactly: for lines of text (without lone surrogates) the sequences of one process and of many are the same if and only if no line begins or ends
with white space; so the line feed must have been removed. -/
theorem C122_byte_iff {s : Scheme} (h : Scheme.make .byte [] = .ok s) (lines : List String) {nCpus : Int} (hn : 2 ≤ nCpus)
    {done : List (Nat × Py (List (List Int))) → List (Nat × Py (List (List Int)))} (hd : ∀ r, (done r).Perm r) :
    encodeAllIds s (lines.map lit) = parallelMap s.encode (lines.map lit) nCpus 1000 done ↔ ∀ t ∈ lines, Trimmed (lit t) (lit t) := by
  have hsub : ∀ l : Str, ∀ c ∈ strip l, c ∈ l := fun l c hc => strip_sub hc
  have hB := make_byte_ok h
  have hex : ∀ l ∈ lines.map lit, ∃ bs, utf8Encode l = .ok bs := by
    intro l hl
    obtain ⟨t, _, rfl⟩ := List.mem_map.1 hl
    exact ⟨_, encode_lit t⟩
  let e : Str → List Int := fun l => (match utf8Encode l with | .ok bs => bs | .error _ => ([] : List Nat)).map fun (b : Nat) => (b : Int)
  have he : ∀ {l : Str} {bs : List Nat}, utf8Encode l = .ok bs → s.encode l = .ok (e l) := by
    intro l bs hl
    rw [hB.encode hl]
    simp only [e, hl]
  have hstrip : ∀ l ∈ lines.map lit, ∃ bs, utf8Encode (strip l) = .ok bs := by
    intro l hl
    obtain ⟨bs, hb⟩ := hex l hl
    obtain ⟨bs', h1, _⟩ := utf8Encode_ok (strip l) fun c hc => utf8Encode_scalar hb c (hsub l c hc)
    exact ⟨bs', h1⟩
  have h1 : parallelMap s.encode (lines.map lit) nCpus 1000 done = ⟨(lines.map lit).map e, none⟩ :=
    C56_ordered (fun l hl => by obtain ⟨bs, hb⟩ := hex l hl; exact he hb) hn (by omega) hd
  have h2 : encodeAllIds s (lines.map lit) = ⟨(lines.map lit).map fun l => e (strip l), none⟩ := by
    refine genMap_ok ?_
    rw [List.forall₂_map_right_iff]
    exact List.forall₂_same.2 fun l hl => by obtain ⟨bs, hb⟩ := hstrip l hl; exact he hb
  rw [h1, h2, Gen.mk.injEq, and_iff_left rfl, List.map_inj_left, List.forall_mem_map]
  refine forall₂_congr fun t ht => ?_
  rw [trimmed_iff]
  constructor
  · intro heq
    obtain ⟨b1, g1⟩ := hex _ (List.mem_map.2 ⟨t, ht, rfl⟩)
    obtain ⟨b2, g2⟩ := hstrip _ (List.mem_map.2 ⟨t, ht, rfl⟩)
    simp only [e, g1, g2] at heq
    have : b2 = b1 := List.map_injective_iff.2 (fun a b h => Int.ofNat.inj h) heq
    exact (utf8Decode_encode g2).symm.trans ((congrArg utf8Decode this).trans (utf8Decode_encode g1))
  · intro heq
    rw [heq]

/-- "a b" is the same for both, "a b" with its line feed is not -/
example : (withScheme .byte [] fun s => .ok (encodeAllIds s [lit "a b"])) = .ok ⟨[[97, 32, 98]], none⟩ ∧
    (withScheme .byte [] fun s => s.encode (lit "a b")) = .ok [97, 32, 98] ∧ (withScheme .byte [] fun s => s.encode (lit "a b\n")) = .ok [97, 32, 98, 10] ∧
    strip (lit "a b") = lit "a b" ∧ strip (lit "a b\n") ≠ lit "a b\n" := by decide +kernel

end Verif
