import Verif.Spec.Table
/-! # Specification of learned word and char vocabularies -/

namespace Verif.Spec
open Verif

/-- What a vocabulary learned from the term frequencies `tf` has to satisfy. -/
structure VocabContract (level minFreq : Int) (tf : List (Str × Int)) (vocab : List Ty) : Prop where
  /-- the six reserved types come first -/
  reserved : (vocab.take 6).map (fun t => (t.name, t.level, t.kids)) =
    [(lit "<pad>", -1, []), (lit "<unk>", -1, []), (lit "<s>", -1, []), (lit "</s>", -1, []), (lit "<cls>", -1, []),
     ([0x2581], -1, [])]
  /-- every type is at its own index -/
  indexed : Indexed vocab
  /-- all names are distinct -/
  distinct : (names vocab).Nodup
  /-- the other types come in non-increasing order of frequency -/
  sorted : (vocab.drop 6).Pairwise fun a b => b.freq ≤ a.freq
  /-- they are terms with their counts -/
  counted : ∀ t ∈ vocab.drop 6, (t.name, t.freq) ∈ tf ∧ t.level = level ∧ t.kids = []
  /-- none is rarer than `minFreq` -/
  frequent : ∀ t ∈ vocab.drop 6, minFreq ≤ t.freq
  /-- no term left out is more frequent than a term kept -/
  best : ∀ p ∈ tf, p.1 ∉ names vocab → ∀ t ∈ vocab.drop 6, p.2 ≤ t.freq

/-- Frequency credited to a type; −1 stands for "none". -/
def credit (t : Ty) : Int := if t.freq = -1 then 0 else t.freq

/-- Sum of integers. -/
def total : List Int → Int
  | [] => 0
  | x :: xs => x + total xs

end Verif.Spec
