import Mathlib.Algebra.Order.Ring.Rat
/-!
# N-grams, recall and precision, independent of the model
-/

namespace Verif.Spec
variable {α : Type} [DecidableEq α]

/-- the number of positions at which `g`, of length `n`, is found in the sentence -/
def gramCount (n : ℕ) (sent g : List α) : ℕ :=
  if g.length = n then ((List.range (sent.length + 1)).filter fun i => decide (g <+: sent.drop i)).length else 0

/-- how much of the occurrences of `g` in `own` are matched in `other`; nothing when it does not occur -/
def matchRatio (n : ℕ) (g : List α) (p : List α × List α) : Option ℚ :=
  if gramCount n p.1 g = 0 then none else some ((min (gramCount n p.2 g) (gramCount n p.1 g) : ℕ) / (gramCount n p.1 g : ℚ))

/-- mean of the ratios of all sentence pairs in which `g` occurs on the first side -/
def meanRatio (n : ℕ) (pairs : List (List α × List α)) (g : List α) : ℚ :=
  (pairs.filterMap (matchRatio n g)).sum / ((pairs.filterMap (matchRatio n g)).length : ℚ)

/-- total number of occurrences -/
def totalCount (n : ℕ) (sents : List (List α)) (g : List α) : ℕ := (sents.map fun s => gramCount n s g).sum

/-- all grams of length `n` in the order of the text, with repetitions -/
def gramStream (n : ℕ) (sents : List (List α)) : List (List α) :=
  sents.flatMap fun s => s.tails.filterMap fun t => if n ≤ t.length then some (t.take n) else none

end Verif.Spec
