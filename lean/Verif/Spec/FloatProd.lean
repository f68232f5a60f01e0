import Verif.Spec.Doubles

/-!
# Products, powers and exponentials in floating point
-/

namespace Spec

/-- `FloatProd rd l s`: `s` is a value of the product of the numbers in `l`, computed with rounded multiplications in some order. -/
inductive FloatProd (rd : ℝ → ℝ) : List ℝ → ℝ → Prop
  | nil : FloatProd rd [] 1
  | one (a : ℝ) : FloatProd rd [a] a
  | mul {l l' : List ℝ} {s t : ℝ} : l ≠ [] → l' ≠ [] → FloatProd rd l s → FloatProd rd l' t → FloatProd rd (l ++ l') (rd (s * t))
  | perm {l l' : List ℝ} {s : ℝ} : l.Perm l' → FloatProd rd l s → FloatProd rd l' s

/-- `v` differs from `x` by at most one unit in the last place, which is what the C libraries promise of `pow` and `exp`. -/
def OneUlp (v x : ℝ) : Prop := |v - x| ≤ |x| / 2 ^ 52

end Spec
