import Mathlib.Data.Real.Basic

/-!
# Specification: the documented domains of the sampling functions

From the `Raises` sections of the docstrings in `core/distributions/*.py`; independent of the model.
-/

namespace Pysatl.Spec

/-- A call of a sampling function `generate_*` of `core/distributions`, without its size. -/
inductive Sampler where
  | beta (a b : ℝ) | cauchy (t s : ℝ) | chi2 (df : ℝ) | expon (lam : ℝ) | gamma (alfa beta : ℝ)
  | gompertz (eta b : ℝ) | gumbel (mu beta : ℝ) | invgauss (mu lam : ℝ) | laplace (t s : ℝ)
  | loConNorm (p a : ℝ) | logistic (t s : ℝ) | lognorm (mu s : ℝ) | mixConNorm (p a b : ℝ)
  | norm (mean var : ℝ) | rice (nu sigma : ℝ) | scaleConNorm (p b : ℝ) | student (df : ℝ)
  | truncnorm (mean var a b : ℝ) | tukey (lam : ℝ) | uniform (a b : ℝ) | weibull (a k : ℝ)

/-- The parameters for which the documentation announces a `ValueError`. -/
def Sampler.DocumentedInvalid : Sampler → Prop
  | .beta a b => a ≤ 0 ∨ b ≤ 0
  | .cauchy _ s => s ≤ 0
  | .chi2 df => df ≤ 0
  | .expon lam => lam ≤ 0
  | .gamma alfa rate => alfa ≤ 0 ∨ rate ≤ 0
  | .gompertz eta b => eta ≤ 0 ∨ b ≤ 0
  | .gumbel _ scale => scale ≤ 0
  | .invgauss mu lam => mu ≤ 0 ∨ lam ≤ 0
  | .laplace _ s => s ≤ 0
  | .loConNorm p _ => ¬(0 ≤ p ∧ p ≤ 1)
  | .logistic _ s => s ≤ 0
  | .lognorm _ s => s < 0
  | .mixConNorm p _ b => ¬(0 ≤ p ∧ p ≤ 1) ∨ b ≤ 0
  | .norm _ var => var < 0
  | .rice _ sigma => sigma ≤ 0
  | .scaleConNorm p b => ¬(0 ≤ p ∧ p ≤ 1) ∨ b < 0
  | .student df => df ≤ 0
  | .truncnorm _ var a b => var < 0 ∨ b ≤ a
  | .tukey _ => False
  | .uniform a b => b ≤ a
  | .weibull _ _ => False

end Pysatl.Spec
