import Mathlib.Algebra.MvPolynomial.PDeriv
import Mathlib.Algebra.MvPolynomial.Variables
import Mathlib.Analysis.SpecialFunctions.Pow.Real
import Mathlib.Data.Complex.Basic
import Mathlib.Data.List.ToFinsupp
import Mathlib.RingTheory.MvPolynomial.Homogeneous

/-!
# Specification: Fock amplitudes of a Gaussian Bargmann function

The Bargmann function is `F(z) = c · exp(½ zᵀ A z + bᵀ z)`.  Its Fock amplitude at the multi-index `k` is
`√(∏ kᵢ!)` times the coefficient of `z^k` in the Taylor expansion
`exp(q) = ∑ₙ qⁿ / n!`, `q = bᵀ z + ½ zᵀ A z`.  Since `qⁿ` has no term of degree below `n`, only
`n ≤ |k|` contribute.  This file contains no reference to any algorithm.
-/

namespace Verif.Fock
open MvPolynomial

/-- The exponent `bᵀ z + ½ zᵀ A z` in `D` variables. -/
noncomputable def expo (D : ℕ) (A : ℕ → ℕ → ℂ) (b : ℕ → ℂ) : MvPolynomial ℕ ℂ :=
  ∑ i ∈ Finset.range D, C (b i) * X i +
    C (1 / 2) * ∑ i ∈ Finset.range D, ∑ j ∈ Finset.range D, C (A i j) * (X i * X j)

/-- Taylor coefficient of `z^k` in `exp (q z)`, for `q` without constant term. -/
noncomputable def taylor (q : MvPolynomial ℕ ℂ) (k : ℕ →₀ ℕ) : ℂ :=
  ∑ n ∈ Finset.range (k.degree + 1), coeff k (q ^ n) / (n.factorial : ℂ)

/-- `√(∏ᵢ kᵢ!)`. -/
noncomputable def sqrtFact (k : ℕ →₀ ℕ) : ℂ := ∏ i ∈ k.support, (Real.sqrt ((k i).factorial : ℝ) : ℂ)

/-- Fock amplitude at `k` of `c · exp(½ zᵀ A z + bᵀ z)`. -/
noncomputable def amp (D : ℕ) (A : ℕ → ℕ → ℂ) (b : ℕ → ℂ) (c : ℂ) (k : ℕ →₀ ℕ) : ℂ :=
  c * sqrtFact k * taylor (expo D A b) k

/-- `A` is symmetric on the first `D` indices. -/
def Symm (D : ℕ) (A : ℕ → ℕ → ℂ) : Prop := ∀ i < D, ∀ j < D, A i j = A j i

end Verif.Fock
