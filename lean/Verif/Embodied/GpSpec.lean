import Mathlib.Data.Matrix.Block
import Mathlib.Analysis.SpecialFunctions.Integrals.Basic

/-!
# The Gaussian process of constant velocity

A point moves for a time `dt` with white noise of power spectral density `Qc` as its acceleration.
The deviation of (position, velocity) from motion at constant velocity is Gaussian with the
covariance `∫₀^dt Φ(dt - s) [0 0; 0 Qc] Φ(dt - s)ᵀ ds`, `Φ(u) = [1 u; 0 1]`, written by blocks.
-/

namespace Verif.Embodied
open Matrix

/-- The covariance of the deviation from constant velocity. -/
noncomputable def gpCovariance {n : ℕ} (dt : ℝ) (Qc : Matrix (Fin n) (Fin n) ℝ) :
    Matrix (Fin (n + n)) (Fin (n + n)) ℝ :=
  (Matrix.fromBlocks
      ((∫ s in (0 : ℝ)..dt, (dt - s) ^ 2) • Qc) ((∫ s in (0 : ℝ)..dt, (dt - s)) • Qc)
      ((∫ s in (0 : ℝ)..dt, (dt - s)) • Qc) ((∫ _s in (0 : ℝ)..dt, (1 : ℝ)) • Qc)).submatrix
    finSumFinEquiv.symm finSumFinEquiv.symm

end Verif.Embodied
