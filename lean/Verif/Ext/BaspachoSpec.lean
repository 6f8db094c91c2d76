import Verif.Ext.Baspacho
import Verif.Ext.MatMultProps
import Mathlib.LinearAlgebra.Matrix.PosDef
import Mathlib.Data.Real.Basic

/-!
# The contract of the BaSpaCho library

Columns are numbered block after block (`locate`).  The library keeps, for every pair of blocks of
its (filled) structure, the block whose row comes later in its own order, row by row with a stride;
of the diagonal blocks it uses the lower half.  It solves the system with the symmetric matrix that
these entries stand for, on vectors in its own order.
-/

namespace Verif.Ext
open Verif.Linear

variable {R : Type}

/-- The block of column `c`, and the place in the block. -/
def locate : List ℕ → ℕ → ℕ × ℕ
  | [], c => (0, c)
  | s :: ss, c => if c < s then (0, c) else ((locate ss (c - s)).1 + 1, (locate ss (c - s)).2)

/-- What is assumed about the accessor of the solver that `createSolver` returns for blocks of the
given sizes and the block structure `P`. -/
structure Contract (A : Accessor) (sizes : List ℕ) (P : CsrArr) where
  /-- the place of a block in the order of the library -/
  perm : ℕ → ℕ
  /-- the blocks of the filled structure -/
  stored : ℕ → ℕ → Prop
  order : A.order = sizes.sum
  perm_inj : ∀ r c, r < sizes.length → c < sizes.length → perm r = perm c → r = c
  stored_of : ∀ r c, r < sizes.length → (∃ s, P.InRow r s ∧ at' P.colInd s = c) → stored r c
  stored_symm : ∀ r c, stored r c → stored c r
  flip : ∀ r c, r < sizes.length → c < sizes.length → stored r c →
    (A.blockOffset r c).2.2 = decide (perm r < perm c)
  swap : ∀ r c, r < sizes.length → c < sizes.length → stored r c →
    (A.blockOffset r c).1 = (A.blockOffset c r).1 ∧ (A.blockOffset r c).2.1 = (A.blockOffset c r).2.1
  diag : ∀ p < sizes.length, stored p p →
    A.diagBlock p = ((A.blockOffset p p).1, (A.blockOffset p p).2.1)
  bound : ∀ r c a b, r < sizes.length → c < sizes.length → stored r c → perm c ≤ perm r →
    a < at' sizes r → b < at' sizes c →
    (A.blockOffset r c).1 + (A.blockOffset r c).2.1 * a + b < A.dataSize
  inj : ∀ r c a b r' c' a' b', r < sizes.length → c < sizes.length → stored r c →
    perm c ≤ perm r → a < at' sizes r → b < at' sizes c → r' < sizes.length → c' < sizes.length →
    stored r' c' → perm c' ≤ perm r' → a' < at' sizes r' → b' < at' sizes c' →
    (A.blockOffset r c).1 + (A.blockOffset r c).2.1 * a + b
      = (A.blockOffset r' c').1 + (A.blockOffset r' c').2.1 * a' + b' →
    r = r' ∧ c = c' ∧ a = a' ∧ b = b'
  start_lt : ∀ p a, p < sizes.length → a < at' sizes p → A.paramStart p + a < A.order
  start_inj : ∀ p a p' a', p < sizes.length → a < at' sizes p → p' < sizes.length →
    a' < at' sizes p' → A.paramStart p + a = A.paramStart p' + a' → p = p' ∧ a = a'

variable {A : Accessor} {sizes : List ℕ} {P : CsrArr}

/-- Where the library keeps the entry of columns `i`, `j` of the symmetric matrix. -/
def Contract.addr (K : Contract A sizes P) (i j : ℕ) : ℕ :=
  let p := locate sizes i
  let q := locate sizes j
  if K.perm q.1 < K.perm p.1 ∨ (p.1 = q.1 ∧ q.2 ≤ p.2) then
    (A.blockOffset p.1 q.1).1 + (A.blockOffset p.1 q.1).2.1 * p.2 + q.2
  else (A.blockOffset q.1 p.1).1 + (A.blockOffset q.1 p.1).2.1 * q.2 + p.2

open Classical in
/-- The symmetric matrix that the data of one batch element stand for. -/
noncomputable def Contract.entry [Zero R] (K : Contract A sizes P) (d : ℕ → R) (i j : ℕ) : R :=
  if K.stored (locate sizes i).1 (locate sizes j).1 then d (K.addr i j) else 0

/-- The same as a matrix. -/
noncomputable def Contract.matrix [Zero R] (K : Contract A sizes P) (d : ℕ → R) :
    Matrix (Fin sizes.sum) (Fin sizes.sum) R := fun i j => K.entry d i j

/-- The place of column `i` in a vector in the order of the library. -/
def Accessor.pos (A : Accessor) (sizes : List ℕ) (i : ℕ) : ℕ :=
  A.paramStart (locate sizes i).1 + (locate sizes i).2

/-- What is assumed about factorization and solve: for a positive definite matrix the result solves
the system. -/
def Contract.Solves (K : Contract A sizes P) (solve : (ℕ → ℝ) → (ℕ → ℝ) → ℕ → ℝ) : Prop :=
  ∀ d v, (K.matrix d).PosDef → ∀ i : Fin sizes.sum,
    ∑ j : Fin sizes.sum, K.matrix d i j * solve d v (A.pos sizes j) = v (A.pos sizes i)

/-- The data of batch element `b`. -/
def item (D : ℕ) (data : ℕ → R) (b : ℕ) : ℕ → R := fun k => data (b * D + k)

end Verif.Ext
