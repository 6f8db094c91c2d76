import Verif.Dcem.Lml
import Verif.Nlopt.Model

/-!
# Model of `theseus/optimizer/nonlinear/dcem.py`

One batch row: the sample tensor `X` has shape `(n_sample, batch, dof)` and every operation of the
step acts on the rows of the batch separately (the batched search inside `LML` is discussed in
`Verif.Dcem.Lml`).  Real arithmetic.  Variables with one-dimensional values (tensor shape
`(batch, width)`); `argsort` is a parameter, a permutation of the samples.
-/

namespace Verif.Dcem
open Real

/-! ## The split of a vector into variables -/

/-- `_mu_vec_to_dict` (dcem.py L78-84): Python slices `mu[:, idx : idx + dof]`, in the order of the
variables. -/
def muVecToDict : ℕ → List ℕ → List ℝ → List (List ℝ)
  | _, [], _ => []
  | idx, d :: ds, mu => (mu.drop idx).take d :: muVecToDict (idx + d) ds mu

/-- Broadcasting of the last dimension in `Normal(mu, self.sigma)` (dcem.py L104). -/
def broadcastW (a b : ℕ) : Option ℕ :=
  if a = b then some a else if a = 1 then some b else if b = 1 then some a else none

/-- Length of the Python slice `idx : idx + d` of a vector of length `m`. -/
def sliceLen (m idx d : ℕ) : ℕ := min (idx + d) m - min idx m

/-- Every slice has the width of its variable: what `objective.error_metric(X_samples[i])` needs
(dcem.py L106-113: `Variable.update` refuses another shape). -/
def slicesFit (m : ℕ) : ℕ → List (ℕ × ℕ) → Bool
  | _, [] => true
  | idx, (w, d) :: vs => decide (sliceLen m idx d = w) && slicesFit m (idx + d) vs

/-- Whether the shapes of a step fit (dcem.py L100-156), for variables given by the width of their
tensor and their `dof`: the broadcast, the updates and the assertion on the shape of `sigma`. -/
def shapesFit (vars : List (ℕ × ℕ)) : Bool :=
  let tot := (vars.map Prod.snd).sum
  match broadcastW (vars.map Prod.fst).sum tot with
  | none => false
  | some m => slicesFit m 0 vars && decide (m = tot)

/-! ## One step -/

/-- Settings of the optimizer (dcem.py L64-76). `temp = none` also stands for an infinite value. -/
structure Cfg where
  nElite : ℕ
  temp : Option ℝ
  normalize : Bool
  lmlEps : ℝ

/-- Exceptions: `ValueError` of `Normal` for a standard deviation that is not positive, and
`RuntimeError` of the out-of-range `gather` in `LML`. -/
inductive Err where
  | valueError | runtimeError
deriving DecidableEq, Repr

variable {S D : ℕ}

/-- `Normal(mu, sigma).rsample` (dcem.py L104), as a function of the standard normal noise. -/
def rsample (mu sigma : Fin D → ℝ) (noise : Fin S → Fin D → ℝ) : Fin S → Fin D → ℝ :=
  fun s d => mu d + noise s d * sigma d

/-- `fX.mean(dim=1)` (dcem.py L119). -/
noncomputable def mean (f : Fin S → ℝ) : ℝ := (∑ s, f s) / S

/-- `fX.std(dim=1)`, the unbiased estimate (dcem.py L120); with one sample torch gives `nan`, the
model 0. -/
noncomputable def std (f : Fin S → ℝ) : ℝ := √((∑ s, (f s - mean f) ^ 2) / (S - 1 : ℝ))

/-- `_fX` (dcem.py L118-123). -/
noncomputable def normCost (normalize : Bool) (f : Fin S → ℝ) : Fin S → ℝ :=
  if normalize then fun s => (f s - mean f) / (std f + 1e-6) else f

/-- `torch.softmax(-_fX * self.temp, dim=1)` (dcem.py L127). -/
noncomputable def softmax (f : Fin S → ℝ) (temp : ℝ) : Fin S → ℝ :=
  fun s => exp (-f s * temp) / ∑ r, exp (-f r * temp)

/-- The hard weights (dcem.py L136-141): 1 for the first `n_elite` samples in the order of
`argsort`, 0 for the others. -/
def hardWeights (order : Equiv.Perm (Fin S)) (nElite : ℕ) : Fin S → ℝ :=
  fun s => if (order.symm s).val < nElite then 1 else 0

/-- `indexes` and `eps` (dcem.py L117-142). -/
noncomputable def weights (cfg : Cfg) (order : Equiv.Perm (Fin S)) (f : Fin S → ℝ) :
    Except Err ((Fin S → ℝ) × ℝ) :=
  match cfg.temp with
  | some temp =>
    let g := normCost cfg.normalize f
    if cfg.nElite = 1 then .ok (softmax g temp, 0)
    else
      match lml cfg.nElite 10 100 cfg.lmlEps (List.ofFn fun s => -g s * temp) with
      | none => .error .runtimeError
      | some y => .ok (fun s => y.getD s 0, 0)
  | none => .ok (hardWeights order cfg.nElite, 1e-10)

/-- `mu` (dcem.py L149-151). -/
noncomputable def newMu (w : Fin S → ℝ) (nElite : ℕ) (X : Fin S → Fin D → ℝ) : Fin D → ℝ :=
  fun d => (∑ s, w s * X s d) / nElite

/-- `self.sigma` (dcem.py L152-154). -/
noncomputable def newSigma (w : Fin S → ℝ) (nElite : ℕ) (eps : ℝ) (X : Fin S → Fin D → ℝ)
    (mu : Fin D → ℝ) : Fin D → ℝ :=
  fun d => √((∑ s, w s * (X s d - mu d) ^ 2) / nElite) + eps

/-- `_CEM_step` for one row (dcem.py L94-158): the new mean and the new standard deviation, from
the current ones, the noise, the cost of a vector and the order found by `argsort`. -/
noncomputable def cemStep (cfg : Cfg) (cost : (Fin D → ℝ) → ℝ) (noise : Fin S → Fin D → ℝ)
    (argsort : (Fin S → ℝ) → Equiv.Perm (Fin S)) (mu sigma : Fin D → ℝ) :
    Except Err ((Fin D → ℝ) × (Fin D → ℝ)) :=
  open Classical in
  if ∀ d, 0 < sigma d then
    let X := rsample mu sigma noise
    let f := fun s => cost (X s)
    match weights cfg (argsort f) f with
    | .error e => .error e
    | .ok (w, eps) =>
      let mu' := newMu w cfg.nElite X
      .ok (mu', newSigma w cfg.nElite eps X mu')
  else .error .valueError

/-! ## The loop -/
section Loop
open Nlopt
variable {K : Type} [Field K] [LinearOrder K] {n : ℕ} {X M : Type}

/-- What the loop of DCEM uses: one sampling step (given the iteration, which selects the random
numbers; `M` is `self.sigma`) and the error metric. -/
structure Sampler (K : Type) (n : ℕ) (X M : Type) where
  cem : ℕ → M → B n X → Except Err (M × B n X)
  metric : X → Fl K

/-- The metric as an optimization method, to reuse the records of `Verif.Nlopt`. -/
def Sampler.method (A : Sampler K n X M) : Method K n X Unit M where
  delta := fun _ _ => none
  gn := fun _ => none
  complete := fun m _ _ _ _ => (m, none)
  retract := fun x _ => x
  scale := fun _ _ => ()
  metric := A.metric

/-- The loop (dcem.py L168-204): `finish` is the part after the step (L180-195), which is the same
text as in the other optimizers; a `RuntimeError` is raised again as a `RuntimeError`. -/
def dcemLoop (P : Params K) (A : Sampler K n X M) : ℕ → LS K n X M → Except Err (LS K n X M)
  | 0, s => .ok (markMax s)
  | k + 1, s =>
    match A.cem s.it s.mem s.x with
    | .error e => .error e
    | .ok (mem, y) =>
      match finish P s y mem (fun i => A.metric (y i)) with
      | .cont t => dcemLoop P A k t
      | .brk t => .ok (markMax t)
      | .failed t => .ok (markMax t)
      | .raised => .error .runtimeError

/-- Result of `optimize()` with DCEM. -/
inductive DcemRes (K : Type) (n : ℕ) (X : Type) where
  | ok (x : B n X) (info : Info K n X)
  | error (e : Err)
  | notImplemented

/-- `_optimize_impl` (dcem.py L206-248); `mem0` is the value set by `reset_sigma`. -/
def dcemImpl (P : Params K) (A : Sampler K n X M) (m : Mode) (x : B n X) (mem0 : M) : DcemRes K n X :=
  if m = .unroll ∨ m = .dlm then
    match dcemLoop P A P.maxIter.toNat (startLS x mem0 (initInfo A.method x)) with
    | .ok s => .ok s.x (clearConvIter s.info)
    | .error e => .error e
  else .notImplemented

end Loop
end Verif.Dcem
