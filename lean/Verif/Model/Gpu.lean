import Verif.Model.Outcome
import Mathlib.Analysis.SpecialFunctions.Trigonometric.Basic

/-!
# Model of the accelerated precession model

`src/qinfer/gpu_models.py`.  The device is its observable effect on the destination buffer: every work item
reads the two input buffers, which are constant, and makes one store.  Single precision is a parameter `rnd`
applied to every stored value and intermediate result; `rnd := id` is exact arithmetic.  The OpenCL context,
queue and memory flags are left out.
-/

namespace QInfer

/-- The value stored by the kernel `cos_model`, gpu_models.py 86-88: product, half of it, cosine and square,
each rounded. -/
noncomputable def cosModelValue (rnd : ℝ → ℝ) (model expparam : ℝ) : ℝ :=
  rnd (rnd (Real.cos (rnd (rnd (model * expparam) / 2))) ^ 2)

/-- One work item of the kernel `cos_model`, gpu_models.py 76-90, on a destination buffer seen as a function
from offsets. -/
noncomputable def cosModelItem (rnd : ℝ → ℝ) (nExperiments : Nat) (models expparams : Nat → ℝ)
    (id : Nat × Nat) (buf : Nat → ℝ) : Nat → ℝ :=
  fun k => if k = id.1 * nExperiments + id.2 then cosModelValue rnd (models id.1) (expparams id.2) else buf k

/-- Running the kernel: the work items one after another in the order `items`, which the device chooses.
(gpu_models.py 183-184.) -/
noncomputable def cosModelRun (rnd : ℝ → ℝ) (nExperiments : Nat) (models expparams : Nat → ℝ)
    (items : List (Nat × Nat)) (buf : Nat → ℝ) : Nat → ℝ :=
  items.foldl (fun b id => cosModelItem rnd nExperiments models expparams id b) buf

/-- `AcceleratedPrecessionModel.likelihood`, gpu_models.py 162-195, for `nM` models of one parameter and `nE`
experiments: conversion to single precision, the kernel over the work size `(nM, nE)`, the copy into the
array `pr0` of that shape, the likelihoods.  `garbage` is the content of the buffer before. -/
noncomputable def gpuLikelihood {nM nE : Nat} (rnd : ℝ → ℝ) (items : List (Nat × Nat)) (garbage : Nat → ℝ)
    (outcomes : OutcomesArg) (modelparams : Fin nM → ℝ) (expparams : Fin nE → ℝ) :=
  let mps : Nat → ℝ := fun i => if h : i < nM then rnd (modelparams ⟨i, h⟩) else 0
  let eps : Nat → ℝ := fun j => if h : j < nE then rnd (expparams ⟨j, h⟩) else 0
  let buf := cosModelRun rnd nE mps eps items garbage
  let pr0 : Fin nM → Fin nE → ℝ := fun i j => buf (i.val * nE + j.val)
  pr0ToLikelihood outcomes pr0

/-- `are_models_valid`, gpu_models.py 143-148. -/
noncomputable def gpuValid (modelparams : List ℝ) : Bool := modelparams.all fun x => decide (x > 0)

end QInfer
