import Verif.Model.Bases
import Verif.Model.Outcome

/-!
# Model of `src/qinfer/tomography/models.py`

`np.linalg.eig` is a parameter `eig`: it maps a square array to eigenvalues and an array whose
columns are the eigenvectors.  Arithmetic is exact; `assert` statements are executed.
-/

namespace QInfer

/-- The result of `np.linalg.eig`. (tomography/models.py 184.) -/
structure EigResult where
  w : Nat → ℂ
  v : Plane

/-- `w >= 0` for a complex scalar: NumPy compares complex numbers lexicographically.
(tomography/models.py 185.) -/
def CGe0 (z : ℂ) : Prop := 0 < z.re ∨ (z.re = 0 ∧ 0 ≤ z.im)

/-- `w < 0` for a complex scalar. (tomography/models.py 188.) -/
def CLt0 (z : ℂ) : Prop := z.re < 0 ∨ (z.re = 0 ∧ z.im < 0)

/-- `np.tensordot(particle, self._basis.data.conj(), 1)`, models.py 183. -/
noncomputable def conjOperator (b : TomoBasis) (x : List ℝ) : Plane :=
  fun i j => ((x.zip b.data).map fun p => (p.1 : ℂ) * (starRingEnd ℂ) (p.2 i j)).sum

open Classical in
/-- `np.dot(v * w, v.conj().T)` after `w[w < 0] = 0`, models.py 188-189. -/
noncomputable def rebuilt (d : Nat) (e : EigResult) : Plane := fun i j =>
  ((List.range d).map fun k =>
    e.v i k * (if CLt0 (e.w k) then 0 else e.w k) * (starRingEnd ℂ) (e.v j k)).sum

open Classical in
/-- `TomographyModel.trunc_neg_eigs`, models.py 172-192. -/
noncomputable def truncNegEigs (b : TomoBasis) (eig : Plane → EigResult) (x : List ℝ) :
    Except PyErr (List ℝ) :=
  if x.length ≠ b.data.length then .error .valueError
  else
    let e := eig (conjOperator b x)
    if ∀ k < b.side, CGe0 (e.w k) then .ok x
    else
      let y := b.data.map fun p => (((List.range (b.side * b.side)).map fun m =>
        flatRow b.side p m * flatRow b.side (rebuilt b.side e) m).sum).re
      match y with
      | [] => .error .indexError
      | y0 :: _ => if 0 < y0 then .ok y else .error .assertionError

open Classical in
/-- `TomographyModel.renormalize`, models.py 194-209. -/
noncomputable def renormalize (dim : Nat) (xs : List (List ℝ)) : Except PyErr (List (List ℝ)) :=
  if ∃ x ∈ xs, x = [] then .error .indexError
  else if ∃ x ∈ xs, x.headD 0 * Real.sqrt dim = 0 then .error .assertionError
  else .ok (xs.map fun x => x.map (· / (x.headD 0 * Real.sqrt dim)))

/-- `TomographyModel.canonicalize`, models.py 149-170.  `np.apply_along_axis` raises `ValueError`
on an array without rows. -/
noncomputable def canonicalize (b : TomoBasis) (eig : Plane → EigResult) (allowSub : Bool)
    (xs : List (List ℝ)) : Except PyErr (List (List ℝ)) :=
  if xs = [] then .error .valueError
  else do
    let ys ← xs.mapM (truncNegEigs b eig)
    if allowSub then .ok ys else renormalize b.dim ys

/-- `TomographyModel.likelihood`, models.py 211-226. -/
noncomputable def tomoLikelihood {nM nE : Nat} (outcomes : OutcomesArg) (x : Fin nM → List ℝ)
    (meas : Fin nE → List ℝ) : Except PyErr (List (Fin nM → Fin nE → ℝ)) :=
  pr0ToLikelihood outcomes fun m e =>
    1 - clip 0 1 (((meas e).zip (x m)).map fun p => p.1 * p.2).sum

/-! ## DiffusiveTomographyModel -/

/-- `DiffusiveTomographyModel.canonicalize`, models.py 250-254: each row without its last entry is
canonicalised and the last entry put back. -/
noncomputable def diffCanonicalize (b : TomoBasis) (eig : Plane → EigResult) (allowSub : Bool)
    (xs : List (List ℝ)) : Except PyErr (List (List ℝ)) := do
  let ys ← canonicalize b eig allowSub (xs.map List.dropLast)
  .ok (List.zipWith (fun y x => y ++ [x.getLastD 0]) ys xs)

/-- One step of one particle, models.py 263-266: `ε √t z`, zero in the first and last place.  A
negative `t` gives NaN (`none`). -/
noncomputable def diffStep (x : List ℝ) (z : Nat → ℝ) (t : ℝ) (k : Nat) : Option ℝ :=
  if k = 0 ∨ k + 1 = x.length then some 0
  else if t < 0 then none
  else some (x.getLastD 0 * Real.sqrt t * z k)

/-- The displaced particle, models.py 268; `none` when an entry is NaN. -/
noncomputable def diffDisplace (x : List ℝ) (z : Nat → ℝ) (t : ℝ) : Option (List ℝ) :=
  (List.range x.length).mapM fun k => (diffStep x z t k).map (x.getD k 0 + ·)

/-- The pass of the loop for one experiment, models.py 268 and 271: all particles are displaced and
canonicalised.  `np.linalg.eig` raises `LinAlgError` on NaN. -/
noncomputable def diffExperiment (b : TomoBasis) (eig : Plane → EigResult) (allowSub : Bool)
    (xs : List (List ℝ)) (z : Nat → Nat → ℝ) (t : ℝ) : Except PyErr (List (List ℝ)) :=
  match (xs.zipIdx).mapM fun p => diffDisplace p.1 (z p.2) t with
  | none => .error .other
  | some ys => diffCanonicalize b eig allowSub ys

/-- `DiffusiveTomographyModel.update_timestep`, models.py 258-272: for every experiment the list of
new particles.  The noise `z m` of particle `m` has shape `(n_models, 1, d² + 1)`: it is shared by
all experiments. -/
noncomputable def diffUpdateTimestep (b : TomoBasis) (eig : Plane → EigResult) (allowSub : Bool)
    (xs : List (List ℝ)) (z : Nat → Nat → ℝ) (ts : List ℝ) :
    Except PyErr (List (List (List ℝ))) :=
  ts.mapM (diffExperiment b eig allowSub xs z)

/-- `DiffusiveTomographyModel.are_models_valid`, models.py 244-248, for one particle. -/
def DiffValid (x : List ℝ) : Prop := 0 < x.getLastD 0

end QInfer
