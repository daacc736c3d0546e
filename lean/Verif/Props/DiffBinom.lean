import Verif.Model.Derived
import Verif.Props.Pdf
import Mathlib.RingTheory.Polynomial.Bernstein
import Mathlib.Analysis.SpecialFunctions.Log.Deriv
import Mathlib.Analysis.Calculus.Deriv.Add
import Mathlib.Analysis.Calculus.Deriv.Mul

/-! # C89: Fisher information of repeated measurements -/

namespace QInfer

open Filter Topology

/-- Fisher information by definition: the mean of the product of the derivatives of the logarithm of
the likelihood with respect to parameters `i` and `j`. -/
noncomputable def Spec.fisher {d : Nat} (nOut : Nat) (L : Nat → (Fin d → ℝ) → ℝ) (θ : Fin d → ℝ)
    (i j : Fin d) : ℝ :=
  ∑ o ∈ Finset.range nOut, L o θ *
    deriv (fun t => Real.log (L o (Function.update θ i t))) (θ i) *
    deriv (fun t => Real.log (L o (Function.update θ j t))) (θ j)

/-- The likelihood of a two-outcome model with probability `p` of outcome 1. -/
def twoLike {d : Nat} (p : (Fin d → ℝ) → ℝ) (o : Nat) (θ : Fin d → ℝ) : ℝ :=
  if o = 0 then 1 - p θ else p θ

/-- The likelihood of the binomial model around it. -/
noncomputable def binomLike {d : Nat} (n : Nat) (p : (Fin d → ℝ) → ℝ) (k : Nat) (θ : Fin d → ℝ) : ℝ :=
  (binomialPdf n k (p θ)).getD 0

theorem binomLike_eq {d : Nat} (n : Nat) (p : (Fin d → ℝ) → ℝ) (k : Nat) (θ : Fin d → ℝ)
    (hk : k ≤ n) (h : 0 < p θ ∧ p θ < 1) :
    binomLike n p k θ = n.choose k * p θ ^ k * (1 - p θ) ^ (n - k) := by
  rw [binomLike, binomialPdf_some _ _ _ ⟨h.1.le, h.2.le⟩, if_pos hk]
  rfl

/-- The score of a binomial outcome. -/
theorem deriv_log_binomLike {d : Nat} (n : Nat) (p : (Fin d → ℝ) → ℝ) (k : Nat) (hk : k ≤ n)
    (θ : Fin d → ℝ) (h : 0 < p θ ∧ p θ < 1) (i : Fin d) (p' : ℝ)
    (hp : HasDerivAt (fun t => p (Function.update θ i t)) p' (θ i)) :
    deriv (fun t => Real.log (binomLike n p k (Function.update θ i t))) (θ i) =
      (k - n * p θ) / (p θ * (1 - p θ)) * p' := by
  have hθ : Function.update θ i (θ i) = θ := Function.update_eq_self i θ
  have hcont := hp.continuousAt
  have hev : ∀ᶠ t in 𝓝 (θ i), 0 < p (Function.update θ i t) ∧ p (Function.update θ i t) < 1 := by
    have h0 : ∀ᶠ t in 𝓝 (θ i), p (Function.update θ i t) ∈ Set.Ioo (0:ℝ) 1 :=
      hcont.eventually (isOpen_Ioo.mem_nhds (by show p (Function.update θ i (θ i)) ∈ _; rw [hθ]; exact h))
    exact h0
  have hC : (0:ℝ) < n.choose k := by exact_mod_cast Nat.choose_pos hk
  have heq : (fun t => Real.log (binomLike n p k (Function.update θ i t))) =ᶠ[𝓝 (θ i)]
      fun t => Real.log (n.choose k) + k * Real.log (p (Function.update θ i t)) +
        ((n - k : ℕ) : ℝ) * Real.log (1 - p (Function.update θ i t)) := by
    filter_upwards [hev] with t ht
    have h1 : (0:ℝ) < 1 - p (Function.update θ i t) := by linarith [ht.2]
    rw [binomLike_eq n p k _ hk ht, Real.log_mul (by have := ht.1; positivity) (by positivity),
      Real.log_mul hC.ne' (by have := ht.1; positivity), Real.log_pow, Real.log_pow]
  rw [heq.deriv_eq]
  have hp1 : p (Function.update θ i (θ i)) ≠ 0 := by rw [hθ]; exact h.1.ne'
  have hp2 : 1 - p (Function.update θ i (θ i)) ≠ 0 := by rw [hθ]; linarith [h.2]
  have hd := (((hp.log hp1).const_mul (k:ℝ)).const_add (Real.log (n.choose k))).add
    (((hp.const_sub 1).log hp2).const_mul (((n - k : ℕ) : ℝ)))
  rw [hθ] at hd
  have hd' : HasDerivAt (fun t => Real.log (n.choose k) + k * Real.log (p (Function.update θ i t)) +
      ((n - k : ℕ) : ℝ) * Real.log (1 - p (Function.update θ i t))) _ (θ i) := hd
  rw [hd'.deriv]
  have e1 : p θ ≠ 0 := h.1.ne'
  have e2 : 1 - p θ ≠ 0 := by linarith [h.2]
  rw [Nat.cast_sub hk]
  field_simp
  ring

/-- Variance of the binomial distribution. -/
theorem binom_variance (n : Nat) (p : ℝ) :
    ∑ k ∈ Finset.range (n + 1), (n.choose k * p ^ k * (1 - p) ^ (n - k)) * (k - n * p) ^ 2 =
      n * p * (1 - p) := by
  have h := congrArg (Polynomial.eval p) (bernsteinPolynomial.variance ℝ n)
  rw [Polynomial.eval_finset_sum] at h
  simp only [bernsteinPolynomial, Polynomial.eval_mul, Polynomial.eval_pow, Polynomial.eval_sub,
    Polynomial.eval_natCast, Polynomial.eval_X, Polynomial.eval_one, nsmul_eq_mul] at h
  rw [← h]
  refine Finset.sum_congr rfl fun k _ => ?_
  ring

/-- **C89, information adds.**  The Fisher information of the number of ones in `n` measurements is `n`
times the Fisher information of one measurement, for every two-outcome model, at every parameter
where both outcomes are possible and the probability has partial derivatives. -/
theorem C89_information_adds {d : Nat} (n : Nat) (p : (Fin d → ℝ) → ℝ) (θ : Fin d → ℝ)
    (h : 0 < p θ ∧ p θ < 1) (p' : Fin d → ℝ)
    (hp : ∀ i, HasDerivAt (fun t => p (Function.update θ i t)) (p' i) (θ i)) (i j : Fin d) :
    Spec.fisher (n + 1) (binomLike n p) θ i j = Spec.fisher 2 (twoLike p) θ i j * n := by
  have e1 : p θ ≠ 0 := h.1.ne'
  have e2 : 1 - p θ ≠ 0 := by linarith [h.2]
  have hθ : ∀ i, Function.update θ i (θ i) = θ := fun i => Function.update_eq_self i θ
  have hl : Spec.fisher (n + 1) (binomLike n p) θ i j =
      n * (p' i * p' j) / (p θ * (1 - p θ)) := by
    have : Spec.fisher (n + 1) (binomLike n p) θ i j =
        (∑ k ∈ Finset.range (n + 1), (n.choose k * p θ ^ k * (1 - p θ) ^ (n - k)) *
          (k - n * p θ) ^ 2) * (p' i * p' j / (p θ * (1 - p θ)) ^ 2) := by
      rw [Finset.sum_mul]
      refine Finset.sum_congr rfl fun k hk => ?_
      have hk' : k ≤ n := by have := Finset.mem_range.1 hk; omega
      rw [deriv_log_binomLike n p k hk' θ h i _ (hp i), deriv_log_binomLike n p k hk' θ h j _ (hp j),
        binomLike_eq n p k θ hk' h]
      field_simp
    rw [this, binom_variance]
    field_simp
  have h0 : ∀ i, deriv (fun t => Real.log (twoLike p 0 (Function.update θ i t))) (θ i) =
      -p' i / (1 - p θ) := by
    intro i
    have := ((hp i).const_sub 1).log (by rw [hθ]; exact e2)
    rw [hθ] at this
    exact this.deriv
  have h1 : ∀ i, deriv (fun t => Real.log (twoLike p 1 (Function.update θ i t))) (θ i) =
      p' i / p θ := by
    intro i
    have := (hp i).log (by rw [hθ]; exact e1)
    rw [hθ] at this
    exact this.deriv
  rw [hl]
  unfold Spec.fisher
  rw [Finset.sum_range_succ, Finset.sum_range_one, h0, h0, h1, h1]
  simp only [twoLike, if_true, if_neg one_ne_zero]
  field_simp
  ring

/-- **C89, `fisher_information` (partial).**  Where the wrapped model, given the experiments with their
field `n_meas`, returns its Fisher information, `DifferentiableBinomialModel.fisher_information`
returns the Fisher information of the binomial likelihood, for every experiment, model and pair of
parameters.  What is missing are models whose experiments are plain numbers: `C89_scalar_fails`. -/
theorem C89_fisher_partial {d nM : Nat}
    (under : EpArr ℝ → Except PyErr (List (Fin d → Fin d → Fin nM → ℝ))) (eps : EpArr ℝ)
    (fi : List (Fin d → Fin d → Fin nM → ℝ)) (hu : under eps = .ok fi) (ns : List Nat)
    (hn : eps.field "n_meas" = .ok (ns.map (Nat.cast : ℕ → ℝ))) (hlen : fi.length = ns.length)
    (p : Nat → (Fin d → ℝ) → ℝ) (θ : Fin nM → Fin d → ℝ)
    (h : ∀ e m, 0 < p e (θ m) ∧ p e (θ m) < 1) (p' : Nat → Fin nM → Fin d → ℝ)
    (hp : ∀ e m i, HasDerivAt (fun t => p e (Function.update (θ m) i t)) (p' e m i) (θ m i))
    (hfi : ∀ e f, fi[e]? = some f → ∀ i j m, f i j m = Spec.fisher 2 (twoLike (p e)) (θ m) i j) :
    ∃ out, diffBinomFisher under eps = .ok out ∧ out.length = ns.length ∧
      ∀ e n f, ns[e]? = some n → out[e]? = some f →
        ∀ i j m, f i j m = Spec.fisher (n + 1) (binomLike n (p e)) (θ m) i j := by
  refine ⟨List.zipWith (fun (f : Fin d → Fin d → Fin nM → ℝ) (m : ℝ) i j k => f i j k * m) fi
      (ns.map (Nat.cast : ℕ → ℝ)), ?_, ?_, ?_⟩
  · unfold diffBinomFisher
    rw [hu, hn]
    show (if fi.length = (ns.map (Nat.cast : ℕ → ℝ)).length then _ else _) = _
    rw [if_pos (by simpa using hlen)]
  · simp [hlen]
  · intro e n f hne hf i j m
    rw [List.getElem?_zipWith] at hf
    have hel : e < fi.length := by
      rw [hlen]
      rcases lt_or_ge e ns.length with h | h
      · exact h
      · rw [List.getElem?_eq_none h] at hne; cases hne
    rw [List.getElem?_eq_getElem hel, List.getElem?_map, hne] at hf
    simp only [Option.map_some, Option.some.injEq] at hf
    rw [← hf]
    show fi[e] i j m * (n:ℝ) = _
    rw [hfi e _ (List.getElem?_eq_getElem hel),
      C89_information_adds n (p e) (θ m) (h e m) (p' e m) (hp e m)]

/-- **C89, finding.**  For a wrapped model whose experiments are plain numbers, such as
`SimplePrecessionModel`, the likelihood is given the field `x` of the experiments, but
`fisher_information` passes the records themselves, which the model cannot read: the call always
fails. -/
theorem C89_scalar_fails {K : Type*} [Field K] {d nM : Nat} (xs ns : List K)
    (info : List K → List (Fin d → Fin d → Fin nM → K)) :
    let eps := EpArr.record [("x", xs), ("n_meas", ns)]
    let fisher := fun e => do return info (← precTimes e)
    (binomEps true eps >>= fisher) = .ok (info xs) ∧
      diffBinomFisher fisher eps = .error .valueError := by
  exact ⟨rfl, rfl⟩

/-- Case for C89: the records of a model with a field of its own are passed on. -/
example : (EpArr.record [("t", [1, 2]), ("n_meas", [10, 20])] : EpArr ℝ).field "n_meas" =
    .ok (([10, 20] : List Nat).map (Nat.cast : ℕ → ℝ)) := by
  simp [EpArr.field]

/-- Case for C89: a coin, `p θ = θ`. -/
example (n : Nat) : Spec.fisher (n + 1) (binomLike n fun θ : Fin 1 → ℝ => θ 0) ![1/2] 0 0 =
    Spec.fisher 2 (twoLike fun θ : Fin 1 → ℝ => θ 0) ![1/2] 0 0 * n := by
  refine C89_information_adds n _ _ ⟨by norm_num, by norm_num⟩ (fun _ => 1) ?_ 0 0
  intro i
  have : (fun t : ℝ => Function.update (![1/2] : Fin 1 → ℝ) i t 0) = fun t => t := by
    funext t
    rw [Subsingleton.elim i 0, Function.update_self]
  rw [this]
  exact hasDerivAt_id' _

end QInfer
