import Verif.Model.GaussHyper
import Mathlib.Probability.Distributions.Gaussian.Real
import Mathlib.Data.List.GetD

/-! # C86: outcomes seen through two normal distributions

The specification is written with Mathlib's normal density and normal distribution. -/

namespace QInfer

open MeasureTheory ProbabilityTheory

/-- The density of the documented model: a normal variate with mean `μ₀` and variance `s₀` with
probability `p₀`, one with mean `μ₁` and variance `s₁` with probability `p₁`. -/
noncomputable def Spec.mixDensity (p₀ p₁ μ₀ μ₁ : ℝ) (s₀ s₁ : NNReal) (x : ℝ) : ℝ :=
  p₀ * gaussianPDFReal μ₀ s₀ x + p₁ * gaussianPDFReal μ₁ s₁ x

theorem ghOrig_row (xs : List ℝ) (a b c d : ℝ) : ghOrig xs.length (xs ++ [a, b, c, d]) = xs := by
  simp [ghOrig]

theorem ghMu_row (xs : List ℝ) (a b c d : ℝ) : ghMu xs.length (xs ++ [a, b, c, d]) = [a, b] := by
  simp [ghMu]

theorem ghSigma2_row (xs : List ℝ) (a b c d : ℝ) :
    ghSigma2 xs.length (xs ++ [a, b, c, d]) = [c, d] := by
  simp only [ghSigma2, ← List.drop_drop]
  simp

theorem normPdf_scaled (x μ : ℝ) (s : NNReal) (hs : s ≠ 0) :
    normPdf ((x - μ) / Real.sqrt s) = Real.sqrt s * gaussianPDFReal μ s x := by
  have h0 : (0:ℝ) < s := by positivity
  have hsq : Real.sqrt (s:ℝ) ^ 2 = s := Real.sq_sqrt h0.le
  have hs' : (0:ℝ) < Real.sqrt s := Real.sqrt_pos.2 h0
  have hpi : (0:ℝ) < Real.sqrt (2 * Real.pi) := Real.sqrt_pos.2 (by positivity)
  unfold normPdf gaussianPDFReal
  rw [Real.sqrt_mul (by positivity : (0:ℝ) ≤ 2 * Real.pi) (s:ℝ), div_pow, hsq]
  rw [show -((x - μ) ^ 2 / (s:ℝ)) / 2 = -(x - μ) ^ 2 / (2 * s) by field_simp]
  field_simp

/-- **C86, parameters.**  The model has four parameters more than the wrapped one, named after what they
are used for; a row is valid if and only if the wrapped model accepts its part of the row and both variances
are positive. -/
theorem C86_parameters (names : List String) (underValid : List ℝ → Bool) (xs : List ℝ)
    (μ₀ μ₁ s₀ s₁ : ℝ) :
    ghNParams names = names.length + 4 ∧
      (names.length = xs.length → (ghNames names).zip (xs ++ [μ₀, μ₁, s₀, s₁]) =
        names.zip xs ++ [("\\mu_0", μ₀), ("\\mu_1", μ₁), ("\\sigma_0^2", s₀), ("\\sigma_1^2", s₁)]) ∧
      (ghValid underValid xs.length (xs ++ [μ₀, μ₁, s₀, s₁]) = true ↔
        underValid xs = true ∧ 0 < s₀ ∧ 0 < s₁) := by
  refine ⟨by simp [ghNParams, ghNames], fun h => by simp [ghNames, List.zip_append h], ?_⟩
  simp [ghValid, ghOrig_row, ghSigma2_row]

/-- **C86, constructor.**  Only models with two outcomes are accepted. -/
theorem C86_constructor (constant : Bool) (nOut : Nat) :
    (ghInit constant nOut).isOk = true ↔ constant = true ∧ nOut = 2 := by
  cases constant
  · simp [ghInit, Except.isOk, Except.toBool]
  · by_cases h : nOut = 2 <;> simp [ghInit, h, Except.isOk, Except.toBool]

/-- The likelihood of an outcome under a row with variances `s₀` and `s₁`. -/
theorem ghCell_row {E : Type} (under : Nat → List ℝ → E → ℝ) (xs : List ℝ) (μ₀ μ₁ : ℝ)
    (s₀ s₁ : NNReal) (h₀ : s₀ ≠ 0) (h₁ : s₁ ≠ 0) (e : E) (x : ℝ) :
    ghCell under xs.length x (xs ++ [μ₀, μ₁, (s₀:ℝ), (s₁:ℝ)]) e =
      under 0 xs e * (Real.sqrt s₀ * gaussianPDFReal μ₀ s₀ x) +
        under 1 xs e * (Real.sqrt s₁ * gaussianPDFReal μ₁ s₁ x) := by
  simp only [ghCell, ghOrig_row, ghMu_row, ghSigma2_row, List.map_cons, List.map_nil,
    List.sum_cons, List.sum_nil, List.getD_cons_zero, List.getD_cons_succ, add_zero]
  rw [normPdf_scaled _ _ _ h₀, normPdf_scaled _ _ _ h₁]

/-- **C86, shape and failure.**  With positive variances throughout, the likelihood has one entry per
outcome, model and experiment, and each depends on its own outcome, model and experiment only; with a
variance that is not positive anywhere the call fails. -/
theorem C86_likelihood_entries {E : Type} (under : Nat → List ℝ → E → ℝ) (n : Nat) (os : List ℝ)
    (rows : List (List ℝ)) (es : List E) :
    ((∀ row ∈ rows, ∀ s ∈ (row.drop (n + 2)).take 2, 0 < s) →
      ∃ L, ghLikelihood under n os rows es = .ok L ∧ L.length = os.length ∧
        ∀ (i j k : Nat) (o : ℝ) (row : List ℝ) (e : E), os[i]? = some o → rows[j]? = some row → es[k]? = some e →
          (((L[i]?.getD [])[j]?.getD [])[k]? = some (ghCell under n o row e))) ∧
      ((∃ row ∈ rows, ∃ s ∈ (row.drop (n + 2)).take 2, s ≤ 0) →
        ghLikelihood under n os rows es = .error .assertionError) := by
  constructor
  · intro h
    refine ⟨_, if_pos ?_, by simp, ?_⟩
    · simp only [List.all_eq_true, decide_eq_true_eq, Real.sqrt_pos]
      exact h
    · intro i j k o row e ho hrow he
      simp [List.getElem?_map, ho, hrow, he]
  · rintro ⟨row, hrow, s, hs, hle⟩
    refine if_neg ?_
    simp only [List.all_eq_true, decide_eq_true_eq, Real.sqrt_pos]
    intro h
    exact absurd (h row hrow s hs) (not_lt.2 hle)

/-- **C86, likelihood (partial).**  If both variances are `s`, the likelihood is `√s` times the
documented density.  What is missing is the division of each term by its standard deviation: see
`C86_not_a_density` and `C86_wrong_posterior`. -/
theorem C86_equal_variances_partial {E : Type} (under : Nat → List ℝ → E → ℝ) (xs : List ℝ)
    (μ₀ μ₁ : ℝ) (s : NNReal) (hs : s ≠ 0) (e : E) (x : ℝ) :
    ghCell under xs.length x (xs ++ [μ₀, μ₁, (s:ℝ), (s:ℝ)]) e =
      Real.sqrt s * Spec.mixDensity (under 0 xs e) (under 1 xs e) μ₀ μ₁ s s x := by
  rw [ghCell_row _ _ _ _ _ _ hs hs]
  unfold Spec.mixDensity
  ring

/-- **C86, Bayes' rule (partial).**  If all particles have the same variance `s` in both branches, the
weights after an update are those given by the documented density, whatever the parameters. -/
theorem C86_posterior_equal_variances_partial {E ι : Type} [Fintype ι]
    (under : Nat → List ℝ → E → ℝ) (n : Nat) (xs : ι → List ℝ) (hlen : ∀ i, (xs i).length = n)
    (μ₀ μ₁ w : ι → ℝ) (s : NNReal) (hs : s ≠ 0) (e : E) (x : ℝ) (i : ι) :
    let L := fun i => ghCell under n x (xs i ++ [μ₀ i, μ₁ i, (s:ℝ), (s:ℝ)]) e
    let D := fun i => Spec.mixDensity (under 0 (xs i) e) (under 1 (xs i) e) (μ₀ i) (μ₁ i) s s x
    w i * L i / ∑ j, w j * L j = w i * D i / ∑ j, w j * D j := by
  intro L D
  have hL : ∀ i, L i = Real.sqrt s * D i := by
    intro i
    have := C86_equal_variances_partial under (xs i) (μ₀ i) (μ₁ i) s hs e x
    rw [hlen i] at this
    exact this
  have hpos : Real.sqrt (s:ℝ) ≠ 0 := (Real.sqrt_pos.2 (by positivity)).ne'
  have h1 : ∀ j, w j * L j = Real.sqrt s * (w j * D j) := fun j => by rw [hL]; ring
  simp_rw [h1]
  rw [← Finset.mul_sum, mul_div_mul_left _ _ hpos]

/-- **C86, total.**  Integrated over all outcomes the likelihood is the mean standard deviation. -/
theorem C86_total {E : Type} (under : Nat → List ℝ → E → ℝ) (xs : List ℝ) (μ₀ μ₁ : ℝ)
    (s₀ s₁ : NNReal) (h₀ : s₀ ≠ 0) (h₁ : s₁ ≠ 0) (e : E) :
    ∫ x, ghCell under xs.length x (xs ++ [μ₀, μ₁, (s₀:ℝ), (s₁:ℝ)]) e =
      under 0 xs e * Real.sqrt s₀ + under 1 xs e * Real.sqrt s₁ := by
  simp_rw [ghCell_row _ _ _ _ _ _ h₀ h₁]
  rw [integral_add, integral_const_mul, integral_const_mul, integral_const_mul, integral_const_mul,
    integral_gaussianPDFReal_eq_one _ h₀, integral_gaussianPDFReal_eq_one _ h₁]
  · ring
  · exact ((integrable_gaussianPDFReal _ _).const_mul _).const_mul _
  · exact ((integrable_gaussianPDFReal _ _).const_mul _).const_mul _

/-- The documented density integrates to one. -/
theorem Spec.mixDensity_total (p₀ p₁ μ₀ μ₁ : ℝ) (s₀ s₁ : NNReal) (h₀ : s₀ ≠ 0) (h₁ : s₁ ≠ 0)
    (hp : p₀ + p₁ = 1) : ∫ x, Spec.mixDensity p₀ p₁ μ₀ μ₁ s₀ s₁ x = 1 := by
  unfold Spec.mixDensity
  rw [integral_add, integral_const_mul, integral_const_mul,
    integral_gaussianPDFReal_eq_one _ h₀, integral_gaussianPDFReal_eq_one _ h₁]
  · linarith
  · exact (integrable_gaussianPDFReal _ _).const_mul _
  · exact (integrable_gaussianPDFReal _ _).const_mul _

/-- **C86, finding.**  The likelihood is not a density of the outcome: with variances 4 it integrates
to 2, for any wrapped two-outcome model. -/
theorem C86_not_a_density {E : Type} (under : Nat → List ℝ → E → ℝ) (xs : List ℝ) (μ₀ μ₁ : ℝ)
    (e : E) (hp : under 0 xs e + under 1 xs e = 1) :
    ∫ x, ghCell under xs.length x (xs ++ [μ₀, μ₁, 4, 4]) e = 2 := by
  have h4 : Real.sqrt 4 = 2 := by
    rw [show (4:ℝ) = 2 ^ 2 by norm_num]; exact Real.sqrt_sq (by norm_num)
  have := C86_total under xs μ₀ μ₁ 4 4 (by norm_num) (by norm_num) e
  simp only [NNReal.coe_ofNat, h4] at this
  rw [this]
  linarith

/-- **C86, finding.**  Two particles of equal weight with mean 0 and variances 1 and 4: the outcome 0
is twice as likely under the first, but the update leaves the weights as they are. -/
theorem C86_wrong_posterior {E : Type} (under : Nat → List ℝ → E → ℝ) (e : E)
    (hp : under 0 [] e + under 1 [] e = 1) :
    let L := fun s : ℝ => ghCell under 0 0 [0, 0, s, s] e
    let D := fun s : NNReal => Spec.mixDensity (under 0 [] e) (under 1 [] e) 0 0 s s 0
    L 1 = L 4 ∧ (1/2) * L 1 / ((1/2) * L 1 + (1/2) * L 4) = 1/2 ∧
      (1/2) * D 1 / ((1/2) * D 1 + (1/2) * D 4) = 2/3 := by
  intro L D
  have h4 : Real.sqrt 4 = 2 := by
    rw [show (4:ℝ) = 2 ^ 2 by norm_num]; exact Real.sqrt_sq (by norm_num)
  have hc : ∀ s : NNReal, s ≠ 0 → L s = Real.sqrt s * D s := fun s hs => by
    simpa using C86_equal_variances_partial under [] 0 0 s hs e 0
  have hD : ∀ s : NNReal, D s = gaussianPDFReal 0 s 0 := fun s => by
    simp only [D, Spec.mixDensity]
    rw [← add_mul, hp, one_mul]
  have hg : ∀ s : NNReal, gaussianPDFReal 0 s 0 = (Real.sqrt (2 * Real.pi) * Real.sqrt s)⁻¹ := by
    intro s
    simp only [gaussianPDFReal]
    rw [Real.sqrt_mul (by positivity)]
    simp
  have hpi : (0:ℝ) < Real.sqrt (2 * Real.pi) := Real.sqrt_pos.2 (by positivity)
  have e1 : D 1 = (Real.sqrt (2 * Real.pi))⁻¹ := by rw [hD, hg]; simp
  have e4 : D 4 = (Real.sqrt (2 * Real.pi) * 2)⁻¹ := by rw [hD, hg]; simp [h4]
  have l1 : L 1 = (Real.sqrt (2 * Real.pi))⁻¹ := by
    have := hc 1 (by norm_num)
    rw [e1] at this
    simpa using this
  have l4 : L 4 = (Real.sqrt (2 * Real.pi))⁻¹ := by
    have := hc 4 (by norm_num)
    rw [e4] at this
    simp only [NNReal.coe_ofNat, h4] at this
    rw [this]
    field_simp
  rw [l1, l4, e1, e4]
  refine ⟨rfl, ?_, ?_⟩ <;> field_simp <;> norm_num

/-! ## Simulation -/

/-- The entry of a simulation result; a single number stands for an array with one entry. -/
def GhOut.entry : GhOut → Nat → Nat → Nat → Option ℝ
  | .scalar x, 0, 0, 0 => some x
  | .scalar _, _, _, _ => none
  | .array a, r, m, e => ((a[r]?.getD [])[m]?.getD [])[e]?

/-- **C86, simulation.**  The outcome in repetition `r` for model `m` and experiment `e` is
`μ_u + √s_u · z` with `u` the outcome of the wrapped model, simulated with its own parameters; nothing
else is returned. -/
theorem C86_simulated {E : Type} (sim : Nat → Nat → Nat → List (List ℝ) → List E → Nat)
    (zs : Nat → Nat → ℝ) (n : Nat) (xs : List (List ℝ)) (hyp : List (ℝ × ℝ × ℝ × ℝ))
    (hlen : ∀ x ∈ xs, x.length = n) (hl : hyp.length = xs.length) (es : List E) (reps r m e : Nat)
    (x : List ℝ) (μ₀ μ₁ s₀ s₁ : ℝ) (hx : xs[m]? = some x) (hh : hyp[m]? = some (μ₀, μ₁, s₀, s₁))
    (hr : r < reps) (he : e < es.length) :
    let rows := List.zipWith (fun (x : List ℝ) (h : ℝ × ℝ × ℝ × ℝ) =>
      x ++ [h.1, h.2.1, h.2.2.1, h.2.2.2]) xs hyp
    (ghSimulate sim zs n rows es reps).entry r m e =
      some (if sim r m e xs es = 0 then μ₀ + Real.sqrt s₀ * zs m e
        else μ₁ + Real.sqrt s₁ * zs m e) := by
  intro rows
  have hrow : rows[m]? = some (x ++ [μ₀, μ₁, s₀, s₁]) := by
    simp [rows, List.getElem?_zipWith, hx, hh]
  have hxn : x.length = n := hlen x (List.mem_of_getElem? hx)
  have horig : (rows.map fun row => row.take (row.length - 4)) = xs := by
    simp only [rows, List.map_zipWith]
    have h1 : (List.zipWith (fun (x : List ℝ) (h : ℝ × ℝ × ℝ × ℝ) =>
        List.take ((x ++ [h.1, h.2.1, h.2.2.1, h.2.2.2]).length - 4)
          (x ++ [h.1, h.2.1, h.2.2.1, h.2.2.2])) xs hyp) = List.zipWith (fun x _ => x) xs hyp := by
      congr 1
      funext x h
      simp
    rw [h1]
    apply List.ext_getElem?
    intro i
    rw [List.getElem?_zipWith]
    rcases lt_or_ge i xs.length with hi | hi
    · rw [List.getElem?_eq_getElem hi, List.getElem?_eq_getElem (hl ▸ hi)]
    · rw [List.getElem?_eq_none hi]
  have hcell : ∀ u z, ghSimCell n (x ++ [μ₀, μ₁, s₀, s₁]) u z =
      if u = 0 then μ₀ + Real.sqrt s₀ * z else μ₁ + Real.sqrt s₁ * z := by
    intro u z
    subst hxn
    simp only [ghSimCell, ghMu_row, ghSigma2_row]
    by_cases hu : u = 0 <;> simp [hu]
  set out := (List.range reps).map fun r => rows.zipIdx.map fun (p : List ℝ × Nat) =>
    (List.range es.length).map fun e => ghSimCell n p.1 (sim r p.2 e xs es) (zs p.2 e) with hout
  have hentry : ((out[r]?.getD [])[m]?.getD [])[e]? =
      some (if sim r m e xs es = 0 then μ₀ + Real.sqrt s₀ * zs m e
        else μ₁ + Real.sqrt s₁ * zs m e) := by
    rw [← hcell]
    simp [hout, List.getElem?_map, hr, he, List.getElem?_zipIdx, hrow]
  have hval : ghSimulate sim zs n rows es reps =
      if reps * rows.length * es.length = 1 then
        GhOut.scalar (((out.getD 0 []).getD 0 []).getD 0 0) else GhOut.array out := by
    simp only [ghSimulate, horig, hout]
  rw [hval]
  split
  · rename_i h1
    have h2 := Nat.eq_one_of_mul_eq_one_left h1
    have h3 := Nat.eq_one_of_mul_eq_one_right h1
    have h4 := Nat.eq_one_of_mul_eq_one_left h3
    have h5 := Nat.eq_one_of_mul_eq_one_right h3
    have hm : m < rows.length := by
      rcases lt_or_ge m rows.length with h | h
      · exact h
      · rw [List.getElem?_eq_none h] at hrow; cases hrow
    obtain rfl : r = 0 := by omega
    obtain rfl : e = 0 := by omega
    obtain rfl : m = 0 := by omega
    simp only [GhOut.entry, List.getD_eq_getElem?_getD]
    rw [hentry]
    rfl
  · exact hentry

/-- **C86, law.**  If the variate is standard normal, the outcome simulated for underlying outcome `u`
has the normal distribution with mean `μ_u` and variance `s_u`. -/
theorem C86_simulated_law (xs : List ℝ) (μ₀ μ₁ : ℝ) (s₀ s₁ : NNReal) (u : Nat) :
    (gaussianReal 0 1).map (ghSimCell xs.length (xs ++ [μ₀, μ₁, (s₀:ℝ), (s₁:ℝ)]) u) =
      if u = 0 then gaussianReal μ₀ s₀ else gaussianReal μ₁ s₁ := by
  have key : ∀ (μ : ℝ) (s : NNReal),
      (gaussianReal 0 1).map (fun z => μ + Real.sqrt s * z) = gaussianReal μ s := by
    intro μ s
    have h := gaussianReal_map_const_mul (μ := 0) (v := 1) (Real.sqrt s)
    have h' := gaussianReal_map_const_add (μ := Real.sqrt s * 0)
      (v := .mk (Real.sqrt s ^ 2) (sq_nonneg _) * 1) μ
    rw [← h, Measure.map_map (by fun_prop) (by fun_prop)] at h'
    simp only [mul_zero, zero_add, mul_one] at h'
    rw [show (.mk (Real.sqrt s ^ 2) (sq_nonneg _) : NNReal) = s from
      NNReal.eq (Real.sq_sqrt s.coe_nonneg)] at h'
    exact h'
  have hcell : ghSimCell xs.length (xs ++ [μ₀, μ₁, (s₀:ℝ), (s₁:ℝ)]) u = fun z =>
      if u = 0 then μ₀ + Real.sqrt s₀ * z else μ₁ + Real.sqrt s₁ * z := by
    funext z
    simp only [ghSimCell, ghMu_row, ghSigma2_row]
    by_cases hu : u = 0 <;> simp [hu]
  rw [hcell]
  by_cases hu : u = 0 <;> simp only [hu, if_true, if_false] <;> exact key _ _

/-- **C86, finding.**  The normal variates are not drawn anew for each repetition: two repetitions with
the same underlying outcome give exactly the same real-valued outcome. -/
theorem C86_repetitions_share_noise {E : Type}
    (sim : Nat → Nat → Nat → List (List ℝ) → List E → Nat)
    (zs : Nat → Nat → ℝ) (n : Nat) (rows : List (List ℝ)) (es : List E) (reps r r' m e : Nat)
    (hr : r < reps) (hr' : r' < reps)
    (hsame : ∀ orig, sim r m e orig es = sim r' m e orig es) :
    (ghSimulate sim zs n rows es reps).entry r m e =
      (ghSimulate sim zs n rows es reps).entry r' m e := by
  unfold ghSimulate
  dsimp only
  split
  · rename_i h1
    have h5 := Nat.eq_one_of_mul_eq_one_right (Nat.eq_one_of_mul_eq_one_right h1)
    obtain rfl : r = r' := by omega
    rfl
  · simp only [GhOut.entry, List.getElem?_map, List.getElem?_range hr, List.getElem?_range hr',
      Option.map_some, Option.getD_some, List.getElem?_zipIdx]
    cases rows[m]? with
    | none => simp
    | some row =>
      simp only [Option.map_some, Option.getD_some, List.getElem?_map]
      rcases lt_or_ge e es.length with he | he
      · simp [List.getElem?_range he, hsame]
      · rw [List.getElem?_eq_none (by simpa using he)]
        rfl

/-- Case for C86: a coin with two experiments, two repetitions with different coins. -/
example : (ghSimulate (fun r _ _ _ _ => r) (fun _ _ => 1) 1 [[1/2, 0, 10, 1, 4]] [(), ()] 2).entry
    1 0 1 = some (10 + Real.sqrt 4 * 1) := by
  have := C86_simulated (E := Unit) (fun r _ _ _ _ => r) (fun _ _ => 1) 1 [[1/2]] [(0, 10, 1, 4)]
    (by simp) rfl [(), ()] 2 1 0 1 [1/2] 0 10 1 4 rfl rfl (by norm_num) (by norm_num)
  simpa using this

end QInfer
