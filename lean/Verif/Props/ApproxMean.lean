import Verif.Props.Noise
import Verif.Props.Approx

/-!
# C145: nearly right likelihoods cost little on average

`C130` bounds the error for given data, divided by the probability of the data.  Averaged over the data
that the right model produces, nothing is divided by.
-/

namespace QInfer

open Finset

/-- Mean of a quantity computed from the outcomes of `T` experiments, when the truth is particle `i` with
probability `w i` and outcomes follow the likelihood. -/
noncomputable def Spec.runMean {n d : Nat} {O E : Type*} [Fintype O] (w : Fin n → ℝ)
    (x : Fin n → Fin d → ℝ) (like : O → List ℝ → E → ℝ) (design : List O → E) (T : ℕ)
    (F : List O → ℝ) : ℝ :=
  ∑ i, w i * ∑ os : Fin T → O,
    dataLike like (Spec.performed design (List.ofFn os)) (List.ofFn (x i)) * F (List.ofFn os)

namespace ApproxMean

section
variable {O E : Type} [Fintype O]

theorem sum_like (like : O → List ℝ → E → ℝ) (y : List ℝ) (hs : ∀ e, ∑ o, like o y e = 1) (T : ℕ)
    (design : List O → E) :
    ∑ os : Fin T → O, dataLike like (Spec.performed design (List.ofFn os)) y = 1 := by
  induction T generalizing design with
  | zero => simp [Spec.performed, dataLike]
  | succ T ih =>
    rw [sum_fin_succ T fun os => dataLike like (Spec.performed design os) y]
    simp only [Spec.performed, dataLike, List.map_cons, List.prod_cons]
    simp_rw [← mul_sum]
    have := fun o => ih (fun h => design (o :: h))
    simp only [dataLike] at this
    simp_rw [this, mul_one]
    exact hs _

omit [Fintype O] in
theorem like_nonneg (like : O → List ℝ → E → ℝ) (y : List ℝ) (h0 : ∀ o e, 0 ≤ like o y e)
    (ds : List (O × E)) : 0 ≤ dataLike like ds y :=
  List.prod_nonneg fun a ha => by
    obtain ⟨p, -, rfl⟩ := List.mem_map.1 ha
    exact h0 _ _

/-- The probabilities of whole runs differ by at most `η` per experiment, added up over all runs. -/
theorem path_gap (like like' : O → List ℝ → E → ℝ) (y : List ℝ) (hs : ∀ e, ∑ o, like o y e = 1)
    (hs' : ∀ e, ∑ o, like' o y e = 1) (h0 : ∀ o e, 0 ≤ like o y e) (h0' : ∀ o e, 0 ≤ like' o y e)
    (η : ℝ) (hη : ∀ e, ∑ o, |like o y e - like' o y e| ≤ η) (T : ℕ) (design : List O → E) :
    ∑ os : Fin T → O, |dataLike like (Spec.performed design (List.ofFn os)) y -
      dataLike like' (Spec.performed design (List.ofFn os)) y| ≤ η * T := by
  induction T generalizing design with
  | zero => simp [Spec.performed, dataLike]
  | succ T ih =>
    rw [sum_fin_succ T fun os => |dataLike like (Spec.performed design os) y -
      dataLike like' (Spec.performed design os) y|]
    have key : ∀ o, ∑ os : Fin T → O, |dataLike like (Spec.performed design (o :: List.ofFn os)) y -
        dataLike like' (Spec.performed design (o :: List.ofFn os)) y| ≤
        |like o y (design []) - like' o y (design [])| + like' o y (design []) * (η * T) := by
      intro o
      have hb : ∀ os : Fin T → O, |dataLike like (Spec.performed design (o :: List.ofFn os)) y -
          dataLike like' (Spec.performed design (o :: List.ofFn os)) y| ≤
          |like o y (design []) - like' o y (design [])| *
              dataLike like (Spec.performed (fun h => design (o :: h)) (List.ofFn os)) y +
            like' o y (design []) * |dataLike like (Spec.performed (fun h => design (o :: h)) (List.ofFn os)) y -
              dataLike like' (Spec.performed (fun h => design (o :: h)) (List.ofFn os)) y| := by
        intro os
        have h1 := like_nonneg like y h0 (Spec.performed (fun h => design (o :: h)) (List.ofFn os))
        have h2 := h0' o (design [])
        have e1 : ∀ l : O → List ℝ → E → ℝ, dataLike l (Spec.performed design (o :: List.ofFn os)) y =
            l o y (design []) * dataLike l (Spec.performed (fun h => design (o :: h)) (List.ofFn os)) y := by
          intro l
          simp only [Spec.performed, dataLike, List.map_cons, List.prod_cons]
        rw [e1 like, e1 like']
        obtain ⟨A, hA⟩ : ∃ A, A = dataLike like (Spec.performed (fun h => design (o :: h)) (List.ofFn os)) y :=
          ⟨_, rfl⟩
        obtain ⟨B, hB⟩ : ∃ B, B = dataLike like' (Spec.performed (fun h => design (o :: h)) (List.ofFn os)) y :=
          ⟨_, rfl⟩
        rw [← hA, ← hB]
        rw [← hA] at h1
        calc |like o y (design []) * A - like' o y (design []) * B|
            = |(like o y (design []) - like' o y (design [])) * A + like' o y (design []) * (A - B)| := by
              congr 1; ring
          _ ≤ |(like o y (design []) - like' o y (design [])) * A| + |like' o y (design []) * (A - B)| :=
              abs_add_le _ _
          _ = _ := by rw [abs_mul, abs_mul, abs_of_nonneg h1, abs_of_nonneg h2]
      refine (sum_le_sum fun os _ => hb os).trans ?_
      rw [sum_add_distrib, ← mul_sum, ← mul_sum, sum_like like y hs, mul_one]
      exact add_le_add le_rfl (mul_le_mul_of_nonneg_left (ih _) (h0' _ _))
    refine (sum_le_sum fun o _ => key o).trans ?_
    rw [sum_add_distrib, ← sum_mul, hs', one_mul]
    push_cast
    linarith [hη (design [])]

end

/-- Two sets of weights before normalisation. -/
theorem posterior_gap {n : ℕ} (u u' : Fin n → ℝ) (hu : ∀ i, 0 ≤ u i) (hu' : ∀ i, 0 ≤ u' i)
    (hZ' : 0 < ∑ i, u' i) :
    (∑ i, u i) * ∑ i, |u' i / (∑ i, u' i) - u i / ∑ i, u i| ≤ 2 * ∑ i, |u i - u' i| := by
  have hZ : 0 ≤ ∑ i, u i := sum_nonneg fun i _ => hu i
  have hd : |∑ i, u i - ∑ i, u' i| ≤ ∑ i, |u i - u' i| := by
    rw [← sum_sub_distrib]
    exact abs_sum_le_sum_abs _ _
  obtain ⟨Z, hZe⟩ : ∃ Z, Z = ∑ i, u i := ⟨_, rfl⟩
  obtain ⟨Z', hZe'⟩ : ∃ Z', Z' = ∑ i, u' i := ⟨_, rfl⟩
  rw [← hZe'] at hZ' hd ⊢
  rw [← hZe] at hZ hd ⊢
  rcases hZ.eq_or_lt with h | h
  · rw [← h, zero_mul]
    exact mul_nonneg (by norm_num) (sum_nonneg fun _ _ => abs_nonneg _)
  rw [mul_sum]
  have hb : ∀ i, Z * |u' i / Z' - u i / Z| ≤ |Z - Z'| * (u' i / Z') + |u i - u' i| := by
    intro i
    have e1 : Z * |u' i / Z' - u i / Z| = |(Z - Z') * (u' i / Z') + (u' i - u i)| := by
      rw [← abs_of_pos h, ← abs_mul, abs_of_pos h]
      congr 1
      field_simp
      ring
    rw [e1, abs_sub_comm (u i) (u' i)]
    refine (abs_add_le _ _).trans ?_
    rw [abs_mul, abs_of_nonneg (div_nonneg (hu' i) hZ'.le)]
  refine (sum_le_sum fun i _ => hb i).trans ?_
  rw [sum_add_distrib, ← mul_sum, ← sum_div, ← hZe', div_self hZ'.ne', mul_one]
  linarith

/-- How much worse another set of weights makes the mean. -/
theorem excess {n d : ℕ} (Q : Fin d → ℝ) (hQ : ∀ j, 0 ≤ Q j) (x : Fin n → Fin d → ℝ) (lo hi : Fin d → ℝ)
    (hx : ∀ i j, lo j ≤ x i j ∧ x i j ≤ hi j)
    (u u' : Fin n → ℝ) (hu : ∀ i, 0 ≤ u i) (hu' : ∀ i, 0 ≤ u' i) (hZ' : 0 < ∑ i, u' i) :
    Noise.sqErr Q u x (fun j => (∑ i, u' i * x i j) / ∑ i, u' i) ≤
      Noise.minErr Q u x + (∑ j, Q j * (hi j - lo j) ^ 2) * ∑ i, |u i - u' i| := by
  have hgap := posterior_gap u u' hu hu' hZ'
  have hS : 0 ≤ ∑ i, |u i - u' i| := sum_nonneg fun _ _ => abs_nonneg _
  have hZ : 0 ≤ ∑ i, u i := sum_nonneg fun i _ => hu i
  rcases hZ.eq_or_lt with h | h
  · have hz : ∀ i, u i = 0 := fun i => (sum_eq_zero_iff_of_nonneg fun i _ => hu i).1 h.symm i (mem_univ i)
    unfold Noise.minErr
    rw [Noise.sqErr_zero _ _ _ _ hz, Noise.sqErr_zero _ _ _ _ hz, zero_add]
    exact mul_nonneg (sum_nonneg fun j _ => mul_nonneg (hQ j) (sq_nonneg _)) hS
  unfold Noise.minErr Noise.sqErr
  have hsw : ∀ m' : Fin d → ℝ, ∑ i, u i * ∑ j, Q j * (x i j - m' j) ^ 2 =
      ∑ j, Q j * ∑ i, u i * (x i j - m' j) ^ 2 := by
    intro m'
    simp_rw [mul_sum]
    rw [sum_comm]
    exact sum_congr rfl fun j _ => sum_congr rfl fun i _ => by ring
  rw [hsw, hsw, sum_mul, ← sum_add_distrib]
  refine sum_le_sum fun j _ => ?_
  rw [mul_assoc, ← mul_add]
  refine mul_le_mul_of_nonneg_left ?_ (hQ j)
  obtain ⟨Z, hZe⟩ : ∃ Z, Z = ∑ i, u i := ⟨_, rfl⟩
  obtain ⟨Z', hZe'⟩ : ∃ Z', Z' = ∑ i, u' i := ⟨_, rfl⟩
  rw [← hZe'] at hZ' hgap ⊢
  rw [← hZe] at h hgap ⊢
  obtain ⟨m, hm⟩ : ∃ m, m = (∑ i, u i * x i j) / Z := ⟨_, rfl⟩
  obtain ⟨m', hm'⟩ : ∃ m', m' = (∑ i, u' i * x i j) / Z' := ⟨_, rfl⟩
  rw [← hm, ← hm']
  have hmz : ∑ i, u i * x i j = m * Z := by rw [hm]; field_simp
  have hmz' : ∑ i, u' i * x i j = m' * Z' := by rw [hm']; field_simp
  -- both means lie between the bounds
  have hin : ∀ (v : Fin n → ℝ) (V μ : ℝ), (∀ i, 0 ≤ v i) → 0 < V → V = ∑ i, v i → ∑ i, v i * x i j = μ * V →
      lo j ≤ μ ∧ μ ≤ hi j := by
    intro v V μ hv hV hVe hμ
    have h1 : lo j * V ≤ μ * V := by
      rw [← hμ, hVe, mul_sum]
      exact sum_le_sum fun i _ => by rw [mul_comm]; exact mul_le_mul_of_nonneg_left (hx i j).1 (hv i)
    have h2 : μ * V ≤ hi j * V := by
      rw [← hμ, hVe, mul_sum]
      exact sum_le_sum fun i _ => by rw [mul_comm (hi j)]; exact mul_le_mul_of_nonneg_left (hx i j).2 (hv i)
    exact ⟨le_of_mul_le_mul_right h1 hV, le_of_mul_le_mul_right h2 hV⟩
  obtain ⟨l1, l2⟩ := hin u Z m hu h hZe hmz
  obtain ⟨l1', l2'⟩ := hin u' Z' m' hu' hZ' hZe' hmz'
  have hD : 0 ≤ hi j - lo j := by linarith
  -- the difference of the means
  have hdiff : Z * |m' - m| ≤ (hi j - lo j) * ∑ i, |u i - u' i| := by
    have e1 : m' - m = ∑ i, (u' i / Z' - u i / Z) * (x i j - (lo j + hi j) / 2) := by
      have e2 : ∑ i, (u' i / Z' - u i / Z) * (x i j - (lo j + hi j) / 2) =
          (∑ i, u' i * x i j) / Z' - (∑ i, u i * x i j) / Z -
            ((∑ i, u' i) / Z' - (∑ i, u i) / Z) * ((lo j + hi j) / 2) := by
        rw [sum_div, sum_div, sum_div, sum_div, ← sum_sub_distrib, ← sum_sub_distrib, sum_mul, ← sum_sub_distrib]
        exact sum_congr rfl fun i _ => by ring
      rw [e2, ← hZe, ← hZe', div_self h.ne', div_self hZ'.ne', ← hm, ← hm']
      ring
    have hb : |m' - m| ≤ (∑ i, |u' i / Z' - u i / Z|) * ((hi j - lo j) / 2) := by
      rw [e1, sum_mul]
      refine (abs_sum_le_sum_abs _ _).trans (sum_le_sum fun i _ => ?_)
      rw [abs_mul]
      refine mul_le_mul_of_nonneg_left (abs_le.2 ⟨?_, ?_⟩) (abs_nonneg _) <;> linarith [(hx i j).1, (hx i j).2]
    calc Z * |m' - m| ≤ Z * ((∑ i, |u' i / Z' - u i / Z|) * ((hi j - lo j) / 2)) :=
          mul_le_mul_of_nonneg_left hb h.le
      _ = (Z * ∑ i, |u' i / Z' - u i / Z|) * ((hi j - lo j) / 2) := by ring
      _ ≤ (2 * ∑ i, |u i - u' i|) * ((hi j - lo j) / 2) := mul_le_mul_of_nonneg_right hgap (by linarith)
      _ = _ := by ring
  have hsq : ∑ i, u i * (x i j - m') ^ 2 = ∑ i, u i * (x i j - m) ^ 2 + Z * (m' - m) ^ 2 := by
    have e : ∀ i, u i * (x i j - m') ^ 2 = u i * (x i j - m) ^ 2 + (-2 * (m' - m) * (u i * x i j) +
        (m' ^ 2 - m ^ 2) * u i) := fun i => by ring
    rw [sum_congr rfl fun i _ => e i, sum_add_distrib, sum_add_distrib, ← mul_sum, ← mul_sum, hmz, ← hZe]
    ring
  rw [hsq]
  have hle : |m' - m| ≤ hi j - lo j := abs_le.2 ⟨by linarith, by linarith⟩
  have : Z * (m' - m) ^ 2 ≤ (hi j - lo j) ^ 2 * ∑ i, |u i - u' i| := by
    calc Z * (m' - m) ^ 2 = (Z * |m' - m|) * |m' - m| := by rw [← sq_abs]; ring
      _ ≤ ((hi j - lo j) * ∑ i, |u i - u' i|) * (hi j - lo j) :=
          mul_le_mul hdiff hle (abs_nonneg _) (mul_nonneg hD hS)
      _ = _ := by ring
  linarith

end ApproxMean

theorem ApproxMean.evidence_ofFn {n d : Nat} {O E : Type} (like : O → List ℝ → E → ℝ) (w : Fin n → ℝ)
    (x : Fin n → Fin d → ℝ) (ds : List (O × E)) :
    dataEvidence like (List.ofFn w) (List.ofFn fun i => List.ofFn (x i)) ds =
      ∑ i, w i * dataLike like ds (List.ofFn (x i)) := by
  unfold dataEvidence
  rw [zip_map_sum (fun a (b : List ℝ) => a * dataLike like ds b) _ _ 0 [] (by simp), List.length_ofFn,
    Finset.sum_range]
  simp

theorem ApproxMean.posterior_ofFn {n d : Nat} {O E : Type} (like : O → List ℝ → E → ℝ) (w : Fin n → ℝ)
    (x : Fin n → Fin d → ℝ) (ds : List (O × E)) :
    dataPosterior like (List.ofFn w) (List.ofFn fun i => List.ofFn (x i)) ds =
      List.ofFn fun i => w i * dataLike like ds (List.ofFn (x i)) /
        ∑ i, w i * dataLike like ds (List.ofFn (x i)) := by
  unfold dataPosterior
  rw [ApproxMean.evidence_ofFn]
  apply List.ext_getElem <;> simp

section
variable {n d : Nat} {O E ω : Type} [Fintype O] (cfg : SmcConfig ℝ) (env : Env ℝ O E ω)
  (hg : GoodEnv env) (hst : Static env) (hp : cfg.policy = "error") (ht : eps ≤ cfg.zeroThresh)
  (ht1 : cfg.zeroThresh < 1) (w : Fin n → ℝ) (x : Fin n → Fin d → ℝ) (s : Smc ℝ O ω)
  (hsw : s.weights = List.ofFn w) (hsx : s.locs = List.ofFn fun i => List.ofFn (x i))
  (hw : ∀ i, 0 ≤ w i) (h1 : ∑ i, w i = 1)
  (hlike : ∀ o e i, eps ≤ env.likelihood o (List.ofFn (x i)) e)
include hg hst hp ht ht1 hsw hsx hw h1 hlike

/-- The weights after a run. -/
theorem ApproxMean.weights_after (design : List O → E) (os : List O) :
    let N := ∑ i, w i * dataLike env.likelihood (Spec.performed design os) (List.ofFn (x i))
    0 < N ∧ (feed cfg env false (Spec.performed design os) s).2 = .ok () ∧
    (feed cfg env false (Spec.performed design os) s).1.locs = s.locs ∧
    (feed cfg env false (Spec.performed design os) s).1.weights =
      List.ofFn fun i => w i * dataLike env.likelihood (Spec.performed design os) (List.ofFn (x i)) / N := by
  have hlen : s.locs.length = s.weights.length := by rw [hsw, hsx]; simp
  have hprob : IsProb s.weights := by
    rw [hsw]
    refine ⟨fun y hy => ?_, by rw [List.sum_ofFn, h1]⟩
    obtain ⟨i, rfl⟩ := (List.mem_ofFn' w y).1 hy
    exact hw i
  have hok : (feed cfg env false (Spec.performed design os) s).2 = .ok () := by
    refine feed_runs cfg env hg hst ht1 _ s hlen hprob fun c _ y hy => ?_
    rw [hsx] at hy
    obtain ⟨i, rfl⟩ := (List.mem_ofFn' _ y).1 hy
    exact hlike _ _ i
  obtain ⟨e1, e2, -⟩ := feed_closed cfg env hg hst hp ht ht1 _ s hlen hprob hok
  have hpos : ∀ i, 0 < dataLike env.likelihood (Spec.performed design os) (List.ofFn (x i)) := fun i =>
    List.prod_pos fun a ha => by
      obtain ⟨p, -, rfl⟩ := List.mem_map.1 ha
      exact lt_of_lt_of_le eps_pos (hlike _ _ i)
  intro N
  have hN : 0 < N := by
    obtain ⟨i, -, hi⟩ : ∃ i ∈ univ, 0 < w i := exists_lt_of_sum_lt (by simp [h1])
    exact sum_pos' (fun i _ => mul_nonneg (hw i) (hpos i).le) ⟨i, mem_univ i, mul_pos hi (hpos i)⟩
  refine ⟨hN, hok, ?_, ?_⟩
  · exact e2
  · rw [e1, hsw, hsx]
    exact ApproxMean.posterior_ofFn _ _ _ _

theorem ApproxMean.mean_after (design : List O → E) (os : List O) (j : Fin d) :
    Spec.meanAfterRun cfg env s design os j =
      (∑ i, w i * dataLike env.likelihood (Spec.performed design os) (List.ofFn (x i)) * x i j) /
        ∑ i, w i * dataLike env.likelihood (Spec.performed design os) (List.ofFn (x i)) := by
  obtain ⟨-, -, e2, e1⟩ := ApproxMean.weights_after cfg env hg hst hp ht ht1 w x s hsw hsx hw h1 hlike design os
  unfold Spec.meanAfterRun
  dsimp only
  rw [smcMean_getD d _ _ j j.2, e1, e2, zip_map_sum (fun a (b : List ℝ) => a * b.getD j 0) _ _ 0 []
    (by rw [hsx]; simp), hsx, List.length_ofFn, Finset.sum_range, sum_div]
  refine sum_congr rfl fun i _ => ?_
  simp
  ring

variable (hs : ∀ i e, ∑ o, env.likelihood o (List.ofFn (x i)) e = 1)
  (like : O → List ℝ → E → ℝ) (hl0 : ∀ o e i, 0 ≤ like o (List.ofFn (x i)) e)
  (hl1 : ∀ i e, ∑ o, like o (List.ofFn (x i)) e = 1)
  (η : ℝ) (hη : ∀ i e, ∑ o, |like o (List.ofFn (x i)) e - env.likelihood o (List.ofFn (x i)) e| ≤ η)
include hs hl0 hl1 hη

/-- **C145, weights.**  Let the updater use outcome probabilities that differ from the right ones by at most
`η`, added up over the outcomes of an experiment.  Over truths drawn from the initial cloud and outcomes
from the right model, with experiments chosen in any way from earlier outcomes, the weights after `T` data
differ from the right posterior by at most `2 η T` on average. -/
theorem C145_weights (design : List O → E) (T : ℕ) :
    Spec.runMean w x like design T (fun os =>
      Spec.weightDist (feed cfg env false (Spec.performed design os) s).1.weights
        (dataPosterior like s.weights s.locs (Spec.performed design os))) ≤ 2 * (η * T) := by
  have hsum : ∀ os : Fin T → O,
      ∑ i, w i * (dataLike like (Spec.performed design (List.ofFn os)) (List.ofFn (x i)) *
        Spec.weightDist (feed cfg env false (Spec.performed design (List.ofFn os)) s).1.weights
          (dataPosterior like s.weights s.locs (Spec.performed design (List.ofFn os)))) ≤
      2 * ∑ i, w i * |dataLike like (Spec.performed design (List.ofFn os)) (List.ofFn (x i)) -
        dataLike env.likelihood (Spec.performed design (List.ofFn os)) (List.ofFn (x i))| := by
    intro os
    obtain ⟨hN, -, -, e1⟩ := ApproxMean.weights_after cfg env hg hst hp ht ht1 w x s hsw hsx hw h1 hlike design
      (List.ofFn os)
    have hgap := ApproxMean.posterior_gap
      (fun i => w i * dataLike like (Spec.performed design (List.ofFn os)) (List.ofFn (x i)))
      (fun i => w i * dataLike env.likelihood (Spec.performed design (List.ofFn os)) (List.ofFn (x i)))
      (fun i => mul_nonneg (hw i) (ApproxMean.like_nonneg _ _ (fun o e => hl0 o e i) _))
      (fun i => mul_nonneg (hw i) (ApproxMean.like_nonneg _ _ (fun o e => eps_pos.le.trans (hlike o e i)) _)) hN
    simp_rw [← mul_sub, abs_mul, abs_of_nonneg (hw _)] at hgap
    rw [e1, hsw, hsx, ApproxMean.posterior_ofFn, weightDist_eq _ _ (by simp), List.length_ofFn, Finset.sum_range]
    simp_rw [← mul_assoc]
    rw [← sum_mul]
    refine le_trans (le_of_eq ?_) hgap
    congr 1
    exact sum_congr rfl fun i _ => by simp
  calc _ = ∑ os : Fin T → O, ∑ i, w i * (dataLike like (Spec.performed design (List.ofFn os)) (List.ofFn (x i)) *
        Spec.weightDist (feed cfg env false (Spec.performed design (List.ofFn os)) s).1.weights
          (dataPosterior like s.weights s.locs (Spec.performed design (List.ofFn os)))) := by
        unfold Spec.runMean
        simp_rw [mul_sum]
        rw [sum_comm]
    _ ≤ ∑ os : Fin T → O, 2 * ∑ i, w i *
        |dataLike like (Spec.performed design (List.ofFn os)) (List.ofFn (x i)) -
          dataLike env.likelihood (Spec.performed design (List.ofFn os)) (List.ofFn (x i))| :=
        sum_le_sum fun os _ => hsum os
    _ = 2 * ∑ i, w i * ∑ os : Fin T → O,
        |dataLike like (Spec.performed design (List.ofFn os)) (List.ofFn (x i)) -
          dataLike env.likelihood (Spec.performed design (List.ofFn os)) (List.ofFn (x i))| := by
        rw [← mul_sum, sum_comm]
        simp_rw [mul_sum]
    _ ≤ 2 * ∑ i, w i * (η * T) := by
        refine mul_le_mul_of_nonneg_left (sum_le_sum fun i _ => mul_le_mul_of_nonneg_left ?_ (hw i)) (by norm_num)
        exact ApproxMean.path_gap _ _ _ (hl1 i) (hs i) (fun o e => hl0 o e i)
          (fun o e => eps_pos.le.trans (hlike o e i)) η (hη i) T design
    _ = _ := by rw [← sum_mul, h1, one_mul]

/-- **C145, total likelihoods.**  The probabilities that the updater records for the sequences of `T` outcomes
differ from the right ones by at most `η T`, added up over all sequences. -/
theorem C145_totals (hrec : s.normRecord = []) (design : List O → E) (T : ℕ) :
    ∑ os : Fin T → O, |dataEvidence like s.weights s.locs (Spec.performed design (List.ofFn os)) -
      (feed cfg env false (Spec.performed design (List.ofFn os)) s).1.normRecord.prod| ≤ η * T := by
  have hlen : s.locs.length = s.weights.length := by rw [hsw, hsx]; simp
  have hprob : IsProb s.weights := by
    rw [hsw]
    refine ⟨fun y hy => ?_, by rw [List.sum_ofFn, h1]⟩
    obtain ⟨i, rfl⟩ := (List.mem_ofFn' w y).1 hy
    exact hw i
  have hstep : ∀ os : Fin T → O, |dataEvidence like s.weights s.locs (Spec.performed design (List.ofFn os)) -
      (feed cfg env false (Spec.performed design (List.ofFn os)) s).1.normRecord.prod| ≤
      ∑ i, w i * |dataLike like (Spec.performed design (List.ofFn os)) (List.ofFn (x i)) -
        dataLike env.likelihood (Spec.performed design (List.ofFn os)) (List.ofFn (x i))| := by
    intro os
    obtain ⟨-, hok, -⟩ := ApproxMean.weights_after cfg env hg hst hp ht ht1 w x s hsw hsx hw h1 hlike design
      (List.ofFn os)
    obtain ⟨-, -, -, ns, e1, -, -, e2⟩ := feed_closed cfg env hg hst hp ht ht1 _ s hlen hprob hok
    rw [e1, hrec, List.nil_append, e2, hsw, hsx, ApproxMean.evidence_ofFn, ApproxMean.evidence_ofFn,
      ← sum_sub_distrib]
    refine (abs_sum_le_sum_abs _ _).trans (le_of_eq (sum_congr rfl fun i _ => ?_))
    rw [← mul_sub, abs_mul, abs_of_nonneg (hw i)]
  refine (sum_le_sum fun os _ => hstep os).trans ?_
  rw [sum_comm]
  calc _ = ∑ i, w i * ∑ os : Fin T → O,
        |dataLike like (Spec.performed design (List.ofFn os)) (List.ofFn (x i)) -
          dataLike env.likelihood (Spec.performed design (List.ofFn os)) (List.ofFn (x i))| := by
        simp_rw [mul_sum]
    _ ≤ ∑ i, w i * (η * T) := sum_le_sum fun i _ => mul_le_mul_of_nonneg_left
        (ApproxMean.path_gap _ _ _ (hl1 i) (hs i) (fun o e => hl0 o e i)
          (fun o e => eps_pos.le.trans (hlike o e i)) η (hη i) T design) (hw i)
    _ = _ := by rw [← sum_mul, h1, one_mul]

/-- **C145, estimates.**  With parameters between `lo` and `hi`, the mean squared error of the updater's
`est_mean` exceeds that of *any* estimate from the same data, even with the right model, by at most `η T`
times the squared widths. -/
theorem C145_error (Q : Fin d → ℝ) (hQ : ∀ j, 0 ≤ Q j) (lo hi : Fin d → ℝ)
    (hx : ∀ i j, lo j ≤ x i j ∧ x i j ≤ hi j) (design : List O → E) (T : ℕ)
    (est : List O → Fin d → ℝ) :
    Spec.runError Q w x like design T (Spec.meanAfterRun cfg env s design) ≤
      Spec.runError Q w x like design T est + (∑ j, Q j * (hi j - lo j) ^ 2) * (η * T) := by
  have hrun : ∀ est : List O → Fin d → ℝ, Spec.runError Q w x like design T est =
      ∑ os : Fin T → O, Noise.sqErr Q (fun i => w i *
        dataLike like (Spec.performed design (List.ofFn os)) (List.ofFn (x i))) x (est (List.ofFn os)) := by
    intro est
    rw [Noise.runError_any, Noise.anyErr_run]
  rw [hrun, hrun]
  have hstep : ∀ os : Fin T → O, Noise.sqErr Q (fun i => w i *
        dataLike like (Spec.performed design (List.ofFn os)) (List.ofFn (x i))) x
          (Spec.meanAfterRun cfg env s design (List.ofFn os)) ≤
      Noise.sqErr Q (fun i => w i *
        dataLike like (Spec.performed design (List.ofFn os)) (List.ofFn (x i))) x (est (List.ofFn os)) +
      (∑ j, Q j * (hi j - lo j) ^ 2) * ∑ i, w i *
        |dataLike like (Spec.performed design (List.ofFn os)) (List.ofFn (x i)) -
          dataLike env.likelihood (Spec.performed design (List.ofFn os)) (List.ofFn (x i))| := by
    intro os
    obtain ⟨hN, -⟩ := ApproxMean.weights_after cfg env hg hst hp ht ht1 w x s hsw hsx hw h1 hlike design
      (List.ofFn os)
    have hu : ∀ i, 0 ≤ w i * dataLike like (Spec.performed design (List.ofFn os)) (List.ofFn (x i)) :=
      fun i => mul_nonneg (hw i) (ApproxMean.like_nonneg _ _ (fun o e => hl0 o e i) _)
    have hex := ApproxMean.excess Q hQ x lo hi hx _
      (fun i => w i * dataLike env.likelihood (Spec.performed design (List.ofFn os)) (List.ofFn (x i))) hu
      (fun i => mul_nonneg (hw i) (ApproxMean.like_nonneg _ _ (fun o e => eps_pos.le.trans (hlike o e i)) _)) hN
    simp_rw [← mul_sub, abs_mul, abs_of_nonneg (hw _)] at hex
    have hmean : Spec.meanAfterRun cfg env s design (List.ofFn os) = fun j : Fin d =>
        (∑ i, w i * dataLike env.likelihood (Spec.performed design (List.ofFn os)) (List.ofFn (x i)) * x i j) /
        ∑ i, w i * dataLike env.likelihood (Spec.performed design (List.ofFn os)) (List.ofFn (x i)) :=
      funext fun j => ApproxMean.mean_after cfg env hg hst hp ht ht1 w x s hsw hsx hw h1 hlike design _ j
    rw [hmean]
    exact hex.trans (add_le_add (Noise.minErr_le Q hQ _ hu x _) le_rfl)
  refine (sum_le_sum fun os _ => hstep os).trans ?_
  rw [sum_add_distrib, ← mul_sum, sum_comm]
  refine add_le_add le_rfl (mul_le_mul_of_nonneg_left ?_ (sum_nonneg fun j _ => mul_nonneg (hQ j) (sq_nonneg _)))
  calc _ = ∑ i, w i * ∑ os : Fin T → O,
        |dataLike like (Spec.performed design (List.ofFn os)) (List.ofFn (x i)) -
          dataLike env.likelihood (Spec.performed design (List.ofFn os)) (List.ofFn (x i))| := by
        simp_rw [mul_sum]
    _ ≤ ∑ i, w i * (η * T) := sum_le_sum fun i _ => mul_le_mul_of_nonneg_left
        (ApproxMean.path_gap _ _ _ (hl1 i) (hs i) (fun o e => hl0 o e i)
          (fun o e => eps_pos.le.trans (hlike o e i)) η (hη i) T design) (hw i)
    _ = _ := by rw [← sum_mul, h1, one_mul]

end

/-- The right model of the case below: one of the coins of `promiseCoins` shows heads a little more often. -/
noncomputable def rightCoins (o : Option (Fin 1)) (y : List ℝ) (_ : Unit) : ℝ :=
  if y = [1/4] then (if o = none then 19/25 else 6/25) else 1/2

/-- Case for C145: three tosses of one of two coins, one of them known to two percent only. -/
example (est : List (Option (Fin 1)) → Fin 1 → ℝ) :
    Spec.runMean (fun _ : Fin 2 => 1 / 2) ![![1 / 4], ![1 / 2]] rightCoins (fun _ => ()) 3 (fun os =>
        Spec.weightDist (feed ⟨0, "error", eps, false⟩ promiseCoins false
            (Spec.performed (fun _ => ()) os) promiseStart).1.weights
          (dataPosterior rightCoins promiseStart.weights promiseStart.locs (Spec.performed (fun _ => ()) os)))
      ≤ 3 / 25 ∧
    Spec.runError ![1] (fun _ : Fin 2 => 1 / 2) ![![1 / 4], ![1 / 2]] rightCoins (fun _ => ()) 3
        (Spec.meanAfterRun ⟨0, "error", eps, false⟩ promiseCoins promiseStart fun _ => ()) ≤
      Spec.runError ![1] (fun _ : Fin 2 => 1 / 2) ![![1 / 4], ![1 / 2]] rightCoins (fun _ => ()) 3 est +
        3 / 800 := by
  have ht : (eps : ℝ) < 1 := lt_of_le_of_lt eps_real_le (by norm_num)
  have hlike : ∀ (o : Option (Fin 1)) (e : Unit) (i : Fin 2),
      eps ≤ promiseCoins.likelihood o (List.ofFn ((![![1 / 4], ![1 / 2]] : Fin 2 → Fin 1 → ℝ) i)) e := by
    intro o e i
    have : (eps : ℝ) ≤ 1 / 100 := by unfold eps; norm_num
    simp only [promiseCoins]
    split_ifs <;> linarith
  have h0 : ∀ (o : Option (Fin 1)) (e : Unit) (i : Fin 2),
      0 ≤ rightCoins o (List.ofFn ((![![1 / 4], ![1 / 2]] : Fin 2 → Fin 1 → ℝ) i)) e := by
    intro o e i
    unfold rightCoins
    split_ifs <;> norm_num
  have h1 : ∀ (i : Fin 2) (e : Unit),
      ∑ o, rightCoins o (List.ofFn ((![![1 / 4], ![1 / 2]] : Fin 2 → Fin 1 → ℝ) i)) e = 1 := by
    intro i e
    unfold rightCoins
    rw [Fintype.sum_option, Fin.sum_univ_one]
    split_ifs <;> norm_num at *
  have hη : ∀ (i : Fin 2) (e : Unit),
      ∑ o, |rightCoins o (List.ofFn ((![![1 / 4], ![1 / 2]] : Fin 2 → Fin 1 → ℝ) i)) e -
        promiseCoins.likelihood o (List.ofFn ((![![1 / 4], ![1 / 2]] : Fin 2 → Fin 1 → ℝ) i)) e| ≤ 1 / 50 := by
    intro i e
    rw [Fintype.sum_option, Fin.sum_univ_one]
    simp only [rightCoins, promiseCoins]
    split_ifs <;> norm_num [abs_of_pos, abs_of_neg] at *
  constructor
  · refine (C145_weights ⟨0, "error", eps, false⟩ promiseCoins promiseCoins_good (fun _ _ _ => rfl) rfl le_rfl ht
      (fun _ : Fin 2 => 1 / 2) ![![1 / 4], ![1 / 2]] promiseStart (by simp [promiseStart])
      (by simp [promiseStart]) (fun _ => by norm_num) (by norm_num) hlike (fun i e => promiseCoins_sum _ e)
      rightCoins h0 h1 (1 / 50) hη (fun _ => ()) 3).trans (by norm_num)
  · refine (C145_error ⟨0, "error", eps, false⟩ promiseCoins promiseCoins_good (fun _ _ _ => rfl) rfl le_rfl ht
      (fun _ : Fin 2 => 1 / 2) ![![1 / 4], ![1 / 2]] promiseStart (by simp [promiseStart])
      (by simp [promiseStart]) (fun _ => by norm_num) (by norm_num) hlike (fun i e => promiseCoins_sum _ e)
      rightCoins h0 h1 (1 / 50) hη ![1] (by simp) ![1 / 4] ![1 / 2] (fun i j => ?_) (fun _ => ()) 3 est).trans
      (by norm_num)
    fin_cases i <;> fin_cases j <;> norm_num

end QInfer
