import Verif.Lemmas.Diffusion
import Verif.Lemmas.JointNormal
import Verif.Model.Particle
import Mathlib.Probability.Moments.Covariance

/-!
# C136: how fast random walks spread
-/

namespace QInfer

open MeasureTheory ProbabilityTheory Finset

/-- The law of the first `d` parameters of all particles after a run with the given scales, for independent standard
normal variates. -/
noncomputable def lawAfter (g : GRw ℝ) (nMps d : Nat) {T : Nat} (s : Fin T → ℝ) (mps : Nat → Nat → ℝ) :
    Measure (Fin nMps × Fin d → ℝ) :=
  (normals (Fin T × Fin (nMps * g.nRw))).map fun v mp =>
    match grwRun g nMps (List.ofFn fun t => (s t, variates v t)) mps with
    | .ok r => r mp.1 mp.2
    | .error _ => 0

/-- **C136, the law after any number of steps.**  A `GaussianRandomWalkModel` with walk parameters `w`, fixed or learned
covariance, moves the particles once per datum, in a run with any scales.  The run succeeds; parameters outside `w`
never change; and for independent standard normal variates the parameters of all particles are jointly normal around
their starting values.  Different particles are uncorrelated (hence independent), and the covariance of one particle
is the sum of the squared scales times what `est_update_covariance` gives for that particle. -/
theorem C136_spread (nUnd : Nat) (idxs : RwIdxs) (cov : RwCov ℝ) (g : GRw ℝ)
    (h : grwInit nUnd idxs cov = .ok g) (hneg : cov.extra g.nRw ≠ 0 → idxs.Plain nUnd) (nMps : Nat) :
    ∃ w : List Nat, idxs.resolve nUnd nUnd = .ok w ∧ w.length = g.nRw ∧
      ∀ (T : Nat) (s : Fin T → ℝ) (mps : Nat → Nat → ℝ),
        ∃ final : (Fin T × Fin (nMps * g.nRw) → ℝ) → Nat → Nat → ℝ,
          (∀ v, grwRun g nMps (List.ofFn fun t => (s t, variates v t)) mps = .ok (final v)) ∧
          (∀ v m p, p ∉ w → final v m p = mps m p) ∧
          (w.Nodup → ∀ d, Spec.JointlyNormal (normals (Fin T × Fin (nMps * g.nRw)))
            (fun v (mp : Fin nMps × Fin d) => final v mp.1 mp.2) (fun mp => mps mp.1 mp.2)
            (fun a b => if a.1 = b.1 then (∑ t, s t ^ 2) * stepCov g w (mps a.1) a.2 b.2 else 0)) := by
  obtain ⟨w, hw, hlen, -, hrest⟩ := grwRun_normal nUnd idxs cov g h hneg nMps
  exact ⟨w, hw, hlen, hrest⟩

theorem lawAfter_normal (nUnd : Nat) (idxs : RwIdxs) (cov : RwCov ℝ) (g : GRw ℝ)
    (h : grwInit nUnd idxs cov = .ok g) (hneg : cov.extra g.nRw ≠ 0 → idxs.Plain nUnd) (nMps d : Nat)
    (w : List Nat) (hw : idxs.resolve nUnd nUnd = .ok w) (hnd : w.Nodup) {T : Nat} (s : Fin T → ℝ)
    (mps : Nat → Nat → ℝ) :
    IsProbabilityMeasure (lawAfter g nMps d s mps) ∧
    Spec.JointlyNormal (lawAfter g nMps d s mps) (fun x => x) (fun mp => mps mp.1 mp.2)
      (fun a b => if a.1 = b.1 then (∑ t, s t ^ 2) * stepCov g w (mps a.1) a.2 b.2 else 0) := by
  obtain ⟨w', hw', hlen, -, hrest⟩ := grwRun_normal nUnd idxs cov g h hneg nMps
  obtain rfl : w = w' := by rw [hw] at hw'; exact Except.ok.inj hw'
  obtain ⟨final, hf1, hf2, hf3⟩ := hrest T s mps
  have hlaw : lawAfter g nMps d s mps = (normals (Fin T × Fin (nMps * g.nRw))).map
      fun v mp => final v mp.1 mp.2 := by
    unfold lawAfter
    congr 1
    funext v mp
    rw [hf1 v]
  -- every coordinate is measurable, since its law is not the zero measure
  have hmeas : AEMeasurable (fun v (mp : Fin nMps × Fin d) => final v mp.1 mp.2)
      (normals (Fin T × Fin (nMps * g.nRw))) := by
    refine aemeasurable_pi_lambda _ fun mp => ?_
    by_contra hc
    have h1 := (hf3 hnd d fun q => if q = mp then 1 else 0).2
    have h2 : (fun v => ∑ i : Fin nMps × Fin d, (if i = mp then (1 : ℝ) else 0) * final v i.1 i.2) =
        fun v => final v mp.1 mp.2 := by
      funext v; simp
    rw [h2, Measure.map_of_not_aemeasurable hc] at h1
    exact absurd h1.symm (IsProbabilityMeasure.ne_zero _)
  refine ⟨?_, fun c => ⟨(hf3 hnd d c).1, ?_⟩⟩
  · rw [hlaw]; exact Measure.isProbabilityMeasure_map hmeas
  · have h1 := (hf3 hnd d c).2
    have hm : Measurable fun x : Fin nMps × Fin d → ℝ => ∑ i, c i * x i := by fun_prop
    rw [hlaw, AEMeasurable.map_map_of_aemeasurable hm.aemeasurable hmeas]
    exact h1

theorem lawAfter_linear (nUnd : Nat) (idxs : RwIdxs) (cov : RwCov ℝ) (g : GRw ℝ)
    (h : grwInit nUnd idxs cov = .ok g) (hneg : cov.extra g.nRw ≠ 0 → idxs.Plain nUnd) (nMps d : Nat)
    (w : List Nat) (hw : idxs.resolve nUnd nUnd = .ok w) (hnd : w.Nodup) {T : Nat} (s : Fin T → ℝ)
    (mps : Nat → Nat → ℝ) (c : Fin nMps × Fin d → ℝ) :
    (lawAfter g nMps d s mps).map (fun x => ∑ i, c i * x i) =
      gaussianReal (∑ i, c i * mps i.1 i.2) ((∑ t, s t ^ 2) * ∑ a : Fin nMps × Fin d, ∑ b : Fin nMps × Fin d,
        c a * c b * if a.1 = b.1 then stepCov g w (mps a.1) a.2 b.2 else 0).toNNReal := by
  refine Eq.trans ((lawAfter_normal nUnd idxs cov g h hneg nMps d w hw hnd s mps).2 c).2 ?_
  congr 2
  rw [Finset.mul_sum]
  refine Finset.sum_congr rfl fun a _ => ?_
  rw [Finset.mul_sum]
  refine Finset.sum_congr rfl fun b _ => ?_
  dsimp only
  by_cases hab : a.1 = b.1
  · rw [if_pos hab, if_pos hab]; ring
  · rw [if_neg hab, if_neg hab]; ring

/-- **C136, only the sum of the squared scales matters.**  Two runs, of whatever lengths, have the same joint law of all
parameters of all particles if the sums of their squared scales agree: `T` steps of scale one are like one step of
scale `√T`. -/
theorem C136_schedules (nUnd : Nat) (idxs : RwIdxs) (cov : RwCov ℝ) (g : GRw ℝ)
    (h : grwInit nUnd idxs cov = .ok g) (hneg : cov.extra g.nRw ≠ 0 → idxs.Plain nUnd)
    (w : List Nat) (hw : idxs.resolve nUnd nUnd = .ok w) (hnd : w.Nodup) (nMps d T T' : Nat) (s : Fin T → ℝ)
    (s' : Fin T' → ℝ) (hs : ∑ t, s t ^ 2 = ∑ t, s' t ^ 2) (mps : Nat → Nat → ℝ) :
    lawAfter g nMps d s mps = lawAfter g nMps d s' mps := by
  obtain ⟨h1, -⟩ := lawAfter_normal nUnd idxs cov g h hneg nMps d w hw hnd s mps
  obtain ⟨h3, -⟩ := lawAfter_normal nUnd idxs cov g h hneg nMps d w hw hnd s' mps
  refine law_ext _ _ fun c => ?_
  rw [lawAfter_linear nUnd idxs cov g h hneg nMps d w hw hnd s mps,
    lawAfter_linear nUnd idxs cov g h hneg nMps d w hw hnd s' mps, hs]

/-- An additive nonnegative function of durations is proportional to the duration. -/
theorem additive_linear (f : ℝ → ℝ) (h0 : ∀ t, 0 ≤ t → 0 ≤ f t)
    (hadd : ∀ a b, 0 ≤ a → 0 ≤ b → f (a + b) = f a + f b) (t : ℝ) (ht : 0 ≤ t) : f t = f 1 * t := by
  have hn : ∀ (n : Nat) (a : ℝ), 0 ≤ a → f (n * a) = n * f a := by
    intro n a ha
    induction n with
    | zero =>
      have := hadd 0 0 le_rfl le_rfl
      simp at this ⊢; exact this
    | succ n ih =>
      have h1 : ((n + 1 : Nat) : ℝ) * a = n * a + a := by push_cast; ring
      rw [h1, hadd _ _ (by positivity) ha, ih]; push_cast; ring
  have hmono : ∀ a b, 0 ≤ a → a ≤ b → f a ≤ f b := by
    intro a b ha hab
    have := hadd a (b - a) ha (by linarith)
    rw [add_sub_cancel] at this
    have := h0 (b - a) (by linarith)
    linarith
  have h1 := h0 1 zero_le_one
  have key : ∀ n : Nat, (n : ℝ) * |f t - f 1 * t| ≤ f 1 := by
    intro n
    have hnt : (0 : ℝ) ≤ n * t := by positivity
    have hl := Nat.floor_le hnt
    have hu := (Nat.lt_floor_add_one ((n : ℝ) * t)).le
    have e1 : f (⌊(n : ℝ) * t⌋₊) = ⌊(n : ℝ) * t⌋₊ * f 1 := by
      have := hn ⌊(n : ℝ) * t⌋₊ 1 zero_le_one; rwa [mul_one] at this
    have e2 : f ((⌊(n : ℝ) * t⌋₊ : ℝ) + 1) = (⌊(n : ℝ) * t⌋₊ + 1) * f 1 := by
      rw [hadd _ _ (by positivity) zero_le_one, e1]; ring
    have b1 := hmono _ _ (by positivity) hl
    have b2 := hmono _ _ hnt hu
    rw [e1, hn n t ht] at b1
    rw [e2, hn n t ht] at b2
    have c1 : f 1 * (n * t) ≤ (⌊(n : ℝ) * t⌋₊ + 1) * f 1 := by
      rw [mul_comm]; exact mul_le_mul_of_nonneg_right hu h1
    have c2 : ⌊(n : ℝ) * t⌋₊ * f 1 ≤ f 1 * (n * t) := by
      rw [mul_comm (f 1)]; exact mul_le_mul_of_nonneg_right hl h1
    have : (n : ℝ) * |f t - f 1 * t| = |n * f t - f 1 * (n * t)| := by
      rw [← abs_of_nonneg (Nat.cast_nonneg (α := ℝ) n), ← abs_mul, abs_of_nonneg (Nat.cast_nonneg (α := ℝ) n)]
      congr 1; ring
    rw [this, abs_le]
    constructor <;> linarith
  by_contra hne
  have hpos : 0 < |f t - f 1 * t| := abs_pos.2 (sub_ne_zero.2 hne)
  obtain ⟨n, hn'⟩ := exists_nat_gt (f 1 / |f t - f 1 * t|)
  rw [div_lt_iff₀ hpos] at hn'
  exact absurd (key n) (not_le.2 hn')

theorem stepCov_symm (g : GRw ℝ) (w : List Nat) (mp : Nat → ℝ) (p q : Nat) :
    stepCov g w mp p q = stepCov g w mp q p := by
  have hs : ∀ i j, grwCov g 1 (fun _ => mp) i j = grwCov g 1 (fun _ => mp) j i := by
    intro i j
    obtain ⟨nUnd, idxs, nRw, cov⟩ := g
    cases cov <;> simp only [grwCov]
    · by_cases h : i = j
      · subst h; rfl
      · rw [if_neg h, if_neg (Ne.symm h)]
    · exact congrArg List.sum (List.map_congr_left fun k _ => mul_comm _ _)
    · by_cases h : i = j
      · subst h; rfl
      · rw [if_neg h, if_neg (Ne.symm h)]
    · congr 2
      refine List.map_congr_left fun m _ => ?_
      exact congrArg List.sum (List.map_congr_left fun k _ => mul_comm _ _)
  unfold stepCov
  rw [Finset.sum_comm]
  refine Finset.sum_congr rfl fun i _ => Finset.sum_congr rfl fun j _ => ?_
  rw [hs j i]
  by_cases h : w[j] = p ∧ w[i] = q
  · rw [if_pos h, if_pos h.symm]
  · rw [if_neg h, if_neg fun hc => h hc.symm]

theorem stepCov_self (g : GRw ℝ) (w : List Nat) (hnd : w.Nodup) (mp : Nat → ℝ) (i : Fin w.length) :
    stepCov g w mp w[i] w[i] = grwCov g 1 (fun _ => mp) i i := by
  unfold stepCov
  have hne : ∀ j : Fin w.length, j ≠ i → w[j] ≠ w[i] := fun j hj hc =>
    hj (Fin.ext ((List.Nodup.getElem_inj_iff hnd).1 hc))
  rw [Finset.sum_eq_single i, Finset.sum_eq_single i]
  · exact if_pos ⟨rfl, rfl⟩
  · exact fun j _ hj => if_neg fun hc => hne j hj hc.2
  · simp
  · exact fun j _ hj => Finset.sum_eq_zero fun k _ => if_neg fun hc => hne j hj hc.1
  · simp

/-- **C136, durations.**  Let the scale be a function `f` of the duration of the experiment.  How far the particles
spread in a given total time is independent of how the time is divided into experiments if and only if the square of
`f` is proportional to the duration. -/
theorem C136_durations (nUnd : Nat) (idxs : RwIdxs) (cov : RwCov ℝ) (g : GRw ℝ)
    (h : grwInit nUnd idxs cov = .ok g) (hneg : cov.extra g.nRw ≠ 0 → idxs.Plain nUnd)
    (w : List Nat) (hw : idxs.resolve nUnd nUnd = .ok w) (hnd : w.Nodup) (nMps : Nat) (hn : 0 < nMps)
    (mps : Nat → Nat → ℝ) (i : Fin w.length) (hi : 0 < grwCov g 1 (fun _ => mps 0) i i) (f : ℝ → ℝ) :
    (∀ l l' : List ℝ, (∀ t ∈ l, 0 ≤ t) → (∀ t ∈ l', 0 ≤ t) → l.sum = l'.sum →
      lawAfter g nMps nUnd (fun t : Fin l.length => f l[t]) mps =
        lawAfter g nMps nUnd (fun t : Fin l'.length => f l'[t]) mps) ↔
    ∃ c, ∀ t, 0 ≤ t → f t ^ 2 = c * t := by
  have hsum : ∀ l : List ℝ, ∑ t : Fin l.length, f l[t] ^ 2 = (l.map fun t => f t ^ 2).sum := by
    intro l
    rw [← List.sum_ofFn]
    congr 1
    refine List.ext_getElem (by simp) fun n h1 h2 => ?_
    simp
  constructor
  · intro hlaw
    have hlt : w[i] < nUnd := by
      obtain ⟨w', hw', -, hlt, -⟩ := grwRun_normal nUnd idxs cov g h hneg nMps
      obtain rfl : w = w' := by rw [hw] at hw'; exact Except.ok.inj hw'
      exact hlt _ (List.getElem_mem _)
    have hadd : ∀ a b, 0 ≤ a → 0 ≤ b → f (a + b) ^ 2 = f a ^ 2 + f b ^ 2 := by
      intro a b ha hb
      have hl := hlaw [a + b] [a, b] (by simpa using add_nonneg ha hb) (by simp [ha, hb]) (by simp)
      have h1 := lawAfter_linear nUnd idxs cov g h hneg nMps nUnd w hw hnd
        (fun t : Fin [a + b].length => f [a + b][t]) mps
        fun q => if q = (⟨0, hn⟩, ⟨w[i], hlt⟩) then 1 else 0
      have h2 := lawAfter_linear nUnd idxs cov g h hneg nMps nUnd w hw hnd
        (fun t : Fin [a, b].length => f [a, b][t]) mps
        fun q => if q = (⟨0, hn⟩, ⟨w[i], hlt⟩) then 1 else 0
      rw [hl, h2] at h1
      have hV := (gaussianReal_ext_iff.1 h1).2
      rw [hsum, hsum] at hV
      have hone : ∑ x : Fin nMps × Fin nUnd, ∑ y : Fin nMps × Fin nUnd,
          (if x = (⟨0, hn⟩, ⟨w[i], hlt⟩) then (1 : ℝ) else 0) *
          (if y = (⟨0, hn⟩, ⟨w[i], hlt⟩) then 1 else 0) *
          (if x.1 = y.1 then stepCov g w (mps x.1) x.2 y.2 else 0) = grwCov g 1 (fun _ => mps 0) i i := by
        rw [Finset.sum_eq_single (⟨0, hn⟩, ⟨w[i], hlt⟩), Finset.sum_eq_single (⟨0, hn⟩, ⟨w[i], hlt⟩)]
        · rw [if_pos rfl, if_pos rfl, one_mul, one_mul]
          exact stepCov_self g w hnd (mps 0) i
        · intro y _ hy; rw [if_neg hy]; simp
        · simp
        · intro x _ hx; refine Finset.sum_eq_zero fun y _ => ?_; rw [if_neg hx]; simp
        · simp
      rw [hone] at hV
      have hV' := congrArg NNReal.toReal hV
      have hp : ∀ l : List ℝ, 0 ≤ (l.map fun t => f t ^ 2).sum := fun l =>
        List.sum_nonneg (by simp; intro a _; positivity)
      rw [Real.coe_toNNReal _ (mul_nonneg (hp _) hi.le), Real.coe_toNNReal _ (mul_nonneg (hp _) hi.le)] at hV'
      have := mul_right_cancel₀ hi.ne' hV'
      simpa using this.symm
    exact ⟨f 1 ^ 2, additive_linear (fun t => f t ^ 2) (fun _ _ => sq_nonneg _) hadd⟩
  · rintro ⟨c, hc⟩ l l' hl hl' hs
    apply C136_schedules nUnd idxs cov g h hneg w hw hnd
    rw [hsum, hsum]
    have : ∀ l : List ℝ, (∀ t ∈ l, 0 ≤ t) → (l.map fun t => f t ^ 2).sum = c * l.sum := by
      intro l hl
      induction l with
      | nil => simp
      | cons t l ih =>
        simp only [List.map_cons, List.sum_cons]
        rw [ih fun t ht => hl t (List.mem_cons_of_mem _ ht), hc t (hl t List.mem_cons_self)]; ring
    rw [this l hl, this l' hl', hs]

/-- **C136, a field of durations is not enough.**  If the scale is given by the name of a field that holds the durations,
the spread depends on how a given time is divided into experiments.  With the square root of the duration it does
not. -/
theorem C136_time_field (nUnd : Nat) (idxs : RwIdxs) (cov : RwCov ℝ) (g : GRw ℝ)
    (h : grwInit nUnd idxs cov = .ok g) (hneg : cov.extra g.nRw ≠ 0 → idxs.Plain nUnd)
    (w : List Nat) (hw : idxs.resolve nUnd nUnd = .ok w) (hnd : w.Nodup) (nMps : Nat) (hn : 0 < nMps)
    (mps : Nat → Nat → ℝ) (i : Fin w.length) (hi : 0 < grwCov g 1 (fun _ => mps 0) i i) :
    (¬ ∀ l l' : List ℝ, (∀ t ∈ l, 0 ≤ t) → (∀ t ∈ l', 0 ≤ t) → l.sum = l'.sum →
      lawAfter g nMps nUnd (fun t : Fin l.length => l[t]) mps =
        lawAfter g nMps nUnd (fun t : Fin l'.length => l'[t]) mps) ∧
    ∀ l l' : List ℝ, (∀ t ∈ l, 0 ≤ t) → (∀ t ∈ l', 0 ≤ t) → l.sum = l'.sum →
      lawAfter g nMps nUnd (fun t : Fin l.length => Real.sqrt l[t]) mps =
        lawAfter g nMps nUnd (fun t : Fin l'.length => Real.sqrt l'[t]) mps := by
  constructor
  · intro hc
    obtain ⟨c, hc⟩ := (C136_durations nUnd idxs cov g h hneg w hw hnd nMps hn mps i hi fun t => t).1 hc
    have h1 := hc 1 zero_le_one
    have h2 := hc 2 zero_le_two
    linarith
  · exact (C136_durations nUnd idxs cov g h hneg w hw hnd nMps hn mps i hi Real.sqrt).2
      ⟨1, fun t ht => by rw [Real.sq_sqrt ht, one_mul]⟩

/-- A walk of one parameter with variance four per step: after three steps and one of scale two it has variance 28. -/
example : (lawAfter ⟨1, .all, 1, .fixedDiag fun _ => 2⟩ 1 1 ![1, 1, 1, 2] fun _ _ => 5).map (fun x => x (0, 0)) =
    gaussianReal 5 28 := by
  have hw : RwIdxs.all.resolve 1 1 = .ok [0] := rfl
  have := lawAfter_linear 1 .all (.fixedDiag fun _ => (2 : ℝ)) ⟨1, .all, 1, .fixedDiag fun _ => 2⟩ rfl
    (fun hc => absurd rfl hc) 1 1 [0] hw (by simp) ![1, 1, 1, 2] (fun _ _ => 5) fun _ => 1
  have e : (fun x : Fin 1 × Fin 1 → ℝ => ∑ i, (1 : ℝ) * x i) = fun x => x (0, 0) := by
    funext x; simp [Fintype.sum_prod_type]
  rw [e] at this
  rw [this]
  congr 1
  · simp [Fintype.sum_prod_type]
  · rw [Real.toNNReal_eq_iff_eq_coe (by norm_num)]
    simp [Fintype.sum_prod_type, stepCov, grwCov, Fin.sum_univ_succ]
    norm_num

/-- A learned deviation of the second of two parameters: the hypotheses hold, and the variance is that of the particle. -/
example : ∃ g : GRw ℝ, grwInit 2 (.list [1]) .learnedDiag = .ok g ∧ (RwIdxs.list [1]).Plain 2 ∧
    (RwIdxs.list [1]).resolve 2 2 = .ok [1] ∧
    0 < grwCov g 1 (fun _ p => if p = 2 then (3 : ℝ) else 0) 0 0 := by
  refine ⟨⟨2, .list [1], 1, .learnedDiag⟩, rfl, ?_, rfl, ?_⟩
  · simp [RwIdxs.Plain]
  · simp [grwCov]

/-- **C136, estimates.**  For any weights, a run leaves the mean estimate where it is on average, and raises the
estimated covariance on average by the sum of the squared scales times the covariances of the particles' steps, each
counted with weight times one minus weight. -/
theorem C136_estimates (nUnd : Nat) (idxs : RwIdxs) (cov : RwCov ℝ) (g : GRw ℝ)
    (h : grwInit nUnd idxs cov = .ok g) (hneg : cov.extra g.nRw ≠ 0 → idxs.Plain nUnd)
    (w : List Nat) (hw : idxs.resolve nUnd nUnd = .ok w) (hnd : w.Nodup) (nMps d : Nat)
    (wt : Fin nMps → ℝ) {T : Nat} (s : Fin T → ℝ) (mps : Nat → Nat → ℝ) :
    (∀ a, ∫ x, pmean wt (fun m p => x (m, p)) a ∂lawAfter g nMps d s mps = pmean wt (fun m (p : Fin d) => mps m p) a) ∧
    ∀ a b, ∫ x, pcov wt (fun m p => x (m, p)) a b ∂lawAfter g nMps d s mps =
      pcov wt (fun m (p : Fin d) => mps m p) a b +
        (∑ t, s t ^ 2) * ∑ m, wt m * (1 - wt m) * stepCov g w (mps m) a b := by
  classical
  obtain ⟨hP, hN⟩ := lawAfter_normal nUnd idxs cov g h hneg nMps d w hw hnd s mps
  obtain ⟨S, hS⟩ : ∃ S : ℝ, S = ∑ t, s t ^ 2 := ⟨_, rfl⟩
  rw [← hS] at hN ⊢
  obtain ⟨i1, i2, e1, e2⟩ := JointlyNormal.moments hN (by
    rintro ⟨m, p⟩ ⟨m', q⟩
    dsimp only
    by_cases hm : m = m'
    · subst hm; rw [if_pos rfl, if_pos rfl, stepCov_symm]
    · rw [if_neg hm, if_neg (Ne.symm hm)])
  refine ⟨fun a => ?_, fun a b => ?_⟩
  · simp only [pmean]
    rw [integral_finset_sum _ fun m _ => (i1 (m, a)).const_mul _]
    refine Finset.sum_congr rfl fun m _ => ?_
    rw [integral_const_mul, e1]
  · have hx : ∀ x : Fin nMps × Fin d → ℝ, pcov wt (fun m p => x (m, p)) a b =
        (∑ m, wt m * (x (m, a) * x (m, b))) - ∑ m, ∑ m', wt m * wt m' * (x (m, a) * x (m', b)) := by
      intro x
      simp only [pcov, pmean]
      congr 1
      · exact Finset.sum_congr rfl fun m _ => by ring
      · rw [Finset.sum_mul_sum]
        exact Finset.sum_congr rfl fun m _ => Finset.sum_congr rfl fun m' _ => by ring
    have j1 : ∀ m, Integrable (fun x : Fin nMps × Fin d → ℝ => wt m * (x (m, a) * x (m, b)))
        (lawAfter g nMps d s mps) := fun m => (i2 (m, a) (m, b)).const_mul _
    have j2 : ∀ m m', Integrable (fun x : Fin nMps × Fin d → ℝ => wt m * wt m' * (x (m, a) * x (m', b)))
        (lawAfter g nMps d s mps) := fun m m' => (i2 (m, a) (m', b)).const_mul _
    have hl : ∫ x, pcov wt (fun m p => x (m, p)) a b ∂lawAfter g nMps d s mps =
        (∑ m, wt m * (mps m a * mps m b + S * stepCov g w (mps m) a b)) -
          ∑ m, ∑ m' : Fin nMps, wt m * wt m' * (mps m a * mps m' b + if m = m' then S * stepCov g w (mps m) a b else 0) := by
      simp only [hx]
      rw [integral_sub (integrable_finset_sum _ fun m _ => j1 m)
        (integrable_finset_sum _ fun m _ => integrable_finset_sum _ fun m' _ => j2 m m'),
        integral_finset_sum _ fun m _ => j1 m,
        integral_finset_sum _ fun m _ => integrable_finset_sum _ fun m' _ => j2 m m']
      congr 1
      · refine Finset.sum_congr rfl fun m _ => ?_
        rw [integral_const_mul, e2]
        simp
      · refine Finset.sum_congr rfl fun m _ => ?_
        rw [integral_finset_sum _ fun m' _ => j2 m m']
        refine Finset.sum_congr rfl fun m' _ => ?_
        rw [integral_const_mul, e2]
    rw [hl, hx fun mp => mps mp.1 mp.2]
    simp only [mul_add, Finset.sum_add_distrib, mul_ite, mul_zero, Finset.sum_ite_eq, Finset.mem_univ, if_true]
    have : S * ∑ m, wt m * (1 - wt m) * stepCov g w (mps m) a b =
        (∑ m, wt m * (S * stepCov g w (mps m) a b)) - ∑ m, wt m * wt m * (S * stepCov g w (mps m) a b) := by
      rw [Finset.mul_sum, ← Finset.sum_sub_distrib]
      exact Finset.sum_congr rfl fun m _ => by ring
    rw [this]; ring

/-- **C136, estimates with a fixed covariance.**  With normalised weights the estimated covariance grows on average by
the total of the squared scales times the step covariance, less the part one over the effective sample size. -/
theorem C136_estimates_fixed (nUnd : Nat) (idxs : RwIdxs) (cov : RwCov ℝ) (g : GRw ℝ)
    (h : grwInit nUnd idxs cov = .ok g) (hfix : cov.extra g.nRw = 0) (w : List Nat)
    (hw : idxs.resolve nUnd nUnd = .ok w) (hnd : w.Nodup) (nMps d : Nat) (wt : Fin nMps → ℝ)
    (hwt : ∑ m, wt m = 1) {T : Nat} (s : Fin T → ℝ) (mps : Nat → Nat → ℝ) (mp : Nat → ℝ) (a b : Fin d) :
    ∫ x, pcov wt (fun m p => x (m, p)) a b ∂lawAfter g nMps d s mps =
      pcov wt (fun m (p : Fin d) => mps m p) a b +
        (∑ t, s t ^ 2) * ((1 - ∑ m, wt m ^ 2) * stepCov g w mp a b) := by
  rw [(C136_estimates nUnd idxs cov g h (fun hc => absurd hfix hc) w hw hnd nMps d wt s mps).2 a b]
  congr 2
  obtain ⟨-, -, e3, w', -, hw', hne, hlen, -⟩ := grwInit_ok nUnd idxs cov g h
  have hpos : 0 < g.nRw := by rw [← hlen]; exact List.length_pos_of_ne_nil hne
  have hsame : ∀ m, stepCov g w (mps m) a b = stepCov g w mp a b := by
    intro m
    unfold stepCov
    refine Finset.sum_congr rfl fun i _ => Finset.sum_congr rfl fun j _ => ?_
    have : grwCov g 1 (fun _ => mps m) i j = grwCov g 1 (fun _ => mp) i j := by
      obtain ⟨nU, ix, nRw, cv⟩ := g
      dsimp only at e3 hfix hpos
      subst e3
      cases cv with
      | fixedDiag _ => rfl
      | fixedDense _ => rfl
      | learnedDiag => simp only [RwCov.extra] at hfix; omega
      | learnedDense =>
        simp only [RwCov.extra] at hfix
        have : 2 ≤ nRw * (nRw + 1) := by nlinarith
        omega
    rw [this]
  simp only [hsame]
  rw [← Finset.sum_mul]
  congr 1
  have : ∀ m, wt m * (1 - wt m) = wt m - wt m ^ 2 := fun m => by ring
  rw [Finset.sum_congr rfl fun m _ => this m, Finset.sum_sub_distrib, hwt]

/-! ### walks in transformed coordinates -/

/-- A cloud read in transformed coordinates: `t` acts on the underlying parameters of each particle. -/
def inCoords (nUnd : Nat) (t : (Nat → ℝ) → Nat → ℝ) (a : Nat → Nat → ℝ) (m p : Nat) : ℝ :=
  if p < nUnd then t (fun p => if p < nUnd then a m p else 0) p else a m p

/-- Rows of a plain run do not influence each other. -/
theorem grwRun_rows (nUnd : Nat) (idxs : RwIdxs) (cov : RwCov ℝ) (g : GRw ℝ)
    (h : grwInit nUnd idxs cov = .ok g) (hneg : cov.extra g.nRw ≠ 0 → idxs.Plain nUnd) (nMps : Nat)
    (l : List (ℝ × (Nat → ℝ))) (a b : Nat → Nat → ℝ) (hab : ∀ m < nMps, a m = b m) :
    ∃ r r', grwRun g nMps l a = .ok r ∧ grwRun g nMps l b = .ok r' ∧ ∀ m < nMps, r m = r' m := by
  obtain ⟨w, hw, hne, hlen, hw'⟩ := resolve_stable nUnd idxs cov g h hneg
  have hs : ∀ s z a, grwStep g nMps 1 (fun _ => s) z a = .ok fun m p e =>
      scatterAdd w (a m) (fun j => s * grwSteps g nMps 1 a z m j e) p := by
    intro s z a; rw [grwStep, hw']; rfl
  induction l generalizing a b with
  | nil => exact ⟨a, b, rfl, rfl, hab⟩
  | cons sz l ih =>
    obtain ⟨s, z⟩ := sz
    obtain ⟨r, r', h1, h2, h3⟩ := ih
      (fun m p => scatterAdd w (a m) (fun j => s * grwSteps g nMps 1 a z m j 0) p)
      (fun m p => scatterAdd w (b m) (fun j => s * grwSteps g nMps 1 b z m j 0) p) (by
        intro m hm
        have hst : ∀ j, grwSteps g nMps 1 a z m j 0 = grwSteps g nMps 1 b z m j 0 := by
          intro j
          unfold grwSteps
          rw [hab m hm]
        simp only [hst, hab m hm])
    refine ⟨r, r', ?_, ?_, h3⟩
    · rw [grwRun, hs]; exact h1
    · rw [grwRun, hs]; exact h2

/-- **C136, transformed walks.**  If the transformation undoes its inverse, then a run of a model with a transformation
is, read in the transformed coordinates, the run of the model without: so it has the law given by `C136_spread`
there. -/
theorem C136_transformed (nUnd : Nat) (idxs : RwIdxs) (cov : RwCov ℝ) (g : GRw ℝ)
    (h : grwInit nUnd idxs cov = .ok g) (hneg : cov.extra g.nRw ≠ 0 → idxs.Plain nUnd) (nMps : Nat)
    (t u : (Nat → ℝ) → Nat → ℝ)
    (htu : ∀ y : Nat → ℝ, ∀ p < nUnd,
      t (fun p => if p < nUnd then u (fun p => if p < nUnd then y p else 0) p else 0) p = y p)
    (l : List (ℝ × (Nat → ℝ))) (mps : Nat → Nat → ℝ) :
    ∃ r r', grwRunTransformed g nMps (fun a q => t (a q)) (fun a q => u (a q)) l mps = .ok r ∧
      grwRun g nMps l (inCoords nUnd t mps) = .ok r' ∧ ∀ m < nMps, inCoords nUnd t r m = r' m := by
  obtain ⟨w, hw, hne, hlen, hw'⟩ := resolve_stable nUnd idxs cov g h hneg
  obtain ⟨e1, -⟩ := grwInit_ok nUnd idxs cov g h
  obtain ⟨w', _, hw'', -, hlt, -⟩ := C46_transformed_walk_partial nUnd idxs cov g h hneg nMps 1 t u
    (fun _ => 0) (fun _ => 0) mps
  obtain rfl : w = w' := by rw [hw] at hw''; exact Except.ok.inj hw''
  have hs : ∀ s z a, grwStep g nMps 1 (fun _ => s) z a = .ok fun m p e =>
      scatterAdd w (a m) (fun j => s * grwSteps g nMps 1 a z m j e) p := by
    intro s z a; rw [grwStep, hw']; rfl
  induction l generalizing mps with
  | nil => exact ⟨mps, _, rfl, rfl, fun _ _ => rfl⟩
  | cons sz l ih =>
    obtain ⟨s, z⟩ := sz
    obtain ⟨r1, hr1⟩ : ∃ r1, grwStepTransformed g nMps 1 (fun _ => s) z (fun a q => t (a q)) (fun a q => u (a q)) mps =
        .ok r1 := ⟨_, by rw [grwStepTransformed, hw']; rfl⟩
    have hr1' := hr1
    rw [grwStepTransformed, hw'] at hr1'
    have hval : ∀ m p, r1 m p 0 = onUnderlying g.nUnd (fun a q => u (a q)) (fun q p => scatterAdd w
        (onUnderlying g.nUnd (fun a q => t (a q)) (fun q p => mps (q % nMps) p) q)
        (fun j => s * grwSteps g nMps 1 mps z (q % nMps) j (q / nMps)) p) (0 * nMps + m) p := by
      intro m p
      have := Except.ok.inj hr1'
      rw [← this]
    obtain ⟨r, r', h1, h2, h3⟩ := ih fun m p => r1 m p 0
    -- the plain step in the coordinates
    have hrow : ∀ m < nMps, inCoords nUnd t (fun m p => r1 m p 0) m = fun p =>
        scatterAdd w (inCoords nUnd t mps m)
          (fun j => s * grwSteps g nMps 1 (inCoords nUnd t mps) z m j 0) p := by
      intro m hm
      have hmod : (0 * nMps + m) % nMps = m := by rw [zero_mul, zero_add, Nat.mod_eq_of_lt hm]
      have hdiv : (0 * nMps + m) / nMps = 0 := by rw [zero_mul, zero_add, Nat.div_eq_of_lt hm]
      have hst : ∀ j, grwSteps g nMps 1 (inCoords nUnd t mps) z m j 0 = grwSteps g nMps 1 mps z m j 0 := by
        intro j
        have hge : ∀ p, nUnd ≤ p → inCoords nUnd t mps m p = mps m p := fun p hp => by
          unfold inCoords; rw [if_neg (not_lt.2 hp)]
        unfold grwSteps
        split
        · rfl
        · rw [hge _ (by rw [e1]; omega)]
        · rfl
        · refine congrArg List.sum (List.map_congr_left fun k _ => ?_)
          unfold learnedChol
          split
          · rw [hge _ (by rw [e1]; omega)]
          · rfl
      obtain ⟨y, hy⟩ : ∃ y : Nat → ℝ, y = fun p => scatterAdd w (inCoords nUnd t mps m)
          (fun j => s * grwSteps g nMps 1 mps z m j 0) p := ⟨_, rfl⟩
      have hrw : ∀ p, r1 m p 0 = if p < nUnd then u (fun p => if p < nUnd then y p else 0) p else mps m p := by
        intro p
        rw [hval m p]
        have hin : onUnderlying nUnd (fun a q => t (a q)) (fun q p => mps (q % nMps) p) (0 * nMps + m) =
            inCoords nUnd t mps m := by
          funext p
          simp only [onUnderlying, inCoords, hmod]
        rw [e1]
        unfold onUnderlying at hin ⊢
        simp only [hmod, hdiv] at hin ⊢
        by_cases hp : p < nUnd
        · rw [if_pos hp, if_pos hp, hin, hy]
        · rw [if_neg hp, if_neg hp, hin]
          have hpw : p ∉ w := fun hc => hp (hlt p hc)
          simp only [scatterAdd, (lastPos_none p w).2 hpw, inCoords, if_neg hp]
      funext p
      simp only [hst]
      have hyp : y p = scatterAdd w (inCoords nUnd t mps m) (fun j => s * grwSteps g nMps 1 mps z m j 0) p := by
        rw [hy]
      rw [← hyp]
      by_cases hp : p < nUnd
      · unfold inCoords
        rw [if_pos hp]
        have hpad : (fun p => if p < nUnd then r1 m p 0 else 0) =
            fun p => if p < nUnd then u (fun p => if p < nUnd then y p else 0) p else 0 := by
          funext p
          by_cases hp : p < nUnd
          · rw [if_pos hp, if_pos hp, hrw, if_pos hp]
          · rw [if_neg hp, if_neg hp]
        rw [hpad]
        exact htu y p hp
      · unfold inCoords
        rw [if_neg hp]
        dsimp only
        rw [hrw, if_neg hp, hyp]
        have hpw : p ∉ w := fun hc => hp (hlt p hc)
        simp only [scatterAdd, (lastPos_none p w).2 hpw, inCoords, if_neg hp]
    obtain ⟨q, q', g1, g2, g3⟩ := grwRun_rows nUnd idxs cov g h hneg nMps l
      (inCoords nUnd t fun m p => r1 m p 0)
      (fun m p => scatterAdd w (inCoords nUnd t mps m)
          (fun j => s * grwSteps g nMps 1 (inCoords nUnd t mps) z m j 0) p) hrow
    refine ⟨r, q', ?_, ?_, ?_⟩
    · rw [grwRunTransformed, hr1]; exact h1
    · rw [grwRun, hs]; exact g2
    · intro m hm
      rw [h3 m hm]
      rw [g1] at h2
      rw [← Except.ok.inj h2, g3 m hm]

/-! ### walks with any law of the steps -/

theorem rwRun_spec {T N d : Nat} (v : Fin T × Fin N → Fin d → ℝ) (mps : Nat → Nat → ℝ) (m : Fin N) (p : Fin d) :
    rwRun (List.ofFn fun t => sampleRows v t) mps m p = mps m p + ∑ t, v (t, m) p := by
  have : ∀ (l : List (Nat → Nat → ℝ)) (mps : Nat → Nat → ℝ) (m p : Nat),
      rwRun l mps m p = mps m p + (l.map fun D => D m p).sum := by
    intro l
    induction l with
    | nil => intro mps m p; simp [rwRun]
    | cons D l ih =>
      intro mps m p
      rw [rwRun, ih]
      simp only [rwStep, List.map_cons, List.sum_cons, mul_one, add_zero]
      ring
  rw [this, List.map_ofFn, List.sum_ofFn]
  congr 1
  refine Finset.sum_congr rfl fun t _ => ?_
  simp only [Function.comp, sampleRows]
  rw [dif_pos ⟨m.2, p.2⟩]

/-- **C136, any law of the steps.**  With `RandomWalkModel` and independent steps of any law with second moments, the
means drift by the number of steps times the mean step, covariances within a particle grow by the number of steps
times that of a step, and any two particles are independent. -/
theorem C136_any_steps {T N d : Nat} (ν : Measure (Fin d → ℝ)) [IsProbabilityMeasure ν]
    (hν : ∀ p, MemLp (fun x : Fin d → ℝ => x p) 2 ν) (mps : Nat → Nat → ℝ) :
    let P : Measure (Fin T × Fin N → Fin d → ℝ) := Measure.pi fun _ => ν
    let final := fun (m : Fin N) (p : Fin d) (v : Fin T × Fin N → Fin d → ℝ) =>
      rwRun (List.ofFn fun t => sampleRows v t) mps m p
    (∀ m p, ∫ v, final m p v ∂P = mps m p + T * ∫ x, x p ∂ν) ∧
    (∀ m p m' q, cov[final m p, final m' q; P] = if m = m' then T * cov[fun x => x p, fun x => x q; ν] else 0) ∧
    ∀ m m', m ≠ m' → IndepFun (fun v p => final m p v) (fun v p => final m' p v) P := by
  intro P final
  have hfin : ∀ m p, final m p = fun v => mps m p + ∑ t, v (t, m) p := fun m p => by
    funext v; exact rwRun_spec v mps m p
  have hev : ∀ tm : Fin T × Fin N, MeasurePreserving (fun v : Fin T × Fin N → Fin d → ℝ => v tm) P ν :=
    fun tm => measurePreserving_eval (fun _ => ν) tm
  have hL : ∀ tm p, MemLp (fun v : Fin T × Fin N → Fin d → ℝ => v tm p) 2 P := fun tm p =>
    (hν p).comp_measurePreserving (hev tm)
  have hind : iIndepFun (fun tm (v : Fin T × Fin N → Fin d → ℝ) => v tm) P :=
    iIndepFun_pi (X := fun _ x => x) fun i => aemeasurable_id
  have hint : ∀ tm p, ∫ v, v tm p ∂P = ∫ x, x p ∂ν := fun tm p => by
    rw [← (hev tm).map_eq, integral_map (hev tm).measurable.aemeasurable
      (measurable_pi_apply p).aestronglyMeasurable]
  refine ⟨fun m p => ?_, fun m p m' q => ?_, ?_⟩
  · rw [hfin]
    rw [integral_add (integrable_const _) (integrable_finset_sum _ fun t _ => (hL (t, m) p).integrable (by norm_num)),
      integral_finset_sum _ fun t _ => (hL (t, m) p).integrable (by norm_num)]
    simp [hint]
  · rw [hfin, hfin]
    have hsm : ∀ m p, MemLp (fun v : Fin T × Fin N → Fin d → ℝ => ∑ t, v (t, m) p) 2 P := fun m p =>
      memLp_finset_sum _ fun t _ => hL (t, m) p
    rw [covariance_const_add_left ((hsm m p).integrable (by norm_num)),
      covariance_const_add_right ((hsm m' q).integrable (by norm_num)),
      covariance_fun_sum_fun_sum (fun t => hL (t, m) p) (fun t => hL (t, m') q)]
    have hc : ∀ t t', cov[fun v : Fin T × Fin N → Fin d → ℝ => v (t, m) p, fun v => v (t', m') q; P] =
        if t = t' ∧ m = m' then cov[fun x => x p, fun x => x q; ν] else 0 := by
      intro t t'
      by_cases htm : t = t' ∧ m = m'
      · obtain ⟨rfl, rfl⟩ := htm
        rw [if_pos ⟨rfl, rfl⟩, ← (hev (t, m)).map_eq, covariance_map]
        · rfl
        · exact (measurable_pi_apply p).aestronglyMeasurable
        · exact (measurable_pi_apply q).aestronglyMeasurable
        · exact (hev (t, m)).measurable.aemeasurable
      · rw [if_neg htm]
        have hne : (t, m) ≠ (t', m') := fun hc => htm (by simpa using hc)
        exact ((hind.indepFun hne).comp (measurable_pi_apply p) (measurable_pi_apply q)).covariance_eq_zero
          (hL _ _) (hL _ _)
    simp only [hc]
    by_cases hm : m = m'
    · simp [hm]
    · simp [hm]
  · intro m m' hm
    let S : Fin N → Finset (Fin T × Fin N) := fun m => Finset.univ.filter fun tm => tm.2 = m
    have hdis : Disjoint (S m) (S m') := by
      refine Finset.disjoint_left.2 fun tm h1 h2 => hm ?_
      exact (Finset.mem_filter.1 h1).2.symm.trans (Finset.mem_filter.1 h2).2
    let φ : ∀ m : Fin N, ((i : S m) → Fin d → ℝ) → Fin d → ℝ := fun m x p =>
      mps m p + ∑ t, x ⟨(t, m), by simp [S]⟩ p
    have hφ : ∀ m, Measurable (φ m) := by
      intro m
      refine measurable_pi_lambda _ fun p => ?_
      refine measurable_const.add (Finset.measurable_sum _ fun t _ => ?_)
      exact (measurable_pi_apply p).comp (measurable_pi_apply _)
    have := (hind.indepFun_finset (S m) (S m') hdis fun tm => measurable_pi_apply tm).comp (hφ m) (hφ m')
    have he : ∀ m, (fun v p => final m p v) = φ m ∘ fun v i => v i := by
      intro m
      funext v p
      rw [hfin]
      rfl
    rw [he, he]
    exact this

/-- A transformation as in the theorem: logarithm and exponential of one parameter. -/
example : ∀ y : Nat → ℝ, ∀ p < 1, (fun a p => Real.log (a p)) (fun p => if p < 1 then
    (fun a p => Real.exp (a p)) (fun p => if p < 1 then y p else 0) p else 0) p = y p := by
  intro y p hp
  simp [hp]

end QInfer
