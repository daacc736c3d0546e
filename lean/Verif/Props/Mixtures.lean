import Verif.Model.Dists
import Verif.Props.Dists
import Verif.Lemmas.Shuffle
import Mathlib.MeasureTheory.Constructions.Pi
import Mathlib.MeasureTheory.Measure.Prod
import Mathlib.Probability.Independence.Basic
import Mathlib.Probability.Independence.Integration
import Mathlib.Probability.Independence.InfinitePi

/-!
# C112: nested priors draw independent samples
-/

namespace QInfer

open MeasureTheory ProbabilityTheory Finset ENNReal
open scoped Nat

/-- Rows are measured by their length and their entries. -/
instance listMeasurable : MeasurableSpace (List ℝ) :=
  MeasurableSpace.comap (fun l : List ℝ => (l.length, fun i : ℕ => l.getD i 0)) inferInstance

/-- `rows ω n` are `n` independent draws from `μ`, for every `n ≥ 1`. -/
def Spec.DrawsIid {Ω : Type} [MeasurableSpace Ω] (P : Measure Ω) (rows : Ω → ℕ → List (List ℝ))
    (μ : Measure (List ℝ)) : Prop :=
  ∀ n, 0 < n → (∀ ω, (rows ω n).length = n) ∧ (∀ i < n, Measurable fun ω => (rows ω n).getD i []) ∧
    ∀ f : Fin n → List ℝ → ℝ≥0∞, (∀ i, Measurable (f i)) →
      ∫⁻ ω, ∏ i : Fin n, f i ((rows ω n).getD i []) ∂P = ∏ i : Fin n, ∫⁻ x, f i x ∂μ

/-- The random numbers of a mixture: counts with the multinomial law, and independently a uniform
permutation. -/
structure Spec.MixGen {Γ : Type} [MeasurableSpace Γ] {κ : ℕ} (Q : Measure Γ) (w : Fin κ → ℝ)
    (counts : Γ → ℕ → Fin κ → ℕ) (shuf : Γ → (n : ℕ) → Equiv.Perm (Fin n)) : Prop where
  total : ∀ γ n, ∑ k, counts γ n k = n
  meas : ∀ n c σ, MeasurableSet {γ | counts γ n = c ∧ shuf γ n = σ}
  law : ∀ n c σ, ∑ k, c k = n → Q {γ | counts γ n = c ∧ shuf γ n = σ} =
    ENNReal.ofReal (Nat.multinomial univ c * ∏ k, w k ^ c k) / (n ! : ℝ≥0∞)

section mixture

variable {Γ : Type} [MeasurableSpace Γ] {κ : ℕ} {Ω : Fin κ → Type} [∀ k, MeasurableSpace (Ω k)]

/-- A mixture whose components use their own part of the random numbers. -/
def mixObject (Γ : Type) (w : Fin κ → ℝ) (nRvs : ℕ) (rows : (k : Fin κ) → Ω k → ℕ → List (List ℝ)) :
    Mixture ℝ (Γ × ((k : Fin κ) → Ω k)) where
  weights := List.ofFn w
  comps := List.ofFn fun k => ⟨nRvs, fun seed m => (rows k (seed.2 k) m, seed)⟩
  shuffle := true

/-- The draws of the components, joined. -/
def joined (rows : (k : Fin κ) → Ω k → ℕ → List (List ℝ)) (c : Fin κ → ℕ) (y : (k : Fin κ) → Ω k) :
    List (List ℝ) :=
  (List.ofFn fun k => if 0 < c k then rows k (y k) (c k) else []).flatten

/-- A list in the order of a permutation. -/
def permuted {α : Type} (p : (n : ℕ) → Equiv.Perm (Fin n)) (l : List α) : List α :=
  List.ofFn fun i : Fin l.length => l.get (p l.length i)

theorem drawMix_lens {ω : Type} (l : List (Dist ℝ ω × ℕ)) (g : Dist ℝ ω → ℕ → ω → List (List ℝ)) (seed : ω)
    (hl : ∀ p ∈ l, ∀ s m, p.1.sample s m = (g p.1 m s, s)) :
    (drawMix l seed).2 = seed ∧
    (drawMix l seed).1.flatten = (l.map fun p => if 0 < p.2 then g p.1 p.2 seed else []).flatten ∧
    ((∃ p ∈ l, 0 < p.2) → (drawMix l seed).1 ≠ []) := by
  induction l with
  | nil => simp [drawMix]
  | cons p l ih =>
    obtain ⟨⟨nr, smp⟩, m⟩ := p
    obtain ⟨h1, h2, h3⟩ := ih fun p hp => hl p (List.mem_cons_of_mem _ hp)
    have hd : ∀ s m, smp s m = (g ⟨nr, smp⟩ m s, s) := hl (⟨nr, smp⟩, m) List.mem_cons_self
    by_cases hm : 0 < m
    · simp only [drawMix, hm, if_true, hd]
      refine ⟨h1, ?_, fun _ => by simp⟩
      simp [h2, hm]
    · simp only [drawMix, hm, if_false]
      refine ⟨h1, ?_, ?_⟩
      · simp [h2, hm]
      · rintro ⟨p, hp, hpos⟩
        rcases List.mem_cons.1 hp with rfl | hp
        · exact absurd hpos hm
        · exact h3 ⟨p, hp, hpos⟩

/-- What the mixture returns. -/
theorem mix_call (w : Fin κ → ℝ) (nRvs : ℕ) (rows : (k : Fin κ) → Ω k → ℕ → List (List ℝ))
    (counts : Γ → ℕ → Fin κ → ℕ) (shuf : Γ → (n : ℕ) → Equiv.Perm (Fin n))
    (ht : ∀ γ n, ∑ k, counts γ n k = n) (z : Γ × ((k : Fin κ) → Ω k)) (n : ℕ) (hn : 0 < n) :
    (mixtureSample (mixObject Γ w nRvs rows) (fun z n _ => (List.ofFn (counts z.1 n), z))
      (fun z l => (permuted (shuf z.1) l, z)) z n).1 =
      .ok (permuted (shuf z.1) (joined rows (counts z.1 n) z.2)) := by
  obtain ⟨h1, h2, h3⟩ := drawMix_lens
    ((List.ofFn fun k : Fin κ => ((⟨nRvs, fun seed m => (rows k (seed.2 k) m, seed)⟩ :
      Dist ℝ (Γ × ((k : Fin κ) → Ω k))), counts z.1 n k)))
    (fun d m s => (d.sample s m).1) z (by
      intro p hp s m
      obtain ⟨k, rfl⟩ := (List.mem_ofFn' _ _).1 hp
      rfl)
  have hzip : ((mixObject Γ w nRvs rows).comps.zip (List.ofFn (counts z.1 n))) =
      List.ofFn fun k : Fin κ => ((⟨nRvs, fun seed m => (rows k (seed.2 k) m, seed)⟩ :
      Dist ℝ (Γ × ((k : Fin κ) → Ω k))), counts z.1 n k) := by
    apply List.ext_getElem
    · simp [mixObject]
    · intro i h1 h2
      simp [mixObject]
  unfold mixtureSample
  dsimp only
  rw [hzip, if_neg]
  · simp only [mixObject, if_true, h1, h2, List.map_ofFn]
    rfl
  · apply h3
    by_contra hno
    push Not at hno
    have : ∑ k, counts z.1 n k = 0 := Finset.sum_eq_zero fun k _ => by
      have := hno _ ((List.mem_ofFn' _ _).2 ⟨k, rfl⟩)
      simpa using this
    rw [ht] at this
    omega

theorem joined_get (rows : (k : Fin κ) → Ω k → ℕ → List (List ℝ)) {P : (k : Fin κ) → Measure (Ω k)}
    {μ : Fin κ → Measure (List ℝ)} (hk : ∀ k, Spec.DrawsIid (P k) (rows k) (μ k)) (c : Fin κ → ℕ) {n : ℕ}
    (h : ∑ k, c k = n) (y : (k : Fin κ) → Ω k) :
    (joined rows c y).length = n ∧ ∀ q : (k : Fin κ) × Fin (c k),
      (joined rows c y).getD (blockPos c h q) [] = (rows q.1 (y q.1) (c q.1)).getD q.2 [] := by
  have hl : ∀ k, (if 0 < c k then rows k (y k) (c k) else []).length = c k := fun k => by
    split_ifs with hc
    · exact (hk k (c k) hc).1 _
    · simp only [List.length_nil]; omega
  refine ⟨?_, fun q => ?_⟩
  · rw [joined, List.length_flatten, List.map_ofFn, List.sum_ofFn, ← h]
    exact Finset.sum_congr rfl fun k _ => hl k
  · rw [joined, List.getD_eq_getElem?_getD, blockPos_get c h _ hl q, ← List.getD_eq_getElem?_getD,
      if_pos (Nat.pos_of_ne_zero fun h0 => by have := q.2.2; omega)]

/-- Averaging over the components, for given counts and order. -/
theorem joined_average (rows : (k : Fin κ) → Ω k → ℕ → List (List ℝ)) {P : (k : Fin κ) → Measure (Ω k)}
    [∀ k, IsProbabilityMeasure (P k)]
    {μ : Fin κ → Measure (List ℝ)} (hk : ∀ k, Spec.DrawsIid (P k) (rows k) (μ k)) (c : Fin κ → ℕ) {n : ℕ}
    (h : ∑ k, c k = n) (σ : Equiv.Perm (Fin n)) (f : Fin n → List ℝ → ℝ≥0∞) (hf : ∀ i, Measurable (f i)) :
    Measurable (fun y => ∏ i, f i ((joined rows c y).getD (σ i) [])) ∧
    ∫⁻ y, ∏ i, f i ((joined rows c y).getD (σ i) []) ∂(Measure.pi P) =
      ∏ i, ∫⁻ x, f i x ∂(μ ((blockPos c h).symm (σ i)).1) := by
  obtain ⟨X, hX⟩ : ∃ X : (k : Fin κ) → Ω k → ℝ≥0∞, ∀ k yk, X k yk =
    ∏ j : Fin (c k), f (σ.symm (blockPos c h ⟨k, j⟩)) ((rows k yk (c k)).getD j []) := ⟨_, fun _ _ => rfl⟩
  have hXm : ∀ k, Measurable (X k) := fun k => by
    rw [funext (hX k)]
    exact Finset.measurable_fun_prod _ fun j _ =>
    (hf _).comp ((hk k (c k) (Nat.pos_of_ne_zero fun h0 => by have := j.2; omega)).2.1 j j.2)
  have hfun : (fun y => ∏ i, f i ((joined rows c y).getD (σ i) [])) = fun y => ∏ k, X k (y k) := by
    funext y
    rw [← Equiv.prod_comp σ.symm]
    simp only [Equiv.apply_symm_apply]
    rw [← Equiv.prod_comp (blockPos c h), Fintype.prod_sigma]
    refine Finset.prod_congr rfl fun k _ => ?_
    rw [hX]
    refine Finset.prod_congr rfl fun j _ => ?_
    rw [(joined_get rows hk c h y).2 ⟨k, j⟩]
  rw [hfun]
  refine ⟨Finset.measurable_fun_prod _ fun k _ => (hXm k).comp (measurable_pi_apply k), ?_⟩
  have hind := lintegral_prod_eq_prod_lintegral_of_indepFun (μ := Measure.pi P) univ
    (fun k (y : (k : Fin κ) → Ω k) => X k (y k))
    (iIndepFun_pi fun k => (hXm k).aemeasurable) fun k => (hXm k).comp (measurable_pi_apply k)
  rw [hind]
  have hk1 : ∀ k, ∫⁻ y, X k (y k) ∂(Measure.pi P) =
      ∏ j : Fin (c k), ∫⁻ x, f (σ.symm (blockPos c h ⟨k, j⟩)) x ∂(μ k) := fun k => by
    rw [(measurePreserving_eval P k).lintegral_comp (hXm k)]
    by_cases hc : 0 < c k
    · simp only [hX]
      exact (hk k (c k) hc).2.2 (fun j => f (σ.symm (blockPos c h ⟨k, j⟩))) fun j => hf _
    · have h0 : c k = 0 := by omega
      have : IsEmpty (Fin (c k)) := by rw [h0]; infer_instance
      simp [hX]
  simp only [hk1]
  rw [← Fintype.prod_sigma (f := fun q : (k : Fin κ) × Fin (c k) =>
      ∫⁻ x, f (σ.symm (blockPos c h q)) x ∂(μ q.1)),
    ← Equiv.prod_comp (blockPos c h).symm, ← Equiv.prod_comp σ]
  simp

/-- **C112, mixtures.**  A shuffled mixture of distributions that draw independent rows from `μ₁, μ₂, …`
draws independent rows from `Σ wₖ μₖ`, if the random generator draws counts with the multinomial law and
a uniform order. -/
theorem C112_mixture (Q : Measure Γ) [IsProbabilityMeasure Q] (w : Fin κ → ℝ) (hw : ∀ k, 0 ≤ w k) (nRvs : ℕ)
    (rows : (k : Fin κ) → Ω k → ℕ → List (List ℝ)) (P : (k : Fin κ) → Measure (Ω k))
    [∀ k, IsProbabilityMeasure (P k)] (μ : Fin κ → Measure (List ℝ))
    (hk : ∀ k, Spec.DrawsIid (P k) (rows k) (μ k))
    (counts : Γ → ℕ → Fin κ → ℕ) (shuf : Γ → (n : ℕ) → Equiv.Perm (Fin n))
    (hg : Spec.MixGen Q w counts shuf) :
    ∃ out : Γ × ((k : Fin κ) → Ω k) → ℕ → List (List ℝ),
      (∀ z n, 0 < n → (mixtureSample (mixObject Γ w nRvs rows) (fun z n _ => (List.ofFn (counts z.1 n), z))
        (fun z l => (permuted (shuf z.1) l, z)) z n).1 = .ok (out z n)) ∧
      Spec.DrawsIid (Q.prod (Measure.pi P)) out (∑ k, ENNReal.ofReal (w k) • μ k) := by
  refine ⟨fun z n => permuted (shuf z.1) (joined rows (counts z.1 n) z.2),
    fun z n hn => mix_call w nRvs rows counts shuf hg.total z n hn, fun n hn => ?_⟩
  have hlen : ∀ z : Γ × ((k : Fin κ) → Ω k), (joined rows (counts z.1 n) z.2).length = n := fun z =>
    (joined_get rows hk _ (hg.total z.1 n) z.2).1
  have hget : ∀ (z : Γ × ((k : Fin κ) → Ω k)) (i : Fin n),
      (permuted (shuf z.1) (joined rows (counts z.1 n) z.2)).getD i [] =
        (joined rows (counts z.1 n) z.2).getD (shuf z.1 n i) [] := fun z i => by
    have h1 := hlen z
    generalize joined rows (counts z.1 n) z.2 = l at h1
    subst h1
    simp [permuted, List.getD_eq_getElem?_getD]
  have hcase : ∀ (G : (Fin κ → ℕ) → Equiv.Perm (Fin n) → ((k : Fin κ) → Ω k) → ℝ≥0∞),
      (fun z : Γ × ((k : Fin κ) → Ω k) => G (counts z.1 n) (shuf z.1 n) z.2) =
      fun z => ∑ c ∈ piAntidiag univ n, ∑ σ : Equiv.Perm (Fin n),
        {γ | counts γ n = c ∧ shuf γ n = σ}.indicator (fun _ => (1 : ℝ≥0∞)) z.1 * G c σ z.2 := by
    intro G
    funext z
    rw [Finset.sum_eq_single (counts z.1 n), Finset.sum_eq_single (shuf z.1 n)]
    · rw [Set.indicator_of_mem (by simp), one_mul]
    · intro σ _ hσ
      rw [Set.indicator_of_notMem (by simpa using hσ.symm), zero_mul]
    · intro h; exact absurd (mem_univ _) h
    · intro c _ hc
      refine Finset.sum_eq_zero fun σ _ => ?_
      rw [Set.indicator_of_notMem (fun h => hc h.1.symm), zero_mul]
    · intro h
      exact absurd (mem_piAntidiag.2 ⟨hg.total z.1 n, fun k _ => mem_univ k⟩) h
  have hind : ∀ c σ, Measurable fun z : Γ × ((k : Fin κ) → Ω k) =>
      {γ | counts γ n = c ∧ shuf γ n = σ}.indicator (fun _ => (1 : ℝ≥0∞)) z.1 := fun c σ =>
    (measurable_const.indicator (hg.meas n c σ)).comp measurable_fst
  refine ⟨fun z => by simp [permuted, hlen z], fun i hi => ?_, fun f hf => ?_⟩
  · intro S hS
    have hj : ∀ c, ∑ k, c k = n → ∀ j : Fin n,
        Measurable fun y => (joined rows c y).getD j [] := fun c h j => by
      have hrow : ∀ y, (joined rows c y).getD j [] = (rows ((blockPos c h).symm j).1
          (y ((blockPos c h).symm j).1) (c ((blockPos c h).symm j).1)).getD ((blockPos c h).symm j).2 [] :=
        fun y => by
          rw [← (joined_get rows hk c h y).2, Equiv.apply_symm_apply]
      rw [funext hrow]
      exact ((hk _ _ (Nat.pos_of_ne_zero fun h0 => by
        have := ((blockPos c h).symm j).2.2; omega)).2.1 _ ((blockPos c h).symm j).2.2).comp
          (measurable_pi_apply ((blockPos c h).symm j).1)
    have hm : Measurable fun z : Γ × ((k : Fin κ) → Ω k) => S.indicator (fun _ => (1 : ℝ≥0∞))
        ((joined rows (counts z.1 n) z.2).getD (shuf z.1 n ⟨i, hi⟩) []) := by
      rw [hcase fun c σ y => S.indicator (fun _ => (1 : ℝ≥0∞)) ((joined rows c y).getD (σ ⟨i, hi⟩) [])]
      refine Finset.measurable_fun_sum _ fun c hc => Finset.measurable_fun_sum _ fun σ _ =>
        (hind c σ).mul ?_
      exact (measurable_const.indicator hS).comp ((hj c (mem_piAntidiag.1 hc).1 _).comp measurable_snd)
    have hpre : (fun z : Γ × ((k : Fin κ) → Ω k) =>
        (permuted (shuf z.1) (joined rows (counts z.1 n) z.2)).getD i []) ⁻¹' S =
        {z | S.indicator (fun _ => (1 : ℝ≥0∞))
          ((joined rows (counts z.1 n) z.2).getD (shuf z.1 n ⟨i, hi⟩) []) = 1} := by
      ext z
      simp only [Set.mem_preimage, Set.mem_ofPred_eq]
      rw [hget z ⟨i, hi⟩]
      by_cases hz : (joined rows (counts z.1 n) z.2).getD (shuf z.1 n ⟨i, hi⟩) [] ∈ S
      · simp [hz]
      · simp [hz]
    rw [hpre]
    exact hm (measurableSet_singleton 1)
  · simp only [hget]
    rw [hcase fun c σ y => ∏ i, f i ((joined rows c y).getD (σ i) [])]
    have hJ := fun c (hc : c ∈ piAntidiag univ n) σ =>
      joined_average rows hk c (mem_piAntidiag.1 hc).1 σ f hf
    have hblk : ∃ blk : (Fin κ → ℕ) → Fin n → Fin κ, (∀ c (h : ∑ k, c k = n) j,
        blk c j = ((blockPos c h).symm j).1) := by
      classical
      obtain ⟨γ⟩ : Nonempty Γ := Q.nonempty_of_neZero
      refine ⟨fun c j => if h : ∑ k, c k = n then ((blockPos c h).symm j).1 else
        ((blockPos _ (hg.total γ n)).symm j).1, fun c h j => dif_pos h⟩
    obtain ⟨blk, hblk⟩ := hblk
    have hmul : ∀ c ∈ piAntidiag univ n, ∀ σ, Measurable fun z : Γ × ((k : Fin κ) → Ω k) =>
        {γ | counts γ n = c ∧ shuf γ n = σ}.indicator (fun _ => (1 : ℝ≥0∞)) z.1 *
          ∏ i, f i ((joined rows c z.2).getD (σ i) []) := fun c hc σ =>
      (hind c σ).mul ((hJ c hc σ).1.comp measurable_snd)
    rw [lintegral_finsetSum _ fun c hc => Finset.measurable_fun_sum _ fun σ _ => hmul c hc σ]
    have hR : ∀ i, ∫⁻ x, f i x ∂(∑ k, ENNReal.ofReal (w k) • μ k) =
        ∑ k, ENNReal.ofReal (w k) * ∫⁻ x, f i x ∂(μ k) := fun i => by
      rw [lintegral_finset_sum_measure]
      refine Finset.sum_congr rfl fun k _ => ?_
      rw [lintegral_smul_measure, smul_eq_mul]
    simp only [hR]
    rw [← shuffle_blocks (fun k => ENNReal.ofReal (w k)) (fun k i => ∫⁻ x, f i x ∂(μ k)) blk fun c hc => by
      have h := (mem_piAntidiag.1 hc).1
      rw [show blk c = fun j => ((blockPos c h).symm j).1 from funext (hblk c h), occ_block]]
    refine Finset.sum_congr rfl fun c hc => ?_
    have h := (mem_piAntidiag.1 hc).1
    rw [lintegral_finsetSum _ fun σ _ => hmul c hc σ]
    refine Finset.sum_congr rfl fun σ _ => ?_
    rw [lintegral_prod_mul (measurable_const.indicator (hg.meas n c σ)).aemeasurable
      (hJ c hc σ).1.aemeasurable, (hJ c hc σ).2, lintegral_indicator (hg.meas n c σ), setLIntegral_one,
      hg.law n c σ h, ENNReal.ofReal_mul (by positivity), ENNReal.ofReal_natCast,
      ENNReal.ofReal_prod_of_nonneg fun k _ => pow_nonneg (hw k) _]
    simp only [hblk c h, ENNReal.ofReal_pow (hw _)]

end mixture

/-! ### Products -/

theorem measurable_append : Measurable fun p : List ℝ × List ℝ => p.1 ++ p.2 := by
  have hlen : Measurable fun l : List ℝ => l.length :=
    measurable_fst.comp (comap_measurable fun l : List ℝ => (l.length, fun i : ℕ => l.getD i 0))
  have hent : Measurable fun l : List ℝ => fun i : ℕ => l.getD i 0 :=
    measurable_snd.comp (comap_measurable fun l : List ℝ => (l.length, fun i : ℕ => l.getD i 0))
  refine measurable_comap_iff.2 (Measurable.prodMk ?_ (measurable_pi_lambda _ fun i => ?_))
  · simp only [List.length_append]
    exact (hlen.comp measurable_fst).add (hlen.comp measurable_snd)
  · have h : ∀ p : List ℝ × List ℝ, (p.1 ++ p.2).getD i 0 =
        if i < p.1.length then p.1.getD i 0 else p.2.getD (i - p.1.length) 0 := fun p => by
      split_ifs with hi
      · rw [List.getD_append _ _ _ _ hi]
      · rw [List.getD_append_right _ _ _ _ (by omega)]
    simp only [h]
    refine Measurable.ite ?_ ((measurable_pi_apply i).comp (hent.comp measurable_fst)) ?_
    · exact measurableSet_lt measurable_const (hlen.comp measurable_fst)
    · have he : Measurable fun q : ℕ × (ℕ → ℝ) => q.2 (i - q.1) :=
        measurable_from_prod_countable_right fun m => measurable_pi_apply (i - m)
      exact he.comp ((hlen.comp measurable_fst).prodMk (hent.comp measurable_snd))

theorem measurable_join (κ : ℕ) : Measurable fun x : Fin κ → List ℝ => (List.ofFn x).flatten := by
  induction κ with
  | zero => simp
  | succ κ ih =>
    simp only [List.ofFn_succ, List.flatten_cons]
    have h1 : Measurable fun x : Fin (κ + 1) → List ℝ => fun i : Fin κ => x i.succ :=
      measurable_pi_lambda _ fun i => measurable_pi_apply i.succ
    have h2 : Measurable fun x : Fin (κ + 1) → List ℝ => (x 0, (List.ofFn fun i : Fin κ => x i.succ).flatten) :=
      (measurable_pi_apply 0).prodMk (ih.comp h1)
    exact measurable_append.comp h2

/-- Independent draws come from a probability measure. -/
theorem iid_prob {Ω : Type} [MeasurableSpace Ω] {P : Measure Ω} [IsProbabilityMeasure P]
    {rows : Ω → ℕ → List (List ℝ)} {μ : Measure (List ℝ)} (h : Spec.DrawsIid P rows μ) :
    IsProbabilityMeasure μ := by
  have := (h 1 one_pos).2.2 (fun _ _ => 1) fun _ => measurable_const
  simp only [Finset.prod_const_one, lintegral_one, measure_univ, Finset.univ_unique, Finset.prod_singleton] at this
  exact ⟨this.symm⟩

/-- The joint law of the rows. -/
theorem iid_law {Ω : Type} [MeasurableSpace Ω] {P : Measure Ω} [IsProbabilityMeasure P]
    {rows : Ω → ℕ → List (List ℝ)} {μ : Measure (List ℝ)} (h : Spec.DrawsIid P rows μ) {n : ℕ} (hn : 0 < n) :
    Measurable (fun ω (i : Fin n) => (rows ω n).getD i []) ∧
    P.map (fun ω (i : Fin n) => (rows ω n).getD i []) = Measure.pi fun _ => μ := by
  have := iid_prob h
  have hm : Measurable fun ω (i : Fin n) => (rows ω n).getD i [] :=
    measurable_pi_lambda _ fun i => (h n hn).2.1 i i.2
  refine ⟨hm, (Measure.pi_eq fun S hS => ?_).symm⟩
  rw [Measure.map_apply hm (MeasurableSet.univ_pi hS)]
  have h1 := (h n hn).2.2 (fun i => (S i).indicator fun _ => 1) fun i => measurable_const.indicator (hS i)
  have h2 : (fun ω => ∏ i : Fin n, (S i).indicator (fun _ => (1 : ℝ≥0∞)) ((rows ω n).getD i [])) =
      ((fun ω (i : Fin n) => (rows ω n).getD i []) ⁻¹' Set.univ.pi S).indicator fun _ => 1 := by
    funext ω
    by_cases hω : ∀ i : Fin n, (rows ω n).getD i [] ∈ S i
    · rw [Set.indicator_of_mem (by simpa using hω)]
      exact Finset.prod_eq_one fun i _ => Set.indicator_of_mem (hω i) _
    · rw [Set.indicator_of_notMem (by simpa using hω)]
      push Not at hω
      obtain ⟨i, hi⟩ := hω
      exact Finset.prod_eq_zero (mem_univ i) (Set.indicator_of_notMem hi _)
  rw [h2, lintegral_indicator (hm (MeasurableSet.univ_pi hS)), setLIntegral_one] at h1
  rw [h1]
  refine Finset.prod_congr rfl fun i _ => ?_
  rw [lintegral_indicator (hS i), setLIntegral_one]

theorem pi_swap {κ n : ℕ} {L : Type} [MeasurableSpace L] (μ : Fin κ → Measure L)
    [∀ k, IsProbabilityMeasure (μ k)] :
    (Measure.pi fun k => Measure.pi fun _ : Fin n => μ k).map (fun x i k => x k i) =
      Measure.pi fun _ : Fin n => Measure.pi μ := by
  have hm : Measurable fun (x : Fin κ → Fin n → L) (i : Fin n) (k : Fin κ) => x k i :=
    measurable_pi_lambda _ fun i => measurable_pi_lambda _ fun k =>
      (measurable_pi_apply i).comp (measurable_pi_apply k)
  symm
  refine Measure.pi_eq_generateFrom
    (C := fun _ : Fin n => Set.univ.pi '' Set.univ.pi fun _ : Fin κ => {s : Set L | MeasurableSet s})
    (fun _ => generateFrom_pi) (fun _ => isPiSystem_pi)
    (fun _ => Measure.FiniteSpanningSetsIn.pi fun k => (μ k).toFiniteSpanningSetsIn) fun s hs => ?_
  choose t ht1 ht2 using hs
  have ht : ∀ i k, MeasurableSet (t i k) := fun i k => ht1 i k (Set.mem_univ k)
  have hpre : (fun (x : Fin κ → Fin n → L) (i : Fin n) (k : Fin κ) => x k i) ⁻¹' Set.univ.pi s =
      Set.univ.pi fun k => Set.univ.pi fun i => t i k := by
    ext x
    simp only [Set.mem_preimage, Set.mem_univ_pi, ← ht2]
    exact ⟨fun h k i => h i k, fun h i k => h k i⟩
  rw [Measure.map_apply hm (MeasurableSet.univ_pi fun i => by
    rw [← ht2]; exact MeasurableSet.univ_pi (ht i)), hpre, Measure.pi_pi]
  simp only [Measure.pi_pi, ← ht2]
  exact Finset.prod_comm

section product

variable {κ : ℕ} {Ω : Fin κ → Type} [∀ k, MeasurableSpace (Ω k)]

theorem drawAll_lens {ω : Type} (n : ℕ) (l : List (Dist ℝ ω)) (seed : ω)
    (hl : ∀ d ∈ l, ∀ s m, (d.sample s m).2 = s) :
    drawAll n l seed = (l.map fun d => (d.sample seed n).1, seed) := by
  induction l with
  | nil => rfl
  | cons d l ih =>
    simp only [drawAll]
    rw [show (d.sample seed n).2 = seed from hl d List.mem_cons_self seed n,
      ih fun d hd => hl d (List.mem_cons_of_mem _ hd)]
    rfl

/-- **C112, products.**  A product of distributions that draw independent rows from `μ₁, μ₂, …` draws
independent rows: row `i` is the concatenation of independent draws from `μ₁, μ₂, …`. -/
theorem C112_product (hκ : 0 < κ) (nRvs : Fin κ → ℕ)
    (rows : (k : Fin κ) → Ω k → ℕ → List (List ℝ)) (P : (k : Fin κ) → Measure (Ω k))
    [∀ k, IsProbabilityMeasure (P k)] (μ : Fin κ → Measure (List ℝ))
    (hk : ∀ k, Spec.DrawsIid (P k) (rows k) (μ k)) :
    ∃ out : ((k : Fin κ) → Ω k) → ℕ → List (List ℝ),
      (∀ y n, 0 < n → (productSample (List.ofFn fun k => ⟨nRvs k, fun y m => (rows k (y k) m, y)⟩) y n).1 =
        .ok (out y n)) ∧
      Spec.DrawsIid (Measure.pi P) out ((Measure.pi μ).map fun x => (List.ofFn x).flatten) := by
  have hμ : ∀ k, IsProbabilityMeasure (μ k) := fun k => iid_prob (hk k)
  have hcall : ∀ (y : (k : Fin κ) → Ω k) n, 0 < n → ∃ o,
      (productSample (List.ofFn fun k => ⟨nRvs k, fun y m => (rows k (y k) m, y)⟩) y n).1 = .ok o ∧
      o.length = n ∧ ∀ i < n, o.getD i [] = (List.ofFn fun k => (rows k (y k) n).getD i []).flatten := by
    intro y n hn
    have hd := drawAll_lens n (List.ofFn fun k : Fin κ => (⟨nRvs k, fun y m => (rows k (y k) m, y)⟩ :
      Dist ℝ ((k : Fin κ) → Ω k))) y (by
        intro d hd s m
        obtain ⟨k, rfl⟩ := (List.mem_ofFn' _ _).1 hd
        rfl)
    rw [List.map_ofFn] at hd
    unfold productSample
    rw [hd]
    obtain ⟨o, h1, h2, h3⟩ := hstack_spec n (List.ofFn fun k => rows k (y k) n)
      (by intro h; have := congrArg List.length h; simp at this; omega)
      (by
        intro s hs
        obtain ⟨k, rfl⟩ := (List.mem_ofFn' _ _).1 hs
        exact (hk k n hn).1 _)
    refine ⟨o, h1, h2, fun i hi => ?_⟩
    rw [List.getD_eq_getElem?_getD, h3 i hi, rowOf, List.map_ofFn]
    rfl
  classical
  refine ⟨fun y n => if h : 0 < n then (hcall y n h).choose else [], fun y n hn => ?_, fun n hn => ?_⟩
  · dsimp only
    rw [dif_pos hn]; exact (hcall y n hn).choose_spec.1
  simp only [dif_pos hn]
  have hrow : ∀ y, ∀ i < n, (hcall y n hn).choose.getD i [] =
      (List.ofFn fun k => (rows k (y k) n).getD i []).flatten := fun y => (hcall y n hn).choose_spec.2.2
  have hXm : ∀ k, Measurable fun yk => fun i : Fin n => (rows k yk n).getD i [] := fun k => (iid_law (hk k) hn).1
  have hsw : Measurable fun (x : Fin κ → Fin n → List ℝ) (i : Fin n) (k : Fin κ) => x k i :=
    measurable_pi_lambda _ fun i => measurable_pi_lambda _ fun k =>
      (measurable_pi_apply i).comp (measurable_pi_apply k)
  have hΦm : Measurable fun (y : (k : Fin κ) → Ω k) (k : Fin κ) (i : Fin n) => (rows k (y k) n).getD i [] :=
    measurable_pi_lambda _ fun k => (hXm k).comp (measurable_pi_apply k)
  have hΦ : (Measure.pi P).map (fun y (i : Fin n) (k : Fin κ) => (rows k (y k) n).getD i []) =
      Measure.pi fun _ : Fin n => Measure.pi μ := by
    rw [← pi_swap μ]
    have h1 : (Measure.pi P).map (fun (y : (k : Fin κ) → Ω k) (k : Fin κ) (i : Fin n) =>
        (rows k (y k) n).getD i []) = Measure.pi fun k => Measure.pi fun _ : Fin n => μ k := by
      rw [Measure.pi_map_pi (f := fun k yk (i : Fin n) => (rows k yk n).getD i [])
        fun k => (hXm k).aemeasurable]
      congr 1
      funext k
      exact (iid_law (hk k) hn).2
    rw [← h1, Measure.map_map hsw hΦm]
    rfl
  refine ⟨fun y => (hcall y n hn).choose_spec.2.1, fun i hi => ?_, fun f hf => ?_⟩
  · simp only [hrow _ i hi]
    exact (measurable_join κ).comp (measurable_pi_lambda _ fun k =>
      ((hk k n hn).2.1 i hi).comp (measurable_pi_apply k))
  · have hg : ∀ i, Measurable fun x : Fin κ → List ℝ => f i (List.ofFn x).flatten := fun i =>
      (hf i).comp (measurable_join κ)
    have h1 : (fun y => ∏ i : Fin n, f i ((hcall y n hn).choose.getD i [])) =
        fun y => ∏ i : Fin n, f i (List.ofFn fun k => (rows k (y k) n).getD i []).flatten := by
      funext y
      exact Finset.prod_congr rfl fun i _ => by rw [hrow y i i.2]
    rw [h1]
    have h2 := lintegral_map (μ := Measure.pi P)
      (f := fun x : Fin n → Fin κ → List ℝ => ∏ i : Fin n, f i (List.ofFn (x i)).flatten)
      (Finset.measurable_fun_prod _ fun i _ => (hg i).comp (measurable_pi_apply i)) (hsw.comp hΦm)
    refine h2.symm.trans ?_
    rw [show ((fun (x : Fin κ → Fin n → List ℝ) (i : Fin n) (k : Fin κ) => x k i) ∘
      fun (y : (k : Fin κ) → Ω k) (k : Fin κ) (i : Fin n) => (rows k (y k) n).getD i []) =
      fun y (i : Fin n) (k : Fin κ) => (rows k (y k) n).getD i [] from rfl, hΦ]
    have h3 := lintegral_prod_eq_prod_lintegral_of_indepFun (μ := Measure.pi fun _ : Fin n => Measure.pi μ) univ
      (fun i (x : Fin n → Fin κ → List ℝ) => f i (List.ofFn (x i)).flatten)
      (iIndepFun_pi (μ := fun _ : Fin n => Measure.pi μ) (X := fun i x => f i (List.ofFn x).flatten)
        fun i => (hg i).aemeasurable) fun i => (hg i).comp (measurable_pi_apply i)
    rw [h3]
    refine Finset.prod_congr rfl fun i _ => ?_
    rw [lintegral_map (hf i) (measurable_join κ)]
    exact (measurePreserving_eval (fun _ : Fin n => Measure.pi μ) i).lintegral_comp (hg i)

end product

/-- **C112, use as a prior.**  Independent draws as in `Spec.DrawsIid` give particles that each follow `μ`
and are independent of each other: the hypotheses of C98, C108 and C111. -/
theorem C112_particles {Ω : Type} [MeasurableSpace Ω] {P : Measure Ω} [IsProbabilityMeasure P]
    {rows : Ω → ℕ → List (List ℝ)} {μ : Measure (List ℝ)} (h : Spec.DrawsIid P rows μ) {n : ℕ} (hn : 0 < n) :
    (∀ ω, rows ω n = List.ofFn fun i : Fin n => (rows ω n).getD i []) ∧
    (∀ i : Fin n, P.map (fun ω => (rows ω n).getD i []) = μ) ∧
    iIndepFun (fun (i : Fin n) ω => (rows ω n).getD i []) P := by
  obtain ⟨h1, h2⟩ := iid_law h hn
  have := iid_prob h
  have hm : ∀ i : Fin n, P.map (fun ω => (rows ω n).getD i []) = μ := fun i => by
    rw [← (measurePreserving_eval (fun _ : Fin n => μ) i).map_eq, ← h2, Measure.map_map (measurable_pi_apply i) h1]
    rfl
  refine ⟨fun ω => ?_, hm, ?_⟩
  · apply List.ext_getElem
    · simp [(h n hn).1 ω]
    · intro i hi1 hi2
      simp [List.getD_eq_getElem?_getD, List.getElem?_eq_getElem hi1]
  · rw [iIndepFun_iff_map_fun_eq_pi_map fun i : Fin n => ((h n hn).2.1 i i.2).aemeasurable, h2]
    simp only [hm]

/-! ### The hypotheses can be met -/

/-- A distribution that draws its rows one after another from `μ`. -/
theorem leaf_iid (μ : Measure (List ℝ)) [IsProbabilityMeasure μ] :
    Spec.DrawsIid (Measure.infinitePi fun _ : ℕ => μ) (fun ω n => List.ofFn fun i : Fin n => ω i) μ := by
  intro n hn
  have hget : ∀ (ω : ℕ → List ℝ) (i : Fin n), (List.ofFn fun i : Fin n => ω i).getD i [] = ω i := fun ω i => by
    simp [List.getD_eq_getElem?_getD]
  refine ⟨fun ω => by simp, fun i hi => ?_, fun f hf => ?_⟩
  · have h : (fun ω : ℕ → List ℝ => (List.ofFn fun i : Fin n => ω i).getD i []) = fun ω => ω i :=
      funext fun ω => hget ω ⟨i, hi⟩
    rw [h]
    exact measurable_pi_apply i
  · simp only [hget]
    have h1 : iIndepFun (fun (i : Fin n) (ω : ℕ → List ℝ) => f i (ω i)) (Measure.infinitePi fun _ : ℕ => μ) := by
      have h0 := (iIndepFun_infinitePi (P := fun _ : ℕ => μ) (X := fun _ x => x) fun _ => measurable_id).precomp
        (g := fun i : Fin n => (i : ℕ)) Fin.val_injective
      exact h0.comp (fun i => f i) hf
    have h2 := lintegral_prod_eq_prod_lintegral_of_indepFun (μ := Measure.infinitePi fun _ : ℕ => μ) univ
      (fun (i : Fin n) (ω : ℕ → List ℝ) => f i (ω i)) h1 fun i => (hf i).comp (measurable_pi_apply _)
    rw [h2]
    exact Finset.prod_congr rfl fun i _ =>
      (measurePreserving_eval_infinitePi (fun _ : ℕ => μ) (i : ℕ)).lintegral_comp (hf i)

/-- Counts of a mixture and the order of its rows. -/
abbrev MixDraw (κ n : ℕ) : Type := {c : Fin κ → ℕ // c ∈ piAntidiag univ n} × Equiv.Perm (Fin n)

instance (κ n : ℕ) : MeasurableSpace (MixDraw κ n) := ⊤

/-- The law of the counts and the order. -/
noncomputable def mixLaw {κ : ℕ} (w : Fin κ → ℝ) (n : ℕ) : Measure (MixDraw κ n) :=
  ∑ t : MixDraw κ n, (ENNReal.ofReal (Nat.multinomial univ t.1.1 * ∏ k, w k ^ t.1.1 k) / (n ! : ℝ≥0∞)) •
    Measure.dirac t

theorem mixLaw_single {κ : ℕ} (w : Fin κ → ℝ) (n : ℕ) (t : MixDraw κ n) : mixLaw w n {t} =
    ENNReal.ofReal (Nat.multinomial univ t.1.1 * ∏ k, w k ^ t.1.1 k) / (n ! : ℝ≥0∞) := by
  classical
  rw [mixLaw, Measure.finsetSum_apply, Finset.sum_eq_single t]
  · simp
  · intro u _ hu
    simp [Measure.dirac_apply' _ (MeasurableSpace.measurableSet_top (s := {t})), hu]
  · simp

theorem mixLaw_prob {κ : ℕ} (w : Fin κ → ℝ) (hw : ∀ k, 0 ≤ w k) (h1 : ∑ k, w k = 1) (n : ℕ) :
    IsProbabilityMeasure (mixLaw w n) := by
  constructor
  have hbl : ∀ c ∈ piAntidiag (univ : Finset (Fin κ)) n, ∑ k, c k = n := fun c hc => (mem_piAntidiag.1 hc).1
  have hκ : 0 < κ := by
    rcases Nat.eq_zero_or_pos κ with h | h
    · subst h; simp at h1
    · exact h
  have h := shuffle_blocks (n := n) (fun k => ENNReal.ofReal (w k)) (fun _ _ => 1)
    (fun c => if hc : ∑ k, c k = n then fun j => ((blockPos c hc).symm j).1 else fun _ => ⟨0, hκ⟩) (fun c hc => by
      rw [dif_pos (hbl c hc)]; exact occ_block c (hbl c hc))
  simp only [mul_one, Finset.prod_const_one] at h
  rw [← ENNReal.ofReal_sum_of_nonneg fun k _ => hw k, h1, ENNReal.ofReal_one, Finset.prod_const_one] at h
  rw [mixLaw, Measure.finsetSum_apply, ← h, ← Finset.sum_coe_sort (piAntidiag univ n), Fintype.sum_prod_type]
  refine Finset.sum_congr rfl fun c _ => Finset.sum_congr rfl fun σ _ => ?_
  simp only [Measure.smul_apply, measure_univ, smul_eq_mul, mul_one]
  rw [ENNReal.ofReal_mul (Nat.cast_nonneg _), ENNReal.ofReal_natCast,
    ENNReal.ofReal_prod_of_nonneg fun k _ => pow_nonneg (hw k) _]
  simp only [ENNReal.ofReal_pow (hw _)]

/-- A generator as `Spec.MixGen` asks for exists for all weights that sum to one. -/
theorem mixGen_exists {κ : ℕ} (w : Fin κ → ℝ) (hw : ∀ k, 0 ≤ w k) (h1 : ∑ k, w k = 1) :
    IsProbabilityMeasure (Measure.infinitePi (mixLaw w)) ∧
    Spec.MixGen (Γ := (n : ℕ) → MixDraw κ n) (Measure.infinitePi (mixLaw w)) w (fun γ n => (γ n).1.1)
      (fun γ n => (γ n).2) := by
  have := mixLaw_prob w hw h1
  have hset : ∀ n (c : Fin κ → ℕ) (σ : Equiv.Perm (Fin n)) (h : c ∈ piAntidiag univ n),
      {γ : (n : ℕ) → MixDraw κ n | (γ n).1.1 = c ∧ (γ n).2 = σ} =
        (fun γ : (n : ℕ) → MixDraw κ n => γ n) ⁻¹' {((⟨c, h⟩, σ) : MixDraw κ n)} := by
    intro n c σ h
    ext γ
    simp only [Set.mem_ofPred_eq, Set.mem_preimage, Set.mem_singleton_iff, Prod.ext_iff, Subtype.ext_iff]
  refine ⟨inferInstance, fun γ n => (mem_piAntidiag.1 (γ n).1.2).1, fun n c σ => ?_, fun n c σ hc => ?_⟩
  · by_cases h : c ∈ piAntidiag univ n
    · rw [hset n c σ h]
      exact measurable_pi_apply n (MeasurableSpace.measurableSet_top)
    · have : {γ : (n : ℕ) → MixDraw κ n | (γ n).1.1 = c ∧ (γ n).2 = σ} = ∅ := by
        ext γ
        simp only [Set.mem_ofPred_eq, Set.mem_empty_iff_false, iff_false]
        rintro ⟨rfl, -⟩
        exact h (γ n).1.2
      rw [this]
      exact MeasurableSet.empty
  · have h : c ∈ piAntidiag univ n := mem_piAntidiag.2 ⟨hc, fun _ _ => mem_univ _⟩
    rw [hset n c σ h, (measurePreserving_eval_infinitePi (mixLaw w) n).measure_preimage
      MeasurableSpace.measurableSet_top.nullMeasurableSet, mixLaw_single]

/-- A mixture of two priors, with weights 1/3 and 2/3: its draws are independent. -/
example (μ : Fin 2 → Measure (List ℝ)) [∀ k, IsProbabilityMeasure (μ k)] :
    ∃ (Q : Measure ((n : ℕ) → MixDraw 2 n)) (out : ((n : ℕ) → MixDraw 2 n) × (Fin 2 → ℕ → List ℝ) → ℕ → List (List ℝ)),
      Spec.DrawsIid (Q.prod (Measure.pi fun k => Measure.infinitePi fun _ => μ k)) out
        (∑ k, ENNReal.ofReal ((![1 / 3, 2 / 3] : Fin 2 → ℝ) k) • μ k) := by
  obtain ⟨h1, h2⟩ := mixGen_exists ![1 / 3, 2 / 3] (by intro k; fin_cases k <;> norm_num)
    (by rw [Fin.sum_univ_two]; norm_num)
  obtain ⟨out, -, h⟩ := C112_mixture (Measure.infinitePi (mixLaw ![1 / 3, 2 / 3])) ![1 / 3, 2 / 3]
    (by intro k; fin_cases k <;> norm_num) 1 (fun _ (ω : ℕ → List ℝ) n => List.ofFn fun i : Fin n => ω i)
    (fun k => Measure.infinitePi fun _ => μ k) μ (fun k => leaf_iid (μ k)) _ _ h2
  exact ⟨_, out, h⟩

/-- A product of two priors. -/
example (μ : Fin 2 → Measure (List ℝ)) [∀ k, IsProbabilityMeasure (μ k)] :
    ∃ out : (Fin 2 → ℕ → List ℝ) → ℕ → List (List ℝ),
      Spec.DrawsIid (Measure.pi fun k => Measure.infinitePi fun _ => μ k) out
        ((Measure.pi μ).map fun x => (List.ofFn x).flatten) := by
  obtain ⟨out, -, h⟩ := C112_product (by norm_num) (fun _ => 1) (fun _ (ω : ℕ → List ℝ) n => List.ofFn fun i : Fin n => ω i)
    (fun k : Fin 2 => Measure.infinitePi fun _ => μ k) μ (fun k => leaf_iid (μ k))
  exact ⟨out, h⟩

/-- **C112, without shuffling.**  With `shuffle=False` the rows of a mixture are not independent draws from
any distribution, already for two fixed parameters. -/
theorem C112_unshuffled {Γ : Type} [MeasurableSpace Γ] (Q : Measure Γ) [IsProbabilityMeasure Q] (w : Fin 2 → ℝ)
    (hw : ∀ k, 0 < w k) (counts : Γ → ℕ → Fin 2 → ℕ) (shuf : Γ → (n : ℕ) → Equiv.Perm (Fin n))
    (hg : Spec.MixGen Q w counts shuf) (out : Γ → ℕ → List (List ℝ))
    (hout : ∀ γ n, 0 < n → (mixtureSample (K := ℝ)
      ⟨List.ofFn w, [⟨1, fun γ m => (List.replicate m [0], γ)⟩, ⟨1, fun γ m => (List.replicate m [1], γ)⟩], false⟩
      (fun γ n _ => (List.ofFn (counts γ n), γ)) (fun γ l => (permuted (shuf γ) l, γ)) γ n).1 = .ok (out γ n))
    (μ : Measure (List ℝ)) : ¬ Spec.DrawsIid Q out μ := by
  intro h
  have hall : Measurable fun l : List ℝ => fun i : ℕ => l.getD i 0 :=
    measurable_snd.comp (comap_measurable fun l : List ℝ => (l.length, fun i : ℕ => l.getD i 0))
  have hent : Measurable fun l : List ℝ => l.getD 0 0 := measurable_pi_iff.1 hall 0
  have hcase : ∀ γ, (counts γ 2 = ![2, 0] ∧ out γ 2 = [[0], [0]]) ∨ (counts γ 2 = ![1, 1] ∧ out γ 2 = [[0], [1]]) ∨
      (counts γ 2 = ![0, 2] ∧ out γ 2 = [[1], [1]]) := by
    intro γ
    have ht := hg.total γ 2
    have ho := hout γ 2 (by norm_num)
    rw [Fin.sum_univ_two] at ht
    have hv : counts γ 2 = ![counts γ 2 0, counts γ 2 1] := by
      funext k; fin_cases k <;> rfl
    obtain ⟨a, ha⟩ : ∃ a, counts γ 2 0 = a := ⟨_, rfl⟩
    obtain ⟨b, hb⟩ : ∃ b, counts γ 2 1 = b := ⟨_, rfl⟩
    rw [ha, hb] at ht hv
    have : a = 2 ∧ b = 0 ∨ a = 1 ∧ b = 1 ∨ a = 0 ∧ b = 2 := by omega
    rcases this with ⟨rfl, rfl⟩ | ⟨rfl, rfl⟩ | ⟨rfl, rfl⟩ <;>
      simp [mixtureSample, drawMix, hv, List.replicate] at ho ⊢ <;> simp [← ho]
  obtain ⟨-, -, h2⟩ := h 2 (by norm_num)
  obtain ⟨F, hF⟩ : ∃ F : ℝ → List ℝ → ℝ≥0∞, ∀ a, F a = ((fun l : List ℝ => l.getD 0 0) ⁻¹' {a}).indicator fun _ => 1 :=
    ⟨_, fun _ => rfl⟩
  have hFm : ∀ a, Measurable (F a) := fun a => by
    rw [hF]; exact measurable_const.indicator (hent (measurableSet_singleton a))
  have hpos : ∀ a : Fin 2, ∫⁻ x, F (a : ℕ) x ∂μ ≠ 0 := by
    intro a h0
    have h3 := h2 (fun _ => F (a : ℕ)) fun _ => hFm _
    rw [h0] at h3
    simp only [Fin.prod_univ_two, mul_zero] at h3
    have hsub : Q {γ | counts γ 2 = ![2 - 2 * (a : ℕ), 2 * (a : ℕ)] ∧ shuf γ 2 = 1} ≤
        ∫⁻ γ, F (a : ℕ) ((out γ 2).getD (0 : Fin 2) []) * F (a : ℕ) ((out γ 2).getD (1 : Fin 2) []) ∂Q := by
      rw [← lintegral_indicator_one (hg.meas 2 _ _)]
      refine lintegral_mono fun γ => ?_
      by_cases hγ : γ ∈ {γ | counts γ 2 = ![2 - 2 * (a : ℕ), 2 * (a : ℕ)] ∧ shuf γ 2 = 1}
      · rw [Set.indicator_of_mem hγ]
        rw [Set.mem_ofPred_eq] at hγ
        fin_cases a <;> rcases hcase γ with ⟨hc, ho⟩ | ⟨hc, ho⟩ | ⟨hc, ho⟩ <;> simp [hc] at hγ <;>
          simp [ho, hF]
      · rw [Set.indicator_of_notMem hγ]
        exact zero_le
    have hs : ∑ k, (![2 - 2 * (a : ℕ), 2 * (a : ℕ)] : Fin 2 → ℕ) k = 2 := by fin_cases a <;> rfl
    rw [hg.law 2 _ 1 hs, h3, nonpos_iff_eq_zero, ENNReal.div_eq_zero_iff] at hsub
    rcases hsub with hz | hz
    · rw [ENNReal.ofReal_eq_zero] at hz
      have : 0 < (Nat.multinomial univ (![2 - 2 * (a : ℕ), 2 * (a : ℕ)] : Fin 2 → ℕ) : ℝ) *
          ∏ k, w k ^ (![2 - 2 * (a : ℕ), 2 * (a : ℕ)] : Fin 2 → ℕ) k :=
        mul_pos (Nat.cast_pos.2 (Nat.multinomial_pos _ _)) (Finset.prod_pos fun k _ => pow_pos (hw k) _)
      linarith
    · exact ENNReal.natCast_ne_top _ hz
  have h4 := h2 ![F 1, F 0] (by intro i; fin_cases i; exacts [hFm _, hFm _])
  rw [Fin.prod_univ_two] at h4
  have h5 : ∫⁻ γ, ∏ i : Fin 2, (![F 1, F 0] : Fin 2 → List ℝ → ℝ≥0∞) i ((out γ 2).getD i []) ∂Q = 0 := by
    rw [← lintegral_zero (μ := Q)]
    refine lintegral_congr fun γ => ?_
    rw [Fin.prod_univ_two]
    rcases hcase γ with ⟨-, ho⟩ | ⟨-, ho⟩ | ⟨-, ho⟩ <;> simp [ho, hF]
  rw [h5] at h4
  have h6 := hpos 0
  have h7 := hpos 1
  simp at h4 h6 h7
  tauto

end QInfer
