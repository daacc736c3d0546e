import Verif.Lemmas.InfoComplete
import Verif.Props.Concentrate
import Verif.Props.ManyParticles
import Mathlib.Probability.Distributions.Uniform

/-!
# C140: which measurements determine a state

Data reach a tomography model only through its likelihood.  Which sets of measurements have different
likelihoods for any two different states, and how many measurements that takes.
-/

namespace QInfer

open Matrix
open scoped BigOperators ComplexOrder

/-! ## Specification -/

/-- All outcomes of all the given measurements have the same likelihood for both parameter vectors. -/
def Spec.SameStatistics {nE : ℕ} (x y : List ℝ) (meas : Fin nE → List ℝ) : Prop :=
  ∀ os : List ℤ, os ≠ [] → ∀ L, tomoLikelihood (.array os) ![x, y] meas = .ok L →
    ∀ l ∈ L, ∀ e, l 0 e = l 1 e

/-- The vector holds the coefficients of a density operator. -/
def Spec.IsState (b : TomoBasis) (x : List ℝ) : Prop :=
  x.length = b.data.length ∧ Spec.IsDensity (Spec.op b.side b.data x)

/-- No two states have the same statistics. -/
def Spec.Determines {nE : ℕ} (b : TomoBasis) (meas : Fin nE → List ℝ) : Prop :=
  ∀ x y, Spec.IsState b x → Spec.IsState b y → Spec.SameStatistics x y meas → x = y

/-- A measurement effect: between zero and the identity. -/
def Spec.IsEffect {d : ℕ} (M : Matrix (Fin d) (Fin d) ℂ) : Prop := M.PosSemidef ∧ (1 - M).PosSemidef

/-- Every Hermitian operator is a real combination of the identity and the given operators. -/
def Spec.SpansHermitian {d nE : ℕ} (M : Fin nE → Matrix (Fin d) (Fin d) ℂ) : Prop :=
  ∀ H : Matrix (Fin d) (Fin d) ℂ, H.IsHermitian →
    ∃ (c₀ : ℝ) (c : Fin nE → ℝ), H = (c₀ : ℂ) • 1 + ∑ e, (c e : ℂ) • M e

variable {b : TomoBasis}

/-! ## Statistics and traces -/

theorem sameStatistics_of_clip (h : Spec.IsTomoBasis b.side b.data) {nE : ℕ} (x y : List ℝ)
    (meas : Fin nE → List ℝ) (hx : x.length = b.data.length) (hy : y.length = b.data.length)
    (hm : ∀ e, (meas e).length = b.data.length)
    (ht : ∀ e, max 0 (min 1 (trace (Spec.op b.side b.data (meas e) * Spec.op b.side b.data x)).re) =
      max 0 (min 1 (trace (Spec.op b.side b.data (meas e) * Spec.op b.side b.data y)).re)) :
    Spec.SameStatistics x y meas := by
  intro os hos L hL l hl e
  obtain ⟨L', hL', hall⟩ := C41_likelihood h os hos ![x, y] meas
    (fun m => by fin_cases m <;> [exact hx; exact hy]) hm
  rw [hL] at hL'
  obtain rfl := Except.ok.inj hL'
  obtain ⟨i, hi, rfl⟩ := List.mem_iff_getElem.mp hl
  have hlen := hall.length_eq
  have := (List.forall₂_iff_get.mp hall).2 i (by omega) hi
  simp only [List.get_eq_getElem] at this
  rw [(this 0 e).1, (this 1 e).1]
  simp only [Matrix.cons_val_zero, Matrix.cons_val_one]
  rw [ht e]

theorem sameStatistics_of_trace (h : Spec.IsTomoBasis b.side b.data) {nE : ℕ} (x y : List ℝ)
    (meas : Fin nE → List ℝ) (hx : x.length = b.data.length) (hy : y.length = b.data.length)
    (hm : ∀ e, (meas e).length = b.data.length)
    (ht : ∀ e, trace (Spec.op b.side b.data (meas e) * Spec.op b.side b.data x) =
      trace (Spec.op b.side b.data (meas e) * Spec.op b.side b.data y)) : Spec.SameStatistics x y meas :=
  sameStatistics_of_clip h x y meas hx hy hm fun e => by rw [ht e]

theorem trace_of_sameStatistics (h : Spec.IsTomoBasis b.side b.data) {nE : ℕ} (x y : List ℝ)
    (meas : Fin nE → List ℝ) (hx : Spec.IsState b x) (hy : Spec.IsState b y)
    (hm : ∀ e, (meas e).length = b.data.length)
    (he : ∀ e, Spec.IsEffect (Spec.op b.side b.data (meas e))) (hs : Spec.SameStatistics x y meas) (e : Fin nE) :
    trace (Spec.op b.side b.data (meas e) * Spec.op b.side b.data x) =
      trace (Spec.op b.side b.data (meas e) * Spec.op b.side b.data y) := by
  obtain ⟨L, hL, hall⟩ := C41_likelihood h [1] (by simp) ![x, y] meas
    (fun m => by fin_cases m <;> [exact hx.1; exact hy.1]) hm
  obtain ⟨l, _, h1, -, rfl⟩ := List.forall₂_cons_left_iff.mp hall
  have h2 := hs [1] (by simp) _ hL l (by simp) e
  rw [(h1 0 e).1, (h1 1 e).1] at h2
  simp only [Matrix.cons_val_zero, Matrix.cons_val_one, one_ne_zero, if_false] at h2
  rw [C41_born_rule _ _ (he e).1 (he e).2 hx.2, C41_born_rule _ _ (he e).1 (he e).2 hy.2] at h2
  rw [trace_op_mul h _ _ (hm e) hx.1, trace_op_mul h _ _ (hm e) hy.1] at h2 ⊢
  rw [Complex.ofReal_re, Complex.ofReal_re] at h2
  rw [h2]

/-! ## States that cannot be told apart -/

/-- The coefficient vectors in play: the identity's and the measurements'. -/
noncomputable def playVecs {nE : ℕ} (b : TomoBasis) (meas : Fin nE → List ℝ) :
    Option (Fin nE) → Fin b.data.length → ℝ
  | none => fun a => if (a : ℕ) = 0 then 1 else 0
  | some e => coeffVec _ (meas e)

theorem confused (h : Spec.IsTomoBasis b.side b.data) (hd : 0 < b.side) {nE : ℕ} (meas : Fin nE → List ℝ)
    (hm : ∀ e, (meas e).length = b.data.length)
    (hspan : Submodule.span ℝ (Set.range (playVecs b meas)) ≠ ⊤) :
    ∃ x y, Spec.IsState b x ∧ Spec.IsState b y ∧ x ≠ y ∧ Spec.SameStatistics x y meas := by
  obtain ⟨v, hv, ho⟩ := exists_orthogonal _ hspan
  have hn : 0 < b.data.length := by rw [h.len]; exact Nat.mul_pos hd hd
  have hlen : (List.ofFn v).length = b.data.length := List.length_ofFn
  have hcv : coeffVec b.data.length (List.ofFn v) = v := by
    ext a
    simp [coeffVec]
  have hv0 : v ⟨0, hn⟩ = 0 := by
    have := ho none
    rw [Finset.sum_eq_single ⟨0, hn⟩] at this
    · simpa [playVecs] using this
    · intro a _ ha
      have : (a : ℕ) ≠ 0 := fun h0 => ha (Fin.ext h0)
      simp [playVecs, this]
    · simp
  obtain ⟨V, hVdef⟩ : ∃ V, V = Spec.op b.side b.data (List.ofFn v) := ⟨_, rfl⟩
  have hVH : V.IsHermitian := hVdef ▸ op_isHermitian _ _ _ h.herm
  have hVt : trace V = 0 := by
    rw [hVdef, op_trace _ _ _ h hlen]
    have : (List.ofFn v).headD 0 = 0 := by
      rw [← hv0, List.headD_eq_head?_getD, List.head?_eq_getElem?, List.getElem?_ofFn]
      simp [hn]
    rw [this, zero_mul, Complex.ofReal_zero]
  have hVne : V ≠ 0 := by
    intro h0
    have hz : Spec.op b.side b.data (List.replicate b.data.length 0) = 0 := by
      unfold Spec.op
      refine Finset.sum_eq_zero fun a _ => ?_
      simp [List.getD_eq_getElem?_getD]
    have := op_injective _ _ h _ _ hlen (by simp) (hVdef.symm.trans (h0.trans hz.symm))
    refine hv ?_
    rw [← hcv, this]
    ext a
    simp [coeffVec, List.getD_eq_getElem?_getD]
  obtain ⟨ρ, σ, c, hc, hρ, hσ, hdiff⟩ := difference_of_densities hd V hVH hVt
  obtain ⟨x, -, hx, hxo⟩ := op_of_state b h (toPlane ρ) (by rw [mat_toPlane]; exact hρ.1.1)
  obtain ⟨y, -, hy, hyo⟩ := op_of_state b h (toPlane σ) (by rw [mat_toPlane]; exact hσ.1.1)
  rw [mat_toPlane] at hxo hyo
  refine ⟨x, y, ⟨hx, hxo ▸ hρ⟩, ⟨hy, hyo ▸ hσ⟩, ?_, sameStatistics_of_trace h x y meas hx hy hm fun e => ?_⟩
  · rintro rfl
    rw [← hxo, ← hyo, sub_self] at hdiff
    rcases smul_eq_zero.mp hdiff.symm with h0 | h0
    · exact hc.ne' (by exact_mod_cast h0)
    · exact hVne h0
  · rw [hxo, hyo, ← sub_eq_zero, ← Matrix.trace_sub, ← Matrix.mul_sub, hdiff, Matrix.mul_smul,
      Matrix.trace_smul, hVdef, trace_op_mul h _ _ (hm e) hlen, zip_dot _ _ _ (hm e) hlen, hcv]
    have := ho (some e)
    simp only [playVecs] at this
    rw [this]
    simp

theorem spans_of_span (h : Spec.IsTomoBasis b.side b.data) (hd : 0 < b.side) {nE : ℕ}
    (meas : Fin nE → List ℝ) (hspan : Submodule.span ℝ (Set.range (playVecs b meas)) = ⊤) :
    Spec.SpansHermitian fun e => Spec.op b.side b.data (meas e) := by
  intro H hH
  have hn : 0 < b.data.length := by rw [h.len]; exact Nat.mul_pos hd hd
  obtain ⟨z, -, hz, hzo⟩ := op_of_state b h (toPlane H) (by rw [mat_toPlane]; exact hH)
  rw [mat_toPlane] at hzo
  have hmem : coeffVec b.data.length z ∈ Submodule.span ℝ (Set.range (playVecs b meas)) := by
    rw [hspan]; trivial
  obtain ⟨c, hc⟩ := (Submodule.mem_span_range_iff_exists_fun ℝ).mp hmem
  have hfirst := h.first hn
  refine ⟨c none * (1 / Real.sqrt b.side), fun e => c (some e), ?_⟩
  rw [← hzo, op_coeff, ← hc]
  simp only [Fintype.sum_option, Pi.add_apply, Pi.smul_apply, Finset.sum_apply, smul_eq_mul,
    Complex.ofReal_add, Complex.ofReal_sum, Complex.ofReal_mul, add_smul, Finset.sum_add_distrib]
  congr 1
  · rw [Finset.sum_eq_single ⟨0, hn⟩]
    · simp only [playVecs, if_true, Complex.ofReal_one, mul_one]
      rw [mul_smul]
      congr 1
    · intro a _ ha
      have : (a : ℕ) ≠ 0 := fun h0 => ha (Fin.ext h0)
      simp [playVecs, this]
    · simp
  · simp only [Finset.sum_smul]
    rw [Finset.sum_comm]
    refine Finset.sum_congr rfl fun e _ => ?_
    rw [op_coeff, Finset.smul_sum]
    refine Finset.sum_congr rfl fun a _ => ?_
    rw [smul_smul]
    rfl

/-! ## The theorems -/

/-- **C140, the criterion.**  Measurement effects determine every state exactly if, with the identity,
they span the Hermitian operators. -/
theorem C140_criterion (h : Spec.IsTomoBasis b.side b.data) (hd : 0 < b.side) {nE : ℕ}
    (meas : Fin nE → List ℝ) (hm : ∀ e, (meas e).length = b.data.length)
    (he : ∀ e, Spec.IsEffect (Spec.op b.side b.data (meas e))) :
    Spec.Determines b meas ↔ Spec.SpansHermitian fun e => Spec.op b.side b.data (meas e) := by
  constructor
  · intro hdet
    by_contra hc
    have hspan : Submodule.span ℝ (Set.range (playVecs b meas)) ≠ ⊤ :=
      fun h0 => hc (spans_of_span h hd meas h0)
    obtain ⟨x, y, hx, hy, hne, hs⟩ := confused h hd meas hm hspan
    exact hne (hdet x y hx hy hs)
  · intro hspan x y hx hy hs
    have ht := trace_of_sameStatistics h x y meas hx hy hm he hs
    obtain ⟨D, hD⟩ : ∃ D, D = Spec.op b.side b.data x - Spec.op b.side b.data y := ⟨_, rfl⟩
    have hDH : D.IsHermitian := hD ▸ hx.2.1.1.sub hy.2.1.1
    have hD0 : D = 0 := by
      obtain ⟨c₀, c, hc⟩ := hspan D hDH
      have : trace (D * D) = 0 := by
        have hDD : D * D = ((c₀ : ℂ) • 1 + ∑ e, (c e : ℂ) • Spec.op b.side b.data (meas e)) * D :=
          congrArg (· * D) hc
        rw [hDD, Matrix.add_mul, Matrix.trace_add, Matrix.smul_mul, Matrix.one_mul, Matrix.trace_smul,
          Matrix.sum_mul, Matrix.trace_sum]
        have h1 : trace D = 0 := by rw [hD, Matrix.trace_sub, hx.2.2, hy.2.2, sub_self]
        rw [h1, smul_zero, zero_add]
        refine Finset.sum_eq_zero fun e _ => ?_
        rw [Matrix.smul_mul, Matrix.trace_smul, hD, Matrix.mul_sub, Matrix.trace_sub, ht e, sub_self, smul_zero]
      have h2 := Matrix.trace_conjTranspose_mul_self_eq_zero_iff (A := D)
      rw [hDH.eq] at h2
      exact h2.mp this
    exact op_injective _ _ h _ _ hx.1 hy.1 (sub_eq_zero.mp (hD ▸ hD0))

/-- **C140, too few.**  With fewer than `d² - 1` measurements, whatever they are, there are two different
states for which all outcomes have the same likelihoods. -/
theorem C140_too_few (h : Spec.IsTomoBasis b.side b.data) (hd : 0 < b.side) {nE : ℕ}
    (meas : Fin nE → List ℝ) (hm : ∀ e, (meas e).length = b.data.length)
    (hk : nE + 1 < b.side * b.side) :
    ∃ x y, Spec.IsState b x ∧ Spec.IsState b y ∧ x ≠ y ∧ Spec.SameStatistics x y meas := by
  refine confused h hd meas hm fun htop => ?_
  have h1 := finrank_range_le_card (R := ℝ) (playVecs b meas)
  rw [Set.finrank, htop, finrank_top, Module.finrank_fin_fun, Fintype.card_option, Fintype.card_fin, h.len] at h1
  omega

/-- The operators `(1 + r B)/2` of the elements after the first span, with the identity, all Hermitian
operators. -/
theorem spans_of_elements (h : Spec.IsTomoBasis b.side b.data) (hd : 0 < b.side) (r : ℝ) (hr : r ≠ 0)
    {nE : ℕ} (hE : nE + 1 = b.data.length) (M : Fin nE → Matrix (Fin b.side) (Fin b.side) ℂ)
    (hM : ∀ e : Fin nE, M e = (1 / 2 : ℂ) • (1 + (r : ℂ) • Spec.mat b.side (b.data[1 + (e : ℕ)]'(by omega)))) :
    Spec.SpansHermitian M := by
  intro H hH
  have hn : 0 < b.data.length := by rw [h.len]; exact Nat.mul_pos hd hd
  obtain ⟨z, -, hz, hzo⟩ := op_of_state b h (toPlane H) (by rw [mat_toPlane]; exact hH)
  rw [mat_toPlane] at hzo
  have hr' : (r : ℂ) ≠ 0 := by exact_mod_cast hr
  refine ⟨z.getD 0 0 * (1 / Real.sqrt b.side) - ∑ e : Fin nE, z.getD (1 + e) 0 / r,
    fun e => 2 * z.getD (1 + e) 0 / r, ?_⟩
  have hsum : H = ((z.getD 0 0 * (1 / Real.sqrt b.side) : ℝ) : ℂ) • (1 : Matrix (Fin b.side) (Fin b.side) ℂ) +
      ∑ e : Fin nE, (z.getD (1 + e) 0 : ℂ) • Spec.mat b.side (b.data[1 + (e : ℕ)]'(by omega)) := by
    rw [← hzo]
    unfold Spec.op
    rw [← Equiv.sum_comp (finCongr hE), Fin.sum_univ_succ]
    congr 1
    · simp only [finCongr_apply, Fin.coe_cast, Fin.val_zero, Fin.getElem_fin]
      rw [h.first hn, smul_smul]
      push_cast
      rfl
    · refine Finset.sum_congr rfl fun e _ => ?_
      simp only [finCongr_apply, Fin.coe_cast, Fin.val_succ, Fin.getElem_fin, Nat.add_comm]
  rw [hsum, Complex.ofReal_sub, sub_smul, sub_add, sub_eq_add_neg]
  congr 1
  rw [Complex.ofReal_sum, Finset.sum_smul, neg_sub, ← Finset.sum_sub_distrib]
  refine Finset.sum_congr rfl fun e _ => ?_
  rw [hM]
  push_cast
  rw [smul_smul, smul_add, smul_smul,
    show (2 * (z.getD (1 + e) 0 : ℂ) / r * (1 / 2)) = (z.getD (1 + e) 0 : ℂ) / r from by ring, add_sub_cancel_left,
    div_mul_cancel₀ _ hr']

theorem half_effect {d : ℕ} (B : Matrix (Fin d) (Fin d) ℂ) (hH : B.IsHermitian) (ht : trace (B * B) = 1) :
    Spec.IsEffect ((1 / 2 : ℂ) • (1 + ((1 : ℝ) : ℂ) • B)) := by
  have h0 : (0 : ℂ) ≤ 1 / 2 := by
    rw [show (1 / 2 : ℂ) = ((1 / 2 : ℝ) : ℂ) from by push_cast; rfl, Complex.zero_le_real]; norm_num
  rw [Complex.ofReal_one, one_smul]
  refine ⟨(one_add_posSemidef _ hH ht).smul h0, ?_⟩
  have := (one_add_posSemidef (-B) hH.neg (by rw [neg_mul_neg, ht])).smul h0
  convert this using 1
  rw [smul_add, smul_add, smul_neg, sub_add_eq_sub_sub]
  rw [show (1 : Matrix (Fin d) (Fin d) ℂ) - (1 / 2 : ℂ) • 1 = (1 / 2 : ℂ) • 1 from by
    rw [sub_eq_iff_eq_add, ← add_smul]; norm_num, sub_eq_add_neg]

/-- **C140, just enough.**  In every dimension there are `d² - 1` effects that determine every state. -/
theorem C140_just_enough (h : Spec.IsTomoBasis b.side b.data) (hd : 0 < b.side) :
    ∃ meas : Fin (b.side * b.side - 1) → List ℝ, (∀ e, (meas e).length = b.data.length) ∧
      (∀ e, Spec.IsEffect (Spec.op b.side b.data (meas e))) ∧ Spec.Determines b meas := by
  have hlen := h.len
  have hpos : 0 < b.side * b.side := Nat.mul_pos hd hd
  have hlt : ∀ e : Fin (b.side * b.side - 1), 1 + (e : ℕ) < b.data.length := fun e => by omega
  have hB : ∀ a (ha : a < b.data.length), (Spec.mat b.side b.data[a]).IsHermitian ∧
      trace (Spec.mat b.side b.data[a] * Spec.mat b.side b.data[a]) = 1 := by
    intro a ha
    have hH := h.herm _ (List.getElem_mem ha)
    have := h.ortho a a ha ha
    rw [hH.eq, if_pos rfl] at this
    exact ⟨hH, this⟩
  have hex : ∀ e : Fin (b.side * b.side - 1), ∃ x : List ℝ, x.length = b.data.length ∧
      Spec.op b.side b.data x =
        (1 / 2 : ℂ) • (1 + ((1 : ℝ) : ℂ) • Spec.mat b.side (b.data[1 + (e : ℕ)]'(hlt e))) := by
    intro e
    obtain ⟨hH, -⟩ := hB _ (hlt e)
    obtain ⟨x, -, hx, hxo⟩ := op_of_state b h
      (toPlane ((1 / 2 : ℂ) • (1 + ((1 : ℝ) : ℂ) • Spec.mat b.side (b.data[1 + (e : ℕ)]'(hlt e))))) (by
        rw [mat_toPlane, Complex.ofReal_one, one_smul, Matrix.IsHermitian, Matrix.conjTranspose_smul,
          (isHermitian_one.add hH).eq]
        congr 1
        simp)
    exact ⟨x, hx, by rw [hxo, mat_toPlane]⟩
  choose meas hm hop using hex
  have heff : ∀ e, Spec.IsEffect (Spec.op b.side b.data (meas e)) := by
    intro e
    obtain ⟨hH, ht⟩ := hB _ (hlt e)
    rw [hop]
    exact half_effect _ hH ht
  refine ⟨meas, hm, heff, (C140_criterion h hd meas hm heff).mpr ?_⟩
  exact spans_of_elements h hd 1 one_ne_zero (by omega) _ hop

/-- **C140, random Paulis.**  The `4ⁿ - 1` measurements `RandomPauliHeuristic` chooses from are effects and
determine every state of `n` qubits. -/
theorem C140_paulis (nq : ℕ) (hq : 0 < nq) : ∃ t, randomPauliInit (2 ^ nq) = .ok (nq, t) ∧
    t.side = 2 ^ nq ∧ Spec.IsTomoBasis t.side t.data ∧ ∃ meas : Fin (4 ^ nq - 1) → List ℝ,
      (∀ c : Fin (4 ^ nq - 1), ∃ m, randomPauliMeas (2 ^ nq) t c = .ok m ∧
        stateToModelparams t (2 ^ nq) m = .ok (meas c)) ∧
      (∀ c, (meas c).length = t.data.length) ∧
      (∀ c, Spec.IsEffect (Spec.op t.side t.data (meas c))) ∧ Spec.Determines t meas := by
  obtain ⟨t, ht, hs, -, hT, -⟩ := C40_pauli nq hq
  obtain ⟨t', ht', hlen, hproj⟩ := C69_projector nq hq
  obtain rfl : t' = t := by
    unfold randomPauliInit at ht'
    dsimp only at ht'
    rw [Nat.log_pow (by norm_num), if_neg (by simp), ht] at ht'
    have := Except.ok.inj ht'
    exact (Prod.mk.inj this).2.symm
  have hpos : 0 < 4 ^ nq := by positivity
  rw [← hs] at hT hproj ht'
  have hd : 0 < t'.side := by rw [hs]; positivity
  have hex : ∀ c : Fin (4 ^ nq - 1), ∃ x m, randomPauliMeas t'.side t' c = .ok m ∧
      stateToModelparams t' t'.side m = .ok x ∧ x.length = t'.data.length ∧
      Spec.op t'.side t'.data x = (1 / 2 : ℂ) • (1 + ((Real.sqrt (t'.side : ℕ) : ℝ) : ℂ) •
        Spec.mat t'.side (t'.data[1 + (c : ℕ)]'(by omega))) ∧
      (Spec.op t'.side t'.data x).IsHermitian ∧
      Spec.op t'.side t'.data x * Spec.op t'.side t'.data x = Spec.op t'.side t'.data x := by
    intro c
    obtain ⟨m, h1, h2, h3, -, h5⟩ := hproj c (by omega)
    obtain ⟨x, h6, h7, h8⟩ := op_of_state t' hT m h2
    exact ⟨x, m, h1, h6, h7, by rw [h8, h5], by rw [h8]; exact h2, by rw [h8]; exact h3⟩
  choose meas m h1 h2 h3 h4 h5 h6 using hex
  have heff : ∀ c, Spec.IsEffect (Spec.op t'.side t'.data (meas c)) := by
    intro c
    have hP : ∀ P : Matrix (Fin t'.side) (Fin t'.side) ℂ, P.IsHermitian → P * P = P → P.PosSemidef := by
      intro P hH hI
      have := posSemidef_conjTranspose_mul_self P
      rwa [hH.eq, hI] at this
    refine ⟨hP _ (h5 c) (h6 c), hP _ (isHermitian_one.sub (h5 c)) ?_⟩
    rw [Matrix.sub_mul, Matrix.mul_sub, Matrix.mul_sub, h6 c]
    simp
  refine ⟨t', by rw [← hs]; exact ht', hs, hT, meas, fun c => ⟨m c, ?_, ?_⟩, h3, heff,
    (C140_criterion hT hd meas h3 heff).mpr ?_⟩
  · rw [← hs]; exact h1 c
  · rw [← hs]; exact h2 c
  · refine spans_of_elements hT hd (Real.sqrt t'.side) ?_ (by omega) _ h4
    exact (Real.sqrt_pos.mpr (by exact_mod_cast hd)).ne'

/-! ## Learning a state -/

section
open Spec Filter Topology MeasureTheory
variable {Ω R : Type*} [MeasurableSpace Ω] {P : Measure Ω} [IsProbabilityMeasure P] {m n : ℕ}
  {env : Env ℝ (Fin 2) (Fin m) R} {check : Bool} {cfg : SmcConfig ℝ}
  {w : Fin n → ℝ} {x : Fin n → List ℝ} {s : Smc ℝ (Fin 2) R} {μ : Measure (Fin 2 × Fin m)}
  {D : ℕ → Ω → Fin 2 × Fin m}

/-- **C140, the state is learnt.**  Data from a true state among the particles, with measurements that
determine every state, each chosen at random with a positive probability: if all particles are different
states, the weight of the true state tends to one. -/
theorem C140_learnt (h : Resting cfg env check w x s) (hD : IidData P μ D)
    (hb : Spec.IsTomoBasis b.side b.data) (meas : Fin m → List ℝ)
    (hm : ∀ e, (meas e).length = b.data.length) (hdet : Spec.Determines b meas)
    (hx : ∀ i, Spec.IsState b (x i)) (hinj : Function.Injective x)
    (hL : ∀ (o : Fin 2) i e, ∃ l, tomoLikelihood (.array [(o.val : ℤ)]) (fun _ : Fin 1 => x i) meas = .ok [l] ∧
      env.likelihood o (x i) e = l 0 e)
    (i : Fin n) (hwi : 0 < w i) (q : Fin m → ℝ) (hq : DrawnFrom env.likelihood (x i) q μ)
    (hqe : ∀ e, 0 < q e) :
    ∀ᵐ v ∂P, (∀ t, (feed cfg env check (firstData D t v) s).2 = .ok ()) →
      Tendsto (fun t => (feed cfg env check (firstData D t v) s).1.weights.getD i 0) atTop (𝓝 1) := by
  have hlike : ∀ (o : Fin 2) k e, env.likelihood o (x k) e =
      if o = 0 then 1 - max 0 (min 1 (trace (Spec.op b.side b.data (meas e) * Spec.op b.side b.data (x k))).re)
      else max 0 (min 1 (trace (Spec.op b.side b.data (meas e) * Spec.op b.side b.data (x k))).re) := by
    intro o k e
    obtain ⟨l, h1, h2⟩ := hL o k e
    obtain ⟨L, h3, h4⟩ := C41_likelihood hb [(o.val : ℤ)] (by simp) (fun _ : Fin 1 => x k) meas
      (fun _ => (hx k).1) hm
    rw [h1] at h3
    obtain rfl := Except.ok.inj h3
    obtain ⟨l', _, h5, -, h6⟩ := List.forall₂_cons_left_iff.mp h4
    obtain rfl := (List.cons.inj h6).1
    rw [h2, (h5 0 e).1]
    fin_cases o <;> simp
  have hone : ∀ k e, ∑ o, env.likelihood o (x k) e = 1 := by
    intro k e
    rw [Fin.sum_univ_two, hlike, hlike]
    simp
  have := C106_learns h hD i hwi q hq hone fun j hj => by
    by_contra hc
    push Not at hc
    refine hj (hinj (hdet _ _ (hx j) (hx i) (sameStatistics_of_clip hb _ _ meas (hx j).1 (hx i).1 hm fun e => ?_)))
    have := hc 1 e (hqe e)
    rw [hlike, hlike] at this
    simpa using this
  filter_upwards [this] with v hv hok
  exact (hv hok).1

end

/-! ## Examples -/

/-- A qubit and any two measurements, here along `x` and `z`: two different states give the same
statistics. -/
example : ∃ b, gellMannBasis 2 = .ok b ∧ ∃ x y, Spec.IsState b x ∧ Spec.IsState b y ∧ x ≠ y ∧
    Spec.SameStatistics x y ![[1 / Real.sqrt 2, 1 / Real.sqrt 2, 0, 0], [1 / Real.sqrt 2, 0, 1 / Real.sqrt 2, 0]] := by
  obtain ⟨b, h1, h2, -, -, -, h3⟩ := C40_gell_mann 2 (by norm_num)
  rw [← h2] at h3
  have hl : b.data.length = 4 := by rw [h3.len, h2]
  refine ⟨b, h1, C140_too_few h3 (by rw [h2]; norm_num) _ (fun e => ?_) (by rw [h2]; norm_num)⟩
  rw [hl]
  fin_cases e <;> rfl

/-- A qutrit: eight measurements are enough, seven are not. -/
example : ∃ b, gellMannBasis 3 = .ok b ∧ (∃ meas : Fin 8 → List ℝ, Spec.Determines b meas) ∧
    ∀ meas : Fin 7 → List ℝ, (∀ e, (meas e).length = 9) → ¬ Spec.Determines b meas := by
  obtain ⟨b, h1, h2, -, -, -, h3⟩ := C40_gell_mann 3 (by norm_num)
  rw [← h2] at h3
  have hl : b.data.length = 9 := by rw [h3.len, h2]
  have hd : 0 < b.side := by rw [h2]; norm_num
  refine ⟨b, h1, ?_, fun meas hm hdet => ?_⟩
  · have key : ∀ k, k = b.side * b.side - 1 → ∃ meas : Fin k → List ℝ, Spec.Determines b meas := by
      rintro _ rfl
      obtain ⟨meas, -, -, h4⟩ := C140_just_enough h3 hd
      exact ⟨meas, h4⟩
    exact key 8 (by rw [h2])
  · obtain ⟨x, y, hx, hy, hne, hs⟩ := C140_too_few h3 hd meas (fun e => by rw [hm, hl]) (by rw [h2]; norm_num)
    exact hne (hdet x y hx hy hs)

/-! The case for `C140_learnt`: the completely mixed qubit and a polarised one, three measurements. -/

section
open Spec Filter Topology MeasureTheory

/-- Two qubit states. -/
noncomputable def bitStates : Fin 2 → List ℝ := ![[1 / Real.sqrt 2, 0, 0, 0], [1 / Real.sqrt 2, 1 / 2, 0, 0]]

/-- Three measurements. -/
noncomputable def bitMeas : Fin 3 → List ℝ :=
  ![[1 / Real.sqrt 2, 1 / 2, 0, 0], [1 / Real.sqrt 2, 0, 1 / 2, 0], [1 / Real.sqrt 2, 0, 0, 1 / 2]]

/-- The tomography model with these measurements. -/
noncomputable def bitEnv (xs : List (List ℝ)) : Env ℝ (Fin 2) (Fin 3) Unit where
  likelihood o x e := match tomoLikelihood (.array [(o.val : ℤ)]) (fun _ : Fin 1 => x) bitMeas with
    | .ok (l :: _) => l 0 e
    | _ => 0
  timestep r l _ := (l, r)
  canon l := l
  clearCacheRaises := false
  prior r n := ((xs ++ List.replicate n []).take n, r)
  resampler r w l := (.ok (w, l), r)
  kl _ _ _ _ := 0

theorem bit_op (B : TomoBasis) (h : Spec.IsTomoBasis B.side B.data) (h2 : B.side = 2) (c : Fin 4 → ℝ) :
    ∀ hl : B.data.length = 4, Spec.op B.side B.data (List.ofFn c) =
      ((c 0 / Real.sqrt 2 : ℝ) : ℂ) • (1 : Matrix _ _ ℂ) +
        ∑ e : Fin 3, (c e.succ : ℂ) • Spec.mat B.side (B.data[1 + (e : ℕ)]'(by omega)) := by
  intro hl
  unfold Spec.op
  rw [← Equiv.sum_comp (finCongr hl.symm), Fin.sum_univ_succ]
  congr 1
  simp only [finCongr_apply, Fin.val_cast, Fin.val_zero, Fin.getElem_fin]
  rw [h.first (by omega), smul_smul, h2]
  congr 1
  simp
  rfl

theorem bit_injective : Function.Injective bitStates := by
  intro i j hij
  fin_cases i <;> fin_cases j <;> simp [bitStates] at hij ⊢

theorem bit_half : 1 / Real.sqrt 2 / Real.sqrt 2 = 1 / 2 := by
  rw [div_div, Real.mul_self_sqrt (by norm_num)]

theorem bit_op_one (B : TomoBasis) (h : Spec.IsTomoBasis B.side B.data) (h2 : B.side = 2)
    (hl : B.data.length = 4) (e : Fin 3) : Spec.op B.side B.data (bitMeas e) =
      (1 / 2 : ℂ) • (1 + ((1 : ℝ) : ℂ) • Spec.mat B.side (B.data[1 + (e : ℕ)]'(by omega))) := by
  have : bitMeas e = List.ofFn (Fin.cons (1 / Real.sqrt 2) fun k : Fin 3 => if k = e then 1 / 2 else 0 : Fin 4 → ℝ) := by
    fin_cases e <;> simp [bitMeas, List.ofFn_succ]
  rw [this, bit_op B h h2 _ hl, Fin.cons_zero, bit_half, Finset.sum_eq_single e]
  · simp
  · intro k _ hk
    simp [hk]
  · simp

theorem bit_like (o i : Fin 2) (e : Fin 3) (xs : List (List ℝ)) :
    (∃ l, tomoLikelihood (.array [(o.val : ℤ)]) (fun _ : Fin 1 => bitStates i) bitMeas = .ok [l] ∧
      (bitEnv xs).likelihood o (bitStates i) e = l 0 e) ∧
    (bitEnv xs).likelihood o (bitStates i) e =
      if i = 1 ∧ e = 0 then (if o = 0 then 1 / 4 else 3 / 4) else 1 / 2 := by
  have hq : Real.sqrt 2 * Real.sqrt 2 = 2 := Real.mul_self_sqrt (by norm_num)
  have hh : (Real.sqrt 2)⁻¹ * (Real.sqrt 2)⁻¹ = 1 / 2 := by rw [← mul_inv, hq]; norm_num
  refine ⟨⟨_, by simp [tomoLikelihood, pr0ToLikelihood]; rfl, by simp [bitEnv, tomoLikelihood, pr0ToLikelihood]⟩, ?_⟩
  fin_cases i <;> fin_cases e <;> fin_cases o <;>
    simp [bitEnv, tomoLikelihood, pr0ToLikelihood, bitStates, bitMeas, clip, hh] <;> norm_num

theorem bit_resting (check : Bool) :
    Resting phaseCfg (bitEnv (List.ofFn bitStates)) check (fun _ : Fin 2 => 1 / 2) bitStates
      (construct phaseCfg (bitEnv (List.ofFn bitStates)) 2 false ()).1 where
  good :=
    { like_nonneg := fun o x e => by
        have hc : ∀ y : ℝ, 0 ≤ clip 0 1 y ∧ clip 0 1 y ≤ 1 := fun y => by
          unfold clip
          exact ⟨le_min (le_max_right _ _) zero_le_one, min_le_right _ _⟩
        simp only [bitEnv, tomoLikelihood, pr0ToLikelihood]
        fin_cases o
        · simpa using (hc _).2
        · simpa using (hc _).1
      prior_len := fun r n => by simp [bitEnv]; omega
      canon_len := fun l => rfl
      timestep_len := fun r l e => rfl
      resampler_ok := fun r w l w' l' hw hl h => by
        simp only [bitEnv, Except.ok.injEq, Prod.mk.injEq] at h
        obtain ⟨rfl, rfl⟩ := h
        exact ⟨hw, hl⟩ }
  static r l e := rfl
  off := Or.inr le_rfl
  policy := rfl
  thresh := by
    have hε : (eps : ℝ) ≤ 1 / 40 := by unfold eps; norm_num
    exact ⟨by show (eps : ℝ) ≤ 10 * eps; linarith [eps_pos (K := ℝ)],
      by show 10 * (eps : ℝ) < 1; linarith⟩
  nonneg _ := by norm_num
  sum := by norm_num
  weights := by simp [construct, reset, bitEnv, phaseCfg, List.replicate]
  locs := by simp [construct, reset, bitEnv, phaseCfg]

/-- All outcomes equally likely: the data of the completely mixed state. -/
noncomputable def bitLaw : Measure (Fin 2 × Fin 3) := (PMF.uniformOfFintype (Fin 2 × Fin 3)).toMeasure

instance : IsProbabilityMeasure bitLaw := PMF.toMeasure.isProbabilityMeasure _

theorem bit_data : IidData (Measure.infinitePi fun _ : ℕ => bitLaw) bitLaw fun t v => v t where
  meas t := measurable_pi_apply t
  law t := Measure.infinitePi_map_eval _ t
  indep i j hij := (ProbabilityTheory.iIndepFun_infinitePi (P := fun _ : ℕ => bitLaw) (X := fun _ x => x)
    (fun _ => measurable_id)).indepFun hij

theorem bit_determined : ∃ B : TomoBasis, Spec.IsTomoBasis B.side B.data ∧
    (∀ e, (bitMeas e).length = B.data.length) ∧ Spec.Determines B bitMeas ∧
    ∀ i, Spec.IsState B (bitStates i) := by
  obtain ⟨B, -, h2, -, -, -, h3⟩ := C40_gell_mann 2 (by norm_num)
  rw [← h2] at h3
  have hl : B.data.length = 4 := by rw [h3.len, h2]
  have hd : 0 < B.side := by rw [h2]; norm_num
  have h0 : (0 : ℂ) ≤ 1 / 2 := by
    rw [show (1 / 2 : ℂ) = ((1 / 2 : ℝ) : ℂ) from by push_cast; rfl, Complex.zero_le_real]; norm_num
  have hB : ∀ a (ha : a < B.data.length), (Spec.mat B.side B.data[a]).IsHermitian ∧
      trace (Spec.mat B.side B.data[a] * Spec.mat B.side B.data[a]) = 1 := by
    intro a ha
    have hH := h3.herm _ (List.getElem_mem ha)
    have := h3.ortho a a ha ha
    rw [hH.eq, if_pos rfl] at this
    exact ⟨hH, this⟩
  have hm : ∀ e, (bitMeas e).length = B.data.length := fun e => by rw [hl]; fin_cases e <;> rfl
  have heff : ∀ e, Spec.IsEffect (Spec.op B.side B.data (bitMeas e)) := fun e => by
    obtain ⟨hH, ht⟩ := hB (1 + e) (by omega)
    rw [bit_op_one B h3 h2 hl]
    exact half_effect _ hH ht
  have hdet : Spec.Determines B bitMeas := (C140_criterion h3 hd bitMeas hm heff).mpr
    (spans_of_elements h3 hd 1 one_ne_zero (by omega) _ (bit_op_one B h3 h2 hl))
  have hst : ∀ i, Spec.IsState B (bitStates i) := by
    intro i
    have hlen : (bitStates i).length = B.data.length := by rw [hl]; fin_cases i <;> rfl
    refine ⟨hlen, ?_, ?_⟩
    · fin_cases i
      · have : bitStates 0 = List.ofFn ![1 / Real.sqrt 2, 0, 0, 0] := by simp [bitStates]
        show (Spec.op B.side B.data (bitStates 0)).PosSemidef
        rw [this, bit_op B h3 h2 _ hl]
        simp only [Fin.sum_univ_three]
        simp only [Matrix.cons_val_zero, bit_half]
        simpa using PosSemidef.one.smul h0
      · exact (heff 0).1
    · rw [op_trace _ _ _ h3 hlen, h2]
      have : (bitStates i).headD 0 = 1 / Real.sqrt 2 := by fin_cases i <;> rfl
      rw [this]
      have : Real.sqrt 2 ≠ 0 := by positivity
      push_cast
      have : (Real.sqrt 2 : ℂ) ≠ 0 := by exact_mod_cast this
      field_simp
  exact ⟨B, h3, hm, hdet, hst⟩

theorem bit_accepted (ds : List (Fin 2 × Fin 3)) : (feed phaseCfg (bitEnv (List.ofFn bitStates)) true ds
    (construct phaseCfg (bitEnv (List.ofFn bitStates)) 2 false ()).1).2 = .ok () := by
  refine C106_accepted (bit_resting true) _ fun d _ i => ?_
  have hε : (eps : ℝ) ≤ 1 / 40 := by unfold eps; norm_num
  rw [(bit_like _ _ _ _).2]
  split_ifs <;> linarith

/-- Case for C140: data of the completely mixed qubit; the updater learns that it is not the polarised
one, and no run is rejected. -/
example : ∀ᵐ v ∂(Measure.infinitePi fun _ : ℕ => bitLaw),
    Tendsto (fun t => (feed phaseCfg (bitEnv (List.ofFn bitStates)) true
        (firstData (fun t (v : ℕ → Fin 2 × Fin 3) => v t) t v)
        (construct phaseCfg (bitEnv (List.ofFn bitStates)) 2 false ()).1).1.weights.getD 0 0)
      atTop (𝓝 1) := by
  obtain ⟨B, h3, hm, hdet, hst⟩ := bit_determined
  have hdrawn : DrawnFrom (bitEnv (List.ofFn bitStates)).likelihood (bitStates 0) (fun _ => 1 / 3) bitLaw :=
    { nonneg := fun _ => by norm_num
      sum := by simp
      law := fun o e => by
        rw [(bit_like o 0 e _).2]
        simp [bitLaw, measureReal_def]
        norm_num }
  have hL := C140_learnt (bit_resting true) bit_data h3 bitMeas hm hdet hst
    bit_injective
    (fun o i e => (bit_like o i e _).1) 0 (by norm_num) (fun _ => 1 / 3) hdrawn (fun _ => by norm_num)
  filter_upwards [hL] with v hv
  exact hv fun t => bit_accepted _

end

end QInfer
