import Verif.Lemmas.NormalLaws
import Verif.Lemmas.HaarLaw
import Verif.Lemmas.WalkRun
import Verif.Spec.Normal

/-!
# Sums of scaled normal steps
-/

namespace QInfer

open MeasureTheory ProbabilityTheory Finset

theorem walk_normal {M d n N T : Nat} (s : Fin T → ℝ) (F : Fin M → Fin d → Fin n → ℝ) (x : Fin M × Fin d → ℝ)
    (e : Fin M × Fin n → Fin N) (he : e.Injective) :
    Spec.JointlyNormal (normals (Fin T × Fin N))
      (fun v mj => x mj + ∑ k, F mj.1 mj.2 k * ∑ t, s t * v (t, e (mj.1, k))) x
      (fun a b => if a.1 = b.1 then (∑ t, s t ^ 2) * ∑ k, F a.1 a.2 k * F a.1 b.2 k else 0) := by
  intro c
  obtain ⟨b, hb⟩ : ∃ b : Fin M → Fin n → ℝ, b = fun m k => ∑ j, c (m, j) * F m j k := ⟨_, rfl⟩
  have hV : ∑ i : Fin M × Fin d, ∑ j : Fin M × Fin d, c i * c j *
      (if i.1 = j.1 then (∑ t, s t ^ 2) * ∑ k, F i.1 i.2 k * F i.1 j.2 k else 0) =
      ∑ tq : Fin T × Fin M × Fin n, (s tq.1 * b tq.2.1 tq.2.2) ^ 2 := by
    have h1 : ∑ tq : Fin T × Fin M × Fin n, (s tq.1 * b tq.2.1 tq.2.2) ^ 2 =
        (∑ t, s t ^ 2) * ∑ m, ∑ k, b m k ^ 2 := by
      rw [Fintype.sum_prod_type, Finset.sum_mul]
      refine Finset.sum_congr rfl fun t _ => ?_
      rw [Fintype.sum_prod_type, Finset.mul_sum]
      refine Finset.sum_congr rfl fun m _ => ?_
      rw [Finset.mul_sum]
      exact Finset.sum_congr rfl fun k _ => by ring
    rw [h1, Fintype.sum_prod_type, Finset.mul_sum]
    refine Finset.sum_congr rfl fun m _ => ?_
    have h2 : ∀ j : Fin d, ∑ q : Fin M × Fin d, c (m, j) * c q *
        (if (m, j).1 = q.1 then (∑ t, s t ^ 2) * ∑ k, F (m, j).1 (m, j).2 k * F (m, j).1 q.2 k else 0) =
        ∑ j', c (m, j) * c (m, j') * ((∑ t, s t ^ 2) * ∑ k, F m j k * F m j' k) := by
      intro j
      rw [Fintype.sum_prod_type, Finset.sum_eq_single m]
      · simp
      · intro m' _ hm
        refine Finset.sum_eq_zero fun j' _ => ?_
        rw [if_neg (fun h => hm h.symm), mul_zero]
      · simp
    rw [Finset.sum_congr rfl fun j _ => h2 j]
    have h3 : ∀ k, b m k ^ 2 = ∑ j, ∑ j', c (m, j) * c (m, j') * (F m j k * F m j' k) := by
      intro k
      rw [hb, sq, Finset.sum_mul_sum]
      exact Finset.sum_congr rfl fun j _ => Finset.sum_congr rfl fun j' _ => by ring
    have h4 : ∑ k, b m k ^ 2 = ∑ j, ∑ j', ∑ k, c (m, j) * c (m, j') * (F m j k * F m j' k) := by
      rw [Finset.sum_congr rfl fun k _ => h3 k, Finset.sum_comm]
      exact Finset.sum_congr rfl fun j _ => Finset.sum_comm
    rw [h4, Finset.mul_sum]
    refine Finset.sum_congr rfl fun j _ => ?_
    rw [Finset.mul_sum]
    refine Finset.sum_congr rfl fun j' _ => ?_
    rw [← Finset.mul_sum]; ring
  constructor
  · rw [hV]; exact Finset.sum_nonneg fun _ _ => sq_nonneg _
  · have hX : (fun v : Fin T × Fin N → ℝ => ∑ mj : Fin M × Fin d, c mj *
        (x mj + ∑ k, F mj.1 mj.2 k * ∑ t, s t * v (t, e (mj.1, k)))) =
        fun v => (∑ mj, c mj * x mj) + ∑ tq : Fin T × Fin M × Fin n,
          (s tq.1 * b tq.2.1 tq.2.2) * v (tq.1, e tq.2) := by
      funext v
      simp only [mul_add, Finset.sum_add_distrib]
      congr 1
      have hl : ∀ m j, c (m, j) * ∑ k, F m j k * ∑ t, s t * v (t, e (m, k)) =
          ∑ t, ∑ k, s t * (c (m, j) * F m j k) * v (t, e (m, k)) := by
        intro m j
        rw [Finset.sum_comm, Finset.mul_sum]
        refine Finset.sum_congr rfl fun k _ => ?_
        rw [Finset.mul_sum, Finset.mul_sum]
        exact Finset.sum_congr rfl fun t _ => by ring
      have hr : ∀ t m, ∑ k, s t * b m k * v (t, e (m, k)) =
          ∑ j, ∑ k, s t * (c (m, j) * F m j k) * v (t, e (m, k)) := by
        intro t m
        rw [Finset.sum_comm]
        refine Finset.sum_congr rfl fun k _ => ?_
        rw [hb, Finset.mul_sum, Finset.sum_mul]
      calc _ = ∑ m, ∑ j, ∑ t, ∑ k, s t * (c (m, j) * F m j k) * v (t, e (m, k)) := by
            rw [Fintype.sum_prod_type]
            exact Finset.sum_congr rfl fun m _ => Finset.sum_congr rfl fun j _ => hl m j
        _ = ∑ m, ∑ t, ∑ j, ∑ k, s t * (c (m, j) * F m j k) * v (t, e (m, k)) :=
            Finset.sum_congr rfl fun m _ => Finset.sum_comm
        _ = ∑ t, ∑ m, ∑ j, ∑ k, s t * (c (m, j) * F m j k) * v (t, e (m, k)) := Finset.sum_comm
        _ = _ := by
            rw [Fintype.sum_prod_type]
            refine Finset.sum_congr rfl fun t _ => ?_
            rw [Fintype.sum_prod_type]
            exact Finset.sum_congr rfl fun m _ => (hr t m).symm
    have hinj : Function.Injective fun tq : Fin T × Fin M × Fin n => (tq.1, e tq.2) := by
      rintro ⟨t, q⟩ ⟨t', q'⟩ h
      simp only [Prod.mk.injEq] at h
      rw [h.1, he h.2]
    have hpre := normals_precomp _ hinj
    have hlin := normals_linear fun tq : Fin T × Fin M × Fin n => s tq.1 * b tq.2.1 tq.2.2
    have hm1 : Measurable fun (v : Fin T × Fin N → ℝ) (tq : Fin T × Fin M × Fin n) => v (tq.1, e tq.2) := by
      fun_prop
    have hm2 : Measurable fun z : Fin T × Fin M × Fin n → ℝ =>
        ∑ tq, (s tq.1 * b tq.2.1 tq.2.2) * z tq := by fun_prop
    have hm3 : Measurable fun y : ℝ => (∑ mj, c mj * x mj) + y := by fun_prop
    rw [hV, hX]
    have := congrArg (Measure.map fun y : ℝ => (∑ mj, c mj * x mj) + y) hlin
    rw [← hpre, Measure.map_map hm2 hm1, Measure.map_map hm3 (hm2.comp hm1), gaussianReal_map_const_add,
      zero_add] at this
    exact this

theorem list_range_sum (n : Nat) (f : Nat → ℝ) : ((List.range n).map f).sum = ∑ k : Fin n, f k := by
  induction n with
  | zero => simp
  | succ n ih => rw [List.range_succ, List.map_append, List.sum_append, ih, Fin.sum_univ_castSucc]; simp

/-- The covariance of one unit step of a particle: `est_update_covariance` of this particle alone, put at the walk
parameters `w`. -/
noncomputable def stepCov (g : GRw ℝ) (w : List Nat) (mp : Nat → ℝ) (p q : Nat) : ℝ :=
  ∑ i : Fin w.length, ∑ j : Fin w.length, if w[i] = p ∧ w[j] = q then grwCov g 1 (fun _ => mp) i j else 0

/-- The law of all parameters of a cloud after a run. -/
theorem grwRun_normal (nUnd : Nat) (idxs : RwIdxs) (cov : RwCov ℝ) (g : GRw ℝ)
    (h : grwInit nUnd idxs cov = .ok g) (hneg : cov.extra g.nRw ≠ 0 → idxs.Plain nUnd) (nMps : Nat) :
    ∃ w : List Nat, idxs.resolve nUnd nUnd = .ok w ∧ w.length = g.nRw ∧ (∀ p ∈ w, p < nUnd) ∧
      ∀ (T : Nat) (s : Fin T → ℝ) (mps : Nat → Nat → ℝ),
        ∃ final : (Fin T × Fin (nMps * g.nRw) → ℝ) → Nat → Nat → ℝ,
          (∀ v, grwRun g nMps (List.ofFn fun t => (s t, variates v t)) mps = .ok (final v)) ∧
          (∀ v m p, p ∉ w → final v m p = mps m p) ∧
          (w.Nodup → ∀ d, Spec.JointlyNormal (normals (Fin T × Fin (nMps * g.nRw)))
            (fun v (mp : Fin nMps × Fin d) => final v mp.1 mp.2) (fun mp => mps mp.1 mp.2)
            (fun a b => if a.1 = b.1 then (∑ t, s t ^ 2) * stepCov g w (mps a.1) a.2 b.2 else 0)) := by
  obtain ⟨w, ι, hw, hlen, hlt, hι, hb, hrun⟩ := grwRun_spec nUnd idxs cov g h hneg nMps
  refine ⟨w, hw, hlen, hlt, fun T s mps => ?_⟩
  choose final hf1 hf2 hf3 using fun v : Fin T × Fin (nMps * g.nRw) → ℝ =>
    hrun (List.ofFn fun t => (s t, variates v t)) mps
  refine ⟨final, hf1, hf2, fun hnd d => ?_⟩
  obtain ⟨F, hF⟩ : ∃ F : Fin nMps → Fin d → Fin g.nRw → ℝ, F = fun (m : Fin nMps) (p : Fin d) (k : Fin g.nRw) =>
    ∑ j : Fin w.length, if w[j] = p then stepFactor g (mps m) j k else 0 := ⟨_, rfl⟩
  have he : Function.Injective fun mk : Fin nMps × Fin g.nRw =>
      (⟨ι mk.1 mk.2, hb _ _ mk.1.2 mk.2.2⟩ : Fin (nMps * g.nRw)) := by
    rintro ⟨m, k⟩ ⟨m', k'⟩ hh
    obtain ⟨h1, h2⟩ := hι m k m' k' m.2 m'.2 k.2 k'.2 (by simpa using hh)
    rw [Fin.ext h1, Fin.ext h2]
  have hN := walk_normal s F (fun mp => mps mp.1 mp.2) _ he
  have hX : (fun v (mp : Fin nMps × Fin d) => final v mp.1 mp.2) = fun v (mp : Fin nMps × Fin d) =>
      mps mp.1 mp.2 + ∑ k, F mp.1 mp.2 k * ∑ t, s t * v (t, ⟨ι mp.1 k, hb _ _ mp.1.2 k.2⟩) := by
    funext v mp
    obtain ⟨m, p⟩ := mp
    dsimp only
    by_cases hp : (p : Nat) ∈ w
    · obtain ⟨j, hj, hjp⟩ := List.getElem_of_mem hp
      rw [← hjp, hf3 v hnd m j hj]
      congr 1
      rw [list_range_sum]
      refine Finset.sum_congr rfl fun k _ => ?_
      have : F m p k = stepFactor g (mps m) j k := by
        rw [hF]
        dsimp only
        rw [Finset.sum_eq_single ⟨j, hj⟩]
        · simp [hjp]
        · intro i _ hi
          rw [if_neg]
          intro hc
          apply hi
          apply Fin.ext
          exact (List.Nodup.getElem_inj_iff hnd).1 (hc.trans hjp.symm)
        · simp
      rw [this]
      congr 1
      rw [List.map_ofFn, List.sum_ofFn]
      refine Finset.sum_congr rfl fun t _ => ?_
      simp only [Function.comp, variates, dif_pos (hb _ _ m.2 k.2)]
    · rw [hf2 v m p hp]
      have : ∀ k, F m p k = 0 := by
        intro k
        rw [hF]
        refine Finset.sum_eq_zero fun j _ => ?_
        rw [if_neg]
        intro hc
        exact hp (hc ▸ List.getElem_mem _)
      simp [this]
  have hC : ∀ a b : Fin nMps × Fin d, (∑ k, F a.1 a.2 k * F a.1 b.2 k) =
      stepCov g w (mps a.1) a.2 b.2 := by
    intro a b
    unfold stepCov
    have h1 : ∀ k, F a.1 a.2 k * F a.1 b.2 k = ∑ i : Fin w.length, ∑ j : Fin w.length,
        (if w[i] = a.2 ∧ w[j] = b.2 then stepFactor g (mps a.1) i k * stepFactor g (mps a.1) j k else 0) := by
      intro k
      rw [hF]
      dsimp only
      rw [Finset.sum_mul_sum]
      refine Finset.sum_congr rfl fun i _ => Finset.sum_congr rfl fun j _ => ?_
      by_cases h1 : w[i] = a.2
      · by_cases h2 : w[j] = b.2
        · rw [if_pos h1, if_pos h2, if_pos ⟨h1, h2⟩]
        · rw [if_neg h2, if_neg (c := w[i] = a.2 ∧ w[j] = b.2) fun hc => h2 hc.2, mul_zero]
      · rw [if_neg h1, if_neg (c := w[i] = a.2 ∧ w[j] = b.2) fun hc => h1 hc.1, zero_mul]
    rw [Finset.sum_congr rfl fun k _ => h1 k, Finset.sum_comm]
    refine Finset.sum_congr rfl fun i _ => ?_
    rw [Finset.sum_comm]
    refine Finset.sum_congr rfl fun j _ => ?_
    by_cases h1 : w[i] = a.2 ∧ w[j] = b.2
    · simp only [if_pos h1]
      have := C46_update_covariance g.nUnd g.nRw g.idxs g.cov 1 one_pos (fun _ => mps a.1) i j
        (hlen ▸ i.2) (hlen ▸ j.2)
      dsimp only at this
      refine Eq.trans ?_ this.symm
      rw [← list_range_sum g.nRw fun k => stepFactor g (mps a.1) i k * stepFactor g (mps a.1) j k]
      simp
    · simp only [if_neg h1, Finset.sum_const_zero]
  rw [hX]
  simpa only [hC] using hN

end QInfer
