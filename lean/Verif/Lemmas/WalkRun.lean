import Verif.Model.WalkRun
import Verif.Props.Walk

/-!
# Runs of random walks, variate by variate
-/

namespace QInfer

section
variable {K : Type} [Field K]

theorem stepFactor_congr (g : GRw K) (a b : Nat → K) (h : ∀ p, g.nUnd ≤ p → a p = b p) (j k : Nat) :
    stepFactor g a j k = stepFactor g b j k := by
  unfold stepFactor
  split
  · rfl
  · split
    · exact h _ (Nat.le_add_right _ _)
    · rfl
  · rfl
  · split
    · exact h _ (Nat.le_add_right _ _)
    · rfl

theorem list_sum_mul (l : List Nat) (f h : Nat → K) :
    (l.map fun k => f k + h k).sum = (l.map f).sum + (l.map h).sum := by
  induction l with
  | nil => simp
  | cons a l ih => simp only [List.map_cons, List.sum_cons, ih]; ring

/-- What a run does: the factor applied to the scaled sums of the variates. -/
theorem grwRun_spec (nUnd : Nat) (idxs : RwIdxs) (cov : RwCov K) (g : GRw K)
    (h : grwInit nUnd idxs cov = .ok g) (hneg : cov.extra g.nRw ≠ 0 → idxs.Plain nUnd) (nMps : Nat) :
    ∃ (w : List Nat) (ι : Nat → Nat → Nat),
      idxs.resolve nUnd nUnd = .ok w ∧ w.length = g.nRw ∧ (∀ p ∈ w, p < nUnd) ∧
      (∀ m k m' k', m < nMps → m' < nMps → k < g.nRw → k' < g.nRw → ι m k = ι m' k' → m = m' ∧ k = k') ∧
      (∀ m k, m < nMps → k < g.nRw → ι m k < nMps * g.nRw) ∧
      ∀ (l : List (K × (Nat → K))) (mps : Nat → Nat → K), ∃ r, grwRun g nMps l mps = .ok r ∧
        (∀ m p, p ∉ w → r m p = mps m p) ∧
        (w.Nodup → ∀ m j (hj : j < w.length), r m w[j] = mps m w[j] +
          ((List.range g.nRw).map fun k => stepFactor g (mps m) j k *
            (l.map fun sz => sz.1 * sz.2 (ι m k)).sum).sum) := by
  obtain ⟨w, ι, hw, hlen, hι, hb, hstep⟩ := C46_gaussian_walk_partial nUnd idxs cov g h hneg nMps 1
  obtain ⟨w', _, hw', -, hlt, -⟩ := C46_transformed_walk_partial nUnd idxs cov g h hneg nMps 1 id id
    (fun _ => 0) (fun _ => 0) (fun _ _ => 0)
  obtain rfl : w = w' := by rw [hw] at hw'; exact Except.ok.inj hw'
  obtain ⟨e1, -⟩ := grwInit_ok nUnd idxs cov g h
  refine ⟨w, fun m k => ι m k 0, hw, hlen, hlt, ?_, ?_, ?_⟩
  · intro m k m' k' hm hm' hk hk' he
    have := hι m k 0 m' k' 0 hm hm' hk hk' (by omega) (by omega) he
    exact ⟨this.1, this.2.1⟩
  · intro m k hm hk
    have := hb m k 0 hm hk (by omega)
    rwa [mul_one] at this
  · intro l
    induction l with
    | nil =>
      intro mps
      refine ⟨mps, rfl, fun _ _ _ => rfl, fun _ m j hj => ?_⟩
      simp
    | cons sz l ih =>
      intro mps
      obtain ⟨s, z⟩ := sz
      obtain ⟨r1, hr1, hr1n, hr1w⟩ := hstep (fun _ => s) z mps
      obtain ⟨r, hr, hrn, hrw⟩ := ih fun m p => r1 m p 0
      refine ⟨r, ?_, ?_, ?_⟩
      · rw [grwRun, hr1]; exact hr
      · intro m p hp
        rw [hrn m p hp, hr1n m p 0 hp]
      · intro hnd m j hj
        rw [hrw hnd m j hj, hr1w hnd m j 0 hj]
        have hF : ∀ k, stepFactor g (fun p => r1 m p 0) j k = stepFactor g (mps m) j k := fun k =>
          stepFactor_congr g _ _ (fun p hp => hr1n m p 0 fun hc => by
            have := hlt p hc; rw [e1] at hp; omega) j k
        simp only [hF, List.map_cons, List.sum_cons]
        rw [add_assoc]
        congr 1
        have : ∀ L : List Nat, s * (L.map fun k => stepFactor g (mps m) j k * z (ι m k 0)).sum =
            (L.map fun k => stepFactor g (mps m) j k * (s * z (ι m k 0))).sum := by
          intro L
          induction L with
          | nil => simp
          | cons a L ih => simp only [List.map_cons, List.sum_cons, mul_add, ih]; ring
        rw [this, ← list_sum_mul]
        refine congrArg List.sum (List.map_congr_left fun k _ => ?_)
        ring

end

end QInfer
