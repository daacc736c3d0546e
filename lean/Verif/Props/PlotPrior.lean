import Verif.Props.Plot

/-!
# C119: plots of priors
-/

namespace QInfer

/-- **C119, prior plots.**  `plot_rebit_prior` succeeds with or without a true state; it marks every sample, the true
states and the mean, if there is one, at their expectation values on the two axes, and draws the unit circle last. -/
theorem C119_prior {d n : Nat} (basis : TomoBasis) (hlab : basis.labels.length = d) (x : Fin n → Fin d → ℝ)
    (truth : Option (Fin d → ℝ)) (mean : Option (Fin d → ℝ)) (a b : Fin d) :
    ∃ la lb, basis.labels[(a : Nat)]? = some la ∧ basis.labels[(b : Nat)]? = some lb ∧
    plotRebitPrior d basis (List.ofFn fun i => List.ofFn (x i)) (truth.map fun t => [List.ofFn t])
        (mean.map fun m => .ok (List.ofFn m)) (a, b) =
      ([Artist.marks "Prior" (List.ofFn fun i => ![x i a * √2, x i b * √2])] ++
        (truth.toList.map fun t => .marks "True" [![t a * √2, t b * √2]]) ++
        (mean.toList.map fun m => .marks "Mean" [![m a * √2, m b * √2]]) ++
        [.axisLabels ("$\\langle\\!\\langle " ++ la ++ " | \\rho \\rangle\\!\\rangle$")
          ("$\\langle\\!\\langle " ++ lb ++ " | \\rho \\rangle\\!\\rangle$"), .circle (fun _ => 0) 1], .ok ()) := by
  have la : (a : Nat) < basis.labels.length := by omega
  have lb : (b : Nat) < basis.labels.length := by omega
  refine ⟨basis.labels[(a : Nat)], basis.labels[(b : Nat)], List.getElem?_eq_getElem la, List.getElem?_eq_getElem lb, ?_⟩
  have h1 := plot_marks "Prior" x a b
  have h2 : ∀ (label : String) (t : Fin d → ℝ), plotRebitModelparams label d (some [List.ofFn t]) (a, b) =
      .ok [.marks label [Spec.onAxes t a b]] := by
    intro label t
    have := plot_marks (n := 1) label (fun _ => t) a b
    simpa only [List.ofFn_succ, List.ofFn_zero] using this
  have hdec : plotDecorateRebits (some basis) (a, b) = .ok [.axisLabels
      ("$\\langle\\!\\langle " ++ basis.labels[(a : Nat)] ++ " | \\rho \\rangle\\!\\rangle$")
      ("$\\langle\\!\\langle " ++ basis.labels[(b : Nat)] ++ " | \\rho \\rangle\\!\\rangle$"), .circle (fun _ => 0) 1] := by
    simp only [plotDecorateRebits, List.getElem?_eq_getElem la, List.getElem?_eq_getElem lb]
  unfold plotRebitPrior
  rw [h1, hdec]
  cases truth with
  | none =>
    cases mean with
    | none => simp [drawSteps, plotMeanMark, Spec.onAxes]
    | some m => simp [drawSteps, plotMeanMark, h2, Spec.onAxes]
  | some t =>
    cases mean with
    | none => simp [drawSteps, plotMeanMark, h2, Spec.onAxes]
    | some m => simp [drawSteps, plotMeanMark, h2, Spec.onAxes]

/-- Case: two samples with the Pauli basis, on the axes X and Z, without a true state. -/
example : ∃ t, pauliBasis 1 = .ok t ∧ ∃ rest,
    plotRebitPrior 4 t (List.ofFn fun i => List.ofFn (![![1 / √2, 1 / √2, 0, 0], ![1 / √2, 0, 0, 1 / √2]] i)) none none
      (1, 3) = (Artist.marks "Prior" [![1, 0], ![0, 1]] :: rest, .ok ()) := by
  obtain ⟨t, h1, -, -, -, -, h6⟩ := C40_pauli 1 one_pos
  obtain ⟨h6, -⟩ := h6 rfl
  obtain ⟨la, lb, -, -, h⟩ := C119_prior t (by simp [h6] : t.labels.length = 4)
    ![![1 / √2, 1 / √2, 0, 0], ![1 / √2, 0, 0, 1 / √2]] none none 1 3
  refine ⟨t, h1, [.axisLabels ("$\\langle\\!\\langle " ++ la ++ " | \\rho \\rangle\\!\\rangle$")
    ("$\\langle\\!\\langle " ++ lb ++ " | \\rho \\rangle\\!\\rangle$"), .circle (fun _ => 0) 1], h.trans ?_⟩
  have h2 : √2 ≠ 0 := by positivity
  simp [h2]

end QInfer
