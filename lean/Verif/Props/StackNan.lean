import Verif.Props.Stack

/-!
# C124: NaN in nested models
-/

namespace QInfer
namespace Nest

variable {V : Type}

/-- **C124, NaN.**  A `PoisonedModel` with `n_samples + 2 hedge < -1` (a hedge that is too negative) answers NaN wherever the wrapped model's
likelihood is strictly between 0 and 1.  Whatever is poisoned, amplified or walks around it answers NaN too, with every noise and power; a
`BinomialModel` around it raises `AssertionError` for every count. -/
theorem C124_nan (count : V → Nat) (u : Stack V) (n hedge : ℝ) (hneg : n + 2 * hedge < -1) (z : Outc → List ℝ → Exp V → ℝ)
    (o : Outc) (row : List ℝ) (e : Exp V) (l : ℝ) (hl : u.like count o row e = .ok (some l)) (h0 : 0 < l) (h1 : l < 1) :
    let s := Stack.wrap (.poisoned (.mle (some n) hedge) z) u
    s.like count o row e = .ok none ∧
    (∀ mode z', (Stack.wrap (.poisoned mode z') s).like count o row e = .ok none) ∧
    (∀ γ, (Stack.wrap (.mle γ) s).like count o row e = .ok none) ∧
    (Stack.wrap .randomWalk s).like count o row e = .ok none ∧
    (∀ row' k, row'.take s.nParams = row → (Stack.wrap (.gaussianRW k) s).like count o row' e = .ok none) ∧
    (o = .int 1 → ∀ E, Spec.Fits (Stack.wrap .binomial s).tree.dtype E → unwrapExp s.tree.dtype E = .ok e →
      ∀ k : ℤ, (Stack.wrap .binomial s).like count (.int k) row E = .error .assertionError) := by
  intro s
  have hs : s.like count o row e = .ok none := by
    simp only [s, Stack.like, hl, bind, Except.bind, (C45_degenerate n hedge (z o row e) l h0 h1).2 hneg, Flt.toOption]
  refine ⟨hs, fun mode z' => ?_, fun γ => ?_, hs, fun row' k hr => ?_, fun ho E hE hun k => ?_⟩
  · rw [Stack.like, hs]
    rfl
  · rw [Stack.like, hs]
    rfl
  · rw [Stack.like, hr]
    exact hs
  · obtain ⟨m, hm⟩ := fits_count_n_meas _ E hE
    subst ho
    rw [Stack.like, hun]
    simp only [bind, Except.bind, hs, hm]

/-- Case for C124: an even coin, hedged by `-1` without samples, and three flips of it. -/
example : let s : Stack ℕ := .wrap (.poisoned (.mle (some 0) (-1)) fun _ _ _ => 3) (.base ⟨2, .scalar "float"⟩ 1 fun _ _ _ => 1 / 2)
    s.like id (.int 1) [1] (.scalar 5) = .ok none ∧
    (Stack.wrap .binomial s).like id (.int 2) [1] (.record [("x", 5), ("n_meas", 3)]) = .error .assertionError := by
  intro s
  have h := C124_nan id (.base ⟨2, .scalar "float"⟩ 1 fun _ _ _ => 1 / 2) 0 (-1) (by norm_num) (fun _ _ _ => 3) (.int 1) [1]
    (.scalar (5 : ℕ)) (1 / 2) rfl (by norm_num) (by norm_num)
  exact ⟨h.1, h.2.2.2.2.2 rfl (.record [("x", 5), ("n_meas", 3)]) (by simp [Spec.Fits, Stack.tree, Layer.wrap, Tree.dtype, countDtype]) rfl 2⟩

end Nest
end QInfer
