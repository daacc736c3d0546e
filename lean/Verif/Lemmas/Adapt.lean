import Verif.Spec.Adapt
import Verif.Props.SimpleEst
import Mathlib.Algebra.BigOperators.Fin
import Mathlib.Data.List.GetD

/-! # Lemmas about adaptive runs -/

namespace QInfer

variable {K : Type} {O E ω : Type}

section
variable [Field K] [LinearOrder K] [IsStrictOrderedRing K]

theorem adapt_feed (cfg : SmcConfig K) (env : Env K O E ω) (heur : Smc K O ω → E) (os : List O)
    (s : Smc K O ω) :
    feed cfg env true (adapt cfg env heur os s).1 s = (adapt cfg env heur os s).2 := by
  induction os generalizing s with
  | nil => rfl
  | cons o os ih =>
    rcases h : update cfg env s o (heur s) true with ⟨s', err | ⟨⟨⟩⟩⟩
    · simp only [adapt, h, feed]
    · simp only [adapt, h, feed, ih]

theorem adapt_outcomes (cfg : SmcConfig K) (env : Env K O E ω) (heur : Smc K O ω → E) (os : List O)
    (s : Smc K O ω) (hok : (adapt cfg env heur os s).2.2 = .ok ()) :
    (adapt cfg env heur os s).1.map Prod.fst = os := by
  induction os generalizing s with
  | nil => rfl
  | cons o os ih =>
    rcases h : update cfg env s o (heur s) true with ⟨s', err | ⟨⟨⟩⟩⟩
    · simp [adapt, h] at hok
    · simp only [adapt, h] at hok
      simp only [adapt, h, List.map_cons, ih s' hok]

/-- The sum over a zipped list by position. -/
theorem zip_map_sum {α β : Type} (f : α → β → K) (a : List α) (b : List β) (da : α) (db : β)
    (h : b.length = a.length) :
    ((a.zip b).map fun p => f p.1 p.2).sum =
      ∑ i ∈ Finset.range a.length, f (a.getD i da) (b.getD i db) := by
  induction a generalizing b with
  | nil => simp
  | cons x a ih =>
    cases b with
    | nil => simp at h
    | cons y b =>
      rw [List.zip_cons_cons, List.map_cons, List.sum_cons, ih b (by simpa using h),
        List.length_cons, Finset.sum_range_succ']
      simp [add_comm]

theorem dataEvidence_range (like : O → List K → E → K) (w : List K) (locs : List (List K))
    (h : locs.length = w.length) (ds : List (O × E)) :
    dataEvidence like w locs ds =
      ∑ i ∈ Finset.range w.length, w.getD i 0 * dataLike like ds (locs.getD i []) :=
  zip_map_sum (fun a b => a * dataLike like ds b) w locs 0 [] h

theorem dataPosterior_getD (like : O → List K → E → K) (w : List K) (locs : List (List K))
    (h : locs.length = w.length) (ds : List (O × E)) (i : Nat) :
    (dataPosterior like w locs ds).getD i 0 =
      w.getD i 0 * dataLike like ds (locs.getD i []) / dataEvidence like w locs ds := by
  rcases lt_or_ge i w.length with hi | hi
  · have h1 : i < (w.zip locs).length := by simp [h, hi]
    unfold dataPosterior
    rw [List.getD_eq_getElem?_getD, List.getElem?_map, List.getElem?_eq_getElem h1]
    simp [hi, h, List.getElem_zip]
  · rw [List.getD_eq_default _ _ (by simp [dataPosterior, h, hi]), List.getD_eq_default _ _ hi]
    simp

/-- The state at the end of an undisturbed run. -/
theorem undisturbed_state (cfg : SmcConfig K) (env : Env K O E ω) (hg : GoodEnv env)
    (hst : Static env) (hp : cfg.policy = "error") (ht : eps ≤ cfg.zeroThresh)
    (ht1 : cfg.zeroThresh < 1) (heur : Smc K O ω → E) (os : List O) (s : Smc K O ω) (hs : WInv s)
    (h : Undisturbed cfg env heur os s) :
    WInv (adapt cfg env heur os s).2.1 ∧ (adapt cfg env heur os s).2.1.locs = s.locs ∧
    (adapt cfg env heur os s).2.1.weights =
      dataPosterior env.likelihood s.weights s.locs (adapt cfg env heur os s).1 := by
  have hf := adapt_feed cfg env heur os s
  obtain ⟨h1, -, h2⟩ := feed_checked cfg env hg hst hp ht ht1 (adapt cfg env heur os s).1 s hs
    (by rw [hf]; exact h.1)
  rw [hf] at h1 h2
  obtain ⟨h3, h4⟩ := h2 h.2
  exact ⟨h1, h4, h3⟩

/-- The evidence of the data of an undisturbed run is not zero. -/
theorem undisturbed_evidence (cfg : SmcConfig K) (env : Env K O E ω) (hg : GoodEnv env)
    (hst : Static env) (hp : cfg.policy = "error") (ht : eps ≤ cfg.zeroThresh)
    (ht1 : cfg.zeroThresh < 1) (heur : Smc K O ω → E) (os : List O) (s : Smc K O ω) (hs : WInv s)
    (h : Undisturbed cfg env heur os s) :
    0 < dataEvidence env.likelihood s.weights s.locs (adapt cfg env heur os s).1 := by
  obtain ⟨h1, -, h3⟩ := undisturbed_state cfg env hg hst hp ht ht1 heur os s hs h
  have h0 : 0 ≤ dataEvidence env.likelihood s.weights s.locs (adapt cfg env heur os s).1 := by
    refine List.sum_nonneg fun x hx => ?_
    obtain ⟨p, hp, rfl⟩ := List.mem_map.1 hx
    refine mul_nonneg (hs.1.1 _ (List.of_mem_zip hp).1) (List.prod_nonneg fun y hy => ?_)
    obtain ⟨d, -, rfl⟩ := List.mem_map.1 hy
    exact hg.like_nonneg _ _ _
  refine lt_of_le_of_ne h0 fun h => ?_
  have := h1.1.2
  rw [h3] at this
  unfold dataPosterior at this
  rw [← h] at this
  simp at this

theorem sum_fin_succ {M : Type*} [AddCommMonoid M] [Fintype O] (n : Nat) (f : List O → M) :
    ∑ v : Fin (n + 1) → O, f (List.ofFn v) = ∑ o : O, ∑ v : Fin n → O, f (o :: List.ofFn v) := by
  rw [← Fintype.sum_prod_type', ← Fintype.sum_equiv (Fin.consEquiv fun _ => O)
    (fun p => f (p.1 :: List.ofFn p.2)) _ fun p => ?_]
  simp [Fin.consEquiv, List.ofFn_succ]

end

end QInfer
