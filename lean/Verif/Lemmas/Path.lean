import Verif.Spec.Path
import Verif.Lemmas.SmcHistory
import Mathlib.Algebra.BigOperators.Fin
import Mathlib.Algebra.BigOperators.Field

/-! # Updates of a model whose parameters drift -/

namespace QInfer

open Spec

variable {K : Type*} {O E ω : Type*} [Field K]

theorem zip_ofFn {α β : Type*} {n : Nat} (f : Fin n → α) (g : Fin n → β) :
    (List.ofFn f).zip (List.ofFn g) = List.ofFn fun i => (f i, g i) := by
  apply List.ext_getElem <;> simp

theorem pathLike_nonneg [LinearOrder K] [IsStrictOrderedRing K] (like : O → List K → E → K)
    (h : ∀ o x e, 0 ≤ like o x e) (ds : List (O × E)) (p : Nat → List K) :
    0 ≤ pathLike like ds p := by
  induction ds generalizing p with
  | nil => exact zero_le_one
  | cons d ds ih => exact mul_nonneg (h _ _ _) (ih _)

theorem pathLike_append (like : O → List K → E → K) (ds es : List (O × E)) (p : Nat → List K) :
    pathLike like (ds ++ es) p = pathLike like ds p * pathLike like es fun t => p (ds.length + t) := by
  induction ds generalizing p with
  | nil => simp [pathLike]
  | cons d ds ih =>
    rw [List.cons_append, pathLike, pathLike, ih, mul_assoc]
    simp only [List.length_cons]
    congr 3
    funext t
    congr 1
    omega

variable [LinearOrder K] [IsStrictOrderedRing K]

theorem evidence_ofFn {n : Nat} (like : O → List K → E → K) (w : Fin n → K) (x : Fin n → List K)
    (o : O) (e : E) :
    evidence like (List.ofFn w) (List.ofFn x) o e = ∑ i, w i * like o (x i) e := by
  rw [evidence, zip_ofFn, List.map_ofFn, List.sum_ofFn]
  rfl

theorem posterior_ofFn {n : Nat} (like : O → List K → E → K) (w : Fin n → K) (x : Fin n → List K)
    (o : O) (e : E) :
    posterior like (List.ofFn w) (List.ofFn x) o e =
      List.ofFn fun i => w i * like o (x i) e / ∑ j, w j * like o (x j) e := by
  rw [posterior, zip_ofFn, List.map_ofFn, evidence_ofFn]
  rfl

theorem nEss_nonneg (w : List K) : (0 : WithTop K) ≤ nEss w := by
  unfold nEss recip
  split
  · exact le_top
  · rw [← WithTop.coe_zero, WithTop.coe_le_coe]
    apply div_nonneg zero_le_one
    apply List.sum_nonneg
    intro x hx
    obtain ⟨y, -, rfl⟩ := List.mem_map.1 hx
    positivity

/-- With resampling off a check changes nothing but the warnings. -/
theorem maybeResample_off (cfg : SmcConfig K) (env : Env K O E ω) (s : Smc K O ω)
    (h : cfg.resampleThresh ≤ 0) :
    (maybeResample cfg env s).2 = .ok () ∧ (maybeResample cfg env s).1.weights = s.weights ∧
    (maybeResample cfg env s).1.locs = s.locs ∧ (maybeResample cfg env s).1.seed = s.seed ∧
    (maybeResample cfg env s).1.normRecord = s.normRecord := by
  have hn : ∀ n : Nat, ¬ nEss s.weights < (((n : K) * cfg.resampleThresh : K) : WithTop K) := by
    intro n
    rw [not_lt]
    refine le_trans ?_ (nEss_nonneg s.weights)
    rw [← WithTop.coe_zero, WithTop.coe_le_coe]
    exact mul_nonpos_of_nonneg_of_nonpos (Nat.cast_nonneg n) h
  unfold maybeResample
  dsimp only
  rw [if_neg (hn _)]
  refine ⟨rfl, ?_⟩
  dsimp only
  split <;> exact ⟨rfl, rfl, rfl, rfl⟩

/-- One update without resampling, for evidence above machine precision. -/
theorem update_plain (cfg : SmcConfig K) (env : Env K O E ω) (check : Bool)
    (hc : check = false ∨ cfg.resampleThresh ≤ 0) (s : Smc K O ω) (o : O) (e : E)
    (hlen : s.locs.length = s.weights.length) (hw : ∀ x ∈ s.weights, 0 ≤ x)
    (hL : ∀ x, 0 ≤ env.likelihood o x e) (hp : cfg.policy = "error") (ht1 : cfg.zeroThresh < 1)
    (hev : eps ≤ evidence env.likelihood s.weights s.locs o e) :
    let r := update cfg env s o e check
    r.2 = .ok () ∧ r.1.weights = posterior env.likelihood s.weights s.locs o e ∧
    r.1.locs = (env.timestep s.seed s.locs e).1 ∧ r.1.seed = (env.timestep s.seed s.locs e).2 ∧
    r.1.normRecord = s.normRecord ++ [evidence env.likelihood s.weights s.locs o e] := by
  obtain ⟨h1, h2, h3, h4, h5, -⟩ := datum_normal cfg env s o e hlen hw hL ht1 hev
  cases check with
  | false => exact ⟨h1, h2, h3, h4, h5⟩
  | true =>
    have hoff := hc.resolve_left (by simp)
    rcases update_split cfg env s o e with ⟨hu, -⟩ | ⟨-, hu⟩
    · obtain ⟨m1, m2, m3, m4, m5⟩ := maybeResample_off cfg env (update cfg env s o e false).1 hoff
      simp only [hu]
      exact ⟨m1, m2.trans h2, m3.trans h3, m4.trans h4, m5.trans h5⟩
    · rcases hu with hu | hu
      · rw [hp] at hu; exact absurd hu (by decide)
      · exact absurd h1 hu

/-- A tiny evidence is an error. -/
theorem update_refused (cfg : SmcConfig K) (env : Env K O E ω) (hg : GoodEnv env) (check : Bool)
    (s : Smc K O ω) (o : O) (e : E)
    (hlen : s.locs.length = s.weights.length) (hw : ∀ x ∈ s.weights, 0 ≤ x)
    (hp : cfg.policy = "error") (ht : eps ≤ cfg.zeroThresh)
    (hev : evidence env.likelihood s.weights s.locs o e < eps) :
    (update cfg env s o e check).2 ≠ .ok () := by
  have h0 : (update cfg env s o e false).2 ≠ .ok () := fun hok =>
    absurd (datum_error_ok cfg env hg hp ht s hlen hw o e hok) (not_le.2 hev)
  cases check with
  | false => exact h0
  | true =>
    rcases update_split cfg env s o e with ⟨-, hu⟩ | ⟨hu, -⟩
    · exact absurd hu h0
    · rw [hu]; exact h0

/-- Feeding data to a drifting model without resampling: the run is accepted exactly when every
datum keeps its share of probability above machine precision, and then the weights are the posterior
of the paths. -/
theorem feed_paths {n : Nat} (cfg : SmcConfig K) (env : Env K O E ω) (hg : GoodEnv env) (check : Bool)
    (hc : check = false ∨ cfg.resampleThresh ≤ 0)
    (hp : cfg.policy = "error") (ht : eps ≤ cfg.zeroThresh) (ht1 : cfg.zeroThresh < 1)
    (ds : List (O × E)) (w : Fin n → K) (p : Fin n → Nat → List K)
    (hw : ∀ i, 0 ≤ w i) (hs1 : ∑ i, w i = 1) (s : Smc K O ω) (hsw : s.weights = List.ofFn w)
    (hsl : s.locs = List.ofFn fun i => p i 0) (hm : Moves env ds s.seed p) :
    ((feed cfg env check ds s).2 = .ok () ↔ ∀ t < ds.length,
      eps * (∑ i, w i * pathLike env.likelihood (ds.take t) (p i)) ≤
        ∑ i, w i * pathLike env.likelihood (ds.take (t + 1)) (p i)) ∧
    ((feed cfg env check ds s).2 = .ok () →
      (feed cfg env check ds s).1.weights = List.ofFn (fun i => w i * pathLike env.likelihood ds (p i) /
          ∑ j, w j * pathLike env.likelihood ds (p j)) ∧
      (feed cfg env check ds s).1.locs = List.ofFn (fun i => p i ds.length) ∧
      0 < ∑ j, w j * pathLike env.likelihood ds (p j) ∧
      ∃ ns : List K, (feed cfg env check ds s).1.normRecord = s.normRecord ++ ns ∧
        ns.length = ds.length ∧ (∀ x ∈ ns, eps ≤ x) ∧
        ns.prod = ∑ i, w i * pathLike env.likelihood ds (p i)) := by
  induction ds generalizing w p s with
  | nil =>
    refine ⟨by simp [feed], fun _ => ⟨?_, ?_, ?_, [], ?_⟩⟩
    · simp [feed, hsw, pathLike, hs1]
    · simp [feed, hsl]
    · simp [pathLike, hs1]
    · simp [feed, pathLike, hs1]
  | cons d ds ih =>
    have hlen : s.locs.length = s.weights.length := by rw [hsw, hsl]; simp
    have hwn : ∀ x ∈ s.weights, 0 ≤ x := by
      intro x hx
      rw [hsw, List.mem_ofFn] at hx
      obtain ⟨i, rfl⟩ := hx
      exact hw i
    have hL : ∀ x, 0 ≤ env.likelihood d.1 x d.2 := fun x => hg.like_nonneg _ _ _
    set Z := ∑ i, w i * env.likelihood d.1 (p i 0) d.2 with hZ
    have hevZ : evidence env.likelihood s.weights s.locs d.1 d.2 = Z := by
      rw [hsw, hsl, evidence_ofFn]
    have hZ0 : 0 ≤ Z := Finset.sum_nonneg fun i _ => mul_nonneg (hw i) (hL _)
    by_cases hev : eps ≤ Z
    · have hZpos : 0 < Z := lt_of_lt_of_le eps_pos hev
      obtain ⟨u1, u2, u3, u4, u5⟩ := update_plain cfg env check hc s d.1 d.2 hlen hwn hL hp ht1
        (by rw [hevZ]; exact hev)
      rcases heq : update cfg env s d.1 d.2 check with ⟨t, err | ⟨⟨⟩⟩⟩
      · rw [heq] at u1; cases u1
      rw [heq] at u2 u3 u4 u5
      simp only at u2 u3 u4 u5
      have hfeed : feed cfg env check (d :: ds) s = feed cfg env check ds t := by
        simp [feed, heq]
      obtain ⟨hm1, hm2⟩ := hm
      have hw' : ∀ i, 0 ≤ w i * env.likelihood d.1 (p i 0) d.2 / Z := fun i =>
        div_nonneg (mul_nonneg (hw i) (hL _)) hZ0
      have hs' : ∑ i, w i * env.likelihood d.1 (p i 0) d.2 / Z = 1 := by
        rw [← Finset.sum_div]; exact div_self hZpos.ne'
      have htw : t.weights = List.ofFn fun i => w i * env.likelihood d.1 (p i 0) d.2 / Z := by
        rw [u2, hsw, hsl, posterior_ofFn]
      have htl : t.locs = List.ofFn fun i => p i (0 + 1) := by
        rw [u3, hsl]; exact hm1
      have hts : Moves env ds t.seed fun i t => p i (t + 1) := by
        rw [u4, hsl]; exact hm2
      have key : ∀ es : List (O × E), ∑ i, w i * env.likelihood d.1 (p i 0) d.2 / Z *
          pathLike env.likelihood es (fun t => p i (t + 1)) =
          (∑ i, w i * pathLike env.likelihood (d :: es) (p i)) / Z := by
        intro es
        rw [Finset.sum_div]
        refine Finset.sum_congr rfl fun i _ => ?_
        rw [pathLike]; ring
      obtain ⟨i1, i2⟩ := ih _ (fun i t => p i (t + 1)) hw' hs' t htw htl hts
      rw [hfeed]
      constructor
      · rw [i1]
        constructor
        · intro h t ht
          cases t with
          | zero =>
            simp only [List.take_zero, List.take_succ_cons, pathLike, mul_one, hs1]
            exact hev
          | succ t =>
            have := h t (by simpa using ht)
            rw [key, key] at this
            rw [List.take_succ_cons, List.take_succ_cons]
            rwa [← mul_div_assoc, div_le_div_iff_of_pos_right hZpos] at this
        · intro h t ht
          have := h (t + 1) (by simpa using ht)
          rw [List.take_succ_cons, List.take_succ_cons] at this
          rw [key, key, ← mul_div_assoc, div_le_div_iff_of_pos_right hZpos]
          exact this
      · intro hok
        obtain ⟨j1, j2, j3, ns, j4, j5, j6, j7⟩ := i2 hok
        rw [key] at j3 j7
        refine ⟨?_, ?_, ?_, Z :: ns, ?_, by simp [j5], ?_, ?_⟩
        · rw [j1]
          congr 1
          funext i
          rw [key, pathLike]
          have h1 := (div_pos_iff_of_pos_right hZpos).1 j3
          have h2 := h1.ne'
          have h3 := hZpos.ne'
          generalize (∑ j, w j * pathLike env.likelihood (d :: ds) (p j)) = S at *
          field_simp
        · rw [j2]; rfl
        · exact (div_pos_iff_of_pos_right hZpos).1 j3
        · rw [j4, u5, hevZ]; simp
        · intro x hx
          rcases List.mem_cons.1 hx with rfl | hx
          · exact hev
          · exact j6 x hx
        · rw [List.prod_cons, j7, mul_div_cancel₀ _ hZpos.ne']
    · have hno := update_refused cfg env hg check s d.1 d.2 hlen hwn hp ht
        (by rw [hevZ]; exact not_le.1 hev)
      have hf : (feed cfg env check (d :: ds) s).2 ≠ .ok () := by
        rcases heq : update cfg env s d.1 d.2 check with ⟨t, err | ⟨⟨⟩⟩⟩
        · simp [feed, heq]
        · rw [heq] at hno; exact absurd rfl hno
      refine ⟨⟨fun h => absurd h hf, fun h => ?_⟩, fun h => absurd h hf⟩
      have := h 0 (by simp)
      simp only [List.take_zero, zero_add, List.take_succ_cons, pathLike, mul_one, hs1] at this
      exact absurd this hev

end QInfer
