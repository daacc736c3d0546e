import Verif.Model.Region
import Verif.Props.Particle
import Verif.Props.Ellipsoid
import Verif.Props.Domain
import Mathlib.Analysis.Convex.Hull
import Mathlib.Analysis.Convex.Function

/-!
# C101: credible regions have at least the stated probability
-/

namespace QInfer

open Matrix
open scoped BigOperators

section
variable {d n : Nat}

/-- What SciPy promises of `ConvexHull`: indices of given points; the vertices span the hull of all of
them. -/
def Spec.IsHull (ch : List (Fin d → ℝ) → Except PyErr HullResult) : Prop :=
  ∀ pts h, ch pts = .ok h →
    (∀ i ∈ h.vertices, i < pts.length) ∧ (∀ s ∈ h.simplices, ∀ i ∈ s, i < pts.length) ∧
    convexHull ℝ {p | p ∈ pts} ⊆ convexHull ℝ {p | ∃ i ∈ h.vertices, pts[i]? = some p}

/-- What SciPy promises of `Delaunay` and `find_simplex`: the triangulation fills the convex hull. -/
def Spec.IsDelaunay {τ : Type} (delaunay : List (Fin d → ℝ) → Except PyErr τ)
    (find : τ → (Fin d → ℝ) → Int) : Prop :=
  ∀ pts t, delaunay pts = .ok t → ∀ p, 0 ≤ find t p ↔ p ∈ convexHull ℝ {q | q ∈ pts}

/-- Positions sorted by weight, heaviest first. -/
def Spec.HeaviestFirst (w : Fin n → ℝ) (idSort : List Nat) : Prop :=
  idSort.Perm (List.range n) ∧ (idSort.filterMap fun i => (List.ofFn w)[i]?).Pairwise (· ≥ ·)

/-- Weight of the particles accepted by a test. -/
noncomputable def Spec.covered (w : Fin n → ℝ) (x : Fin n → Fin d → ℝ) (S : Set (Fin d → ℝ)) : ℝ := by
  classical exact ∑ i, if x i ∈ S then w i else 0

theorem covered_gt (w : Fin n → ℝ) (x : Fin n → Fin d → ℝ) (h0 : ∀ i, 0 ≤ w i) (idSort : List Nat)
    (hs : Spec.HeaviestFirst w idSort) (level : ℝ) (hl0 : 0 ≤ level) (hl1 : level < ∑ i, w i) :
    ∃ inside outside, credRegion (List.ofFn w) (List.ofFn x) idSort level = .ok (inside, outside) ∧
      (∀ p ∈ inside, ∃ i, p = x i) ∧
      ∀ S : Set (Fin d → ℝ), (∀ p ∈ inside, p ∈ S) → level < Spec.covered w x S := by
  classical
  obtain ⟨I, J, inside, outside, h1, h2, h3, -, h5, -⟩ := C16_credible_region (List.ofFn w) (List.ofFn x)
    (by simp) (by simpa [List.mem_ofFn] using h0) idSort (by simpa using hs.1) hs.2 level hl0
    (by rw [List.sum_ofFn]; exact hl1)
  have hnd : I.Nodup := by
    have := h2.nodup_iff.2 List.nodup_range
    exact (List.nodup_append.1 this).1
  have hlt : ∀ i ∈ I, i < n := by
    intro i hi
    have := h2.mem_iff.1 (List.mem_append_left J hi)
    simpa using this
  have hin : ∀ i (hi : i ∈ I), x ⟨i, hlt i hi⟩ ∈ inside := by
    intro i hi
    have : some (x ⟨i, hlt i hi⟩) ∈ inside.map some := by
      rw [h3]
      refine List.mem_map.2 ⟨i, hi, ?_⟩
      simp [hlt i hi]
    simpa using this
  refine ⟨inside, outside, h1, ?_, ?_⟩
  · intro p hp
    have : some p ∈ I.map fun i => (List.ofFn x)[i]? := by
      rw [← h3]; exact List.mem_map_of_mem hp
    obtain ⟨i, hi, e⟩ := List.mem_map.1 this
    refine ⟨⟨i, hlt i hi⟩, ?_⟩
    simpa [hlt i hi] using e.symm
  · intro S hS
    refine lt_of_lt_of_le h5 ?_
    unfold Spec.covered
    have e1 : (I.map fun i => (List.ofFn w).getD i 0).sum =
        ∑ i ∈ Finset.univ.filter (fun i : Fin n => (i : Nat) ∈ I), w i := by
      rw [← List.sum_toFinset _ hnd]
      refine Finset.sum_bij' (fun i hi => (⟨i, hlt i (List.mem_toFinset.1 hi)⟩ : Fin n)) (fun i _ => (i : Nat))
        ?_ ?_ ?_ ?_ ?_
      · intro i hi; simpa using hi
      · intro i hi; simpa using hi
      · intro i hi; rfl
      · intro i hi; rfl
      · intro i hi
        have := hlt i (List.mem_toFinset.1 hi)
        simp [this]
    rw [e1, Finset.sum_filter]
    refine Finset.sum_le_sum fun i _ => ?_
    by_cases hi : (i : Nat) ∈ I
    · rw [if_pos hi, if_pos (hS _ (hin i hi))]
    · rw [if_neg hi]
      split
      · exact h0 i
      · exact le_rfl

theorem takeRows_ok {α : Type*} (pts : List α) (idx : List Nat) (h : ∀ i ∈ idx, i < pts.length) :
    ∃ r, takeRows pts idx = .ok r ∧ r.map some = idx.map fun i => pts[i]? := by
  induction idx with
  | nil => exact ⟨[], rfl, rfl⟩
  | cons i idx ih =>
    obtain ⟨r, h1, h2⟩ := ih fun j hj => h j (by simp [hj])
    have hi : i < pts.length := h i (by simp)
    refine ⟨pts[i] :: r, ?_, by simp [hi, h2]⟩
    unfold takeRows at h1 ⊢
    rw [List.mapM_cons, h1]
    simp [hi, bind, Except.bind, pure, Except.pure]

theorem mem_rows {α : Type*} (pts : List α) (idx : List Nat) (r : List α)
    (h : r.map some = idx.map fun i => pts[i]?) (p : α) : p ∈ r ↔ ∃ i ∈ idx, pts[i]? = some p := by
  have : p ∈ r ↔ some p ∈ r.map some := by simp
  rw [this, h, List.mem_map]

theorem mapM_ok_all {α β : Type} (f : α → Except PyErr β) (l : List α) (h : ∀ a ∈ l, ∃ b, f a = .ok b) :
    ∃ r, l.mapM f = .ok r ∧ ∀ b ∈ r, ∃ a ∈ l, f a = .ok b := by
  induction l with
  | nil => exact ⟨[], rfl, by simp⟩
  | cons a l ih =>
    obtain ⟨b, hb⟩ := h a (by simp)
    obtain ⟨r, h1, h2⟩ := ih fun c hc => h c (by simp [hc])
    refine ⟨b :: r, by rw [List.mapM_cons, hb, h1]; rfl, ?_⟩
    intro c hc
    rcases List.mem_cons.1 hc with rfl | hc
    · exact ⟨a, by simp, hb⟩
    · obtain ⟨a', k1, k2⟩ := h2 c hc
      exact ⟨a', by simp [k1], k2⟩

/-- **C101, hull.**  If SciPy can build the hull, `region_est_hull` succeeds; faces and vertices consist of
particles, and the polytope spanned by the vertices holds more than the demanded probability. -/
theorem C101_hull (ch : List (Fin d → ℝ) → Except PyErr HullResult) (hch : Spec.IsHull ch)
    (w : Fin n → ℝ) (x : Fin n → Fin d → ℝ) (h0 : ∀ i, 0 ≤ w i) (idSort : List Nat)
    (hs : Spec.HeaviestFirst w idSort) (level : ℝ) (hl0 : 0 ≤ level) (hl1 : level < ∑ i, w i)
    (hok : ∀ r, credRegion (List.ofFn w) (List.ofFn x) idSort level = .ok r → ∃ h, ch r.1 = .ok h) :
    ∃ faces vertices, regionEstHull ch (List.ofFn w) (List.ofFn x) idSort level = .ok (faces, vertices) ∧
      (∀ p ∈ vertices, ∃ i, p = x i) ∧ (∀ f ∈ faces, ∀ p ∈ f, ∃ i, p = x i) ∧
      level < Spec.covered w x (convexHull ℝ {p | p ∈ vertices}) ∧
      ∃ inside outside, credRegion (List.ofFn w) (List.ofFn x) idSort level = .ok (inside, outside) ∧
        convexHull ℝ {p | p ∈ inside} = convexHull ℝ {p | p ∈ vertices} := by
  obtain ⟨inside, outside, h1, h2, h3⟩ := covered_gt w x h0 idSort hs level hl0 hl1
  obtain ⟨h, hh⟩ := hok _ h1
  obtain ⟨g1, g2, g3⟩ := hch inside h hh
  have hu : ∀ i ∈ uniquify h.vertices, i < inside.length := fun i hi =>
    g1 i (((C47_uniquify h.vertices).2.1 i).1 hi)
  obtain ⟨vertices, v1, v2⟩ := takeRows_ok inside _ hu
  obtain ⟨faces, f1, f2⟩ := mapM_ok_all (takeRows inside) h.simplices fun s hs' => by
    obtain ⟨r, e, -⟩ := takeRows_ok inside s (g2 s hs')
    exact ⟨r, e⟩
  have hv : ∀ p, p ∈ vertices ↔ ∃ i ∈ h.vertices, inside[i]? = some p := by
    intro p
    rw [mem_rows inside _ vertices v2]
    simp only [(C47_uniquify h.vertices).2.1]
  have hvin : ∀ p ∈ vertices, p ∈ inside := by
    intro p hp
    obtain ⟨i, -, e⟩ := (hv p).1 hp
    exact List.mem_of_getElem? e
  have hset : {p | ∃ i ∈ h.vertices, inside[i]? = some p} = {p | p ∈ vertices} := by
    ext p; exact (hv p).symm
  have heq : convexHull ℝ {p | p ∈ inside} = convexHull ℝ {p | p ∈ vertices} := by
    refine Set.Subset.antisymm ?_ (convexHull_mono fun p hp => hvin p hp)
    rw [← hset]
    exact g3
  refine ⟨faces, vertices, ?_, fun p hp => h2 p (hvin p hp), ?_, ?_, inside, outside, h1, heq⟩
  · unfold regionEstHull
    rw [h1]
    simp only [bind, Except.bind]
    rw [hh]
    simp only [f1, v1]
  · intro f hf p hp
    obtain ⟨s, hs1, hs2⟩ := f2 f hf
    obtain ⟨r, e1, e2⟩ := takeRows_ok inside s (g2 s hs1)
    rw [hs2, Except.ok.injEq] at e1
    subst e1
    obtain ⟨i, -, e⟩ := (mem_rows inside s f e2 p).1 hp
    exact h2 p (List.mem_of_getElem? e)
  · exact h3 _ fun p hp => by rw [← heq]; exact subset_convexHull ℝ _ hp

/-- **C101, points.**  The method `'hpd-hull'` accepts exactly the points of the convex hull of the credible
particles; the particles it accepts have more than the demanded probability. -/
theorem C101_in_hull {τ : Type} (delaunay : List (Fin d → ℝ) → Except PyErr τ)
    (find : τ → (Fin d → ℝ) → Int) (hD : Spec.IsDelaunay delaunay find)
    (w : Fin n → ℝ) (x : Fin n → Fin d → ℝ) (h0 : ∀ i, 0 ≤ w i) (idSort : List Nat)
    (hs : Spec.HeaviestFirst w idSort) (level : ℝ) (hl0 : 0 ≤ level) (hl1 : level < ∑ i, w i)
    (hok : ∀ r, credRegion (List.ofFn w) (List.ofFn x) idSort level = .ok r → ∃ t, delaunay r.1 = .ok t) :
    ∃ acc : (Fin d → ℝ) → Bool,
      (∀ p, inHpdHull delaunay find (List.ofFn w) (List.ofFn x) idSort level p = .ok (acc p)) ∧
      level < Spec.covered w x {p | acc p = true} ∧
      ∃ inside outside, credRegion (List.ofFn w) (List.ofFn x) idSort level = .ok (inside, outside) ∧
        ∀ p, acc p = true ↔ p ∈ convexHull ℝ {q | q ∈ inside} := by
  obtain ⟨inside, outside, h1, h2, h3⟩ := covered_gt w x h0 idSort hs level hl0 hl1
  obtain ⟨t, ht⟩ := hok _ h1
  have hacc : ∀ p, decide (find t p ≥ 0) = true ↔ p ∈ convexHull ℝ {q | q ∈ inside} := fun p => by
    rw [decide_eq_true_eq]
    exact hD inside t ht p
  refine ⟨fun p => decide (find t p ≥ 0), fun p => ?_, h3 _ fun p hp => ?_, inside, outside, h1, hacc⟩
  · unfold inHpdHull
    rw [h1]
    simp only [bind, Except.bind]
    rw [ht]
  · exact (hacc p).2 (subset_convexHull ℝ _ hp)

/-- The credible particles are the first ones in the order of the weights. -/
theorem credRegion_take (w : Fin n → ℝ) (x : Fin n → Fin d → ℝ) (h0 : ∀ i, 0 ≤ w i) (idSort : List Nat)
    (hp : idSort.Perm (List.range n)) (level : ℝ) (hl0 : 0 ≤ level) (r : List (Fin d → ℝ) × List (Fin d → ℝ))
    (h : credRegion (List.ofFn w) (List.ofFn x) idSort level = .ok r) :
    r.1 = (idSort.filterMap fun i => (List.ofFn x)[i]?).take
      (((cumsum (idSort.filterMap fun i => (List.ofFn w)[i]?)).map fun c => decide (c ≤ level)).count true + 1) := by
  have hin : ∀ i ∈ idSort, i < n := fun i hi => by simpa using hp.mem_iff.1 hi
  have hlen : ∀ {α : Type} (f : Fin n → α), (idSort.filterMap fun i => (List.ofFn f)[i]?).length = idSort.length := by
    intro α f
    have : ∀ L : List Nat, (∀ i ∈ L, i < n) → (L.filterMap fun i => (List.ofFn f)[i]?).length = L.length := by
      intro L hL
      induction L with
      | nil => rfl
      | cons i L ih =>
        have hi : i < n := hL i (by simp)
        have := ih fun j hj => hL j (by simp [hj])
        rw [List.filterMap_cons, List.getElem?_ofFn, dif_pos hi, List.length_cons, this, List.length_cons]
    exact this idSort hin
  set ws := idSort.filterMap fun i => (List.ofFn w)[i]? with hws
  have hws0 : ∀ y ∈ ws, 0 ≤ y := by
    intro y hy
    obtain ⟨i, hi, e⟩ := List.mem_filterMap.1 hy
    have hi' := hin i hi
    simp [hi'] at e
    rw [← e]; exact h0 _
  obtain ⟨k, hk, hmask, -, -⟩ := mask_shape 0 ws level hws0 hl0
  have hcount : ((cumsum ws).map fun c => decide (c ≤ level)).count true = k := by
    rw [cumsum_eq, hmask]
    simp [List.count_replicate]
  unfold credRegion at h
  rw [← hws] at h
  unfold credMask at h
  simp only [hcount] at h
  by_cases hlt : k < ((cumsum ws).map fun c => decide (c ≤ level)).length
  · rw [if_pos hlt] at h
    simp only [Except.ok.injEq] at h
    have hkl : k < ws.length := by
      rw [cumsum_eq, hmask] at hlt
      simp at hlt
      omega
    rw [hcount, ← h]
    dsimp only
    have e : ((cumsum ws).map fun c => decide (c ≤ level)).set k true =
        List.replicate (k + 1) true ++ List.replicate (ws.length - (k + 1)) false := by
      rw [cumsum_eq, hmask]
      obtain ⟨m, hm⟩ : ∃ m, ws.length - k = m + 1 := ⟨ws.length - k - 1, by omega⟩
      have hm' : ws.length - (k + 1) = m := by omega
      rw [hm, hm', List.set_append, if_neg (by simp), List.length_replicate, Nat.sub_self,
        List.replicate_succ, List.set_cons_zero, List.replicate_succ', List.append_assoc]
      rfl
    have hl1 : ws.length = idSort.length := hlen w
    rw [e, hl1, ← hlen x, select_shape _ _ (by rw [hlen x]; omega)]
  · rw [if_neg hlt] at h
    cases h

/-- **C101, nesting.**  Raising the level never removes a particle, nor a point of the hull. -/
theorem C101_nested (w : Fin n → ℝ) (x : Fin n → Fin d → ℝ) (h0 : ∀ i, 0 ≤ w i) (idSort : List Nat)
    (hp : idSort.Perm (List.range n)) (level level' : ℝ) (hl0 : 0 ≤ level) (hle : level ≤ level')
    (r r' : List (Fin d → ℝ) × List (Fin d → ℝ))
    (h : credRegion (List.ofFn w) (List.ofFn x) idSort level = .ok r)
    (h' : credRegion (List.ofFn w) (List.ofFn x) idSort level' = .ok r') :
    r.1 <+: r'.1 ∧ convexHull ℝ {p | p ∈ r.1} ⊆ convexHull ℝ {p | p ∈ r'.1} := by
  have hpre : r.1 <+: r'.1 := by
    rw [credRegion_take w x h0 idSort hp level hl0 r h,
      credRegion_take w x h0 idSort hp level' (hl0.trans hle) r' h']
    refine List.take_prefix_take_left (Nat.add_le_add_right ?_ 1)
    simp only [List.count_eq_countP, List.countP_map]
    refine List.countP_mono_left fun c _ hc => ?_
    simp only [Function.comp, beq_iff_eq, decide_eq_true_eq] at hc ⊢
    exact hc.trans hle
  exact ⟨hpre, convexHull_mono fun p hp => hpre.subset hp⟩

/-! ## Ellipsoids -/

theorem form_add (A : Matrix (Fin d) (Fin d) ℝ) (hA : ∀ a b, A a b = A b a) (c x y : Fin d → ℝ) (s t : ℝ)
    (hst : s + t = 1) :
    Spec.form A c (s • x + t • y) =
      s * Spec.form A c x + t * Spec.form A c y - s * t * Spec.form A c (c + (x - y)) := by
  have ht : t = 1 - s := by linarith
  subst ht
  have hsym : ∑ a, ∑ b, (x a - c a) * A a b * (y b - c b) = ∑ a, ∑ b, (y a - c a) * A a b * (x b - c b) := by
    rw [Finset.sum_comm]
    exact Finset.sum_congr rfl fun a _ => Finset.sum_congr rfl fun b _ => by rw [hA b a]; ring
  unfold Spec.form
  simp only [Finset.mul_sum, ← Finset.sum_add_distrib, ← Finset.sum_sub_distrib]
  refine Finset.sum_congr rfl fun a _ => Finset.sum_congr rfl fun b _ => ?_
  simp only [Pi.add_apply, Pi.smul_apply, Pi.sub_apply, smul_eq_mul]
  ring

theorem form_convex (A : Matrix (Fin d) (Fin d) ℝ) (hA : ∀ a b, A a b = A b a) (c : Fin d → ℝ)
    (hpos : ∀ x, x ≠ c → 0 < Spec.form A c x) (r : ℝ) : Convex ℝ {x | Spec.form A c x ≤ r} := by
  have hnn : ∀ x, 0 ≤ Spec.form A c x := by
    intro x
    by_cases h : x = c
    · subst h; simp [Spec.form]
    · exact (hpos x h).le
  intro x hx y hy s t hs ht hst
  simp only [Set.mem_setOf_eq] at hx hy ⊢
  rw [form_add A hA c x y s t hst]
  have h1 := mul_nonneg (mul_nonneg hs ht) (hnn (c + (x - y)))
  have h2 : s * Spec.form A c x + t * Spec.form A c y ≤ s * r + t * r :=
    add_le_add (mul_le_mul_of_nonneg_left hx hs) (mul_le_mul_of_nonneg_left hy ht)
  have h3 : s * r + t * r = r := by rw [← add_mul, hst, one_mul]
  linarith

/-- Full statement of C101 for the method `'hpd-mvee'`: the particles accepted have more than the demanded
probability. -/
def C101EllipsoidStatement : Prop :=
  ∀ {d n : Nat} (ch : List (Fin d → ℝ) → Except PyErr HullResult), Spec.IsHull ch →
    ∀ (w : Fin n → ℝ) (x : Fin n → Fin d → ℝ), (∀ i, 0 ≤ w i) → ∀ idSort, Spec.HeaviestFirst w idSort →
    ∀ level tol : ℝ, 0 ≤ level → level < ∑ i, w i → 0 < tol → ∀ fuel A c,
      regionEstEllipsoid ch (List.ofFn w) (List.ofFn x) idSort level tol fuel = .ok (some (A, c)) →
      level < Spec.covered w x
        {p | inHpdMvee ch (List.ofFn w) (List.ofFn x) idSort level (some tol) fuel p = .ok (some true)}

/-- **C101, ellipsoids.**  The ellipsoid of `region_est_ellipsoid`, enlarged by the factor
`1 + (d + 1) / d * t / (1 - t)` with `t = tol (d + 1)² / d`, holds more than the demanded probability, and
the whole convex hull of the credible particles.  Without the factor this fails: `C101_ellipsoid_fails`. -/
theorem C101_ellipsoid_partial (hd : 0 < d) (ch : List (Fin d → ℝ) → Except PyErr HullResult)
    (hch : Spec.IsHull ch) (w : Fin n → ℝ) (x : Fin n → Fin d → ℝ) (h0 : ∀ i, 0 ≤ w i) (idSort : List Nat)
    (hs : Spec.HeaviestFirst w idSort) (level : ℝ) (hl0 : 0 ≤ level) (hl1 : level < ∑ i, w i)
    (tol : ℝ) (htol : tol < 1) (t : ℝ) (ht : t = tol * ((d : ℝ) + 1) ^ 2 / d) (ht1 : t < 1) (fuel : Nat)
    (A : Matrix (Fin d) (Fin d) ℝ) (c : Fin d → ℝ)
    (h : regionEstEllipsoid ch (List.ofFn w) (List.ofFn x) idSort level tol fuel = .ok (some (A, c))) :
    level < Spec.covered w x {p | Spec.form A c p ≤ 1 + ((d : ℝ) + 1) / d * (t / (1 - t))} ∧
    ∃ inside outside, credRegion (List.ofFn w) (List.ofFn x) idSort level = .ok (inside, outside) ∧
      convexHull ℝ {p | p ∈ inside} ⊆ {p | Spec.form A c p ≤ 1 + ((d : ℝ) + 1) / d * (t / (1 - t))} := by
  obtain ⟨inside, outside, h1, h2, h3⟩ := covered_gt w x h0 idSort hs level hl0 hl1
  unfold regionEstEllipsoid regionEstHull at h
  rw [h1] at h
  simp only [bind, Except.bind] at h
  cases hh : ch inside with
  | error e => rw [hh] at h; cases h
  | ok hull =>
    rw [hh] at h
    dsimp only at h
    obtain ⟨g1, g2, g3⟩ := hch inside hull hh
    obtain ⟨faces, f1, -⟩ := mapM_ok_all (takeRows inside) hull.simplices fun s hs' => by
      obtain ⟨r, e, -⟩ := takeRows_ok inside s (g2 s hs')
      exact ⟨r, e⟩
    have hu : ∀ i ∈ uniquify hull.vertices, i < inside.length := fun i hi =>
      g1 i (((C47_uniquify hull.vertices).2.1 i).1 hi)
    obtain ⟨vertices, v1, v2⟩ := takeRows_ok inside _ hu
    rw [f1, v1] at h
    dsimp only at h
    have hv : ∀ p, p ∈ vertices ↔ ∃ i ∈ hull.vertices, inside[i]? = some p := by
      intro p
      rw [mem_rows inside _ vertices v2]
      simp only [(C47_uniquify hull.vertices).2.1]
    have hN : 0 < vertices.length := by
      by_contra hN
      have : vertices.length = 0 := by omega
      unfold mvee at h
      rw [if_pos this] at h
      cases h
    obtain ⟨hA, hpos, -⟩ := C80_result vertices.get hN hd tol fuel A c h
    have hsub : convexHull ℝ {p | p ∈ inside} ⊆
        {p | Spec.form A c p ≤ 1 + ((d : ℝ) + 1) / d * (t / (1 - t))} := by
      refine g3.trans (convexHull_min ?_ (form_convex A hA c hpos _))
      intro p hp
      obtain ⟨i, hi⟩ := List.get_of_mem ((hv p).2 hp)
      rw [← hi]
      exact C80_nearly_encloses_partial vertices.get hN hd tol fuel A c h htol t ht ht1 i
    exact ⟨h3 _ fun p hp => hsub (subset_convexHull ℝ _ hp), inside, outside, h1, hsub⟩

/-- Six points in convex position that lie on no common ellipse. -/
noncomputable def sixPoints : Fin 6 → Fin 2 → ℝ := ![![0, 0], ![4, 0], ![0, 4], ![4, 4], ![5, 2], ![2, 5]]

/-- Directions in which each of the six points is the farthest. -/
noncomputable def sixDirs : Fin 6 → Fin 2 → ℝ := ![![-1, -1], ![1, -2], ![-2, 1], ![1, 1], ![1, 0], ![0, 1]]

theorem sixDirs_far (i j : Fin 6) (h : i ≠ j) :
    sixDirs i 0 * sixPoints j 0 + sixDirs i 1 * sixPoints j 1 <
      sixDirs i 0 * sixPoints i 0 + sixDirs i 1 * sixPoints i 1 := by
  fin_cases i <;> fin_cases j <;> first
    | exact absurd rfl h
    | (simp [sixDirs, sixPoints] <;> norm_num)

theorem sixPoints_injective : Function.Injective sixPoints := by
  intro i j h
  by_contra hne
  have := sixDirs_far i j hne
  rw [h] at this
  exact lt_irrefl _ this

/-- Every hull of the six points has all of them as vertices. -/
theorem sixPoints_extreme (V : Set (Fin 2 → ℝ)) (hV : ∀ p ∈ V, ∃ j, p = sixPoints j) (i : Fin 6)
    (hi : sixPoints i ∈ convexHull ℝ V) : sixPoints i ∈ V := by
  by_contra hn
  have hconv : Convex ℝ {p : Fin 2 → ℝ | sixDirs i 0 * p 0 + sixDirs i 1 * p 1 <
      sixDirs i 0 * sixPoints i 0 + sixDirs i 1 * sixPoints i 1} := by
    intro p hp q hq s t hs ht hst
    simp only [Set.mem_setOf_eq] at hp hq ⊢
    simp only [Pi.add_apply, Pi.smul_apply, smul_eq_mul]
    have ht' : t = 1 - s := by linarith
    subst ht'
    rcases hs.eq_or_lt with rfl | hs'
    · simpa using hq
    · nlinarith [mul_lt_mul_of_pos_left hp hs', mul_le_mul_of_nonneg_left hq.le ht]
  have hsub := convexHull_min (s := V) (fun p hp => by
    obtain ⟨j, rfl⟩ := hV p hp
    exact sixDirs_far i j (by rintro rfl; exact hn hp)) hconv
  have hlt := hsub hi
  simp only [Set.mem_ofPred_eq] at hlt
  exact lt_irrefl _ hlt

theorem sixPoints_no_conic (A : Matrix (Fin 2) (Fin 2) ℝ) (c : Fin 2 → ℝ) :
    ¬ ∀ i, Spec.form A c (sixPoints i) = 1 := by
  intro h
  have h0 := h 0
  have h1 := h 1
  have h2 := h 2
  have h3 := h 3
  have h4 := h 4
  have h5 := h 5
  simp [Spec.form, Fin.sum_univ_two, sixPoints] at h0 h1 h2 h3 h4 h5
  generalize A 0 0 = a at *
  generalize A 0 1 = b at *
  generalize A 1 0 = b' at *
  generalize A 1 1 = e at *
  generalize c 0 = p at *
  generalize c 1 = q at *
  have ha : a = 0 := by linarith
  have he : e = 0 := by linarith
  have hb : b + b' = 0 := by linarith
  subst ha; subst he
  have hb' : b' = -b := by linarith
  subst hb'
  linarith

theorem inMvee_form {d : Nat} (A : Matrix (Fin d) (Fin d) ℝ) (c : Fin d → ℝ)
    (hpos : ∀ x, x ≠ c → 0 < Spec.form A c x) (p : Fin d → ℝ) :
    ∃ b, inMvee p A c = .ok b ∧ (b = true ↔ Spec.form A c p ≤ 1) := by
  have hdet : A.det ≠ 0 := by
    intro h0
    obtain ⟨v, hv, hAv⟩ := Matrix.exists_mulVec_eq_zero_iff.2 h0
    have h1 := hpos (c + v) (by simpa using hv)
    have h2 : Spec.form A c (c + v) = v ⬝ᵥ (A *ᵥ v) := by
      simp only [Spec.form, dotProduct, mulVec, Finset.mul_sum, Pi.add_apply, add_sub_cancel_left]
      exact Finset.sum_congr rfl fun a _ => Finset.sum_congr rfl fun b _ => by ring
    rw [h2, hAv] at h1
    simp at h1
  have hu : IsUnit A.det := isUnit_iff_ne_zero.2 hdet
  have hdi : A⁻¹.det ≠ 0 := by
    rw [Matrix.det_nonsing_inv]
    simpa using hdet
  obtain ⟨b, hb, hiff⟩ := inEllipsoid_eq p A⁻¹ c hdi
  rw [Matrix.nonsing_inv_nonsing_inv A hu] at hiff
  exact ⟨b, hb, hiff⟩

theorem six_covered (S : Set (Fin 2 → ℝ)) (i : Fin 6) (hi : sixPoints i ∉ S) :
    Spec.covered (fun _ : Fin 6 => (1 / 6 : ℝ)) sixPoints S ≤ 5 / 6 := by
  classical
  unfold Spec.covered
  rw [← Finset.add_sum_erase _ _ (Finset.mem_univ i), if_neg hi, zero_add]
  refine (Finset.sum_le_card_nsmul _ _ (1 / 6 : ℝ) fun j _ => ?_).trans ?_
  · split_ifs <;> norm_num
  · rw [Finset.card_erase_of_mem (Finset.mem_univ i)]
    norm_num

theorem six_sorted (idSort : List Nat) (hp : idSort.Perm (List.range 6)) :
    Spec.HeaviestFirst (fun _ : Fin 6 => (1 / 6 : ℝ)) idSort := by
  refine ⟨hp, ?_⟩
  have : ∀ y ∈ idSort.filterMap fun i => (List.ofFn fun _ : Fin 6 => (1 / 6 : ℝ))[i]?, y = 1 / 6 := by
    intro y hy
    obtain ⟨i, -, e⟩ := List.mem_filterMap.1 hy
    rw [List.getElem?_ofFn] at e
    split at e
    · simpa using e.symm
    · cases e
  rw [List.pairwise_iff_forall_sublist]
  intro a b hab
  rw [this a (hab.subset (by simp)), this b (hab.subset (by simp))]

/-- What the ellipsoid is computed from: all six points. -/
theorem six_region (ch : List (Fin 2 → ℝ) → Except PyErr HullResult) (hch : Spec.IsHull ch) (idSort : List Nat)
    (hp : idSort.Perm (List.range 6)) :
    ∃ inside : List (Fin 2 → ℝ), (∀ p, p ∈ inside ↔ ∃ i, p = sixPoints i) ∧
      (∀ e, ch inside = .error e → ∀ tol fuel, regionEstEllipsoid ch (List.ofFn fun _ : Fin 6 => (1 / 6 : ℝ))
        (List.ofFn sixPoints) idSort (9 / 10) tol fuel = .error e) ∧
      (∀ hull, ch inside = .ok hull → ∃ vertices : List (Fin 2 → ℝ), (∀ i, sixPoints i ∈ vertices) ∧
        (∀ p ∈ vertices, ∃ i, p = sixPoints i) ∧
        ∀ tol fuel, regionEstEllipsoid ch (List.ofFn fun _ : Fin 6 => (1 / 6 : ℝ)) (List.ofFn sixPoints) idSort
          (9 / 10) tol fuel = mvee vertices.get tol fuel) := by
  obtain ⟨inside, outside, h1, h2, h3⟩ := covered_gt (fun _ : Fin 6 => (1 / 6 : ℝ)) sixPoints
    (fun _ => by norm_num) idSort (six_sorted idSort hp) (9 / 10) (by norm_num) (by norm_num)
  have hall : ∀ i, sixPoints i ∈ inside := by
    intro i
    by_contra hn
    have a1 := h3 {p | p ∈ inside} fun p hp => hp
    have a2 := six_covered {p | p ∈ inside} i hn
    linarith
  refine ⟨inside, fun p => ⟨h2 p, by rintro ⟨i, rfl⟩; exact hall i⟩, fun e he tol fuel => ?_, fun hull hh => ?_⟩
  · unfold regionEstEllipsoid regionEstHull
    rw [h1]
    simp only [bind, Except.bind]
    rw [he]
  · obtain ⟨g1, g2, g3⟩ := hch inside hull hh
    obtain ⟨faces, f1, -⟩ := mapM_ok_all (takeRows inside) hull.simplices fun s hs' => by
      obtain ⟨r, e, -⟩ := takeRows_ok inside s (g2 s hs')
      exact ⟨r, e⟩
    have hu : ∀ i ∈ uniquify hull.vertices, i < inside.length := fun i hi =>
      g1 i (((C47_uniquify hull.vertices).2.1 i).1 hi)
    obtain ⟨vertices, v1, v2⟩ := takeRows_ok inside _ hu
    have hv : ∀ p, p ∈ vertices ↔ ∃ i ∈ hull.vertices, inside[i]? = some p := by
      intro p
      rw [mem_rows inside _ vertices v2]
      simp only [(C47_uniquify hull.vertices).2.1]
    refine ⟨vertices, fun i => ?_, fun p hp => ?_, fun tol fuel => ?_⟩
    · rw [hv]
      refine sixPoints_extreme {p | ∃ i ∈ hull.vertices, inside[i]? = some p} ?_ i
        (g3 (subset_convexHull ℝ _ (hall i)))
      rintro p ⟨k, -, hk⟩
      exact h2 p (List.mem_of_getElem? hk)
    · obtain ⟨j, -, hj⟩ := (hv _).1 hp
      exact h2 _ (List.mem_of_getElem? hj)
    · unfold regionEstEllipsoid regionEstHull
      rw [h1]
      simp only [bind, Except.bind]
      rw [hh]
      dsimp only
      rw [f1, v1]

/-- **C101, finding.**  Six particles of equal weight, level 0.9, any tolerance: all six are needed to reach
the level, whatever hull SciPy finds has all of them as vertices, and the ellipsoid returned leaves one out.
The particles accepted by `'hpd-mvee'` have probability at most 5/6. -/
theorem C101_ellipsoid_misses (ch : List (Fin 2 → ℝ) → Except PyErr HullResult) (hch : Spec.IsHull ch)
    (hok : ∀ pts, (∀ p, p ∈ pts ↔ ∃ i, p = sixPoints i) → ∃ h, ch pts = .ok h) (idSort : List Nat) (hp : idSort.Perm (List.range 6)) (tol : ℝ)
    (htol : 0 < tol) :
    ∃ fuel₀ A₀ c₀, regionEstEllipsoid ch (List.ofFn fun _ : Fin 6 => (1 / 6 : ℝ)) (List.ofFn sixPoints) idSort
      (9 / 10) tol fuel₀ = .ok (some (A₀, c₀)) ∧
    ∀ fuel A c, regionEstEllipsoid ch (List.ofFn fun _ : Fin 6 => (1 / 6 : ℝ)) (List.ofFn sixPoints) idSort
        (9 / 10) tol fuel = .ok (some (A, c)) →
      (∃ i, inHpdMvee ch (List.ofFn fun _ : Fin 6 => (1 / 6 : ℝ)) (List.ofFn sixPoints) idSort (9 / 10) (some tol)
        fuel (sixPoints i) = .ok (some false)) ∧
      Spec.covered (fun _ : Fin 6 => (1 / 6 : ℝ)) sixPoints
        {p | inHpdMvee ch (List.ofFn fun _ : Fin 6 => (1 / 6 : ℝ)) (List.ofFn sixPoints) idSort (9 / 10) (some tol)
          fuel p = .ok (some true)} ≤ 5 / 6 := by
  obtain ⟨inside, hsix, -, hin⟩ := six_region ch hch idSort hp
  obtain ⟨hull, hh⟩ := hok inside hsix
  obtain ⟨vertices, hvin, hvsix, hreg⟩ := hin hull hh
  have hN : 0 < vertices.length := List.length_pos_of_mem (hvin 0)
  obtain ⟨fuel₀, A₀, c₀, h₀⟩ := C80_ends vertices.get hN two_pos tol htol (by
    intro a b hab
    have key : ∀ i, a ⬝ᵥ sixPoints i = b := fun i => by
      obtain ⟨k, hk⟩ := List.get_of_mem (hvin i)
      rw [← hk]; exact hab k
    have k0 := key 0
    have k1 := key 1
    have k2 := key 2
    simp [dotProduct, Fin.sum_univ_two, sixPoints] at k0 k1 k2
    funext i
    fin_cases i
    · simp only [Fin.zero_eta, Pi.zero_apply]; linarith
    · simp only [Fin.mk_one, Pi.zero_apply]; linarith)
  refine ⟨fuel₀, A₀, c₀, by rw [hreg, h₀], fun fuel A c h => ?_⟩
  have hm := h
  rw [hreg] at hm
  obtain ⟨-, hpos, -⟩ := C80_result vertices.get hN two_pos tol fuel A c hm
  have hmiss : ∃ i, 1 < Spec.form A c (sixPoints i) := by
    by_contra hc
    push Not at hc
    have hle : ∀ k, Spec.form A c (vertices.get k) ≤ 1 := by
      intro k
      obtain ⟨i, hi⟩ := hvsix _ (List.get_mem vertices k)
      rw [hi]; exact hc i
    have heq := (C80_encloses_iff vertices.get hN two_pos tol fuel A c hm).1 hle
    refine sixPoints_no_conic A c fun i => ?_
    obtain ⟨k, hk⟩ := List.get_of_mem (hvin i)
    rw [← hk]; exact heq k
  obtain ⟨i, hi⟩ := hmiss
  have hfalse : inHpdMvee ch (List.ofFn fun _ : Fin 6 => (1 / 6 : ℝ)) (List.ofFn sixPoints) idSort (9 / 10)
      (some tol) fuel (sixPoints i) = .ok (some false) := by
    unfold inHpdMvee
    rw [Option.getD_some, h]
    obtain ⟨b, hb, hiff⟩ := inMvee_form A c hpos (sixPoints i)
    simp only [bind, Except.bind]
    rw [hb]
    cases b with
    | false => rfl
    | true => exact absurd (hiff.1 rfl) (not_le.2 hi)
  refine ⟨⟨i, hfalse⟩, six_covered _ i ?_⟩
  simp only [Set.mem_ofPred_eq]
  rw [hfalse]
  simp

/-- A hull that lists all points. -/
def allVertices {d : Nat} (pts : List (Fin d → ℝ)) : Except PyErr HullResult := .ok ⟨[], List.range pts.length⟩

theorem allVertices_isHull {d : Nat} : Spec.IsHull (allVertices (d := d)) := by
  intro pts h hh
  cases hh
  refine ⟨by simp, by simp, convexHull_mono ?_⟩
  intro p hp
  obtain ⟨i, hi, e⟩ := List.getElem_of_mem hp
  exact ⟨i, by simpa using hi, by rw [List.getElem?_eq_getElem hi, e]⟩

/-- **C101, finding.**  The full statement fails for ellipsoids. -/
theorem C101_ellipsoid_fails : ¬ C101EllipsoidStatement := by
  intro hst
  obtain ⟨fuel, A, c, h, hall⟩ := C101_ellipsoid_misses allVertices allVertices_isHull (fun _ _ => ⟨_, rfl⟩)
    (List.range 6) (List.Perm.refl _) (1 / 10000) (by norm_num)
  have h1 := hst allVertices allVertices_isHull (fun _ : Fin 6 => (1 / 6 : ℝ)) sixPoints (fun _ => by norm_num)
    (List.range 6) (six_sorted _ (List.Perm.refl _)) (9 / 10) (1 / 10000) (by norm_num) (by norm_num) (by norm_num)
    fuel A c h
  have h2 := (hall fuel A c h).2
  linarith

/-- Case for C101: the six particles meet the hypotheses of the hull theorem. -/
example : ∃ faces vertices, regionEstHull allVertices (List.ofFn fun _ : Fin 6 => (1 / 6 : ℝ))
    (List.ofFn sixPoints) (List.range 6) (9 / 10) = .ok (faces, vertices) := by
  obtain ⟨inside, outside, h1, -, -⟩ := covered_gt (fun _ : Fin 6 => (1 / 6 : ℝ)) sixPoints
    (fun _ => by norm_num) (List.range 6) (six_sorted _ (List.Perm.refl _)) (9 / 10) (by norm_num) (by norm_num)
  obtain ⟨r, e, -⟩ := takeRows_ok inside (uniquify (List.range inside.length)) fun i hi => by
    simpa using ((C47_uniquify (List.range inside.length)).2.1 i).1 hi
  refine ⟨[], r, ?_⟩
  unfold regionEstHull
  rw [h1]
  simp only [bind, Except.bind, allVertices]
  rw [e]
  rfl

end

end QInfer
