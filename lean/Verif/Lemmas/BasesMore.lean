import Verif.Lemmas.Bases
import Mathlib.LinearAlgebra.Matrix.Kronecker
import Mathlib.Logic.Equiv.Fin.Basic

/-!
# Lemmas on tensor products and conversions of bases
-/

set_option linter.unusedSectionVars false

namespace QInfer

open Matrix Kronecker

/-! ## Kronecker products -/

/-- The plane of `np.kron`, the second factor of size `p`. -/
def kronPlane (p : Nat) (f g : Plane) : Plane := fun i j => f (i / p) (j / p) * g (i % p) (j % p)

theorem mat_kron (m p : Nat) (f g : Plane) :
    Spec.mat (m * p) (kronPlane p f g) =
      Matrix.reindex finProdFinEquiv finProdFinEquiv (Spec.mat m f ⊗ₖ Spec.mat p g) := by
  ext i j
  simp only [Spec.mat, kronPlane, Matrix.of_apply, Matrix.reindex_apply, Matrix.submatrix_apply,
    Matrix.kroneckerMap_apply, finProdFinEquiv_symm_apply]
  rfl

theorem trace_kron (m p : Nat) (f g f' g' : Plane) :
    trace ((Spec.mat (m * p) (kronPlane p f g))ᴴ * Spec.mat (m * p) (kronPlane p f' g')) =
      trace ((Spec.mat m f)ᴴ * Spec.mat m f') * trace ((Spec.mat p g)ᴴ * Spec.mat p g') := by
  rw [mat_kron, mat_kron, ← Matrix.trace_kronecker, Matrix.mul_kronecker_mul]
  simp only [Matrix.reindex_apply, Matrix.conjTranspose_submatrix,
    Matrix.submatrix_mul_equiv, Matrix.conjTranspose_kronecker]
  simp only [Matrix.trace, Matrix.diag_apply, Matrix.submatrix_apply]
  exact Equiv.sum_comp finProdFinEquiv.symm fun x : Fin m × Fin p =>
    (((Spec.mat m f)ᴴ ⊗ₖ (Spec.mat p g)ᴴ) * (Spec.mat m f' ⊗ₖ Spec.mat p g')) x x

theorem herm_kron (m p : Nat) (f g : Plane) (hf : (Spec.mat m f).IsHermitian)
    (hg : (Spec.mat p g).IsHermitian) : (Spec.mat (m * p) (kronPlane p f g)).IsHermitian := by
  rw [mat_kron]
  unfold Matrix.IsHermitian at *
  rw [Matrix.reindex_apply, Matrix.conjTranspose_submatrix, Matrix.conjTranspose_kronecker, hf, hg]

/-- All pairs. -/
def pairList (p : Nat) (F G : List Plane) : List Plane :=
  F.flatMap fun f => G.map fun g => kronPlane p f g

theorem length_pairList (p : Nat) (F G : List Plane) :
    (pairList p F G).length = F.length * G.length := by
  unfold pairList
  induction F with
  | nil => simp
  | cons f F ih => simp only [List.flatMap_cons, List.length_append, List.length_map, ih,
      List.length_cons]; ring

theorem getElem?_pairList (p : Nat) (F G : List Plane) (a : Nat) (ha : a < F.length * G.length) :
    ∃ (h1 : a / G.length < F.length) (h2 : a % G.length < G.length),
      (pairList p F G)[a]? = some (kronPlane p F[a / G.length] G[a % G.length]) := by
  have hG : 0 < G.length := by
    rcases Nat.eq_zero_or_pos G.length with h | h
    · rw [h, Nat.mul_zero] at ha; omega
    · exact h
  have h1 : a / G.length < F.length := (Nat.div_lt_iff_lt_mul hG).2 ha
  refine ⟨h1, Nat.mod_lt _ hG, ?_⟩
  induction F generalizing a with
  | nil => simp at ha
  | cons f F ih =>
    unfold pairList
    rw [List.flatMap_cons]
    by_cases hlt : a < G.length
    · rw [List.getElem?_append_left (by simpa using hlt)]
      simp only [Nat.div_eq_of_lt hlt, Nat.mod_eq_of_lt hlt, List.getElem_cons_zero]
      rw [List.getElem?_eq_getElem (by simpa using hlt), List.getElem_map]
    · have hge : G.length ≤ a := by omega
      rw [List.getElem?_append_right (by simpa using hge), List.length_map]
      have hdiv : a / G.length = (a - G.length) / G.length + 1 := Nat.div_eq_sub_div hG hge
      have hmod : a % G.length = (a - G.length) % G.length := Nat.mod_eq_sub_mod hge
      have hb : a - G.length < F.length * G.length := by
        rw [List.length_cons, Nat.add_mul] at ha; omega
      have := ih (a - G.length) hb ((Nat.div_lt_iff_lt_mul hG).2 hb)
      unfold pairList at this
      rw [this]
      simp only [hdiv, hmod, List.getElem_cons_succ]

theorem pair_isTomoBasis (m p : Nat) (F G : List Plane) (hF : Spec.IsTomoBasis m F)
    (hG : Spec.IsTomoBasis p G) : Spec.IsTomoBasis (m * p) (pairList p F G) where
  len := by rw [length_pairList, hF.len, hG.len]; ring
  herm := by
    intro f hf
    obtain ⟨x, hx, hf⟩ := List.mem_flatMap.1 hf
    obtain ⟨y, hy, rfl⟩ := List.mem_map.1 hf
    exact herm_kron m p x y (hF.herm x hx) (hG.herm y hy)
  ortho := by
    intro a b ha hb
    rw [length_pairList] at ha hb
    obtain ⟨h1, h2, ea⟩ := getElem?_pairList p F G a ha
    obtain ⟨h3, h4, eb⟩ := getElem?_pairList p F G b hb
    rw [List.getElem?_eq_getElem (by rwa [length_pairList]), Option.some.injEq] at ea eb
    rw [ea, eb, trace_kron, hF.ortho _ _ h1 h3, hG.ortho _ _ h2 h4]
    by_cases hab : a = b
    · subst hab; simp
    · rw [if_neg hab]
      by_cases hd : a / G.length = b / G.length
      · have hm : ¬ a % G.length = b % G.length := fun hm =>
          hab (by rw [← Nat.div_add_mod a G.length, hd, hm, Nat.div_add_mod])
        rw [if_neg hm, mul_zero]
      · rw [if_neg hd, zero_mul]
  first := by
    intro h
    rw [length_pairList] at h
    obtain ⟨h1, h2, e⟩ := getElem?_pairList p F G 0 h
    rw [List.getElem?_eq_getElem (by rwa [length_pairList]), Option.some.injEq] at e
    rw [e]
    simp only [Nat.zero_div, Nat.zero_mod] at h1 h2 ⊢
    rw [mat_kron, hF.first h1, hG.first h2]
    rw [Matrix.smul_kronecker, Matrix.kronecker_smul, Matrix.one_kronecker_one, smul_smul]
    ext i j
    simp only [Matrix.reindex_apply, Matrix.submatrix_apply, Matrix.smul_apply, smul_eq_mul]
    rw [← Complex.ofReal_mul, div_mul_div_comm, one_mul, Nat.cast_mul,
      Real.sqrt_mul (Nat.cast_nonneg m)]
    congr 1
    simp only [Matrix.one_apply, EmbeddingLike.apply_eq_iff_eq]

/-! ## `itertools.product` -/

theorem itProduct_append {α : Type} (ls : List (List α)) (l : List α) :
    itProduct (ls ++ [l]) = (itProduct ls).flatMap fun xs => l.map fun x => xs ++ [x] := by
  induction ls with
  | nil =>
    simp only [List.nil_append, itProduct, List.map_cons, List.map_nil, List.flatMap_cons,
      List.flatMap_nil, List.append_nil]
    induction l with
    | nil => rfl
    | cons x l ih => simp only [List.flatMap_cons, ih, List.map_cons, List.singleton_append]
  | cons k ls ih =>
    simp only [List.cons_append, itProduct, ih, List.map_flatMap, List.flatMap_assoc,
      List.flatMap_map, List.map_map]
    rfl

theorem itProduct_singleton {α : Type} (l : List α) : itProduct [l] = l.map fun x => [x] := by
  have := itProduct_append [] l
  simpa [itProduct] using this

/-- The planes of the tensor product of a first basis and the others in turn. -/
def tensorPlanes (b : TomoBasis) (bs : List TomoBasis) : Nat × List Plane :=
  bs.foldl (fun acc c => (acc.1 * c.side, pairList c.side acc.2 c.data)) (b.side, b.data)

/-- Product of the tagged planes. -/
def tagged (b : TomoBasis) : List (Nat × Plane) := b.data.map fun m => (b.side, m)

theorem product_reduce (b : TomoBasis) (bs : List TomoBasis) :
    (itProduct ((b :: bs).map tagged)).map reduceKron =
      (tensorPlanes b bs).2.map fun f => .ok ((tensorPlanes b bs).1, f) := by
  induction bs using List.reverseRecOn with
  | nil =>
    simp only [List.map_cons, List.map_nil, itProduct_singleton, tensorPlanes, List.foldl_nil,
      tagged, List.map_map]
    rfl
  | append_singleton bs c ih =>
    have h1 : (b :: (bs ++ [c])).map tagged = (b :: bs).map tagged ++ [tagged c] := by simp
    rw [h1, itProduct_append, List.map_flatMap]
    have h2 : tensorPlanes b (bs ++ [c]) = ((tensorPlanes b bs).1 * c.side,
        pairList c.side (tensorPlanes b bs).2 c.data) := by
      unfold tensorPlanes; rw [List.foldl_append]; rfl
    rw [h2]
    dsimp only
    have h3 : ∀ xs : List (Nat × Plane),
        ((tagged c).map fun x => xs ++ [x]).map reduceKron =
          (fun r : Except PyErr (Nat × Plane) => c.data.map fun g =>
            match xs, r with
            | [], _ => (Except.ok (c.side, g) : Except PyErr (Nat × Plane))
            | _ :: _, .ok m => .ok (npKron m (c.side, g))
            | _ :: _, .error e => .error e) (reduceKron xs) := by
      intro xs
      simp only [tagged, List.map_map]
      refine List.map_congr_left fun g _ => ?_
      cases xs with
      | nil => rfl
      | cons x xs => simp [reduceKron, Function.comp]
    simp only [h3]
    have h4 : ∀ xs ∈ itProduct ((b :: bs).map tagged), xs ≠ [] := by
      intro xs hxs
      rw [List.map_cons, itProduct, List.mem_flatMap] at hxs
      obtain ⟨x, _, hx⟩ := hxs
      obtain ⟨y, _, rfl⟩ := List.mem_map.1 hx
      simp
    have h5 : ((itProduct ((b :: bs).map tagged)).flatMap fun xs =>
        (fun r : Except PyErr (Nat × Plane) => c.data.map fun g =>
            match xs, r with
            | [], _ => (Except.ok (c.side, g) : Except PyErr (Nat × Plane))
            | _ :: _, .ok m => .ok (npKron m (c.side, g))
            | _ :: _, .error e => .error e) (reduceKron xs)) =
        ((itProduct ((b :: bs).map tagged)).map reduceKron).flatMap
          fun r => c.data.map fun g =>
            match r with
            | .ok m => (Except.ok (npKron m (c.side, g)) : Except PyErr (Nat × Plane))
            | .error e => .error e := by
      rw [List.flatMap_map]
      refine List.flatMap_congr fun xs hxs => ?_
      refine List.map_congr_left fun g _ => ?_
      have := h4 xs hxs
      cases xs with
      | nil => exact absurd rfl this
      | cons x xs => rfl
    rw [h5, ih, List.flatMap_map]
    unfold pairList
    rw [List.map_flatMap]
    refine List.flatMap_congr fun f _ => ?_
    rw [List.map_map]
    rfl

theorem tensorPlanes_side (b : TomoBasis) (bs : List TomoBasis) :
    (tensorPlanes b bs).1 = ((b :: bs).map TomoBasis.side).prod := by
  induction bs using List.reverseRecOn with
  | nil => simp [tensorPlanes]
  | append_singleton bs c ih =>
    have h2 : (tensorPlanes b (bs ++ [c])).1 = (tensorPlanes b bs).1 * c.side := by
      unfold tensorPlanes; rw [List.foldl_append]; rfl
    rw [h2, ih]
    simp [Nat.mul_assoc]

theorem tensorPlanes_isTomoBasis (b : TomoBasis) (bs : List TomoBasis)
    (h : ∀ c ∈ b :: bs, Spec.IsTomoBasis c.side c.data) :
    Spec.IsTomoBasis (tensorPlanes b bs).1 (tensorPlanes b bs).2 := by
  induction bs using List.reverseRecOn with
  | nil => exact h b (by simp)
  | append_singleton bs c ih =>
    have h2 : tensorPlanes b (bs ++ [c]) = ((tensorPlanes b bs).1 * c.side,
        pairList c.side (tensorPlanes b bs).2 c.data) := by
      unfold tensorPlanes; rw [List.foldl_append]; rfl
    rw [h2]
    refine pair_isTomoBasis _ _ _ _ (ih fun x hx => h x ?_) (h c (by simp))
    simp only [List.mem_cons, List.mem_append] at hx ⊢
    tauto

theorem mapM_reduce (l : List (List (Nat × Plane))) (n : Nat) (ps : List Plane)
    (h : l.map reduceKron = ps.map fun f => .ok (n, f)) :
    (l.mapM fun fs => do
      let m ← reduceKron fs
      (Except.ok m.2 : Except PyErr Plane)) = .ok ps := by
  induction l generalizing ps with
  | nil =>
    cases ps with
    | nil => rfl
    | cons => simp at h
  | cons x l ih =>
    cases ps with
    | nil => simp at h
    | cons p ps =>
      simp only [List.map_cons, List.cons.injEq] at h
      rw [List.mapM_cons, h.1, ih ps h.2]
      rfl

theorem tensorProductBasis_eq (b : TomoBasis) (bs : List TomoBasis)
    (h : ∀ c ∈ b :: bs, c.data.length = c.side * c.side) :
    tensorProductBasis (b :: bs) = .ok
      { data := (tensorPlanes b bs).2, side := ((b :: bs).map TomoBasis.side).prod
        dims := ((b :: bs).map TomoBasis.dims).flatten
        labels := (itProduct ((b :: bs).map TomoBasis.labels)).map
          fun ls => "\\otimes".intercalate ls } := by
  have hlen : (tensorPlanes b bs).2.length = (tensorPlanes b bs).1 * (tensorPlanes b bs).1 := by
    induction bs using List.reverseRecOn with
    | nil => exact h b (by simp)
    | append_singleton bs c ih =>
      have h2 : tensorPlanes b (bs ++ [c]) = ((tensorPlanes b bs).1 * c.side,
          pairList c.side (tensorPlanes b bs).2 c.data) := by
        unfold tensorPlanes; rw [List.foldl_append]; rfl
      rw [h2]
      dsimp only
      rw [length_pairList, ih fun x hx => h x (by
        simp only [List.mem_cons, List.mem_append] at hx ⊢; tauto), h c (by simp)]
      ring
  rw [tensorPlanes_side] at hlen
  unfold tensorProductBasis
  rw [if_neg (by simp)]
  have hm := mapM_reduce _ _ _ (product_reduce b bs)
  have : (fun b : TomoBasis => b.data.map fun m => (b.side, m)) = tagged := rfl
  rw [this, hm]
  show (if _ then _ else _) = _
  rw [if_neg (by rw [hlen, pow_two]; omega), hlen, pow_two, Nat.sub_self]
  simp [tomoBasisInit]

/-! ## Sums over flattened indices -/

theorem sum_range_map (n : Nat) (f : Nat → ℂ) :
    ((List.range n).map f).sum = ∑ m ∈ Finset.range n, f m := by
  induction n with
  | zero => simp
  | succ n ih => rw [List.range_succ, List.map_append, List.sum_append, ih,
      Finset.sum_range_succ]; simp

theorem sum_flat (d : Nat) (f : Nat → Nat → ℂ) :
    ∑ m ∈ Finset.range (d * d), f (m / d) (m % d) =
      ∑ i ∈ Finset.range d, ∑ j ∈ Finset.range d, f i j := by
  rw [Finset.sum_range, Finset.sum_range, ← Equiv.sum_comp finProdFinEquiv, Fintype.sum_prod_type]
  refine Finset.sum_congr rfl fun i _ => ?_
  rw [Finset.sum_range]
  refine Finset.sum_congr rfl fun j _ => ?_
  rw [finProdFinEquiv_apply_val]
  have hd : 0 < d := by have := i.2; omega
  rw [Nat.add_mul_div_left _ _ hd, Nat.div_eq_of_lt j.2, Nat.add_mul_mod_self_left,
    Nat.mod_eq_of_lt j.2, Nat.zero_add]

theorem flat_inner (d : Nat) (p s : Plane) :
    ((List.range (d * d)).map fun m =>
      (starRingEnd ℂ) (flatRow d p m) * flatRow d s m).sum = inner' d p s := by
  rw [sum_range_map]
  unfold flatRow inner'
  exact sum_flat d fun i j => (starRingEnd ℂ) (p i j) * s i j

/-! ## Completeness -/

/-- Orthonormality of `d²` operators gives the completeness relation. -/
theorem tomo_complete (d : Nat) (l : List Plane) (h : Spec.IsTomoBasis d l) (i j r c : Nat)
    (hi : i < d) (hj : j < d) (hr : r < d) (hc : c < d) :
    (l.map fun p => p i j * (starRingEnd ℂ) (p r c)).sum =
      if i = r ∧ j = c then 1 else 0 := by
  classical
  let e : Fin (d * d) ≃ Fin l.length := finCongr h.len.symm
  let B : Matrix (Fin (d * d)) (Fin d × Fin d) ℂ := Matrix.of fun a q => l[e a] q.1 q.2
  have hB : (B.map (starRingEnd ℂ)) * Bᵀ = 1 := by
    ext a b
    rw [Matrix.mul_apply]
    have := h.ortho (e a) (e b) (e a).2 (e b).2
    rw [trace_eq_inner'] at this
    unfold inner' at this
    rw [Finset.sum_range] at this
    simp only [Matrix.map_apply, Matrix.transpose_apply, B, Matrix.of_apply, Fintype.sum_prod_type]
    simp only [Finset.sum_range] at this
    rw [Matrix.one_apply]
    refine this.trans ?_
    simp only [e, finCongr_apply, Fin.val_cast, Fin.val_inj]
  have hB' : Bᵀ * (B.map (starRingEnd ℂ)) = 1 :=
    (Matrix.mul_eq_one_comm_of_card_eq _ _ _ (by simp)).1 hB
  have := congrFun (congrFun hB' (⟨i, hi⟩, ⟨j, hj⟩)) (⟨r, hr⟩, ⟨c, hc⟩)
  rw [Matrix.mul_apply, Matrix.one_apply] at this
  simp only [Matrix.map_apply, Matrix.transpose_apply, B, Matrix.of_apply, Prod.mk.injEq,
    Fin.mk.injEq] at this
  rw [← this, Equiv.sum_comp e (fun a : Fin l.length => l[a] i j * (starRingEnd ℂ) (l[a] r c))]
  rw [← List.sum_ofFn]
  congr 1
  apply List.ext_getElem
  · simp
  · intro n h1 h2
    simp

end QInfer
