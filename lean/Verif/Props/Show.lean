import Verif.Model.Show
import Verif.Props.Bases
import Verif.Props.Particle
import Verif.Props.FormatUnc

/-!
# C123: bases and updaters are read out and displayed faithfully
-/

namespace QInfer

/-! ## Items -/

theorem planeAt_ok (data : List Plane) (i : Nat) (h : i < data.length) :
    planeAt data (i : ℤ) = .ok data[i] := by
  have h0 : ¬ (i : ℤ) < 0 := by omega
  unfold planeAt
  simp only [if_neg h0, Int.toNat_natCast, List.getElem?_eq_getElem h]

/-- **C123, items.**  A basis can be indexed with the integers from `-n` to `n - 1`, negative ones counting from
the end; other integers raise `IndexError`, and indices that are neither integers nor lists `TypeError`. -/
theorem C123_item (b : TomoBasis) :
    (∀ i (h : i < b.data.length), b.getItem (.int i) = .ok (.elem b.data[i] (b.dims, b.dims)) ∧
      b.getItem (.int ((i : ℤ) - b.data.length)) = .ok (.elem b.data[i] (b.dims, b.dims))) ∧
    (∀ i : ℤ, i < -b.data.length ∨ b.data.length ≤ i → b.getItem (.int i) = .error .indexError) ∧
    b.getItem .other = .error .typeError := by
  refine ⟨fun i h => ⟨?_, ?_⟩, fun i h => ?_, rfl⟩
  · simp [TomoBasis.getItem, planeAt_ok _ _ h, bind, Except.bind]
  · have h1 : ((i : ℤ) - b.data.length) < 0 := by omega
    have h2 : ((i : ℤ) - b.data.length) + b.data.length = i := by ring
    have : planeAt b.data ((i : ℤ) - b.data.length) = .ok b.data[i] := by
      unfold planeAt
      rw [if_pos h1, h2]
      simp [h]
    simp [TomoBasis.getItem, this, bind, Except.bind]
  · have : planeAt b.data i = .error .indexError := by
      unfold planeAt
      rcases h with h | h
      · have h1 : i < 0 := by omega
        have h2 : i + b.data.length < 0 := by omega
        simp only [if_pos h1, if_pos h2]
      · have h1 : ¬ i < 0 := by omega
        have h2 : b.data.length ≤ i.toNat := by omega
        simp only [if_neg h1, List.getElem?_eq_none h2]
    simp [TomoBasis.getItem, this, bind, Except.bind]

/-- **C123, lists of indices.**  A list of indices gives the list of the items, to any depth; it raises if an
index does. -/
theorem C123_item_list (b : TomoBasis) (l : List BasisIdx) (xs : List BasisItem) :
    b.getItem (.list l) = .ok (.list xs) ↔ List.Forall₂ (fun i x => b.getItem i = .ok x) l xs := by
  have key : b.getItems l = .ok xs ↔ List.Forall₂ (fun i x => b.getItem i = .ok x) l xs := by
    induction l generalizing xs with
    | nil =>
      simp only [TomoBasis.getItems, List.forall₂_nil_left_iff, Except.ok.injEq]
      exact eq_comm
    | cons i is ih =>
      simp only [TomoBasis.getItems, bind, Except.bind]
      cases hi : b.getItem i with
      | error e =>
        simp only [reduceCtorEq, false_iff]
        intro h
        cases h with
        | cons h1 _ => rw [hi] at h1; cases h1
      | ok x =>
        cases hs : b.getItems is with
        | error e =>
          simp only [reduceCtorEq, false_iff]
          intro h
          cases h with
          | cons _ h2 => rw [(ih _).mpr h2] at hs; cases hs
        | ok ys =>
          simp only [Except.ok.injEq]
          constructor
          · rintro rfl
            exact .cons hi ((ih _).mp hs)
          · intro h
            cases h with
            | cons h1 h2 =>
              rw [hi] at h1
              rw [(ih _).mpr h2] at hs
              injection h1 with h1
              injection hs with hs
              rw [h1, hs]
  rw [← key]
  simp only [TomoBasis.getItem, bind, Except.bind]
  cases b.getItems l with
  | error e => simp
  | ok ys => simp

theorem mapM_items_ok {α β : Type} (f : α → Except PyErr β) (l : List α) (g : α → β)
    (h : ∀ a ∈ l, f a = .ok (g a)) : l.mapM f = .ok (l.map g) := by
  induction l with
  | nil => rfl
  | cons a l ih =>
    rw [List.mapM_cons, h a (by simp), ih fun a' ha => h a' (by simp [ha])]
    rfl

/-- **C123, iteration.**  Going through a tomography basis gives its elements in order, each once; the operator
with parameters `x` is the sum of the items with factors `x`. -/
theorem C123_iteration (b : TomoBasis) (h : Spec.IsTomoBasis b.side b.data) (hd : b.dim = b.side) :
    b.iter = .ok (b.data.map fun p => .elem p (b.dims, b.dims)) ∧
    ∀ x : List ℝ, x.length = b.len → ∃ g, modelparamsToState b x = .ok g ∧
      ∀ i j, g i j = ∑ a : Fin b.data.length, (x.getD a 0 : ℂ) * b.data[a] i j := by
  have hl : b.len = b.data.length := (C40_len b h hd).1
  constructor
  · unfold TomoBasis.iter
    rw [mapM_items_ok _ _ (fun i => .elem (b.data.getD i 0) (b.dims, b.dims))]
    · congr 1
      apply List.ext_getElem
      · simp [hl]
      · intro i h1 h2
        have : i < b.data.length := by simpa using h2
        simp [this]
    · intro i hi
      rw [List.mem_range, hl] at hi
      rw [((C123_item b).1 i hi).1]
      simp [hi]
  · intro x hx
    rw [hl] at hx
    refine ⟨_, by rw [modelparamsToState, if_neg (by simpa using hx)], fun i j => ?_⟩
    have : ∀ (l : List Plane) (x : List ℝ), x.length = l.length →
        ((x.zip l).map fun p => (p.1 : ℂ) * p.2 i j).sum =
          ∑ a : Fin l.length, (x.getD a 0 : ℂ) * l[a] i j := by
      intro l
      induction l with
      | nil => intro x hx; simp
      | cons p l ih =>
        intro x hx
        cases x with
        | nil => simp at hx
        | cons y x =>
          have := ih x (by simpa using hx)
          simp only [List.zip_cons_cons, List.map_cons, List.sum_cons, this]
          exact (Fin.sum_univ_succ (n := l.length)
            fun a : Fin (l.length + 1) => (((y :: x).getD a 0 : ℝ) : ℂ) * (p :: l)[a] i j).symm
    exact this b.data x hx

/-! ## Numbers -/

section
variable (rnd : ℝ → ℤ) (hr : ∀ x, |(rnd x : ℝ) - x| ≤ 1 / 2)
include hr

omit hr in
theorem entry_le_one (d : Nat) (l : List Plane) (h : Spec.IsTomoBasis d l) (a : Nat) (ha : a < l.length)
    (i j : Nat) (hi : i < d) (hj : j < d) : ‖l[a] i j‖ ≤ 1 := by
  have h1 := h.ortho a a ha ha
  rw [if_pos rfl] at h1
  have h2 : Matrix.trace ((Spec.mat d l[a]).conjTranspose * Spec.mat d l[a]) =
      ((∑ c : Fin d, ∑ r : Fin d, ‖l[a] r c‖ ^ 2 : ℝ) : ℂ) := by
    rw [Matrix.trace]
    push_cast
    refine Finset.sum_congr rfl fun c _ => ?_
    rw [Matrix.diag_apply, Matrix.mul_apply]
    refine Finset.sum_congr rfl fun r _ => ?_
    rw [Matrix.conjTranspose_apply]
    exact Complex.conj_mul' _
  rw [h2] at h1
  have h3 : (∑ c : Fin d, ∑ r : Fin d, ‖l[a] r c‖ ^ 2 : ℝ) = 1 := by exact_mod_cast h1
  have h4 : ‖l[a] i j‖ ^ 2 ≤ 1 := by
    rw [← h3]
    have e1 := Finset.single_le_sum (f := fun r : Fin d => ‖l[a] r j‖ ^ 2) (fun r _ => sq_nonneg _)
      (Finset.mem_univ (⟨i, hi⟩ : Fin d))
    have e2 := Finset.single_le_sum (f := fun c : Fin d => ∑ r : Fin d, ‖l[a] r c‖ ^ 2)
      (fun c _ => Finset.sum_nonneg fun r _ => sq_nonneg _) (Finset.mem_univ (⟨j, hj⟩ : Fin d))
    exact e1.trans e2
  nlinarith [norm_nonneg (l[a] i j)]

theorem sci_error (c : ℝ) (hc : c ≠ 0) :
    |(ShownReal.sci c).read rnd - c| ≤ 5e-4 * |c| := by
  have h10 : (0 : ℝ) < 10 := by norm_num
  have hpos : 0 < |c| := abs_pos.mpr hc
  have h := scaled_error rnd hr 3 c ⌊Real.logb 10 |c|⌋
  refine h.trans ?_
  have hle : (10 : ℝ) ^ ⌊Real.logb 10 |c|⌋ ≤ |c| := by
    rw [← Real.rpow_intCast, ← Real.le_logb_iff_rpow_le (by norm_num) hpos]
    exact Int.floor_le _
  rw [zpow_sub₀ h10.ne']
  have : ((3 : ℕ) : ℤ) = 3 := rfl
  rw [this]
  have e3 : (10 : ℝ) ^ (3 : ℤ) = 1000 := by norm_num
  rw [e3, mul_div_assoc']
  rw [div_le_iff₀ (by norm_num)]
  linarith

/-- **C123, numbers.**  A displayed number differs from the true one by at most the tolerance, 0.0005 or 0.05 %:
small numbers are shown to a relative accuracy, and a number is only shown as zero if it is within the
tolerance. -/
theorem C123_number (c tol : ℝ) (ht : 0 ≤ tol) :
    let s := (latexFloat c tol).read rnd
    |s - c| ≤ max tol (5e-4 * max 1 |c|) ∧
    (|c| < 1e-3 → |s - c| ≤ max tol (5e-4 * |c|)) ∧
    (s = 0 → |c| ≤ tol) ∧
    (∀ z : ℤ, c = z → s = z) := by
  obtain ⟨z, hz⟩ : ∃ z : ℤ, z = if 0 ≤ c then ⌊c⌋ else ⌈c⌉ := ⟨_, rfl⟩
  have hint : ∀ k : ℤ, c = k → z = k := by
    rintro k rfl
    rw [hz]; simp
  dsimp only
  by_cases h1 : |c - z| ≤ tol
  · have hs : (latexFloat c tol).read rnd = z := by
      unfold latexFloat
      simp only [← hz, if_pos h1, ShownReal.read]
    rw [hs]
    have h1' : |(z : ℝ) - c| ≤ tol := by rw [abs_sub_comm]; exact h1
    refine ⟨h1'.trans (le_max_left _ _), fun _ => h1'.trans (le_max_left _ _), fun h0 => ?_, fun k hk => ?_⟩
    · rw [h0] at h1; simpa using h1
    · rw [hint k hk]
  · have hne : ∀ k : ℤ, c ≠ k := by
      intro k hk
      apply h1
      rw [hint k hk, hk]; simpa using ht
    have hc0 : c ≠ 0 := by simpa using hne 0
    have hpos : 0 < |c| := abs_pos.mpr hc0
    by_cases h2 : 1e-3 ≤ |c| ∧ |c| ≤ 1e3
    · have hs : (latexFloat c tol).read rnd = printedNumber rnd 3 c := by
        unfold latexFloat
        simp only [← hz, if_neg h1, if_pos h2, ShownReal.read]
      rw [hs]
      have he : |printedNumber rnd 3 c - c| ≤ 5e-4 := by
        refine (printed_error rnd hr 3 c).trans ?_
        norm_num
      refine ⟨he.trans ?_, fun h => absurd h2.1 (not_le.mpr h), fun h0 => ?_, fun k hk => absurd hk (hne k)⟩
      · refine le_trans ?_ (le_max_right _ _)
        have := le_max_left 1 |c|
        nlinarith
      · rw [h0, zero_sub, abs_neg] at he
        exfalso
        have := h2.1
        norm_num at this he
        linarith
    · have hs : (latexFloat c tol).read rnd = (ShownReal.sci c).read rnd := by
        unfold latexFloat
        simp only [← hz, if_neg h1, if_neg h2]
      rw [hs]
      have he := sci_error rnd hr c hc0
      refine ⟨he.trans ?_, fun _ => he.trans (le_max_right _ _), fun h0 => ?_, fun k hk => absurd hk (hne k)⟩
      · refine le_trans ?_ (le_max_right _ _)
        have := le_max_right 1 |c|
        nlinarith
      · rw [h0, zero_sub, abs_neg] at he
        nlinarith

/-- **C123, complex numbers.**  Both parts of a complex number are shown with these accuracies; a part that is
left out is within the tolerance of zero. -/
theorem C123_complex (c : ℂ) (tol : ℝ) (ht : 0 ≤ tol) :
    let s := (latexComplex c tol).read rnd
    |s.re - c.re| ≤ max tol (5e-4 * max 1 |c.re|) ∧ |s.im - c.im| ≤ max tol (5e-4 * max 1 |c.im|) ∧
    (s.re = 0 → |c.re| ≤ tol) ∧ (s.im = 0 → |c.im| ≤ tol) := by
  obtain ⟨a1, -, a2, -⟩ := C123_number rnd hr c.re tol ht
  obtain ⟨b1, -, b2, -⟩ := C123_number rnd hr c.im tol ht
  dsimp only at a1 a2 b1 b2 ⊢
  unfold latexComplex
  split_ifs with h1 h2
  · refine ⟨a1, ?_, a2, fun _ => h1⟩
    simp only [ShownComplex.read, zero_sub, abs_neg]
    exact h1.trans (le_max_left _ _)
  · refine ⟨?_, b1, fun _ => h2, b2⟩
    simp only [ShownComplex.read, zero_sub, abs_neg]
    exact h2.trans (le_max_left _ _)
  · exact ⟨a1, b1, a2, b2⟩

/-- **C123, displayed bases.**  Up to dimension ten a tomography basis is shown element by element, each with its
own label and with all entries, to within 0.0005 in both parts; nothing but exact or tiny entries is shown as
zero.  Above, only the labels are shown. -/
theorem C123_basis (b : TomoBasis) (h : Spec.IsTomoBasis b.side b.data)
    (hl : b.labels.length = b.data.length) :
    (b.show.map Prod.fst = b.labels) ∧
    (10 < b.dim → ∀ q ∈ b.show, q.2 = none) ∧
    (b.dim ≤ 10 → ∀ a (_ : a < b.data.length), ∃ rows,
      b.show[a]? = some (b.labels.getD a "", some rows) ∧ rows.length = b.side ∧
      ∀ i j, i < b.side → j < b.side → ∃ r s, rows[i]? = some r ∧ r.length = b.side ∧ r[j]? = some s ∧
        |(s.read rnd).re - (b.data[a] i j).re| ≤ 5e-4 ∧ |(s.read rnd).im - (b.data[a] i j).im| ≤ 5e-4 ∧
        (s.read rnd = 0 → |(b.data[a] i j).re| ≤ 1e-10 ∧ |(b.data[a] i j).im| ≤ 1e-10)) := by
  refine ⟨?_, fun hd q hq => ?_, ?_⟩
  · unfold TomoBasis.show
    split_ifs
    · rw [List.map_map]
      have : (Prod.fst ∘ fun q : Plane × String => (q.2, some ((List.range b.side).map fun i =>
          (List.range b.side).map fun j => latexComplex (q.1 i j) 1e-10))) = Prod.snd := rfl
      rw [this, List.map_snd_zip (by omega)]
    · rw [List.map_map]
      exact List.map_id _
  · unfold TomoBasis.show at hq
    rw [if_neg (by omega)] at hq
    obtain ⟨l, -, rfl⟩ := List.mem_map.1 hq
    rfl
  · intro hd a ha
    refine ⟨(List.range b.side).map fun i => (List.range b.side).map fun j =>
      latexComplex (b.data[a] i j) 1e-10, ?_, by simp, fun i j hi hj => ?_⟩
    · unfold TomoBasis.show
      rw [if_pos hd]
      have h2 : a < (b.data.zip b.labels).length := by simp [hl, ha]
      have hla : a < b.labels.length := by omega
      simp [ha, hla]
    · refine ⟨(List.range b.side).map fun j => latexComplex (b.data[a] i j) 1e-10,
        latexComplex (b.data[a] i j) 1e-10, by simp [hi], by simp, by simp [hj], ?_⟩
      have hn := entry_le_one b.side b.data h a ha i j hi hj
      obtain ⟨h1, h2, h3, h4⟩ := C123_complex rnd hr (b.data[a] i j) 1e-10 (by norm_num)
      have r1 := (Complex.abs_re_le_norm (b.data[a] i j)).trans hn
      have r2 := (Complex.abs_im_le_norm (b.data[a] i j)).trans hn
      rw [max_eq_left r1, mul_one, max_eq_right (by norm_num)] at h1
      rw [max_eq_left r2, mul_one, max_eq_right (by norm_num)] at h2
      exact ⟨h1, h2, fun h0 => ⟨h3 (by rw [h0]; rfl), h4 (by rw [h0]; rfl)⟩⟩

end

/-! ## Tables and plots of an updater -/

/-- **C123, updater table.**  The table of an updater has the names of the parameters as heads, and below them in
the same order the mean and the standard deviation of each parameter in the cloud. -/
theorem C123_updater_table {n d : Nat} (names : List String) (hn : names.length = d) (w : Fin n → ℝ)
    (x : Fin n → Fin d → ℝ) (h1 : ∑ i, w i = 1) :
    let t := updaterTable names w x
    t.1.length = d ∧ t.2.length = d ∧
    ∀ j : Fin d, t.1[j.1]? = some ("<td>$" ++ names.getD j "" ++ "$</td>") ∧
      t.2[j.1]? = some (uncLayout (∑ i, w i * x i j)
        (Real.sqrt (∑ i, w i * (x i j - ∑ k, w k * x k j) ^ 2)) 4) := by
  refine ⟨by simp [updaterTable, hn], by simp [updaterTable], fun j => ⟨?_, ?_⟩⟩
  · have : j.1 < names.length := by rw [hn]; exact j.2
    simp [updaterTable, this]
  · have hc := C13_cov_is_centred_moment w x h1 j j
    have : ∑ i, w i * (x i j - ∑ k, w k * x k j) ^ 2 = pcov w x j j := by
      rw [hc]
      exact Finset.sum_congr rfl fun i _ => by ring
    rw [this]
    simp [updaterTable, pmean]

/-- **C123, covariance plot.**  In the plot of the covariance matrix, the cell in row `k` and column `l` is the
covariance of the `k`-th and `l`-th chosen parameter, and the tick at `k` bears the name of the `k`-th one unless
other labels are given. -/
theorem C123_covariance_plot (names : List String) (sl : List Nat) (cov : Nat → Nat → ℝ)
    (tl : Option (List String)) (k : Nat) (hk : k < sl.length) :
    let p := plotCovariance names sl tl cov
    p.1[k]? = some k ∧ p.1.length = sl.length ∧
    (tl = none → p.2.1[k]? = some ("$" ++ names.getD sl[k] "" ++ "$")) ∧
    (∀ l, tl = some l → p.2.1 = l) ∧
    ∀ l (hl : l < sl.length), (p.2.2[k]?.bind fun r => r[l]?) = some (cov sl[k] sl[l]) := by
  refine ⟨by simp [plotCovariance, hk], by simp [plotCovariance], ?_, ?_, ?_⟩
  · rintro rfl; simp [plotCovariance, hk]
  · rintro l rfl; rfl
  · intro l hl; simp [plotCovariance, hk, hl]

/-! ## Cases -/

/-- Case for the items: the Gell-Mann basis of a qutrit has items 0 to 8, and -1 is the last. -/
example : ∃ b, gellMannBasis 3 = .ok b ∧ b.data.length = 9 ∧ b.getItem (.int 9) = .error .indexError := by
  obtain ⟨b, h1, h2, -, -, -, h3⟩ := C40_gell_mann 3 (by norm_num)
  refine ⟨b, h1, h3.len, (C123_item b).2.1 9 (Or.inr ?_)⟩
  rw [h3.len]; norm_num

/-- Case for the numbers: two is shown as an integer, 0.70710 with three decimals, 0.00012 with a power of ten. -/
example : latexFloat 2 1e-10 = .whole 2 ∧ latexFloat 0.70710 1e-10 = .fixed 0.70710 ∧
    latexFloat 0.00012 1e-10 = .sci 0.00012 := by
  have f1 : ⌊(0.70710 : ℝ)⌋ = 0 := by rw [Int.floor_eq_iff]; norm_num
  have f2 : ⌊(0.00012 : ℝ)⌋ = 0 := by rw [Int.floor_eq_iff]; norm_num
  refine ⟨?_, ?_, ?_⟩
  · norm_num [latexFloat]
  · norm_num [latexFloat, f1, abs_of_pos]
  · norm_num [latexFloat, f2, abs_of_pos]

/-- Case for displayed bases: the Gell-Mann basis of a qutrit, whose ninth element has its own label. -/
example : ∃ b rows, gellMannBasis 3 = .ok b ∧ b.show[8]? = some (b.labels.getD 8 "", some rows) ∧
    rows.length = 3 := by
  obtain ⟨b, h1, h2, -, h3, h4, h5⟩ := C40_gell_mann 3 (by norm_num)
  obtain ⟨-, -, h⟩ := C123_basis round (fun x => by rw [abs_sub_comm]; exact abs_sub_round x) b (by rw [h2]; exact h5) h4
  obtain ⟨rows, r1, r2, -⟩ := h (by omega) 8 (by rw [h5.len]; norm_num)
  exact ⟨b, rows, h1, r1, by omega⟩

/-- Case for the updater table: two particles of two parameters; the standard deviation of the second parameter is
two. -/
example : (updaterTable ["a", "b"] (fun _ : Fin 2 => (1 / 2 : ℝ)) fun i (j : Fin 2) => if j = 0 then 1 else 4 * i).2[1]? =
    some (uncLayout 2 2 4) := by
  have h := ((C123_updater_table ["a", "b"] rfl (fun _ : Fin 2 => (1 / 2 : ℝ))
    (fun i (j : Fin 2) => if j = 0 then 1 else 4 * i) (by norm_num)).2.2 1).2
  have e : Real.sqrt 4 = 2 := by
    rw [show (4 : ℝ) = 2 ^ 2 by norm_num]
    exact Real.sqrt_sq (by norm_num)
  norm_num [Fin.sum_univ_two, e] at h ⊢
  exact h

/-- Case for the covariance plot: the parameters 2 and 0 of three. -/
example : (plotCovariance ["a", "b", "c"] [2, 0] none fun i j => i + 10 * j).2.1 = ["$c$", "$a$"] := by
  decide

end QInfer
