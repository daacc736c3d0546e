import Verif.Model.RoundRegion
import Verif.Props.RoundRun
import Verif.Props.Particle

/-!
# C157: credible regions in rounded arithmetic
-/

namespace QInfer

variable {u : ℝ} {rnd : ℝ → ℝ} {radd : ℝ → ℝ → ℝ}

/-! ## Helper lemmas -/

/-- In a sorted list the entries up to a bound come first. -/
theorem sorted_mask (a : List ℝ) (hs : a.Pairwise (· ≤ ·)) (level : ℝ) :
    ∃ k ≤ a.length, (a.map fun c => decide (c ≤ level)) = List.replicate k true ++ List.replicate (a.length - k) false ∧
      (∀ i (hi : i < a.length), i < k → a[i] ≤ level) ∧ ∀ hk : k < a.length, level < a[k] := by
  induction a with
  | nil => exact ⟨0, le_rfl, rfl, fun i hi => by simp at hi, fun hk => by simp at hk⟩
  | cons b l ih =>
    rw [List.pairwise_cons] at hs
    by_cases hb : b ≤ level
    · obtain ⟨k, hk, hm, h1, h2⟩ := ih hs.2
      refine ⟨k + 1, by simpa using hk, ?_, ?_, ?_⟩
      · rw [List.map_cons, hm, List.replicate_succ]
        simp [hb]
      · intro i hi hik
        cases i with
        | zero => exact hb
        | succ i => exact h1 i (by simpa using hi) (by omega)
      · intro hk'
        exact h2 (by simpa using hk')
    · refine ⟨0, Nat.zero_le _, ?_, fun i _ h => absurd h (by omega), fun _ => not_le.1 hb⟩
      rw [List.replicate_zero, List.nil_append, Nat.sub_zero, List.eq_replicate_iff]
      refine ⟨by simp, fun x hx => ?_⟩
      obtain ⟨y, hy, rfl⟩ := List.mem_map.1 hx
      rw [decide_eq_false_iff_not, not_le]
      rcases List.mem_cons.1 hy with rfl | hy
      · exact not_le.1 hb
      · exact (not_le.1 hb).trans_le (hs.1 y hy)

/-- Sums over a list of indices. -/
theorem near_map_sum {g : ℝ} (I : List ℕ) (f h : ℕ → ℝ) (hn : ∀ i ∈ I, Spec.Near g (f i) (h i)) :
    Spec.Near g (I.map f).sum (I.map h).sum := by
  induction I with
  | nil => simp [Spec.Near]
  | cons i I ih =>
    obtain ⟨h1, h2⟩ := ih fun j hj => hn j (List.mem_cons_of_mem _ hj)
    obtain ⟨h3, h4⟩ := hn i List.mem_cons_self
    simp only [List.map_cons, List.sum_cons]
    exact ⟨by nlinarith, by nlinarith⟩

/-! ## Theorems -/

/-- **C157, without rounding** the region is the one of the exact model. -/
theorem C157_exact {α : Type} (w : List ℝ) (mps : List α) (idSort : List ℕ) (level : ℝ) :
    credRegionRound (· + ·) w mps idSort level = credRegion w mps idSort level := by
  have hm : ∀ s : List ℝ, credMaskRound (· + ·) s level = credMask s level := fun s => by
    unfold credMaskRound credMask
    simp only [C155_exact.1]
  unfold credRegionRound credRegion
  rw [hm]
  cases credMask (idSort.filterMap fun i => w[i]?) level <;> rfl

/-- **C157.**  Let the computed weights `w` be those of the posterior, `W`, up to a factor `g`, and let `c = 1 / (1 - u)`.
The region computed from `w` has more than `level / (g c ^ n)` of the posterior's weight; no particle outside is heavier by
more than the factor `g ^ 2` than one inside; without its last particle the region has at most `level g c ^ n`.  An
exception is raised only if `level` is the total weight or more, up to the factor. -/
theorem C157_region (h : Spec.Relative u rnd radd) {α : Type} (W w : List ℝ) (hlW : W.length = w.length) (mps : List α)
    (hlen : mps.length = w.length) (hw : ∀ x ∈ w, 0 ≤ x) {g : ℝ} (hg : 0 < g)
    (hnear : ∀ i, Spec.Near g (W.getD i 0) (w.getD i 0)) (idSort : List ℕ)
    (hperm : idSort.Perm (List.range w.length)) (hsort : (idSort.filterMap fun i => w[i]?).Pairwise (· ≥ ·))
    (hcum : (cumRound radd (idSort.filterMap fun i => w[i]?)).Pairwise (· ≤ ·)) (level : ℝ) (hl0 : 0 ≤ level) :
    (g * (1 / (1 - u)) ^ w.length * level < W.sum →
      ∃ out, credRegionRound radd w mps idSort level = .ok out) ∧
    ∀ inside outside, credRegionRound radd w mps idSort level = .ok (inside, outside) →
      ∃ I J : List ℕ, (I ++ J).Perm (List.range w.length) ∧
        inside.map some = I.map (fun i => mps[i]?) ∧ outside.map some = J.map (fun i => mps[i]?) ∧
        level < g * (1 / (1 - u)) ^ w.length * (I.map fun i => W.getD i 0).sum ∧
        (∀ i ∈ I, ∀ j ∈ J, W.getD j 0 ≤ g ^ 2 * W.getD i 0) ∧
        ∃ I' last, I = I' ++ [last] ∧
          (I'.map fun i => W.getD i 0).sum ≤ g * (1 / (1 - u)) ^ w.length * level := by
  obtain ⟨c, hc⟩ : ∃ c, c = 1 / (1 - u) := ⟨_, rfl⟩
  rw [← hc]
  have hc1 : 1 ≤ c := hc ▸ rel_one_le h
  have hc0 : 0 < c := by linarith
  have hu := h.nonneg
  have hu1 := h.small
  have hcu : 1 + u ≤ c := by rw [hc, le_div_iff₀ (by linarith)]; nlinarith
  have hcu' : c * (1 - u) = 1 := by rw [hc, one_div, inv_mul_cancel₀ (by linarith)]
  have hin : ∀ i ∈ idSort, i < w.length := fun i hi => by simpa using hperm.mem_iff.1 hi
  have hws : idSort.filterMap (fun i => w[i]?) = idSort.map fun i => w.getD i 0 := by
    rw [← List.filterMap_eq_map]
    refine List.filterMap_congr fun i hi => ?_
    simp [hin i hi]
  have hmp : ∀ L : List Nat, (∀ i ∈ L, i < w.length) →
      (L.filterMap fun i => mps[i]?).map some = L.map fun i => mps[i]? := by
    intro L hL
    induction L with
    | nil => rfl
    | cons i L ih =>
      have hi : i < mps.length := by rw [hlen]; exact hL i (by simp)
      have := ih fun j hj => hL j (by simp [hj])
      simp [hi, this]
  have hlen2 : (idSort.filterMap fun i => mps[i]?).length = idSort.length := by
    have := congrArg List.length (hmp idSort hin)
    simpa using this
  have hidl : idSort.length = w.length := by have := hperm.length_eq; simpa using this
  rw [hws] at hsort hcum
  obtain ⟨ws, hwsdef⟩ : ∃ ws, ws = idSort.map fun i => w.getD i 0 := ⟨_, rfl⟩
  rw [← hwsdef] at hsort hcum hws
  have hwslen : ws.length = w.length := by simp [hwsdef, hidl]
  have hws0 : ∀ x ∈ ws, 0 ≤ x := by
    intro x hx
    rw [hwsdef] at hx
    obtain ⟨i, hi, rfl⟩ := List.mem_map.1 hx
    have := hin i hi
    apply hw
    rw [getD_lt _ _ this]; exact List.getElem_mem this
  have hcl : (cumRound radd ws).length = ws.length := cumRound_length radd ws
  have hb : ∀ i (hi : i < ws.length), (ws.take (i + 1)).sum ≤ c ^ w.length * (cumRound radd ws)[i]'(by rwa [hcl]) ∧
      (cumRound radd ws)[i]'(by rwa [hcl]) ≤ c ^ w.length * (ws.take (i + 1)).sum := by
    intro i hi
    obtain ⟨h1, h2, -⟩ := C155_lengths h ws hws0 i hi
    have hs0 : 0 ≤ (ws.take (i + 1)).sum := List.sum_nonneg fun x hx => hws0 x (List.mem_of_mem_take hx)
    have hpow : c ^ i ≤ c ^ w.length := pow_le_pow_right₀ hc1 (by omega)
    constructor
    · have h3 := mul_le_mul_of_nonneg_left h1 (pow_nonneg hc0.le i)
      rw [← mul_assoc, ← mul_pow, hcu', one_pow, one_mul] at h3
      have h4 : 0 ≤ (cumRound radd ws)[i]'(by rwa [hcl]) := by
        have : 0 ≤ (1 - u) ^ i * (ws.take (i + 1)).sum := mul_nonneg (pow_nonneg (by linarith) _) hs0
        linarith
      exact h3.trans (mul_le_mul_of_nonneg_right hpow h4)
    · exact h2.trans (mul_le_mul_of_nonneg_right ((pow_le_pow_left₀ (by linarith) hcu _).trans hpow) hs0)
  have hnI : ∀ I : List ℕ, Spec.Near g (I.map fun i => W.getD i 0).sum (I.map fun i => w.getD i 0).sum :=
    fun I => near_map_sum I _ _ fun i _ => hnear i
  have hWsum : (idSort.map fun i => W.getD i 0).sum = W.sum := by
    have h1 := hperm.map fun i => W.getD i 0
    rw [h1.sum_eq, ← hlW, range_getD]
  obtain ⟨k, hk, hmask, hle, hgt⟩ := sorted_mask (cumRound radd ws) hcum level
  have htake : ∀ m, ((idSort.take m).map fun i => w.getD i 0).sum = (ws.take m).sum := fun m => by
    rw [hwsdef, List.map_take]
  have hprefix : ∀ m, m ≤ k → m ≤ ws.length →
      ((idSort.take m).map fun i => W.getD i 0).sum ≤ g * c ^ w.length * level := by
    intro m hmk hmw
    rcases Nat.eq_zero_or_pos m with rfl | hm
    · simp; positivity
    · obtain ⟨m, rfl⟩ : ∃ j, m = j + 1 := ⟨m - 1, by omega⟩
      have h1 := (hnI (idSort.take (m + 1))).2
      rw [htake] at h1
      have h2 := (hb m (by omega)).1
      have h3 := hle m (by rw [hcl]; omega) (by omega)
      calc _ ≤ g * (ws.take (m + 1)).sum := h1
        _ ≤ g * (c ^ w.length * level) :=
          mul_le_mul_of_nonneg_left (h2.trans (mul_le_mul_of_nonneg_left h3 (by positivity))) hg.le
        _ = _ := by ring
  have hcount : (List.replicate k true ++ List.replicate ((cumRound radd ws).length - k) false).count true = k := by
    simp [List.count_replicate]
  by_cases hk' : k < ws.length
  · have hcm : credMaskRound radd ws level =
        .ok (List.replicate (k + 1) true ++ List.replicate (ws.length - (k + 1)) false) := by
      unfold credMaskRound
      simp only [hmask, hcount]
      rw [if_pos (by simp; omega), hcl]
      congr 1
      obtain ⟨m, hm⟩ : ∃ m, ws.length - k = m + 1 := ⟨ws.length - k - 1, by omega⟩
      have hm' : ws.length - (k + 1) = m := by omega
      rw [hm, hm', List.set_append, if_neg (by simp), List.length_replicate, Nat.sub_self,
        List.replicate_succ, List.set_cons_zero, List.replicate_succ', List.append_assoc]
      rfl
    have hreg : credRegionRound radd w mps idSort level = .ok ((idSort.filterMap fun i => mps[i]?).take (k + 1),
        (idSort.filterMap fun i => mps[i]?).drop (k + 1)) := by
      unfold credRegionRound
      rw [hws, hcm]
      dsimp only
      rw [hwslen, ← hidl, ← hlen2, select_shape _ _ (by omega)]
      rw [List.map_append, List.map_replicate, List.map_replicate]
      simp only [Bool.not_true, Bool.not_false]
      rw [select_shape' _ _ (by omega)]
    refine ⟨fun _ => ⟨_, hreg⟩, fun inside outside hio => ?_⟩
    rw [hreg] at hio
    obtain ⟨rfl, rfl⟩ := Prod.mk.inj (Except.ok.inj hio)
    have hIJ : idSort.take (k + 1) ++ idSort.drop (k + 1) = idSort := List.take_append_drop _ _
    have hpair : idSort.Pairwise fun i j => w.getD j 0 ≤ w.getD i 0 := by
      rw [hwsdef, List.pairwise_map] at hsort; exact hsort
    refine ⟨idSort.take (k + 1), idSort.drop (k + 1), by rw [hIJ]; exact hperm, ?_, ?_, ?_, ?_,
      idSort.take k, idSort[k], by rw [List.take_succ_eq_append_getElem], hprefix k le_rfl hk'.le⟩
    · rw [List.map_take, hmp idSort hin, ← List.map_take]
    · rw [List.map_drop, hmp idSort hin, ← List.map_drop]
    · have h1 := (hnI (idSort.take (k + 1))).1
      rw [htake] at h1
      have h2 := (hb k hk').2
      have h3 := hgt (by rw [hcl]; exact hk')
      calc level < _ := h3
        _ ≤ c ^ w.length * (ws.take (k + 1)).sum := h2
        _ ≤ c ^ w.length * (g * ((idSort.take (k + 1)).map fun i => W.getD i 0).sum) :=
          mul_le_mul_of_nonneg_left h1 (by positivity)
        _ = _ := by ring
    · rw [← hIJ, List.pairwise_append] at hpair
      intro i hi j hj
      have h1 := hpair.2.2 i hi j hj
      calc W.getD j 0 ≤ g * w.getD j 0 := (hnear j).2
        _ ≤ g * w.getD i 0 := mul_le_mul_of_nonneg_left h1 hg.le
        _ ≤ g * (g * W.getD i 0) := mul_le_mul_of_nonneg_left (hnear i).1 hg.le
        _ = _ := by ring
  · have hk2 : k = ws.length := by omega
    have herr : credRegionRound radd w mps idSort level = .error .indexError := by
      unfold credRegionRound credMaskRound
      rw [hws]
      simp only [hmask, hcount]
      rw [if_neg (by simp; omega)]
    refine ⟨fun hlt => ?_, fun inside outside hio => ?_⟩
    · have := hprefix ws.length hk2.ge le_rfl
      rw [List.take_of_length_le (by omega), hWsum] at this
      linarith
    · rw [herr] at hio
      exact absurd hio (by simp)

/-- **C157, in binary arithmetic.**  If numbers are rounded to the nearest of `p` binary digits, as the weights already
are, nothing need be assumed about the cumulative sums: the region has more than `level / (g c ^ n)` of the posterior's
weight. -/
theorem C157_digits (p : ℕ) (hp : 0 < p) {α : Type} (W w : List ℝ) (hlW : W.length = w.length) (mps : List α)
    (hlen : mps.length = w.length) (hw : ∀ x ∈ w, 0 ≤ x) (hd : ∀ x ∈ w, Spec.nearest p x = x) {g : ℝ} (hg : 0 < g)
    (hnear : ∀ i, Spec.Near g (W.getD i 0) (w.getD i 0)) (idSort : List ℕ)
    (hperm : idSort.Perm (List.range w.length)) (hsort : (idSort.filterMap fun i => w[i]?).Pairwise (· ≥ ·))
    (level : ℝ) (hl0 : 0 ≤ level) (hl : g * (1 / (1 - 1 / 2 ^ p)) ^ w.length * level < W.sum) :
    ∃ inside outside, credRegionRound (fun x y => Spec.nearest p (x + y)) w mps idSort level = .ok (inside, outside) ∧
      ∃ I J : List ℕ, (I ++ J).Perm (List.range w.length) ∧
        inside.map some = I.map (fun i => mps[i]?) ∧ outside.map some = J.map (fun i => mps[i]?) ∧
        level < g * (1 / (1 - 1 / 2 ^ p)) ^ w.length * (I.map fun i => W.getD i 0).sum := by
  have hmem : ∀ x ∈ idSort.filterMap (fun i => w[i]?), x ∈ w := by
    intro x hx
    obtain ⟨i, -, hi⟩ := List.mem_filterMap.1 hx
    exact List.mem_of_getElem? hi
  obtain ⟨h1, h2⟩ := C157_region (C154_nearest p hp) W w hlW mps hlen hw hg hnear idSort hperm hsort
    (C155_sorted p hp _ (fun x hx => hw x (hmem x hx)) fun x hx => hd x (hmem x hx)) level hl0
  obtain ⟨⟨inside, outside⟩, ho⟩ := h1 hl
  obtain ⟨I, J, a1, a2, a3, a4, -⟩ := h2 inside outside ho
  exact ⟨inside, outside, ho, I, J, a1, a2, a3, a4⟩

/-- Case for C157: posterior weights 1/3 and 2/3, stored in binary64, at level 1/2. -/
example : ∃ inside outside, credRegionRound (fun x y => Spec.nearest 53 (x + y))
      [Spec.nearest 53 (1 / 3), Spec.nearest 53 (2 / 3)] ["a", "b"] [1, 0] (1 / 2) = .ok (inside, outside) ∧
      ∃ I J : List ℕ, (I ++ J).Perm (List.range 2) ∧
        inside.map some = I.map (fun i => ["a", "b"][i]?) ∧ outside.map some = J.map (fun i => ["a", "b"][i]?) ∧
        (1 / 2 : ℝ) < 1 / (1 - 1 / 2 ^ 53) * (1 / (1 - 1 / 2 ^ 53)) ^ 2 * (I.map fun i => [1 / 3, 2 / 3].getD i 0).sum := by
  have h := C154_nearest 53 (by norm_num)
  have key := C157_digits 53 (by norm_num) [1 / 3, 2 / 3] [Spec.nearest 53 (1 / 3), Spec.nearest 53 (2 / 3)] rfl ["a", "b"] rfl
    ?_ ?_ (g := 1 / (1 - 1 / 2 ^ 53)) (by norm_num) ?_ [1, 0] (by decide) ?_ (1 / 2) (by norm_num) (by norm_num)
  · simpa only [List.length_cons, List.length_nil, Nat.zero_add, Nat.reduceAdd] using key
  · intro x hx
    simp only [List.mem_cons, List.not_mem_nil, or_false] at hx
    rcases hx with rfl | rfl <;> exact nearest_nonneg _ (by norm_num) (by norm_num)
  · intro x hx
    simp only [List.mem_cons, List.not_mem_nil, or_false] at hx
    rcases hx with rfl | rfl <;> exact nearest_idem _ (by norm_num) (by norm_num)
  · intro i
    match i with
    | 0 => exact near_rnd h (by norm_num)
    | 1 => exact near_rnd h (by norm_num)
    | i + 2 => simp [Spec.Near]
  · show List.Pairwise (· ≥ ·) [Spec.nearest 53 (2 / 3), Spec.nearest 53 (1 / 3)]
    simp only [List.pairwise_cons, List.mem_singleton, forall_eq, List.not_mem_nil, false_implies, implies_true,
      List.Pairwise.nil, and_true]
    exact nearest_mono _ (by norm_num) (by norm_num) (by norm_num)

end QInfer
