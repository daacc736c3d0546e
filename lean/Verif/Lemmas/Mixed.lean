import Verif.Model.Mixed
import Verif.Lemmas.Particle
import Mathlib.Data.List.Sort
import Mathlib.Data.List.Perm.Basic
import Mathlib.Tactic.Linarith
import Mathlib.Algebra.BigOperators.Group.List.Lemmas

/-! # Lemmas about the mixed updater's choice of particles -/

set_option linter.unusedSectionVars false
set_option linter.unusedSimpArgs false

namespace QInfer

/-- `as` returns, for every array, a permutation of its indices that sorts it. -/
def SortsIdx {α : Type*} [LE α] (d : α) (as : List α → List Nat) : Prop :=
  ∀ l, (as l).Perm (List.range l.length) ∧ (as l).Pairwise fun a b => l.getD a d ≤ l.getD b d

section
variable {K : Type*} [Field K] [LinearOrder K] [IsStrictOrderedRing K]

theorem take1_perm {α : Type*} (a : List α) (d : α) (idxs : List Nat)
    (h : idxs.Perm (List.range a.length)) : (take1 a d idxs).Perm a := by
  unfold take1
  exact (h.map _).trans (by rw [range_getD])

theorem take1_getD {α : Type*} (a : List α) (d d' : α) (idxs : List Nat) {q : Nat}
    (h : q < idxs.length) : (take1 a d idxs).getD q d' = a.getD (idxs.getD q 0) d := by
  unfold take1
  rw [getD_lt _ _ (by simpa using h), List.getElem_map, getD_lt _ _ h]

theorem mixOrder_spec (as : List K → List Nat) (has : SortsIdx 0 as) (w : List K)
    (sh : List Nat) (hsh : sh.Perm (List.range w.length)) :
    (mixOrder as sh w).Perm (List.range w.length) ∧
    (mixOrder as sh w).Pairwise fun a b => w.getD a 0 ≤ w.getD b 0 := by
  have hlen : sh.length = w.length := by simpa using hsh.length_eq
  have hl : (take1 w 0 sh).length = sh.length := by simp [take1]
  obtain ⟨h1, h2⟩ := has (take1 w 0 sh)
  rw [hl] at h1
  refine ⟨(take1_perm sh 0 _ h1).trans hsh, ?_⟩
  unfold mixOrder
  rw [take1, List.pairwise_map]
  refine h2.imp_of_mem ?_
  intro a b ha hb hab
  have ha' : a < sh.length := by simpa using h1.mem_iff.mp ha
  have hb' : b < sh.length := by simpa using h1.mem_iff.mp hb
  rwa [take1_getD w 0 0 sh ha', take1_getD w 0 0 sh hb'] at hab

theorem inverse_spec (as : List Nat → List Nat) (has : SortsIdx 0 as) (order : List Nat)
    (n : Nat) (ho : order.Perm (List.range n)) :
    (as order).Perm (List.range n) ∧ ∀ q < n, order.getD q 0 < n ∧
      (as order).getD (order.getD q 0) 0 = q := by
  have hlen : order.length = n := by simpa using ho.length_eq
  obtain ⟨h1, h2⟩ := has order
  rw [hlen] at h1
  have h1l : (as order).length = n := by simpa using h1.length_eq
  refine ⟨h1, ?_⟩
  have hr : take1 order 0 (as order) = List.range n := by
    refine List.Perm.eq_of_pairwise (fun a b _ _ h h' => Nat.le_antisymm h h')
      (le := (· ≤ ·)) ?_ ?_ ?_
    · rw [take1, List.pairwise_map]; exact h2
    · exact List.pairwise_lt_range.imp fun h => h.le
    · exact (take1_perm order 0 _ (by rw [hlen]; exact h1)).trans ho
  have hp : ∀ p < n, order.getD ((as order).getD p 0) 0 = p := by
    intro p hp
    have : (take1 order 0 (as order)).getD p 0 = (List.range n).getD p 0 := by rw [hr]
    rw [take1_getD order 0 0 _ (by omega)] at this
    rw [this, getD_lt _ _ (by simpa using hp), List.getElem_range]
  have hnd : order.Nodup := ho.nodup_iff.mpr List.nodup_range
  intro q hq
  have hqn : order.getD q 0 < n := by
    rw [getD_lt _ _ (by omega)]
    simpa using ho.mem_iff.mp (List.getElem_mem (by omega))
  refine ⟨hqn, ?_⟩
  have h3 := hp _ hqn
  have h4 : (as order).getD (order.getD q 0) 0 < n := by
    rw [getD_lt (as order) 0 (i := order.getD q 0) (by omega)]
    exact List.mem_range.mp (h1.mem_iff.mp (List.getElem_mem _))
  rw [getD_lt order 0 (i := (as order).getD (order.getD q 0) 0) (by omega)] at h3
  have h5 := getD_lt order 0 (i := q) (by omega)
  exact (List.Nodup.getElem_inj_iff hnd).mp (h3.trans h5)

theorem monotone_cut (n : Nat) (P : Nat → Prop) [DecidablePred P]
    (hm : ∀ a b, a ≤ b → b < n → P a → P b) : ∃ k ≤ n, ∀ q < n, (P q ↔ k ≤ q) := by
  by_cases h : ∃ q, q < n ∧ P q
  · refine ⟨Nat.find h, (Nat.find_spec h).1.le, fun q hq => ⟨fun hP => Nat.find_min' h ⟨hq, hP⟩, ?_⟩⟩
    intro hk
    exact hm _ _ hk hq (Nat.find_spec h).2
  · refine ⟨n, le_rfl, fun q hq => ⟨fun hP => absurd ⟨q, hq, hP⟩ h, fun hn => by omega⟩⟩

theorem count_cut (n k : Nat) (hk : k ≤ n) :
    ((List.range n).map fun q => decide (k ≤ q)).count true = n - k := by
  induction n with
  | zero => simp
  | succ n ih =>
    rw [List.range_succ, List.map_append, List.count_append]
    rcases Nat.lt_or_ge n k with h | h
    · have : k = n + 1 := by omega
      subst this
      rw [List.count_eq_zero.mpr]
      · simp
      · simp; intro x hx; omega
    · rw [ih h]; simp [h]; omega

theorem cumsumFrom_getD (a : K) (w : List K) (q : Nat) (h : q < w.length) :
    (cumsumFrom a w).getD q 0 = a + (w.take (q + 1)).sum := by
  induction w generalizing a q with
  | nil => simp at h
  | cons x w ih =>
    cases q with
    | zero => simp [cumsumFrom]
    | succ q =>
      have := ih (a + x) q (by simpa using h)
      simp only [cumsumFrom, List.getD_cons_succ, this, List.take_succ_cons, List.sum_cons]
      ring

/-- The chosen particles are a final segment of the sorted order. -/
theorem mixMask_spec (cfg : MixCfg K) (w : List K) (hw : ∀ x ∈ w, 0 ≤ x) (order : List Nat)
    (asN : List Nat → List Nat) (hasN : SortsIdx 0 asN)
    (ho : order.Perm (List.range w.length))
    (hsort : order.Pairwise fun a b => w.getD a 0 ≤ w.getD b 0) :
    (mixMask cfg order (asN order) w).length = w.length ∧
    ∃ k ≤ w.length,
      (∀ q < w.length, (mixMask cfg order (asN order) w).getD (order.getD q 0) false
        = decide (k ≤ q)) ∧
      (0 < k → ((take1 w 0 order).take k).sum < 1 - cfg.ratio) ∧
      (∀ q < w.length, cfg.thresh ≤ w.getD (order.getD q 0) 0 → k ≤ q) ∧
      (0 < k → cfg.minGood ≤ (w.length - k : ℕ)) ∧
      (cfg.minGood < (w.length - k : ℕ) → k < w.length →
        cfg.thresh ≤ w.getD (order.getD k 0) 0 ∨
        1 - cfg.ratio ≤ ((take1 w 0 order).take (k + 1)).sum) := by
  have hol : order.length = w.length := by simpa using ho.length_eq
  obtain ⟨hinv, hrank⟩ := inverse_spec asN hasN order _ ho
  have hil : (asN order).length = w.length := by simpa using hinv.length_eq
  have hswl : (take1 w 0 order).length = w.length := by simp [take1, hol]
  have hsw0 : ∀ x ∈ take1 w 0 order, 0 ≤ x := fun x hx =>
    hw x ((take1_perm w 0 order ho).mem_iff.mp hx)
  have hswD : ∀ q < w.length, (take1 w 0 order).getD q 0 = w.getD (order.getD q 0) 0 :=
    fun q hq => take1_getD w 0 0 order (by omega)
  have hmono : ∀ a b, a ≤ b → b < w.length →
      w.getD (order.getD a 0) 0 ≤ w.getD (order.getD b 0) 0 := by
    intro a b hab hb
    rcases Nat.eq_or_lt_of_le hab with rfl | hlt
    · exact le_rfl
    · have := List.pairwise_iff_getElem.mp hsort a b (by omega) (by omega) hlt
      rwa [getD_lt order 0 (i := a) (by omega), getD_lt order 0 (i := b) (by omega)]
  -- the sorted mask
  let P : Nat → Prop := fun q => 1 - cfg.ratio ≤ ((take1 w 0 order).take (q + 1)).sum ∨
    cfg.thresh ≤ w.getD (order.getD q 0) 0
  obtain ⟨k, hk, hkP⟩ := monotone_cut w.length P (by
    intro a b hab hb hP
    rcases hP with h | h
    · exact Or.inl (h.trans (take_sum_mono _ hsw0 (by omega)))
    · exact Or.inr (h.trans (hmono a b hab hb)))
  have hsm : ∀ q < w.length, (List.zipWith
      (fun c x => decide (1 - cfg.ratio ≤ c) || decide (cfg.thresh ≤ x))
      (cumsum (take1 w 0 order)) (take1 w 0 order)).getD q false = decide (k ≤ q) := by
    intro q hq
    have hcl : (cumsum (take1 w 0 order)).length = w.length := by
      rw [cumsum_eq, cumsumFrom_length, hswl]
    have hc := cumsumFrom_getD 0 (take1 w 0 order) q (by omega)
    rw [← cumsum_eq, zero_add, getD_lt _ _ (by omega)] at hc
    rw [getD_lt _ _ (by simp [hcl, hswl, hq]), List.getElem_zipWith, hc]
    have hx : (take1 w 0 order)[q]'(by omega) = w.getD (order.getD q 0) 0 := by
      rw [← hswD q hq, getD_lt _ _ (by omega)]
    rw [hx, ← Bool.decide_or]
    exact decide_eq_decide.mpr (hkP q hq)
  have hsml : (List.zipWith
      (fun c x => decide (1 - cfg.ratio ≤ c) || decide (cfg.thresh ≤ x))
      (cumsum (take1 w 0 order)) (take1 w 0 order)).length = w.length := by
    simp [cumsum_eq, cumsumFrom_length, hswl]
  generalize hSM : (List.zipWith
      (fun c x => decide (1 - cfg.ratio ≤ c) || decide (cfg.thresh ≤ x))
      (cumsum (take1 w 0 order)) (take1 w 0 order)) = sm at hsm hsml
  have hsmeq : sm = (List.range w.length).map fun q => decide (k ≤ q) := by
    apply List.ext_getElem
    · simp [hsml]
    · intro q h1 h2
      rw [List.getElem_map, List.getElem_range, ← hsm q (by omega), getD_lt _ _ h1]
  have hcount : (take1 sm false (asN order)).count true = w.length - k := by
    rw [(take1_perm sm false _ (by rw [hsml]; exact hinv)).count_eq, hsmeq, count_cut _ _ hk]
  have hmD : ∀ q < w.length, (take1 sm false (asN order)).getD (order.getD q 0) false
      = decide (k ≤ q) := by
    intro q hq
    rw [take1_getD sm false false _ (by rw [hil]; exact (hrank q hq).1), (hrank q hq).2, hsm q hq]
  have hml : (take1 sm false (asN order)).length = w.length := by simp [take1, hil]
  have hlow : ∀ k' ≤ k, 0 < k' → ((take1 w 0 order).take k').sum < 1 - cfg.ratio := by
    intro k' hk' h0
    have hkn := mt (hkP (k' - 1) (by omega)).mp (by omega)
    simp only [P, not_or, not_le] at hkn
    rw [show k' - 1 + 1 = k' by omega] at hkn
    exact hkn.1
  unfold mixMask
  dsimp only
  rw [hSM]
  split
  · rename_i hlt
    rw [hcount] at hlt
    have hmg : 0 < cfg.minGood := lt_of_le_of_lt (by positivity) hlt
    have hmN : ((cfg.minGood.toNat : ℕ) : ℤ) = cfg.minGood := Int.toNat_of_nonneg hmg.le
    have hk' : w.length - cfg.minGood.toNat ≤ k := by omega
    refine ⟨by simp [hml], w.length - cfg.minGood.toNat, by omega, ?_, ?_, ?_, ?_, ?_⟩
    · intro q hq
      have hlt := (hrank q hq).1
      have hx := getD_lt order 0 (i := q) (by omega)
      generalize order.getD q 0 = x at hlt hx ⊢
      rw [getD_lt _ _ (by rw [List.length_map, List.length_range, hml]; exact hlt),
        List.getElem_map, List.getElem_range]
      apply decide_eq_decide.mpr
      rw [hol, hx]
      have hnd : order.Nodup := ho.nodup_iff.mpr List.nodup_range
      constructor
      · intro hmem
        obtain ⟨i, hi, he⟩ := List.mem_iff_getElem.mp hmem
        rw [List.getElem_drop] at he
        have := (List.Nodup.getElem_inj_iff hnd).mp he
        omega
      · intro hle
        rw [List.mem_iff_getElem]
        refine ⟨q - (w.length - cfg.minGood.toNat), by simp; omega, ?_⟩
        rw [List.getElem_drop]
        congr 1; omega
    · intro h0
      exact hlow _ hk' h0
    · intro q hq hth
      have := (hkP q hq).mp (Or.inr hth)
      omega
    · intro h0; omega
    · intro h1 _; exfalso; omega
  · rename_i hnl
    rw [hcount] at hnl
    refine ⟨hml, k, hk, hmD, fun h0 => hlow k le_rfl h0, ?_, fun _ => by omega, ?_⟩
    · intro q hq hth
      exact (hkP q hq).mp (Or.inr hth)
    · intro _ hkn
      have := (hkP k hkn).mpr le_rfl
      exact this.symm

end

end QInfer
