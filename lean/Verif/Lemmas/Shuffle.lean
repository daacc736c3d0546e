import Mathlib.GroupTheory.Perm.DomMulAct
import Mathlib.Data.Nat.Choose.Multinomial
import Mathlib.Algebra.BigOperators.Fin
import Mathlib.Data.ENNReal.Inv
import Mathlib.Data.List.OfFn

/-!
# Shuffling blocks of multinomial lengths

Lemmas for C112.
-/

namespace QInfer

open Finset ENNReal
open scoped Nat

/-- How often each value occurs. -/
def occ {n κ : ℕ} (f : Fin n → Fin κ) (k : Fin κ) : ℕ := #{i | f i = k}

theorem occ_mem {n κ : ℕ} (f : Fin n → Fin κ) : occ f ∈ piAntidiag univ n := by
  rw [mem_piAntidiag]
  refine ⟨?_, fun i _ => mem_univ i⟩
  have := card_eq_sum_card_fiberwise (f := f) (s := univ) (t := univ) (fun _ _ => mem_univ _)
  simp only [card_univ, Fintype.card_fin] at this
  exact this.symm

/-- Functions with the same occurrences differ by a permutation. -/
theorem exists_perm {n κ : ℕ} (f g : Fin n → Fin κ) (h : occ f = occ g) :
    ∃ τ : Equiv.Perm (Fin n), f ∘ τ = g := by
  have e : ∀ k, Nonempty ({i // g i = k} ≃ {i // f i = k}) := fun k => by
    refine ⟨Fintype.equivOfCardEq ?_⟩
    rw [Fintype.card_subtype, Fintype.card_subtype]
    exact (congrFun h k).symm
  refine ⟨(Equiv.sigmaFiberEquiv g).symm.trans ((Equiv.sigmaCongrRight fun k => (e k).some).trans
    (Equiv.sigmaFiberEquiv f)), ?_⟩
  funext i
  exact ((e (g i)).some ⟨i, rfl⟩).2

/-- The permutations that turn `f` into `g`. -/
theorem card_perm {n κ : ℕ} (f g : Fin n → Fin κ) :
    #{σ : Equiv.Perm (Fin n) | f ∘ σ = g} = if occ g = occ f then ∏ k, (occ f k)! else 0 := by
  split_ifs with h
  · obtain ⟨τ, rfl⟩ := exists_perm f g h.symm
    have h1 := DomMulAct.stabilizer_card f
    rw [Fintype.card_subtype] at h1
    have h2 : ∀ k, Fintype.card {a // f a = k} = occ f k := fun k => Fintype.card_subtype _
    simp only [h2] at h1
    rw [← h1]
    refine card_bij (fun σ _ => σ * τ⁻¹) ?_ ?_ ?_
    · intro σ hσ
      simp only [mem_filter, mem_univ, true_and] at hσ ⊢
      funext i
      have := congrFun hσ (τ⁻¹ i)
      simpa using this
    · intro σ _ σ' _ he
      exact mul_right_cancel he
    · intro ρ hρ
      simp only [mem_filter, mem_univ, true_and] at hρ
      refine ⟨ρ * τ, ?_, by simp⟩
      simp only [mem_filter, mem_univ, true_and]
      funext i
      exact congrFun hρ (τ i)
  · rw [card_eq_zero, filter_eq_empty_iff]
    rintro σ - rfl
    apply h
    funext k
    unfold occ
    refine card_bij (fun i _ => σ i) ?_ ?_ ?_
    · intro i hi; simpa using hi
    · intro i _ j _ hij; exact σ.injective hij
    · intro j hj
      exact ⟨σ.symm j, by simpa using hj, by simp⟩

/-- Blocks of multinomial lengths, shuffled, are independent draws of labels. -/
theorem shuffle_blocks {n κ : ℕ} (W : Fin κ → ℝ≥0∞) (g : Fin κ → Fin n → ℝ≥0∞)
    (blk : (Fin κ → ℕ) → Fin n → Fin κ) (hb : ∀ c ∈ piAntidiag univ n, occ (blk c) = c) :
    ∑ c ∈ piAntidiag univ n, ∑ σ : Equiv.Perm (Fin n),
      (Nat.multinomial univ c * ∏ k, W k ^ c k) / (n ! : ℝ≥0∞) * ∏ i, g (blk c (σ i)) i =
      ∏ i, ∑ k, W k * g k i := by
  have hn0 : (n ! : ℝ≥0∞) ≠ 0 := Nat.cast_ne_zero.2 n.factorial_ne_zero
  have hnt : (n ! : ℝ≥0∞) ≠ ⊤ := natCast_ne_top _
  have hR : ∏ i, ∑ k, W k * g k i = ∑ f : Fin n → Fin κ, ∏ i, W (f i) * g (f i) i := by
    rw [prod_univ_sum]
    simp
  rw [hR, ← sum_fiberwise_of_maps_to (s := univ) (t := piAntidiag univ n) (g := occ) fun f _ => occ_mem f]
  refine sum_congr rfl fun c hc => ?_
  have hs : ∑ k, c k = n := (mem_piAntidiag.1 hc).1
  rw [← mul_sum, ← sum_fiberwise (s := univ) (g := fun σ : Equiv.Perm (Fin n) => blk c ∘ σ)]
  have h1 : ∀ f : Fin n → Fin κ, ∑ σ ∈ univ.filter fun σ : Equiv.Perm (Fin n) => blk c ∘ σ = f,
      ∏ i, g (blk c (σ i)) i = if occ f = c then (∏ k, ((c k)! : ℝ≥0∞)) * ∏ i, g (f i) i else 0 := by
    intro f
    have : ∀ σ ∈ univ.filter fun σ : Equiv.Perm (Fin n) => blk c ∘ σ = f,
        ∏ i, g (blk c (σ i)) i = ∏ i, g (f i) i := fun σ hσ => by
      simp only [mem_filter, mem_univ, true_and] at hσ
      rw [← hσ]; rfl
    rw [sum_congr rfl this, sum_const, card_perm, hb c hc, nsmul_eq_mul]
    split_ifs
    · push_cast; rfl
    · simp
  simp only [h1]
  rw [← sum_filter, ← mul_sum]
  have h2 : ∀ f ∈ univ.filter fun f : Fin n → Fin κ => occ f = c,
      ∏ i, W (f i) * g (f i) i = (∏ k, W k ^ c k) * ∏ i, g (f i) i := by
    intro f hf
    simp only [mem_filter, mem_univ, true_and] at hf
    rw [prod_mul_distrib, ← prod_fiberwise' univ f W]
    congr 1
    refine prod_congr rfl fun k _ => ?_
    rw [prod_const, ← hf]
    rfl
  rw [sum_congr rfl h2, ← mul_sum, ← mul_assoc]
  congr 1
  have h3 : ((∏ k, ((c k)! : ℝ≥0∞)) * (Nat.multinomial univ c : ℝ≥0∞)) = (n ! : ℝ≥0∞) := by
    have := Nat.multinomial_spec univ c
    rw [hs] at this
    exact_mod_cast congrArg (Nat.cast (R := ℝ≥0∞)) this
  rw [div_eq_mul_inv]
  calc _ = (∏ k, W k ^ c k) * ((∏ k, ((c k)! : ℝ≥0∞)) * (Nat.multinomial univ c : ℝ≥0∞) * (n ! : ℝ≥0∞)⁻¹) := by ring
    _ = _ := by rw [h3, ENNReal.mul_inv_cancel hn0 hnt, mul_one]

/-- Entries of a joined list. -/
theorem getElem?_flatten {α : Type*} (L : List (List α)) (k j : ℕ) (hk : k < L.length)
    (hj : j < L[k].length) :
    L.flatten[((L.take k).map List.length).sum + j]? = L[k][j]? := by
  induction L generalizing k with
  | nil => simp at hk
  | cons l L ih =>
    cases k with
    | zero =>
      simp only [List.getElem_cons_zero] at hj ⊢
      simp [List.getElem?_append_left hj]
    | succ k =>
      simp only [List.getElem_cons_succ] at hj ⊢
      rw [List.take_succ_cons, List.map_cons, List.sum_cons, List.flatten_cons,
        List.getElem?_append_right (by omega)]
      rw [← ih k (by simpa using hk) hj]
      congr 1
      omega

/-- The positions of the blocks. -/
noncomputable def blockPos {κ n : ℕ} (c : Fin κ → ℕ) (h : ∑ k, c k = n) :
    ((k : Fin κ) × Fin (c k)) ≃ Fin n := finSigmaFinEquiv.trans (finCongr h)

theorem blockPos_get {α : Type*} {κ n : ℕ} (c : Fin κ → ℕ) (h : ∑ k, c k = n) (ls : Fin κ → List α)
    (hl : ∀ k, (ls k).length = c k) (q : (k : Fin κ) × Fin (c k)) :
    (List.ofFn ls).flatten[(blockPos c h q : ℕ)]? = (ls q.1)[(q.2 : ℕ)]? := by
  obtain ⟨k, j⟩ := q
  have h1 : (blockPos c h ⟨k, j⟩ : ℕ) = (((List.ofFn ls).take k).map List.length).sum + j := by
    have : (blockPos c h ⟨k, j⟩ : ℕ) = (finSigmaFinEquiv ⟨k, j⟩ : Fin (∑ k, c k)) := rfl
    rw [this, finSigmaFinEquiv_apply]
    congr 1
    have e : (List.ofFn ls).take k = List.ofFn fun i : Fin k => ls (Fin.castLE k.2.le i) := by
      apply List.ext_getElem
      · simp
      · intro i h1 h2; simp
    rw [e, List.map_ofFn, List.sum_ofFn]
    refine sum_congr rfl fun i _ => ?_
    rw [Function.comp, hl]
  rw [h1, getElem?_flatten _ _ _ (by simp) (by simp [hl])]
  simp

theorem occ_block {κ n : ℕ} (c : Fin κ → ℕ) (h : ∑ k, c k = n) :
    occ (fun j => ((blockPos c h).symm j).1) = c := by
  funext k
  unfold occ
  rw [← Fintype.card_subtype]
  have e : {j : Fin n // ((blockPos c h).symm j).1 = k} ≃ Fin (c k) :=
    ((blockPos c h).symm.subtypeEquiv (q := fun q => q.1 = k) fun j => Iff.rfl).trans
      (Equiv.sigmaSubtype (β := fun k => Fin (c k)) k)
  rw [Fintype.card_congr e, Fintype.card_fin]

end QInfer
