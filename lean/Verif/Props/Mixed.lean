import Verif.Lemmas.Mixed
import Mathlib.Algebra.Order.BigOperators.Group.List
import Mathlib.Tactic.FieldSimp
import Mathlib.Tactic.NormNum

/-! # C38: the mixed updater -/

set_option linter.unusedSectionVars false
set_option linter.unusedSimpArgs false

namespace QInfer

/-! ## Specification -/

/-- Total weight of the particles whose mask entry is `b`. -/
def weightWhere {K : Type*} [Field K] (w : List K) (m : List Bool) (b : Bool) : K :=
  ((w.zip m).map fun p => if p.2 = b then p.1 else 0).sum

/-- Particle `p` is marked by the mask. -/
def Marked (m : List Bool) (p : Nat) : Prop := m[p]? = some true

/-- Particle `p` exists and is not marked by the mask. -/
def Unmarked (m : List Bool) (p : Nat) : Prop := m[p]? = some false

/-! ## Helper lemmas -/

section
variable {K : Type*} {O E : Type*} [Field K] [LinearOrder K] [IsStrictOrderedRing K]

theorem marked_iff (m : List Bool) (p : Nat) (h : p < m.length) :
    (Marked m p ↔ m.getD p false = true) ∧ (Unmarked m p ↔ m.getD p false = false) := by
  unfold Marked Unmarked
  rw [getD_lt _ _ h, List.getElem?_eq_getElem h]
  simp

theorem sum_cut (sw : List K) (k : Nat) :
    ((List.range sw.length).map fun q => if k ≤ q then 0 else sw.getD q 0).sum = (sw.take k).sum := by
  induction sw generalizing k with
  | nil => simp
  | cons x sw ih =>
    rw [List.length_cons, List.range_succ_eq_map, List.map_cons, List.map_map, List.sum_cons]
    cases k with
    | zero =>
      have : (List.map ((fun q => if 0 ≤ q then 0 else (x :: sw).getD q 0) ∘ Nat.succ)
          (List.range sw.length)) = List.replicate sw.length (0 : K) := by
        rw [List.eq_replicate_iff]; simp
      rw [this]; simp
    | succ k =>
      have : (List.map ((fun q => if k + 1 ≤ q then 0 else (x :: sw).getD q 0) ∘ Nat.succ)
          (List.range sw.length)) =
          (List.range sw.length).map fun q => if k ≤ q then 0 else sw.getD q 0 := by
        apply List.map_congr_left
        intro q _
        simp
      rw [this, ih]; simp

theorem weightWhere_range (w : List K) (m : List Bool) (h : m.length = w.length) (b : Bool) :
    weightWhere w m b =
    ((List.range w.length).map fun p => if m.getD p false = b then w.getD p 0 else 0).sum := by
  unfold weightWhere
  congr 1
  apply List.ext_getElem
  · simp [h]
  · intro i h1 h2
    have hi : i < w.length := by simpa using h2
    rw [List.getElem_map, List.getElem_map, List.getElem_zip, List.getElem_range,
      getD_lt m _ (by omega), getD_lt w _ hi]

theorem mselect_cons {α : Type*} (x : α) (l : List α) (b : Bool) (m : List Bool) :
    select (x :: l) (b :: m) = if b then x :: select l m else select l m := by
  unfold select
  cases b <;> simp

theorem mem_mselect {α : Type*} (l : List α) (m : List Bool) (x : α) :
    x ∈ select l m ↔ ∃ p, l[p]? = some x ∧ Marked m p := by
  induction l generalizing m with
  | nil => simp [select]
  | cons y l ih =>
    cases m with
    | nil => simp [select, Marked]
    | cons b m =>
      rw [mselect_cons]
      constructor
      · intro h
        cases b with
        | true =>
          rw [if_pos rfl] at h
          rcases List.mem_cons.mp h with rfl | h
          · exact ⟨0, by simp, by simp [Marked]⟩
          · obtain ⟨p, h1, h2⟩ := (ih m).mp h
            exact ⟨p + 1, by simpa using h1, by simpa [Marked] using h2⟩
        | false =>
          obtain ⟨p, h1, h2⟩ := (ih m).mp (by simpa using h)
          exact ⟨p + 1, by simpa using h1, by simpa [Marked] using h2⟩
      · rintro ⟨p, h1, h2⟩
        cases p with
        | zero =>
          simp [Marked] at h1 h2
          subst h1 h2; simp
        | succ p =>
          have : x ∈ select l m := (ih m).mpr ⟨p, by simpa using h1, by simpa [Marked] using h2⟩
          cases b <;> simp [this]

theorem maskAssign_length {α : Type*} (base : List α) (m : List Bool) (vs : List α) :
    (maskAssign base m vs).length = base.length := by
  induction base generalizing m vs with
  | nil => cases m <;> rfl
  | cons b base ih =>
    cases m with
    | nil => rfl
    | cons t m =>
      cases t with
      | false => simp [maskAssign, ih]
      | true => cases vs <;> simp [maskAssign, ih]

theorem maskAssign_get {α β : Type*} (base : List β) (m : List Bool) (l : List α) (g : α → β)
    (h1 : base.length = l.length) (h2 : m.length = l.length) (p : Nat) (hp : p < l.length) :
    (maskAssign base m ((select l m).map g))[p]? =
      if m[p]? = some true then some (g l[p]) else base[p]? := by
  induction l generalizing base m p with
  | nil => simp at hp
  | cons x l ih =>
    cases base with
    | nil => simp at h1
    | cons b base =>
      cases m with
      | nil => simp at h2
      | cons t m =>
        rw [mselect_cons]
        cases t with
        | false =>
          cases p with
          | zero => simp [maskAssign]
          | succ p =>
            have := ih base m (by simpa using h1) (by simpa using h2) p (by simpa using hp)
            simpa [maskAssign] using this
        | true =>
          cases p with
          | zero => simp [maskAssign]
          | succ p =>
            have := ih base m (by simpa using h1) (by simpa using h2) p (by simpa using hp)
            simpa [maskAssign] using this

theorem mixAssert_nil (a b : List K) (h : a = [] ∨ b = []) : mixAssert a b = false := by
  unfold mixAssert npMean
  rcases h with rfl | rfl
  · simp
  · by_cases ha : a = [] <;> simp [ha]

theorem mixAssert_ok (a b : List K) (ha : a ≠ []) (hb : b ≠ []) (h : ∀ x ∈ a, ∀ y ∈ b, y ≤ x) :
    mixAssert a b = true := by
  have hla : (0 : K) < a.length := by exact_mod_cast List.length_pos_iff.mpr ha
  have hlb : (0 : K) < b.length := by exact_mod_cast List.length_pos_iff.mpr hb
  have h1 : ∀ x ∈ a, b.sum / b.length ≤ x := by
    intro x hx
    rw [div_le_iff₀ hlb]
    have := List.sum_le_card_nsmul b x (fun y hy => h x hx y hy)
    rw [nsmul_eq_mul] at this
    linarith
  have h2 : b.sum / b.length ≤ a.sum / a.length := by
    rw [le_div_iff₀ hla]
    have := List.card_nsmul_le_sum a _ h1
    rw [nsmul_eq_mul] at this
    linarith
  unfold mixAssert npMean
  rw [if_neg ha, if_neg hb]
  simp only [decide_eq_true_eq]
  have h3 : (0 : K) ≤ 1 / 10 ^ 6 := by positivity
  linarith

theorem unmarked_not (m : List Bool) (p : Nat) : Marked (m.map not) p ↔ Unmarked m p := by
  unfold Marked Unmarked
  rw [List.getElem?_map]
  cases m[p]? with
  | none => simp
  | some b => cases b <;> simp

/-! ## Theorems -/

/-- **C38, choice of particles.**  For every shuffle, every way of sorting and every non-negative
weight vector: each particle is marked or not; no unmarked particle is heavier than a marked one;
particles at or above the threshold are marked; at least `min_good` are marked (or all are); the
unmarked ones weigh less than `1 - mixture_ratio` (or there are none); and no more are marked than
needed: if more than `min_good` are, the lightest marked one reaches the threshold or is needed for
the ratio. -/
theorem C38_assignment (cfg : MixCfg K) (argsort : List K → List Nat)
    (argsortN : List Nat → List Nat) (has : SortsIdx 0 argsort) (hasN : SortsIdx 0 argsortN)
    (w : List K) (hw : ∀ x ∈ w, 0 ≤ x) (shuffled : List Nat)
    (hsh : shuffled.Perm (List.range w.length)) :
    let order := mixOrder argsort shuffled w
    let m := mixMask cfg order (argsortN order) w
    (∀ p < w.length, Marked m p ∨ Unmarked m p) ∧ m.length = w.length ∧
    (∀ a x b y, w[a]? = some x → w[b]? = some y → Marked m a → Unmarked m b → y ≤ x) ∧
    (∀ a x, w[a]? = some x → cfg.thresh ≤ x → Marked m a) ∧
    (cfg.minGood ≤ (m.count true : ℕ) ∨ ∀ p, ¬ Unmarked m p) ∧
    (weightWhere w m false < 1 - cfg.ratio ∨ ∀ p, ¬ Unmarked m p) ∧
    (cfg.minGood < (m.count true : ℕ) → (∃ a, Marked m a) →
      ∃ a x, w[a]? = some x ∧ Marked m a ∧ (∀ b y, w[b]? = some y → Marked m b → x ≤ y) ∧
        (cfg.thresh ≤ x ∨ 1 - cfg.ratio ≤ weightWhere w m false + x)) := by
  intro order m
  obtain ⟨ho, hsort⟩ := mixOrder_spec argsort has w shuffled hsh
  obtain ⟨hlen, k, hk, hmask, hlow, hth, hmin, htight⟩ :=
    mixMask_spec cfg w hw order argsortN hasN ho hsort
  change m.length = w.length at hlen
  change ∀ q < w.length, m.getD (order.getD q 0) false = decide (k ≤ q) at hmask
  have hol : order.length = w.length := by simpa using ho.length_eq
  have hswl : (take1 w 0 order).length = w.length := by simp [take1, hol]
  have hswD : ∀ q < w.length, (take1 w 0 order).getD q 0 = w.getD (order.getD q 0) 0 :=
    fun q hq => take1_getD w 0 0 order (by omega)
  have hrank : ∀ p < w.length, ∃ q < w.length, order.getD q 0 = p := by
    intro p hp
    have : p ∈ order := ho.mem_iff.mpr (List.mem_range.mpr hp)
    obtain ⟨q, hq, he⟩ := List.mem_iff_getElem.mp this
    exact ⟨q, by omega, by rw [getD_lt _ _ hq, he]⟩
  have hord : ∀ q < w.length, order.getD q 0 < w.length := by
    intro q hq
    rw [getD_lt _ _ (by omega)]
    exact List.mem_range.mp (ho.mem_iff.mp (List.getElem_mem _))
  have hmono : ∀ a b, a ≤ b → b < w.length →
      w.getD (order.getD a 0) 0 ≤ w.getD (order.getD b 0) 0 := by
    intro a b hab hb
    rcases Nat.eq_or_lt_of_le hab with rfl | hlt
    · exact le_rfl
    · have := List.pairwise_iff_getElem.mp hsort a b
        (show a < order.length by omega) (show b < order.length by omega) hlt
      rw [getD_lt order 0 (i := a) (by omega), getD_lt order 0 (i := b) (by omega)]
      exact this
  have hM : ∀ q < w.length, (Marked m (order.getD q 0) ↔ k ≤ q) ∧
      (Unmarked m (order.getD q 0) ↔ q < k) := by
    intro q hq
    obtain ⟨h1, h2⟩ := marked_iff m (order.getD q 0) (by rw [hlen]; exact hord q hq)
    rw [h1, h2, hmask q hq]
    simp
  have hlt : ∀ p, (Marked m p ∨ Unmarked m p) → p < w.length := by
    intro p hp
    by_contra hn
    rw [Marked, Unmarked, List.getElem?_eq_none (by omega)] at hp
    simp at hp
  have hget : ∀ a x, w[a]? = some x → a < w.length ∧ w.getD a 0 = x := by
    intro a x h
    have ha : a < w.length := by
      by_contra hn
      rw [List.getElem?_eq_none (by omega)] at h; cases h
    refine ⟨ha, ?_⟩
    rw [List.getD_eq_getElem?_getD, h]; rfl
  have hnone : k = 0 → ∀ p, ¬ Unmarked m p := by
    intro h0 p hu
    obtain ⟨q, hq, rfl⟩ := hrank p (hlt p (Or.inr hu))
    have := (hM q hq).2.mp hu
    omega
  have hcount : m.count true = w.length - k := by
    have hp := take1_perm m false order (by rw [hlen]; exact ho)
    rw [← hp.count_eq, ← count_cut _ _ hk]
    congr 1
    apply List.ext_getElem
    · simp [take1, hol]
    · intro q h1 h2
      have hq : q < w.length := by simpa using h2
      have := take1_getD m false false order (q := q) (by omega)
      rw [getD_lt _ _ h1, hmask q hq] at this
      rw [this, List.getElem_map, List.getElem_range]
  have hwt : weightWhere w m false = ((take1 w 0 order).take k).sum := by
    rw [weightWhere_range w m hlen, ← sum_cut, hswl]
    rw [← (ho.map _).sum_eq]
    congr 1
    apply List.ext_getElem
    · simp [show (mixOrder argsort shuffled w).length = w.length from hol]
    · intro q h1 h2
      have hq : q < w.length := by simpa using h2
      rw [List.getElem_map, List.getElem_map, List.getElem_range]
      change (if m.getD (order[q]'(by omega)) false = false then
        w.getD (order[q]'(by omega)) 0 else 0) = _
      have hoq : order[q]'(by omega) = order.getD q 0 := (getD_lt _ _ _).symm
      rw [hoq, hmask q hq, hswD q hq]
      by_cases hkq : k ≤ q <;> simp [hkq]
  refine ⟨?_, hlen, ?_, ?_, ?_, ?_, ?_⟩
  · intro p hp
    obtain ⟨q, hq, rfl⟩ := hrank p hp
    rw [(hM q hq).1, (hM q hq).2]; omega
  · intro a x b y ha hb hma hub
    obtain ⟨ha1, rfl⟩ := hget a x ha
    obtain ⟨hb1, rfl⟩ := hget b y hb
    obtain ⟨qa, hqa, rfl⟩ := hrank a ha1
    obtain ⟨qb, hqb, rfl⟩ := hrank b hb1
    have h1 := (hM qa hqa).1.mp hma
    have h2 := (hM qb hqb).2.mp hub
    exact hmono qb qa (by omega) hqa
  · intro a x ha hx
    obtain ⟨ha1, rfl⟩ := hget a x ha
    obtain ⟨qa, hqa, rfl⟩ := hrank a ha1
    exact (hM qa hqa).1.mpr (hth qa hqa hx)
  · rcases Nat.eq_zero_or_pos k with h0 | h0
    · exact Or.inr (hnone h0)
    · left; rw [hcount]; exact hmin h0
  · rcases Nat.eq_zero_or_pos k with h0 | h0
    · exact Or.inr (hnone h0)
    · left; rw [hwt]; exact hlow h0
  · rintro h1 ⟨a, ha⟩
    rw [hcount] at h1
    have hkn : k < w.length := by
      obtain ⟨q, hq, rfl⟩ := hrank a (hlt a (Or.inl ha))
      have := (hM q hq).1.mp ha
      omega
    refine ⟨order.getD k 0, w.getD (order.getD k 0) 0, ?_, (hM k hkn).1.mpr le_rfl, ?_, ?_⟩
    · rw [getD_lt w _ (hord k hkn)]
      exact List.getElem?_eq_getElem _
    · intro b y hb hmb
      obtain ⟨hb1, rfl⟩ := hget b y hb
      obtain ⟨qb, hqb, rfl⟩ := hrank b hb1
      exact hmono k qb ((hM qb hqb).1.mp hmb) hqb
    · rcases htight h1 hkn with h | h
      · exact Or.inl h
      · right
        rw [hwt, ← hswD k hkn]
        rw [getD_lt _ _ (by omega)]
        rw [List.take_succ_eq_append_getElem (by omega), List.sum_append] at h
        simpa using h

/-- **C38, likelihoods.**  When the call succeeds, every marked particle's likelihood is the good
model's at that particle's location and every other one's is the approximate model's at its own
location; the returned weights are the products with the old weights, divided by their sum, or the products
themselves if their sum is below machine precision. -/
theorem C38_likelihoods (cfg : MixCfg K) (argsort : List K → List Nat)
    (argsortN : List Nat → List Nat) (has : SortsIdx 0 argsort) (hasN : SortsIdx 0 argsortN)
    (w : List K) (hw : ∀ x ∈ w, 0 ≤ x) (locs : List (List K)) (hl : locs.length = w.length)
    (shuffled : List Nat) (hsh : shuffled.Perm (List.range w.length))
    (good apx : O → List K → E → K) (o : O) (e : E) (w' L : List K) (norm : K)
    (h : mixedCell cfg argsort argsortN shuffled good apx w locs o e = .ok (w', L, norm)) :
    let order := mixOrder argsort shuffled w
    let m := mixMask cfg order (argsortN order) w
    (∀ p x, locs[p]? = some x → (Marked m p → L[p]? = some (good o x e)) ∧
      (Unmarked m p → L[p]? = some (apx o x e))) ∧
    norm = (List.zipWith (· * ·) w L).sum ∧
    (eps ≤ |norm| → w' = List.zipWith (fun a b => a * b / norm) w L) ∧
    (|norm| < eps → w' = List.zipWith (· * ·) w L) := by
  intro order m
  have hlen : m.length = w.length :=
    (C38_assignment cfg argsort argsortN has hasN w hw shuffled hsh).2.1
  change (if mixAssert (select w m) (select w (m.map not)) = false then
    Except.error PyErr.assertionError else mixNorm w (mixLik good apx locs m o e)) = _ at h
  split at h
  · cases h
  · have hLl : (mixLik good apx locs m o e).length = w.length := by
      unfold mixLik
      rw [maskAssign_length, maskAssign_length, List.length_replicate, hl]
    unfold mixNorm bcast at h
    rw [if_pos hLl.symm] at h
    simp only [Except.ok.injEq, Prod.mk.injEq] at h
    obtain ⟨h1, h2, h3⟩ := h
    refine ⟨?_, ?_, ?_, ?_⟩
    · intro p x hx
      have hp : p < locs.length := by
        by_contra hn
        rw [List.getElem?_eq_none (by omega)] at hx; cases hx
      have hxe : locs[p] = x := by
        rw [List.getElem?_eq_getElem hp] at hx; injection hx
      rw [← h2]
      unfold mixLik
      rw [maskAssign_get _ (m.map not) locs (fun x => apx o x e)
        (by rw [maskAssign_length, List.length_replicate]) (by rw [List.length_map, hlen, hl]) p hp]
      rw [maskAssign_get _ m locs (fun x => good o x e)
        (by rw [List.length_replicate]) (by rw [hlen, hl]) p hp]
      have hu := unmarked_not m p
      unfold Marked at hu
      constructor
      · intro hm
        have : ¬ Unmarked m p := by
          unfold Unmarked; unfold Marked at hm; rw [hm]; simp
        rw [if_neg (mt hu.mp this), if_pos (show m[p]? = some true from hm), hxe]
      · intro hum
        rw [if_pos (hu.mpr hum), hxe]
    · rw [← h3, ← h2]
    · intro hn
      rw [← h1, h2]
      rw [h2] at h3
      rw [h3, if_neg (not_lt.mpr hn)]
      rw [List.map_zipWith]
    · intro hn
      rw [← h1, h2]
      rw [h2] at h3
      rw [h3, if_pos hn, List.map_zipWith]
      simp

/-- **C38, the internal assertion.**  The call succeeds when both models get at least one particle,
and raises `AssertionError` when one of them gets none. -/
theorem C38_assertion (cfg : MixCfg K) (argsort : List K → List Nat)
    (argsortN : List Nat → List Nat) (has : SortsIdx 0 argsort) (hasN : SortsIdx 0 argsortN)
    (w : List K) (hw : ∀ x ∈ w, 0 ≤ x) (locs : List (List K)) (hl : locs.length = w.length)
    (shuffled : List Nat) (hsh : shuffled.Perm (List.range w.length))
    (good apx : O → List K → E → K) (o : O) (e : E) :
    let order := mixOrder argsort shuffled w
    let m := mixMask cfg order (argsortN order) w
    ((∃ a, Marked m a) ∧ (∃ b, Unmarked m b) →
      ∃ r, mixedCell cfg argsort argsortN shuffled good apx w locs o e = .ok r) ∧
    ((∀ a, ¬ Marked m a) ∨ (∀ b, ¬ Unmarked m b) →
      mixedCell cfg argsort argsortN shuffled good apx w locs o e = .error .assertionError) := by
  intro order m
  have hA := C38_assignment cfg argsort argsortN has hasN w hw shuffled hsh
  have hlen : m.length = w.length := hA.2.1
  have hheavy : ∀ a x b y, w[a]? = some x → w[b]? = some y → Marked m a → Unmarked m b → y ≤ x :=
    hA.2.2.1
  have hne : ∀ m' : List Bool, m'.length = w.length → (∃ a, Marked m' a) → select w m' ≠ [] := by
    rintro m' hl' ⟨a, ha⟩ hnil
    have halt : a < w.length := by
      by_contra hn
      rw [Marked, List.getElem?_eq_none (by omega)] at ha; cases ha
    have : w[a] ∈ select w m' := (mem_mselect w m' _).mpr ⟨a, List.getElem?_eq_getElem halt, ha⟩
    rw [hnil] at this; simp at this
  have hnil : ∀ m' : List Bool, (∀ a, ¬ Marked m' a) → select w m' = [] := by
    intro m' hm
    by_contra hc
    obtain ⟨x, hx⟩ := List.exists_mem_of_ne_nil _ hc
    obtain ⟨p, -, hp⟩ := (mem_mselect w m' x).mp hx
    exact hm p hp
  constructor
  · rintro ⟨h1, b, h2⟩
    have hass : mixAssert (select w m) (select w (m.map not)) = true := by
      refine mixAssert_ok _ _ (hne m hlen h1)
        (hne _ (by rw [List.length_map, hlen]) ⟨b, (unmarked_not m b).mpr h2⟩) ?_
      intro x hx y hy
      obtain ⟨p, hp, hmp⟩ := (mem_mselect w m x).mp hx
      obtain ⟨q, hq, hmq⟩ := (mem_mselect w _ y).mp hy
      exact hheavy p x q y hp hq hmp ((unmarked_not m q).mp hmq)
    change ∃ r, (if mixAssert (select w m) (select w (m.map not)) = false then
      Except.error PyErr.assertionError else mixNorm w (mixLik good apx locs m o e)) = Except.ok r
    rw [if_neg (by simp [hass])]
    unfold mixNorm bcast
    rw [if_pos (by unfold mixLik
                   rw [maskAssign_length, maskAssign_length, List.length_replicate, hl])]
    exact ⟨_, rfl⟩
  · intro h
    have hass : mixAssert (select w m) (select w (m.map not)) = false := by
      apply mixAssert_nil
      rcases h with h | h
      · exact Or.inl (hnil m h)
      · right; exact hnil _ fun b hb => h b ((unmarked_not m b).mp hb)
    unfold mixedCell
    dsimp only
    rw [if_pos hass]

/-- **C38, violation.**  Asking for the good model to handle all the weight (`mixture_ratio ≥ 1`)
makes every call raise `AssertionError`. -/
theorem C38_full_ratio_raises (cfg : MixCfg K) (hr : 1 ≤ cfg.ratio) (argsort : List K → List Nat)
    (argsortN : List Nat → List Nat) (has : SortsIdx 0 argsort) (hasN : SortsIdx 0 argsortN)
    (w : List K) (hw : ∀ x ∈ w, 0 ≤ x) (locs : List (List K)) (hl : locs.length = w.length)
    (shuffled : List Nat) (hsh : shuffled.Perm (List.range w.length))
    (good apx : O → List K → E → K) (o : O) (e : E) :
    mixedCell cfg argsort argsortN shuffled good apx w locs o e = .error .assertionError := by
  refine (C38_assertion cfg argsort argsortN has hasN w hw locs hl shuffled hsh good apx o e).2
    (Or.inr ?_)
  have hA := C38_assignment cfg argsort argsortN has hasN w hw shuffled hsh
  rcases hA.2.2.2.2.2.1 with h | h
  · exfalso
    have : 0 ≤ weightWhere w (mixMask cfg (mixOrder argsort shuffled w)
        (argsortN (mixOrder argsort shuffled w)) w) false := by
      unfold weightWhere
      apply List.sum_nonneg
      intro x hx
      obtain ⟨p, hp, rfl⟩ := List.mem_map.mp hx
      split
      · exact hw _ (List.of_mem_zip hp).1
      · exact le_rfl
    linarith
  · exact h

/-- **C38, the good model is used.**  With weights summing to one and a non-negative ratio, at least
one particle goes to the good model. -/
theorem C38_good_nonempty (cfg : MixCfg K) (hr : 0 ≤ cfg.ratio) (argsort : List K → List Nat)
    (argsortN : List Nat → List Nat) (has : SortsIdx 0 argsort) (hasN : SortsIdx 0 argsortN)
    (w : List K) (hw : ∀ x ∈ w, 0 ≤ x) (hs : w.sum = 1) (shuffled : List Nat)
    (hsh : shuffled.Perm (List.range w.length)) :
    ∃ a, Marked (mixMask cfg (mixOrder argsort shuffled w)
      (argsortN (mixOrder argsort shuffled w)) w) a := by
  have hA := C38_assignment cfg argsort argsortN has hasN w hw shuffled hsh
  by_contra hn
  push Not at hn
  have hall : ∀ p < w.length, Unmarked _ p := fun p hp => (hA.1 p hp).resolve_left (hn p)
  have hwne : w ≠ [] := by rintro rfl; simp at hs
  have hpos : 0 < w.length := List.length_pos_iff.mpr hwne
  rcases hA.2.2.2.2.2.1 with h | h
  · have hlen := hA.2.1
    rw [weightWhere_range _ _ hlen] at h
    have : (List.range w.length).map (fun p => if (mixMask cfg (mixOrder argsort shuffled w)
        (argsortN (mixOrder argsort shuffled w)) w).getD p false = false then w.getD p 0 else 0)
        = w := by
      conv_rhs => rw [← range_getD w 0]
      apply List.map_congr_left
      intro p hp
      have hp' := List.mem_range.mp hp
      rw [if_pos ((marked_iff _ p (by rw [hlen]; exact hp')).2.mp (hall p hp'))]
    rw [this, hs] at h
    linarith
  · exact h 0 (hall 0 hpos)

/-! ## A concrete case -/

/-- A sort satisfying the specification: insertion sort of the indices by value. -/
def argsortIns {α : Type*} [LinearOrder α] (d : α) (l : List α) : List Nat :=
  (List.range l.length).insertionSort fun a b => l.getD a d ≤ l.getD b d

theorem argsortIns_sorts {α : Type*} [LinearOrder α] (d : α) : SortsIdx d (argsortIns d) := by
  intro l
  refine ⟨List.perm_insertionSort _ _, ?_⟩
  have : Std.Total fun a b => l.getD a d ≤ l.getD b d := ⟨fun a b => le_total _ _⟩
  have : IsTrans Nat fun a b => l.getD a d ≤ l.getD b d := ⟨fun a b c h h' => le_trans h h'⟩
  exact List.pairwise_insertionSort _ _

/-- Case for the theorems above: half of the weight goes to the good model. -/
example :
    mixMask (K := ℚ) ⟨1 / 2, 1, 0⟩ [3, 1, 2, 0] (argsortIns 0 [3, 1, 2, 0]) [1 / 2, 1 / 5, 1 / 5, 1 / 10]
      = [true, false, true, false] ∧
    ([3, 1, 2, 0] : List Nat).Perm (List.range 4) := by
  decide +kernel

end

end QInfer
