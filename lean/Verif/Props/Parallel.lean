import Verif.Model.Parallel
import Mathlib.Data.List.Basic
import Mathlib.Algebra.BigOperators.Group.List.Basic
import Mathlib.Algebra.Module.NatInt
import Mathlib.Tactic.Linarith
import Mathlib.Tactic.Ring

/-! # C37: parallel evaluation equals serial evaluation -/

namespace QInfer

/-! ## Specification -/

/-- The array holds `f o m e` for every outcome, model and experiment, in order. -/
def Arr3.IsTable {O M E α : Type} (A : Arr3 α) (f : O → M → E → α) (os : List O) (ms : List M)
    (es : List E) : Prop :=
  A.n0 = os.length ∧ A.n1 = ms.length ∧ A.n2 = es.length ∧
  ∀ i (hi : i < os.length) j (hj : j < ms.length) k (hk : k < es.length),
    A.get i j k = f os[i] ms[j] es[k]

/-- Same shape. -/
def Arr3.SameShape {α β : Type} (A : Arr3 α) (B : Arr3 β) : Prop :=
  A.n0 = B.n0 ∧ A.n1 = B.n1 ∧ A.n2 = B.n2

/-- Same shape and same entries. -/
def Arr3.Same {α : Type} (A B : Arr3 α) : Prop :=
  A.SameShape B ∧ ∀ i < A.n0, ∀ j < A.n1, ∀ k < A.n2, A.get i j k = B.get i j k

/-- The serial model returns the likelihood of each cell, depending on that cell alone. -/
def CellwiseLik {O M E α : Type} (lik : List O → List M → List E → Arr3 α) : Prop :=
  ∃ f : O → M → E → α, ∀ os ms es, (lik os ms es).IsTable f os ms es

/-- The serial model returns data of shape (repetitions, models, experiments). -/
def SimShape {M E α : Type} (sim : List M → List E → Nat → Arr3 α) : Prop :=
  ∀ ms es r, (sim ms es r).n0 = r ∧ (sim ms es r).n1 = ms.length ∧ (sim ms es r).n2 = es.length

/-! ## Helper lemmas -/

theorem cutBy_flatten {α : Type} (ss : List Nat) (l : List α) :
    (cutBy ss l).flatten = l.take ss.sum := by
  induction ss generalizing l with
  | nil => simp [cutBy]
  | cons s ss ih =>
    rw [cutBy, List.flatten_cons, ih, List.sum_cons, List.take_add]

theorem cutBy_lengths {α : Type} (ss : List Nat) (l : List α) (h : ss.sum ≤ l.length) :
    (cutBy ss l).map List.length = ss := by
  induction ss generalizing l with
  | nil => simp [cutBy]
  | cons s ss ih =>
    rw [List.sum_cons] at h
    rw [cutBy, List.map_cons, ih _ (by simp; omega)]
    simp; omega

theorem sizes_sum (m n : Nat) (hn : n ≠ 0) :
    (List.replicate (m % n) (m / n + 1) ++ List.replicate (n - m % n) (m / n)).sum = m := by
  have h1 : m % n ≤ n := (Nat.mod_lt m (Nat.pos_of_ne_zero hn)).le
  have h2 := Nat.mod_add_div m n
  obtain ⟨t, ht⟩ := Nat.exists_eq_add_of_le h1
  simp only [List.sum_append, List.sum_replicate, smul_eq_mul]
  rw [show n - m % n = t by omega]
  generalize m % n = r at *
  generalize m / n = q at *
  subst ht
  nlinarith

theorem arraySplit_ok {α : Type} (l : List α) (n : Nat) (hn : n ≠ 0) : ∃ cs,
    arraySplit l n = .ok cs ∧ cs.flatten = l ∧ cs.length = n ∧
    cs.map List.length = List.replicate (l.length % n) (l.length / n + 1) ++
      List.replicate (n - l.length % n) (l.length / n) := by
  have h1 : l.length % n ≤ n := (Nat.mod_lt _ (Nat.pos_of_ne_zero hn)).le
  have hs := sizes_sum l.length n hn
  refine ⟨cutBy (List.replicate (l.length % n) (l.length / n + 1) ++
    List.replicate (n - l.length % n) (l.length / n)) l, by simp [arraySplit, hn], ?_, ?_, ?_⟩
  · rw [cutBy_flatten, hs, List.take_length]
  · have := congrArg List.length (cutBy_lengths _ l hs.le)
    rw [List.length_map] at this
    rw [this]; simp; omega
  · exact cutBy_lengths _ l hs.le

theorem cat1_table {O M E α : Type} (f : O → M → E → α) (os : List O) (es : List E)
    (A B : Arr3 α) (ma mb : List M) (hA : A.IsTable f os ma es) (hB : B.IsTable f os mb es) :
    ∃ C, A.cat1 B = .ok C ∧ C.IsTable f os (ma ++ mb) es := by
  obtain ⟨a0, a1, a2, ae⟩ := hA
  obtain ⟨b0, b1, b2, be⟩ := hB
  refine ⟨⟨A.n0, A.n1 + B.n1, A.n2,
    fun i j k => if j < A.n1 then A.get i j k else B.get i (j - A.n1) k⟩,
    by rw [Arr3.cat1, if_pos ⟨a0.trans b0.symm, a2.trans b2.symm⟩], a0, ?_, a2, ?_⟩
  · simp [a1, b1]
  · intro i hi j hj k hk
    dsimp only
    rw [a1]
    split
    · rename_i h
      rw [ae i hi j h k hk, List.getElem_append_left h]
    · rename_i h
      rw [List.length_append] at hj
      rw [be i hi (j - ma.length) (by omega) k hk, List.getElem_append_right (by omega)]

theorem foldl_table {O M E α : Type} (f : O → M → E → α) (os : List O) (es : List E)
    (lik : List O → List M → List E → Arr3 α) (hl : ∀ os ms es, (lik os ms es).IsTable f os ms es)
    (cs : List (List M)) (A : Arr3 α) (ma : List M) (hA : A.IsTable f os ma es) :
    ∃ C, (cs.map fun mps => lik os mps es).foldlM Arr3.cat1 A = .ok C ∧
      C.IsTable f os (ma ++ cs.flatten) es := by
  induction cs generalizing A ma with
  | nil => exact ⟨A, rfl, by simpa using hA⟩
  | cons c cs ih =>
    obtain ⟨C, hC, hCt⟩ := cat1_table f os es A _ ma c hA (hl os c es)
    obtain ⟨D, hD, hDt⟩ := ih C _ hCt
    refine ⟨D, ?_, by simpa [List.append_assoc] using hDt⟩
    rw [List.map_cons, List.foldlM_cons, hC]
    exact hD

/-! ## Theorems -/

/-- **C37, chunks.**  `np.array_split` cuts the models into as many consecutive chunks as there are
engines, covering every model once, with lengths differing by at most one. -/
theorem C37_chunks {α : Type} (l : List α) (n : Nat) (hn : n ≠ 0) : ∃ cs,
    arraySplit l n = .ok cs ∧ cs.flatten = l ∧ cs.length = n ∧
    ∀ a ∈ cs, ∀ b ∈ cs, a.length ≤ b.length + 1 := by
  obtain ⟨cs, h1, h2, h3, h4⟩ := arraySplit_ok l n hn
  refine ⟨cs, h1, h2, h3, fun a ha b hb => ?_⟩
  have hmem : ∀ c ∈ cs, c.length = l.length / n + 1 ∨ c.length = l.length / n := by
    intro c hc
    have : c.length ∈ cs.map List.length := List.mem_map_of_mem hc
    rw [h4, List.mem_append, List.mem_replicate, List.mem_replicate] at this
    tauto
  rcases hmem a ha with h | h <;> rcases hmem b hb with h' | h' <;> omega

/-- **C37, likelihood.**  For any number of engines and any threshold, the parallel likelihood is
the serial model's array. -/
theorem C37_likelihood_equals_serial {O M E α : Type} (n : Nat) (hn : n ≠ 0)
    (thr : Option ℤ) (lik : List O → List M → List E → Arr3 α) (hl : CellwiseLik lik)
    (os : List O) (ms : List M) (es : List E) :
    ∃ A, parLikelihood (parInit (some n) thr) lik os ms es = .ok A ∧ A.Same (lik os ms es) := by
  obtain ⟨f, hf⟩ := hl
  have hsame : ∀ A : Arr3 α, A.IsTable f os ms es → A.Same (lik os ms es) := by
    rintro A ⟨h0, h1, h2, h3⟩
    obtain ⟨g0, g1, g2, g3⟩ := hf os ms es
    refine ⟨⟨h0.trans g0.symm, h1.trans g1.symm, h2.trans g2.symm⟩, ?_⟩
    intro i hi j hj k hk
    rw [h3 i (h0 ▸ hi) j (h1 ▸ hj) k (h2 ▸ hk), g3 i (h0 ▸ hi) j (h1 ▸ hj) k (h2 ▸ hk)]
  unfold parLikelihood
  split
  · exact ⟨_, rfl, hsame _ (hf os ms es)⟩
  · obtain ⟨cs, h1, h2, h3, -⟩ := arraySplit_ok ms n hn
    simp only [parInit, ParCfg.nEngines, Option.getD_some]
    rw [h1]
    cases cs with
    | nil => simp at h3; omega
    | cons c cs =>
      obtain ⟨A, hA, hAt⟩ := foldl_table f os es lik hf cs _ c (hf os c es)
      refine ⟨A, hA, hsame A ?_⟩
      rw [← h2]; exact hAt

/-- **C37, no engines.**  After unpickling (no direct view) the likelihood still equals the serial
one up to the threshold and raises `RuntimeError` above it; with an empty direct view it raises
`ValueError` above it. -/
theorem C37_no_engines {O M E α : Type} (c : ParCfg)
    (lik : List O → List M → List E → Arr3 α) (os : List O) (ms : List M) (es : List E) :
    ((ms.length : ℤ) ≤ c.threshold → parLikelihood c lik os ms es = .ok (lik os ms es) ∧
      parLikelihood c.pickled lik os ms es = .ok (lik os ms es)) ∧
    (c.threshold < ms.length → parLikelihood c.pickled lik os ms es = .error .runtimeError ∧
      (c.dv = some 0 → parLikelihood c lik os ms es = .error .valueError)) := by
  constructor
  · intro h
    constructor
    · unfold parLikelihood; rw [if_pos h]
    · unfold parLikelihood ParCfg.pickled; rw [if_pos h]
  · intro h
    constructor
    · unfold parLikelihood ParCfg.pickled; rw [if_neg (not_le.mpr h)]
    · intro h0
      unfold parLikelihood
      rw [if_neg (not_le.mpr h)]
      simp only [h0, ParCfg.nEngines, Option.getD_some, arraySplit, if_true]
      rfl

/-- **C37, default threshold.**  Without an explicit threshold, up to ten models per engine are
evaluated serially. -/
theorem C37_default_threshold (dv : Option Nat) (thr : ℤ) :
    (parInit dv none).threshold = 10 * ((parInit dv none).nEngines : ℤ) ∧
    (parInit dv (some thr)).threshold = thr := by
  constructor <;> simp [parInit, ParCfg.nEngines]

theorem foldl_cat0_shape {α : Type} (as : List (Arr3 α)) (a B : Arr3 α)
    (h : as.foldlM Arr3.cat0 a = .ok B) :
    B.n0 = a.n0 + (as.map Arr3.n0).sum ∧ B.n1 = a.n1 ∧ B.n2 = a.n2 ∧
    ∀ x ∈ as, x.n1 = a.n1 ∧ x.n2 = a.n2 := by
  induction as generalizing a with
  | nil => injection h with h; subst h; simp
  | cons b as ih =>
    rw [List.foldlM_cons] at h
    unfold Arr3.cat0 at h
    split at h
    · rename_i hc
      obtain ⟨h0, h1, h2, h3⟩ := ih _ h
      refine ⟨by rw [h0]; simp [Nat.add_assoc], h1, h2, ?_⟩
      intro x hx
      rcases List.mem_cons.mp hx with rfl | hx
      · exact ⟨hc.1.symm, hc.2.symm⟩
      · exact h3 x hx
    · cases h

theorem foldl_cat1_shape {α : Type} (as : List (Arr3 α)) (a B : Arr3 α)
    (h : as.foldlM Arr3.cat1 a = .ok B) :
    B.n1 = a.n1 + (as.map Arr3.n1).sum ∧ B.n0 = a.n0 ∧ B.n2 = a.n2 ∧
    ∀ x ∈ as, x.n0 = a.n0 ∧ x.n2 = a.n2 := by
  induction as generalizing a with
  | nil => injection h with h; subst h; simp
  | cons b as ih =>
    rw [List.foldlM_cons] at h
    unfold Arr3.cat1 at h
    split at h
    · rename_i hc
      obtain ⟨h0, h1, h2, h3⟩ := ih _ h
      refine ⟨by rw [h0]; simp [Nat.add_assoc], h1, h2, ?_⟩
      intro x hx
      rcases List.mem_cons.mp hx with rfl | hx
      · exact ⟨hc.1.symm, hc.2.symm⟩
      · exact h3 x hx
    · cases h

/-- The first chunk is shorter than the whole when there are at least two engines. -/
theorem first_chunk_short {α : Type} (l : List α) (n : Nat) (hn : 2 ≤ n) (hl : l ≠ [])
    (c : List α) (cs : List (List α)) (h : (c :: cs).map List.length =
      List.replicate (l.length % n) (l.length / n + 1) ++
      List.replicate (n - l.length % n) (l.length / n))
    (hall : ∀ d ∈ cs, d.length = c.length) : c.length ≠ l.length := by
  have hlen : cs.length + 1 = n := by
    have h1 : l.length % n ≤ n := (Nat.mod_lt _ (by omega)).le
    have := congrArg List.length h
    simp at this
    omega
  have hsum : ((c :: cs).map List.length).sum = l.length := by
    rw [h, sizes_sum _ _ (by omega)]
  have hcs : cs.map List.length = List.replicate cs.length c.length := by
    rw [List.eq_replicate_iff]
    refine ⟨by simp, ?_⟩
    intro x hx
    obtain ⟨d, hd, rfl⟩ := List.mem_map.mp hx
    exact hall d hd
  rw [List.map_cons, List.sum_cons, hcs, List.sum_replicate, smul_eq_mul] at hsum
  have hpos : 0 < l.length := List.length_pos_iff.mpr hl
  intro hc
  rw [← hc] at hsum hpos
  have : 1 ≤ cs.length := by omega
  nlinarith

/-- **C37, simulation is not the serial one.**  Above the threshold and with two or more engines,
`simulate_experiment` never returns an array of the serial model's shape: it raises or joins the chunks
along the wrong axis, whether it splits by models or by experiments. -/
theorem C37_simulate_wrong_axis {M E α : Type} (n : Nat) (hn : 2 ≤ n) (thr : Option ℤ)
    (simLocal : List M → List E → Nat → Arr3 α) (sim : Nat → List M → List E → Nat → Arr3 α)
    (hloc : SimShape simLocal) (hs : ∀ t, SimShape (sim t)) (ms : List M) (es : List E) (r : Nat) :
    (ms ≠ [] → (parInit (some n) thr).threshold < ms.length → ∀ A,
      parSimulate (parInit (some n) thr) simLocal sim ms es r true = .ok A →
      ¬ A.SameShape (simLocal ms es r)) ∧
    (es ≠ [] → (parInit (some n) thr).threshold < es.length → ∀ A,
      parSimulate (parInit (some n) thr) simLocal sim ms es r false = .ok A →
      ¬ A.SameShape (simLocal ms es r)) := by
  have hdv : (parInit (some n) thr).dv = some n := rfl
  generalize parInit (some n) thr = cfg at hdv ⊢
  constructor
  · intro hne hthr A hA hsh
    unfold parSimulate at hA
    simp only [hdv, if_true] at hA
    rw [if_neg (not_le.mpr hthr)] at hA
    obtain ⟨cs, h1, h2, h3, h4⟩ := arraySplit_ok ms n (by omega)
    simp only [ParCfg.nEngines, hdv, Option.getD_some] at hA
    rw [h1] at hA
    cases cs with
    | nil => simp at h3; omega
    | cons c cs =>
      have hA' : (cs.mapIdx fun t mps => sim (t + 1) mps es r).foldlM Arr3.cat0 (sim 0 c es r)
          = .ok A := by
        rw [← hA]; simp [concatenate, List.mapIdx_cons, bind, Except.bind]
      obtain ⟨-, g1, -, g3⟩ := foldl_cat0_shape _ _ _ hA'
      refine first_chunk_short ms n hn hne c cs h4 ?_ ?_
      · intro d hd
        obtain ⟨q, hq, rfl⟩ := List.mem_iff_getElem.mp hd
        have := (g3 (sim (q + 1) cs[q] es r) (by
          rw [List.mem_mapIdx]; exact ⟨q, hq, rfl⟩)).1
        rw [(hs _ _ _ _).2.1, (hs _ _ _ _).2.1] at this
        exact this
      · have := hsh.2.1
        rw [g1, (hs _ _ _ _).2.1, (hloc _ _ _).2.1] at this
        exact this
  · intro hne hthr A hA hsh
    unfold parSimulate at hA
    simp only [hdv] at hA
    rw [if_neg (by simp), if_neg (not_le.mpr hthr)] at hA
    obtain ⟨cs, h1, h2, h3, h4⟩ := arraySplit_ok es n (by omega)
    simp only [ParCfg.nEngines, hdv, Option.getD_some] at hA
    rw [h1] at hA
    cases cs with
    | nil => simp at h3; omega
    | cons c cs =>
      have hA' : (cs.mapIdx fun t eps => sim (t + 1) ms eps r).foldlM Arr3.cat1 (sim 0 ms c r)
          = .ok A := by
        rw [← hA]; simp [concatenate, List.mapIdx_cons, bind, Except.bind]
      obtain ⟨-, -, g1, g3⟩ := foldl_cat1_shape _ _ _ hA'
      refine first_chunk_short es n hn hne c cs h4 ?_ ?_
      · intro d hd
        obtain ⟨q, hq, rfl⟩ := List.mem_iff_getElem.mp hd
        have := (g3 (sim (q + 1) ms cs[q] r) (by
          rw [List.mem_mapIdx]; exact ⟨q, hq, rfl⟩)).2
        rw [(hs _ _ _ _).2.2, (hs _ _ _ _).2.2] at this
        exact this
      · have := hsh.2.2
        rw [g1, (hs _ _ _ _).2.2, (hloc _ _ _).2.2] at this
        exact this

/-- **C37, simulation after pickling.**  A pickled and restored model has no direct view and cannot simulate at
all: unlike `likelihood` it raises `RuntimeError` also for few models. -/
theorem C37_simulate_unpickled {M E α : Type} (c : ParCfg) (simLocal : List M → List E → Nat → Arr3 α)
    (sim : Nat → List M → List E → Nat → Arr3 α) (ms : List M) (es : List E) (r : Nat) (b : Bool) :
    parSimulate c.pickled simLocal sim ms es r b = .error .runtimeError := rfl

/-- **C37, simulation, the working cases** (partial: the general claim is false, see
`C37_simulate_wrong_axis`).  Up to the threshold, or with one engine, the result has the serial
model's shape. -/
theorem C37_simulate_partial {M E α : Type} (n : Nat) (thr : Option ℤ)
    (simLocal : List M → List E → Nat → Arr3 α) (sim : Nat → List M → List E → Nat → Arr3 α)
    (hloc : SimShape simLocal) (hs : ∀ t, SimShape (sim t)) (ms : List M) (es : List E) (r : Nat)
    (b : Bool) (h : n = 1 ∨ ((if b then ms.length else es.length : ℕ) : ℤ) ≤
      (parInit (some n) thr).threshold) :
    ∃ A, parSimulate (parInit (some n) thr) simLocal sim ms es r b = .ok A ∧
      A.SameShape (simLocal ms es r) := by
  have hself : (simLocal ms es r).SameShape (simLocal ms es r) := ⟨rfl, rfl, rfl⟩
  have hone : ∀ t, (sim t ms es r).SameShape (simLocal ms es r) := by
    intro t
    obtain ⟨a, b, c⟩ := hs t ms es r
    obtain ⟨a', b', c'⟩ := hloc ms es r
    exact ⟨a.trans a'.symm, b.trans b'.symm, c.trans c'.symm⟩
  have hsplit : ∀ {β : Type} (l : List β), arraySplit l 1 = .ok [l] := by
    intro β l
    simp [arraySplit, Nat.mod_one, cutBy]
  have hdv : (parInit (some n) thr).dv = some n := rfl
  generalize parInit (some n) thr = cfg at hdv h ⊢
  unfold parSimulate
  simp only [hdv, ParCfg.nEngines, Option.getD_some] at h ⊢
  cases b
  · simp only [Bool.false_eq_true, if_false] at h ⊢
    split
    · exact ⟨_, rfl, hself⟩
    · rename_i hn
      rcases h with rfl | h
      · refine ⟨_, ?_, hone 0⟩
        rw [hsplit]; rfl
      · exact absurd h hn
  · simp only [if_true] at h ⊢
    split
    · exact ⟨_, rfl, hself⟩
    · rename_i hn
      rcases h with rfl | h
      · refine ⟨_, ?_, hone 0⟩
        rw [hsplit]; rfl
      · exact absurd h hn

/-- Joining arrays of one shape along axis 0 stacks them in order. -/
theorem foldl_cat0_content {α : Type} (s n1 n2 : Nat) (as : List (Arr3 α)) (a : Arr3 α)
    (ha : a.n1 = n1 ∧ a.n2 = n2) (h : ∀ x ∈ as, x.n0 = s ∧ x.n1 = n1 ∧ x.n2 = n2) :
    ∃ B, as.foldlM Arr3.cat0 a = .ok B ∧ B.n0 = a.n0 + as.length * s ∧ B.n1 = n1 ∧ B.n2 = n2 ∧
      (∀ i j k, i < a.n0 → B.get i j k = a.get i j k) ∧
      ∀ q (hq : q < as.length) i j k, i < s → B.get (a.n0 + q * s + i) j k = as[q].get i j k := by
  induction as generalizing a with
  | nil => exact ⟨a, rfl, by simp, ha.1, ha.2, fun _ _ _ _ => rfl, fun q hq => by simp at hq⟩
  | cons b as ih =>
    obtain ⟨hb0, hb1, hb2⟩ := h b (by simp)
    have hc : a.cat0 b = .ok ⟨a.n0 + b.n0, a.n1, a.n2,
        fun i j k => if i < a.n0 then a.get i j k else b.get (i - a.n0) j k⟩ := by
      unfold Arr3.cat0
      rw [if_pos ⟨ha.1.trans hb1.symm, ha.2.trans hb2.symm⟩]
    obtain ⟨B, e, c0, c1, c2, hpre, hq⟩ := ih ⟨a.n0 + b.n0, a.n1, a.n2,
        fun i j k => if i < a.n0 then a.get i j k else b.get (i - a.n0) j k⟩ ha
        (fun x hx => h x (by simp [hx]))
    refine ⟨B, by rw [List.foldlM_cons, hc]; exact e, ?_, c1, c2, ?_, ?_⟩
    · rw [c0, hb0, List.length_cons]; ring
    · intro i j k hi
      rw [hpre i j k (by simp only; omega)]
      simp [hi]
    · intro q hql i j k hi
      cases q with
      | zero =>
        rw [hpre _ j k (by simp only; omega)]
        simp
      | succ q =>
        have := hq q (by simpa using hql) i j k hi
        simp only [hb0] at this
        rw [show a.n0 + (q + 1) * s + i = a.n0 + s + q * s + i by ring, this]
        simp

/-- Joining arrays of one shape along axis 1 stacks them in order. -/
theorem foldl_cat1_content {α : Type} (s n0 n2 : Nat) (as : List (Arr3 α)) (a : Arr3 α)
    (ha : a.n0 = n0 ∧ a.n2 = n2) (h : ∀ x ∈ as, x.n1 = s ∧ x.n0 = n0 ∧ x.n2 = n2) :
    ∃ B, as.foldlM Arr3.cat1 a = .ok B ∧ B.n1 = a.n1 + as.length * s ∧ B.n0 = n0 ∧ B.n2 = n2 ∧
      (∀ i j k, j < a.n1 → B.get i j k = a.get i j k) ∧
      ∀ q (hq : q < as.length) i j k, j < s → B.get i (a.n1 + q * s + j) k = as[q].get i j k := by
  induction as generalizing a with
  | nil => exact ⟨a, rfl, by simp, ha.1, ha.2, fun _ _ _ _ => rfl, fun q hq => by simp at hq⟩
  | cons b as ih =>
    obtain ⟨hb0, hb1, hb2⟩ := h b (by simp)
    have hc : a.cat1 b = .ok ⟨a.n0, a.n1 + b.n1, a.n2,
        fun i j k => if j < a.n1 then a.get i j k else b.get i (j - a.n1) k⟩ := by
      unfold Arr3.cat1
      rw [if_pos ⟨ha.1.trans hb1.symm, ha.2.trans hb2.symm⟩]
    obtain ⟨B, e, c0, c1, c2, hpre, hq⟩ := ih ⟨a.n0, a.n1 + b.n1, a.n2,
        fun i j k => if j < a.n1 then a.get i j k else b.get i (j - a.n1) k⟩ ha
        (fun x hx => h x (by simp [hx]))
    refine ⟨B, by rw [List.foldlM_cons, hc]; exact e, ?_, c1, c2, ?_, ?_⟩
    · rw [c0, hb0, List.length_cons]; ring
    · intro i j k hi
      rw [hpre i j k (by simp only; omega)]
      simp [hi]
    · intro q hql i j k hi
      cases q with
      | zero =>
        rw [hpre _ _ k (by simp only; omega)]
        simp
      | succ q =>
        have := hq q (by simpa using hql) i j k hi
        simp only [hb0] at this
        rw [show a.n1 + (q + 1) * s + j = a.n1 + s + q * s + j by ring, this]
        simp

/-- Pieces of equal length are consecutive slices. -/
theorem cutBy_replicate_get {α : Type} (m n : Nat) (l : List α) (q : Nat)
    (hq : q < (cutBy (List.replicate n m) l).length) :
    (cutBy (List.replicate n m) l)[q] = (l.drop (q * m)).take m := by
  induction n generalizing l q with
  | zero => simp [cutBy] at hq
  | succ n ih =>
    cases q with
    | zero => simp [List.replicate_succ, cutBy]
    | succ q =>
      simp only [List.replicate_succ, cutBy, List.getElem_cons_succ]
      rw [ih, List.drop_drop]
      congr 2; ring

/-- An even split. -/
theorem arraySplit_even {α : Type} (l : List α) (n m : Nat) (hn : n ≠ 0) (hl : l.length = n * m) :
    ∃ cs, arraySplit l n = .ok cs ∧ cs.length = n ∧
      ∀ q (hq : q < cs.length), cs[q] = (l.drop (q * m)).take m ∧ cs[q].length = m := by
  have h0 : l.length % n = 0 := by rw [hl]; exact Nat.mul_mod_right n m
  have hd : l.length / n = m := by rw [hl]; exact Nat.mul_div_cancel_left m (Nat.pos_of_ne_zero hn)
  refine ⟨cutBy (List.replicate n m) l, ?_, ?_, ?_⟩
  · simp [arraySplit, hn, h0, hd]
  · have := congrArg List.length (cutBy_lengths (List.replicate n m) l (by simp [hl]))
    simpa using this
  · intro q hq
    refine ⟨cutBy_replicate_get m n l q hq, ?_⟩
    have h := cutBy_lengths (List.replicate n m) l (by simp [hl])
    have hm : (cutBy (List.replicate n m) l)[q].length ∈ (cutBy (List.replicate n m) l).map List.length :=
      List.mem_map_of_mem (List.getElem_mem hq)
    rw [h, List.mem_replicate] at hm
    exact hm.2

/-- **C37, where the simulated data are.**  When the engines share the work evenly nothing is lost, only
misplaced.  Split by models, engine `q` simulates the `q`-th block of `m` models and its repetition `i`
is found at row `q * r + i`.  Split by experiments, engine `q` simulates the `q`-th block of `m`
experiments and its model `j` is found at column `q * len(models) + j`. -/
theorem C37_simulate_misplaced {M E α : Type} (n m : Nat) (hn : n ≠ 0) (thr : Option ℤ)
    (simLocal : List M → List E → Nat → Arr3 α) (sim : Nat → List M → List E → Nat → Arr3 α)
    (hs : ∀ t, SimShape (sim t)) (ms : List M) (es : List E) (r : Nat) :
    (ms.length = n * m → (parInit (some n) thr).threshold < ms.length → ∃ A,
      parSimulate (parInit (some n) thr) simLocal sim ms es r true = .ok A ∧
      A.n0 = n * r ∧ A.n1 = m ∧ A.n2 = es.length ∧
      ∀ q < n, ∀ i < r, ∀ j k, A.get (q * r + i) j k =
        (sim q ((ms.drop (q * m)).take m) es r).get i j k) ∧
    (es.length = n * m → (parInit (some n) thr).threshold < es.length → ∃ A,
      parSimulate (parInit (some n) thr) simLocal sim ms es r false = .ok A ∧
      A.n0 = r ∧ A.n1 = n * ms.length ∧ A.n2 = m ∧
      ∀ q < n, ∀ j < ms.length, ∀ i k, A.get i (q * ms.length + j) k =
        (sim q ms ((es.drop (q * m)).take m) r).get i j k) := by
  have hdv : (parInit (some n) thr).dv = some n := rfl
  generalize parInit (some n) thr = cfg at hdv ⊢
  constructor
  · intro hl hthr
    obtain ⟨cs, h1, h2, h3⟩ := arraySplit_even ms n m hn hl
    unfold parSimulate
    simp only [hdv, if_true, ParCfg.nEngines, Option.getD_some]
    rw [if_neg (not_le.mpr hthr), h1]
    cases cs with
    | nil => simp at h2; omega
    | cons c cs =>
      have hc := h3 0 (by simp)
      obtain ⟨B, e, c0, c1, c2, hpre, hq⟩ := foldl_cat0_content r m es.length
        (cs.mapIdx fun t mps => sim (t + 1) mps es r) (sim 0 c es r)
        ⟨by rw [(hs _ _ _ _).2.1]; exact hc.2, (hs _ _ _ _).2.2⟩ (by
          intro x hx
          obtain ⟨q, hq, rfl⟩ := List.mem_mapIdx.mp hx
          refine ⟨(hs _ _ _ _).1, ?_, (hs _ _ _ _).2.2⟩
          rw [(hs _ _ _ _).2.1]
          exact (h3 (q + 1) (by simpa using hq)).2)
      refine ⟨B, ?_, ?_, c1, c2, ?_⟩
      · rw [← e]; simp [concatenate, List.mapIdx_cons, bind, Except.bind]
      · rw [c0, (hs _ _ _ _).1, List.length_mapIdx, ← h2, List.length_cons]; ring
      · intro q hqn i hi j k
        cases q with
        | zero =>
          rw [hpre _ _ _ (by rw [(hs _ _ _ _).1]; omega), ← hc.1]
          simp
        | succ q =>
          have hq' : q < cs.length := by simp at h2; omega
          have := hq q (by simpa using hq') i j k hi
          rw [(hs _ _ _ _).1] at this
          rw [show (q + 1) * r + i = r + q * r + i by ring, this, ← (h3 (q + 1) (by simpa using hq')).1]
          simp
  · intro hl hthr
    obtain ⟨cs, h1, h2, h3⟩ := arraySplit_even es n m hn hl
    unfold parSimulate
    simp only [hdv, ParCfg.nEngines, Option.getD_some]
    rw [if_neg (by simp), if_neg (not_le.mpr hthr), h1]
    cases cs with
    | nil => simp at h2; omega
    | cons c cs =>
      have hc := h3 0 (by simp)
      obtain ⟨B, e, c0, c1, c2, hpre, hq⟩ := foldl_cat1_content ms.length r m
        (cs.mapIdx fun t eps => sim (t + 1) ms eps r) (sim 0 ms c r)
        ⟨(hs _ _ _ _).1, by rw [(hs _ _ _ _).2.2]; exact hc.2⟩ (by
          intro x hx
          obtain ⟨q, hq, rfl⟩ := List.mem_mapIdx.mp hx
          refine ⟨(hs _ _ _ _).2.1, (hs _ _ _ _).1, ?_⟩
          rw [(hs _ _ _ _).2.2]
          exact (h3 (q + 1) (by simpa using hq)).2)
      refine ⟨B, ?_, c1, ?_, c2, ?_⟩
      · rw [← e]; simp [concatenate, List.mapIdx_cons, bind, Except.bind]
      · rw [c0, (hs _ _ _ _).2.1, List.length_mapIdx, ← h2, List.length_cons]; ring
      · intro q hqn j hj i k
        cases q with
        | zero =>
          rw [hpre _ _ _ (by rw [(hs _ _ _ _).2.1]; omega), ← hc.1]
          simp
        | succ q =>
          have hq' : q < cs.length := by simp at h2; omega
          have := hq q (by simpa using hq') i j k hj
          rw [(hs _ _ _ _).2.1] at this
          rw [show (q + 1) * ms.length + j = ms.length + q * ms.length + j by ring, this,
            ← (h3 (q + 1) (by simpa using hq')).1]
          simp

/-- Case for `C37_simulate_misplaced`: four models on two engines above a threshold of three; the second
engine's first repetition is in row two. -/
example : ∃ A, parSimulate (parInit (some 2) (some 3)) (fun ms es r => ⟨r, ms.length, es.length,
      fun i j _ => ms.getD j 0 + 100 * i⟩)
      (fun _ ms es r => (⟨r, ms.length, es.length, fun i j _ => ms.getD j 0 + 100 * i⟩ : Arr3 Nat))
      [1, 2, 3, 4] [()] 2 true = .ok A ∧ (A.n0, A.n1, A.n2) = (4, 2, 1) ∧ A.get 2 0 0 = 3 :=
  ⟨_, rfl, rfl, rfl⟩

/-- Case for `C37_likelihood_equals_serial`: a serial model with one entry per cell. -/
example : CellwiseLik (fun (os : List ℤ) (ms es : List ℤ) =>
    (⟨os.length, ms.length, es.length,
      fun i j k => os.getD i 0 + 10 * ms.getD j 0 + 100 * es.getD k 0⟩ : Arr3 ℤ)) := by
  refine ⟨fun o m e => o + 10 * m + 100 * e, fun os ms es => ⟨rfl, rfl, rfl, ?_⟩⟩
  intro i hi j hj k hk
  simp [List.getD_eq_getElem?_getD, hi, hj, hk]

/-- Five models over two engines: chunks of three and two. -/
example : arraySplit [1, 2, 3, 4, 5] 2 = .ok [[1, 2, 3], [4, 5]] := rfl

end QInfer
