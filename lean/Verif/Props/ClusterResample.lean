import Verif.Model.ClusterResample
import Verif.Props.Estimates

/-!
# C107: resampling cluster by cluster
-/

namespace QInfer

section masks
variable {α : Type*}

theorem cellAssign_length (m : List Bool) (a v : List α) : (cellAssign m a v).length = a.length := by
  induction m generalizing a v with
  | nil => rfl
  | cons b m ih =>
    cases a with
    | nil => cases b <;> cases v <;> rfl
    | cons x a =>
      cases b with
      | false => simp [cellAssign, ih]
      | true => cases v with
        | nil => rfl
        | cons y v => simp [cellAssign, ih]

/-- What was assigned is read back. -/
theorem select_assign (m : List Bool) (a v : List α) (h : v.length = (maskSelect m a).length) :
    maskSelect m (cellAssign m a v) = v := by
  induction m generalizing a v with
  | nil => exact (List.length_eq_zero_iff.1 (by simpa [maskSelect] using h)).symm ▸ by simp [maskSelect]
  | cons b m ih =>
    cases a with
    | nil =>
      have : v = [] := List.length_eq_zero_iff.1 (by cases b <;> simpa [maskSelect] using h)
      subst this
      cases b <;> rfl
    | cons x a =>
      cases b with
      | false =>
        simp only [maskSelect] at h
        simp only [cellAssign, maskSelect]
        exact ih a v h
      | true =>
        cases v with
        | nil => simp [maskSelect] at h
        | cons y v =>
          simp only [maskSelect, List.length_cons, Nat.add_right_cancel_iff] at h
          simp only [cellAssign, maskSelect, ih a v h]

/-- Assignment through one label leaves the cells of another label alone. -/
theorem select_assign_other (labels : List Int) (c e : Int) (hne : c ≠ e) (a v : List α) :
    maskSelect (labels.map fun l => decide (l = e)) (cellAssign (labels.map fun l => decide (l = c)) a v) =
      maskSelect (labels.map fun l => decide (l = e)) a := by
  induction labels generalizing a v with
  | nil => rfl
  | cons l labels ih =>
    cases a with
    | nil =>
      simp only [List.map_cons]
      cases decide (l = c) <;> cases v <;> rfl
    | cons x a =>
      simp only [List.map_cons]
      by_cases h1 : l = c
      · have h2 : ¬ l = e := fun h => hne (h1.symm.trans h)
        rw [decide_eq_true h1, decide_eq_false h2]
        cases v with
        | nil => rfl
        | cons y v => simp only [cellAssign, maskSelect, ih]
      · rw [decide_eq_false h1]
        simp only [cellAssign]
        cases decide (l = e) <;> simp only [maskSelect, ih]

theorem select_length (m : List Bool) {β : Type*} (a : List α) (b : List β) (h : a.length = b.length) :
    (maskSelect m a).length = (maskSelect m b).length := by
  induction m generalizing a b with
  | nil => rfl
  | cons x m ih =>
    cases a with
    | nil => cases b with
      | nil => cases x <;> rfl
      | cons _ _ => simp at h
    | cons y a => cases b with
      | nil => simp at h
      | cons z b =>
        simp only [List.length_cons, Nat.add_right_cancel_iff] at h
        cases x with
        | false => simp only [maskSelect]; exact ih a b h
        | true => simp only [maskSelect, List.length_cons, ih a b h]

theorem sum_single {K : Type*} [AddCommMonoid K] (cs : List Int) (hnd : cs.Nodup) (l : Int) (hl : l ∈ cs)
    (x : K) : (cs.map fun c => if c = l then x else 0).sum = x := by
  induction cs with
  | nil => simp at hl
  | cons c cs ih =>
    rw [List.nodup_cons] at hnd
    rw [List.map_cons, List.sum_cons]
    by_cases hc : c = l
    · rw [if_pos hc, List.sum_eq_zero, add_zero]
      intro y hy
      obtain ⟨e, he, rfl⟩ := List.mem_map.1 hy
      rw [if_neg]
      rintro rfl
      exact hnd.1 (hc ▸ he)
    · rw [if_neg hc, zero_add]
      exact ih hnd.2 ((List.mem_cons.1 hl).resolve_left fun h => hc h.symm)

/-- The cells of all labels together. -/
theorem sum_select {K : Type*} [AddCommMonoid K] (cs : List Int) (hnd : cs.Nodup) (labels : List Int)
    (hl : ∀ l ∈ labels, l ∈ cs) (a : List K) (h : a.length = labels.length) :
    (cs.map fun c => (maskSelect (labels.map fun l => decide (l = c)) a).sum).sum = a.sum := by
  induction labels generalizing a with
  | nil =>
    have : a = [] := List.length_eq_zero_iff.1 h
    subst this
    simp [maskSelect]
  | cons l labels ih =>
    cases a with
    | nil => simp at h
    | cons x a =>
      simp only [List.length_cons, Nat.add_right_cancel_iff] at h
      have h1 := ih (fun l hl' => hl l (List.mem_cons_of_mem _ hl')) a h
      have h2 : ∀ c, (maskSelect ((l :: labels).map fun l => decide (l = c)) (x :: a)).sum =
          (if c = l then x else 0) + (maskSelect (labels.map fun l => decide (l = c)) a).sum := by
        intro c
        by_cases hc : l = c
        · simp [maskSelect, hc]
        · have hc' : ¬ c = l := fun h => hc h.symm
          simp [maskSelect, hc, hc']
      simp only [h2]
      rw [List.sum_map_add, h1, List.sum_cons]
      congr 1
      exact sum_single cs hnd l (hl l List.mem_cons_self) x

end masks

section
variable {K : Type*} [Field K] {d : Nat}

/-- **C107, name.**  As the module stands, every call raises `NameError`: there is no name
`clustering`. -/
theorem C107_name_error (secondary : Secondary K d) (labels : List Int) (emptyW : List K)
    (emptyL : List (Fin d → K)) (w : List K) (l : List (Fin d → K)) :
    clusterCall resamplersScope secondary labels emptyW emptyL w l = .error .nameError := by
  unfold clusterCall
  rw [if_neg (by decide)]

/-- **C107, default.**  Even with the name in scope the default secondary resampler does not fit. -/
theorem C107_default_fails (scope : List String) (hs : "clustering" ∈ scope) (labels : List Int) (k : Nat)
    (hl : Spec.IsLabelling labels k) (hne : labels ≠ []) (emptyW : List K)
    (emptyL : List (Fin d → K)) (w : List K) (l : List (Fin d → K)) :
    clusterCall scope liuWestSecondary labels emptyW emptyL w l = .error .attributeError := by
  unfold clusterCall
  rw [if_pos hs]
  obtain ⟨i, hi⟩ := List.exists_mem_of_ne_nil labels hne
  obtain ⟨j, hj⟩ := List.getElem?_of_mem hi
  obtain ⟨p, hp, -⟩ := (C75_partition labels k hl).2.2 j i hj
  match h : particleClusters labels, hp with
  | c :: cs, _ => rfl

/-- A secondary resampler that returns as many particles as it gets. -/
def Spec.KeepsCount (secondary : Secondary K d) : Prop :=
  ∀ w l ex r, w.length = l.length → secondary w l ex = .ok r → r.1.length = w.length ∧ r.2.length = l.length

/-- The weighted mean and the weighted second moment about it. -/
def Spec.cloudMoments (w : List K) (l : List (Fin d → K)) : (Fin d → K) × (Fin d → Fin d → K) :=
  (fun a => ((w.zip l).map fun p => p.1 * p.2 a).sum,
    fun a b => ((w.zip l).map fun p => p.1 * p.2 a * p.2 b).sum -
      ((w.zip l).map fun p => p.1 * p.2 a).sum * ((w.zip l).map fun p => p.1 * p.2 b).sum)

/-- The particles with a label, in order. -/
def Spec.withLabel {α : Type*} (labels : List Int) (c : Int) (a : List α) : List α :=
  ((labels.zip a).filter fun p => p.1 = c).map Prod.snd

theorem select_withLabel {α : Type*} (labels : List Int) (c : Int) (a : List α) :
    maskSelect (labels.map fun l => decide (l = c)) a = Spec.withLabel labels c a := by
  induction labels generalizing a with
  | nil => rfl
  | cons l labels ih =>
    cases a with
    | nil => cases h : decide (l = c) <;> simp [maskSelect, Spec.withLabel, h]
    | cons x a =>
      have := ih a
      unfold Spec.withLabel at this ⊢
      by_cases h : l = c
      · simp [maskSelect, h, this]
      · simp [maskSelect, h, this]

/-- What the resampler of one cluster gets. -/
def Spec.clusterArgs (labels : List Int) (w : List K) (l : List (Fin d → K)) (secondary : Secondary K d)
    (c : Int) : Except PyErr (List K × List (Fin d → K)) :=
  secondary (Spec.withLabel labels c w) (Spec.withLabel labels c l)
    (if c = -1 then some (Spec.cloudMoments w l) else none)

theorem loop_cells (secondary : Secondary K d) (hk : Spec.KeepsCount secondary) (labels : List Int)
    (w : List K) (l : List (Fin d → K)) (hw : w.length = labels.length) (hl : l.length = labels.length)
    (cs : List Int) (hnd : cs.Nodup) (acc : List K × List (Fin d → K)) (h1 : acc.1.length = labels.length)
    (h2 : acc.2.length = labels.length) :
    ((∃ r, clusterLoop secondary w l (cs.map fun c => (c, labels.map fun l => decide (l = c))) acc = .ok r) ↔
      ∀ c ∈ cs, ∃ r, Spec.clusterArgs labels w l secondary c = .ok r) ∧
    ∀ r, clusterLoop secondary w l (cs.map fun c => (c, labels.map fun l => decide (l = c))) acc = .ok r →
      r.1.length = labels.length ∧ r.2.length = labels.length ∧
      (∀ c, c ∉ cs → Spec.withLabel labels c r.1 = Spec.withLabel labels c acc.1 ∧
        Spec.withLabel labels c r.2 = Spec.withLabel labels c acc.2) ∧
      ∀ c ∈ cs, ∃ q, Spec.clusterArgs labels w l secondary c = .ok q ∧
        Spec.withLabel labels c r.1 = q.1.map (fun v => v / (Spec.withLabel labels c w).sum) ∧
        Spec.withLabel labels c r.2 = q.2 := by
  induction cs generalizing acc with
  | nil =>
    refine ⟨⟨fun _ c hc => by simp at hc, fun _ => ⟨acc, rfl⟩⟩, fun r hr => ?_⟩
    have : acc = r := Except.ok.inj hr
    subst this
    exact ⟨h1, h2, fun c _ => ⟨rfl, rfl⟩, fun c hc => by simp at hc⟩
  | cons c cs ih =>
    rw [List.nodup_cons] at hnd
    have hargs : secondary (maskSelect (labels.map fun l => decide (l = c)) w)
        (maskSelect (labels.map fun l => decide (l = c)) l) (extraArgs w l c) =
        Spec.clusterArgs labels w l secondary c := by
      rw [select_withLabel, select_withLabel]
      rfl
    simp only [List.map_cons, clusterLoop, hargs]
    cases hq : Spec.clusterArgs labels w l secondary c with
    | error e =>
      refine ⟨⟨fun ⟨r, hr⟩ => (by cases hr), fun h => ?_⟩, fun r hr => (by cases hr)⟩
      obtain ⟨r, hr⟩ := h c List.mem_cons_self
      rw [hq] at hr
      cases hr
    | ok q =>
      have hlen := hk _ _ _ q (by
        rw [← select_withLabel, ← select_withLabel]
        exact select_length _ _ _ (hw.trans hl.symm)) hq
      rw [← select_withLabel, ← select_withLabel] at hlen
      have hA : assignMask (labels.map fun l => decide (l = c)) acc.1
          (q.1.map fun v => v / (maskSelect (labels.map fun l => decide (l = c)) w).sum) =
          .ok (cellAssign (labels.map fun l => decide (l = c)) acc.1
            (q.1.map fun v => v / (maskSelect (labels.map fun l => decide (l = c)) w).sum)) := by
        rw [assignMask, if_pos]
        rw [List.length_map, hlen.1]
        exact select_length _ _ _ (hw.trans h1.symm)
      have hB : assignMask (labels.map fun l => decide (l = c)) acc.2 q.2 =
          .ok (cellAssign (labels.map fun l => decide (l = c)) acc.2 q.2) := by
        rw [assignMask, if_pos]
        rw [hlen.2]
        exact select_length _ _ _ (hl.trans h2.symm)
      simp only [bind, Except.bind, hA, hB]
      obtain ⟨i1, i2⟩ := ih hnd.2 (cellAssign (labels.map fun l => decide (l = c)) acc.1
            (q.1.map fun v => v / (maskSelect (labels.map fun l => decide (l = c)) w).sum),
          cellAssign (labels.map fun l => decide (l = c)) acc.2 q.2)
        (by rw [cellAssign_length]; exact h1) (by rw [cellAssign_length]; exact h2)
      refine ⟨i1.trans ⟨fun h e he => ?_, fun h e he => h e (List.mem_cons_of_mem _ he)⟩, fun r hr => ?_⟩
      · rcases List.mem_cons.1 he with rfl | he
        · exact ⟨q, hq⟩
        · exact h e he
      · obtain ⟨j1, j2, j3, j4⟩ := i2 r hr
        refine ⟨j1, j2, fun e he => ?_, fun e he => ?_⟩
        · obtain ⟨k1, k2⟩ := j3 e fun h => he (List.mem_cons_of_mem _ h)
          have hce : c ≠ e := fun h => he (h ▸ List.mem_cons_self)
          rw [k1, k2]
          simp only [← select_withLabel]
          exact ⟨select_assign_other _ _ _ hce _ _, select_assign_other _ _ _ hce _ _⟩
        · rcases List.mem_cons.1 he with rfl | he
          · obtain ⟨k1, k2⟩ := j3 e hnd.1
            refine ⟨q, hq, ?_, ?_⟩
            · rw [k1, ← select_withLabel, select_assign, select_withLabel]
              rw [List.length_map, hlen.1]
              exact select_length _ _ _ (hw.trans h1.symm)
            · rw [k2, ← select_withLabel, select_assign]
              rw [hlen.2]
              exact select_length _ _ _ (hl.trans h2.symm)
          · exact j4 e he

theorem clusters_form (labels : List Int) (k : Nat) (h : Spec.IsLabelling labels k) :
    ∃ cs : List Int, cs.Nodup ∧ (∀ c, c ∈ cs ↔ c ∈ labels) ∧
      particleClusters labels = cs.map fun c => (c, labels.map fun l => decide (l = c)) := by
  refine ⟨(if labels.contains (-1) then [(-1 : Int)] else []) ++
      (List.range k).map fun k : Nat => (k : Int), ?_, ?_, ?_⟩
  · rw [List.nodup_append]
    refine ⟨by split_ifs <;> simp, List.Nodup.map (fun a b hab => by exact_mod_cast hab) List.nodup_range, ?_⟩
    intro a ha b hb
    split_ifs at ha with hm
    · rw [List.mem_singleton] at ha
      obtain ⟨c, -, rfl⟩ := List.mem_map.1 hb
      intro hab
      omega
    · simp at ha
  · intro l
    rw [List.mem_append, List.mem_map]
    constructor
    · rintro (hl | ⟨c, hc, rfl⟩)
      · split_ifs at hl with hm
        · rw [List.mem_singleton] at hl
          rw [hl]; simpa using hm
        · simp at hl
      · exact h.2 c (List.mem_range.1 hc)
    · intro hl
      obtain ⟨h1, h2⟩ := h.1 l hl
      by_cases hm : l = -1
      · left
        rw [if_pos (by rw [← hm]; simpa using hl), hm]
        simp
      · right
        exact ⟨l.toNat, List.mem_range.2 (by omega), by omega⟩
  · unfold particleClusters
    dsimp only
    rw [cluster_count labels k h]

/-- **C107, partial.**  With the name in scope and a secondary resampler that keeps the number of
particles: the call succeeds exactly if the secondary resampler succeeds on every cluster; the new
cloud has the size of the old one, and the particles of each cluster are those the secondary resampler
returned for it, with their weights divided by the weight of the cluster.  Only noise is resampled
with the moments of the whole cloud.  Missing: as the module stands every call raises
(`C107_name_error`), the default secondary resampler does not fit (`C107_default_fails`), and the
weights do not add up to one (`C107_not_normalised`). -/
theorem C107_cells_partial (scope : List String) (hs : "clustering" ∈ scope) (secondary : Secondary K d)
    (hk : Spec.KeepsCount secondary) (labels : List Int) (k : Nat) (h : Spec.IsLabelling labels k)
    (emptyW : List K) (emptyL : List (Fin d → K)) (w : List K) (l : List (Fin d → K))
    (hw : w.length = labels.length) (hl : l.length = labels.length)
    (he : emptyW.length = labels.length) (he' : emptyL.length = labels.length) :
    ((∃ r, clusterCall scope secondary labels emptyW emptyL w l = .ok r) ↔
      ∀ c ∈ labels, ∃ r, Spec.clusterArgs labels w l secondary c = .ok r) ∧
    ∀ r, clusterCall scope secondary labels emptyW emptyL w l = .ok r →
      r.1.length = labels.length ∧ r.2.length = labels.length ∧
      ∀ c ∈ labels, ∃ q, Spec.clusterArgs labels w l secondary c = .ok q ∧
        Spec.withLabel labels c r.1 = q.1.map (fun v => v / (Spec.withLabel labels c w).sum) ∧
        Spec.withLabel labels c r.2 = q.2 := by
  obtain ⟨cs, hnd, hmem, hform⟩ := clusters_form labels k h
  unfold clusterCall
  rw [if_pos hs, hform]
  obtain ⟨h1, h2⟩ := loop_cells secondary hk labels w l hw hl cs hnd (emptyW, emptyL) he he'
  simp only [hmem] at h1 h2
  exact ⟨h1, fun r hr => ⟨(h2 r hr).1, (h2 r hr).2.1, (h2 r hr).2.2.2⟩⟩

/-- **C107, total weight.**  If the secondary resampler returns normalised weights, the weights of the
new cloud add up to the sum of the inverse weights of the clusters. -/
theorem C107_total_weight (scope : List String) (hs : "clustering" ∈ scope) (secondary : Secondary K d)
    (hk : Spec.KeepsCount secondary) (hone : ∀ w l ex r, secondary w l ex = .ok r → r.1.sum = 1)
    (labels : List Int) (k : Nat) (h : Spec.IsLabelling labels k)
    (emptyW : List K) (emptyL : List (Fin d → K)) (w : List K) (l : List (Fin d → K))
    (hw : w.length = labels.length) (hl : l.length = labels.length)
    (he : emptyW.length = labels.length) (he' : emptyL.length = labels.length)
    (r : List K × List (Fin d → K))
    (hr : clusterCall scope secondary labels emptyW emptyL w l = .ok r) :
    r.1.sum = ∑ c ∈ labels.toFinset, 1 / (Spec.withLabel labels c w).sum := by
  obtain ⟨h1, -, h3⟩ := (C107_cells_partial scope hs secondary hk labels k h emptyW emptyL w l hw hl he he').2 r hr
  have hsum := sum_select labels.dedup (List.nodup_dedup _) labels (fun l hl => List.mem_dedup.2 hl) r.1 h1
  rw [← hsum, ← List.sum_toFinset _ (List.nodup_dedup _)]
  refine Finset.sum_congr (by ext; simp) fun c hc => ?_
  obtain ⟨q, hq, h4, -⟩ := h3 c (by simpa using hc)
  have hq1 : q.1.sum = 1 := hone _ _ _ _ hq
  rw [select_withLabel, h4, ← hq1]
  simp only [div_eq_mul_inv]
  rw [List.sum_map_mul_right, List.map_id']

end

/-- **C107, not normalised.**  With two or more clusters of positive weight the weights of the new cloud
add up to more than one. -/
theorem C107_not_normalised {K : Type*} [Field K] [LinearOrder K] [IsStrictOrderedRing K] {d : Nat}
    (scope : List String) (hs : "clustering" ∈ scope) (secondary : Secondary K d)
    (hk : Spec.KeepsCount secondary) (hone : ∀ w l ex r, secondary w l ex = .ok r → r.1.sum = 1)
    (labels : List Int) (k : Nat) (h : Spec.IsLabelling labels k)
    (emptyW : List K) (emptyL : List (Fin d → K)) (w : List K) (l : List (Fin d → K))
    (hw : w.length = labels.length) (hl : l.length = labels.length)
    (he : emptyW.length = labels.length) (he' : emptyL.length = labels.length)
    (r : List K × List (Fin d → K))
    (hr : clusterCall scope secondary labels emptyW emptyL w l = .ok r)
    (hw1 : w.sum = 1) (hpos : ∀ c ∈ labels, 0 < (Spec.withLabel labels c w).sum)
    (c e : Int) (hc : c ∈ labels) (hce : e ∈ labels) (hne : c ≠ e) :
    ((labels.toFinset.card : K)) < r.1.sum := by
  rw [C107_total_weight scope hs secondary hk hone labels k h emptyW emptyL w l hw hl he he' r hr]
  have htot : ∑ c ∈ labels.toFinset, (Spec.withLabel labels c w).sum = 1 := by
    rw [← hw1, ← sum_select labels.dedup (List.nodup_dedup _) labels (fun l hl => List.mem_dedup.2 hl) w hw,
      ← List.sum_toFinset _ (List.nodup_dedup _)]
    refine Finset.sum_congr (by ext; simp) fun c _ => by rw [select_withLabel]
  have hlt : ∀ c ∈ labels, (Spec.withLabel labels c w).sum < 1 := by
    intro a ha
    obtain ⟨b, hb, hab⟩ : ∃ b ∈ labels, b ≠ a := by
      by_cases hca : c = a
      · exact ⟨e, hce, fun h => hne (hca.trans h.symm)⟩
      · exact ⟨c, hc, hca⟩
    rw [← htot, ← Finset.add_sum_erase _ _ (List.mem_toFinset.2 ha)]
    refine lt_add_of_pos_right _ (Finset.sum_pos (fun i hi => hpos i ?_) ⟨b, ?_⟩)
    · exact List.mem_toFinset.1 (Finset.mem_of_mem_erase hi)
    · exact Finset.mem_erase.2 ⟨hab, List.mem_toFinset.2 hb⟩
  rw [Finset.cast_card]
  refine Finset.sum_lt_sum_of_nonempty ⟨c, List.mem_toFinset.2 hc⟩ fun a ha => ?_
  have ha' := List.mem_toFinset.1 ha
  exact (lt_div_iff₀ (hpos a ha')).2 (by rw [one_mul]; exact hlt a ha')

/-- Case for C107: two clusters of weights 3/4 and 1/4 and a secondary resampler that makes the weights
uniform; the new weights add up to 4/3 + 4. -/
example :
    clusterCall ("clustering" :: resamplersScope)
      (fun w l _ => .ok (w.map fun _ => 1 / (w.length : ℚ), l)) [0, 1, 0] [7, 7, 7]
      [fun _ : Fin 1 => 9, fun _ => 9, fun _ => 9] [1/2, 1/4, 1/4]
      [fun _ => 1, fun _ => 2, fun _ => 3] =
    .ok ([2/3, 4, 2/3], [fun _ => 1, fun _ => 2, fun _ => 3]) := by
  unfold clusterCall
  rw [if_pos (by decide)]
  have : particleClusters [0, 1, 0] = [(0, [true, false, true]), (1, [false, true, false])] := by
    decide +kernel
  rw [this]
  simp only [clusterLoop, bind, Except.bind, assignMask]
  norm_num [maskSelect, cellAssign]

end QInfer
