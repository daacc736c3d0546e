import Verif.Spec.ParallelLife
import Verif.Props.Parallel

/-! # Lemmas on the life of an engine-parallel model -/

namespace QInfer

variable {σ O M E α D K : Type}

theorem except_mapM_ok {A B : Type} (g : A → Except PyErr B) (h : A → B) (l : List A)
    (hg : ∀ a ∈ l, g a = .ok (h a)) : l.mapM g = .ok (l.map h) := by
  induction l with
  | nil => rfl
  | cons a l ih =>
    rw [List.mapM_cons, hg a (by simp), ih fun b hb => hg b (by simp [hb])]
    rfl

theorem except_mapM_error {A B : Type} (g : A → Except PyErr B) (e : PyErr) (l : List A)
    (hg : ∀ a ∈ l, (∃ b, g a = .ok b) ∨ g a = .error e) (hx : ∃ a ∈ l, g a = .error e) :
    l.mapM g = .error e := by
  induction l with
  | nil => obtain ⟨a, ha, -⟩ := hx; simp at ha
  | cons a l ih =>
    rw [List.mapM_cons]
    rcases hg a (by simp) with ⟨b, hb⟩ | hb
    · rw [hb]
      have : l.mapM g = .error e := by
        refine ih (fun b hb => hg b (by simp [hb])) ?_
        obtain ⟨c, hc, hce⟩ := hx
        rcases List.mem_cons.mp hc with rfl | hc
        · rw [hb] at hce; cases hce
        · exact ⟨c, hc, hce⟩
      rw [this]; rfl
    · rw [hb]; rfl

theorem mapIdx_pair_map {A B : Type} (h : A → B) (l : List A) :
    (l.mapIdx fun t a => (t, a)).map (fun p => h p.2) = l.map h := by
  apply List.ext_getElem <;> simp

theorem mem_mapIdx_pair {A : Type} (l : List A) (p : Nat × A)
    (hp : p ∈ l.mapIdx fun t a => (t, a)) : p.2 ∈ l := by
  rw [List.mem_mapIdx] at hp
  obtain ⟨i, hi, rfl⟩ := hp
  exact List.getElem_mem hi

theorem exists_mapIdx_pair {A : Type} (l : List A) (a : A) (ha : a ∈ l) :
    ∃ t, (t, a) ∈ l.mapIdx fun t a => (t, a) := by
  obtain ⟨i, hi, rfl⟩ := List.mem_iff_getElem.mp ha
  exact ⟨i, List.mem_mapIdx.mpr ⟨i, hi, rfl⟩⟩

theorem table_same {lik : List O → List M → List E → Arr3 α} {f : O → M → E → α}
    (hf : ∀ os ms es, (lik os ms es).IsTable f os ms es) (os : List O) (ms : List M) (es : List E)
    (A : Arr3 α) (h : A.IsTable f os ms es) : A.Same (lik os ms es) := by
  obtain ⟨h0, h1, h2, h3⟩ := h
  obtain ⟨g0, g1, g2, g3⟩ := hf os ms es
  refine ⟨⟨h0.trans g0.symm, h1.trans g1.symm, h2.trans g2.symm⟩, ?_⟩
  intro i hi j hj k hk
  rw [h3 i (h0 ▸ hi) j (h1 ▸ hj) k (h2 ▸ hk), g3 i (h0 ▸ hi) j (h1 ▸ hj) k (h2 ▸ hk)]

/-- Every chunk is as short as the average, rounded up. -/
theorem chunks_le (ms : List M) (n : Nat) (hn : n ≠ 0) (cs : List (List M))
    (h : arraySplit ms n = .ok cs) (t : ℤ) (ht : (ms.length : ℤ) ≤ n * t) :
    ∀ c ∈ cs, (c.length : ℤ) ≤ t := by
  obtain ⟨cs', h1, h2, h3, h4⟩ := arraySplit_ok ms n hn
  rw [h] at h1; cases h1
  intro c hc
  have hm : c.length ∈ cs.map List.length := List.mem_map_of_mem hc
  rw [h4, List.mem_append, List.mem_replicate, List.mem_replicate] at hm
  have hd := Nat.mod_add_div ms.length n
  have hd' : ((ms.length % n : ℕ) : ℤ) + n * (ms.length / n : ℕ) = ms.length := by exact_mod_cast hd
  have hn' : (0 : ℤ) < n := by exact_mod_cast Nat.pos_of_ne_zero hn
  rcases hm with ⟨hr, hl⟩ | ⟨-, hl⟩
  · have : (0 : ℤ) < (ms.length % n : ℕ) := by exact_mod_cast Nat.pos_of_ne_zero hr
    rw [hl]; push_cast
    by_contra hcon
    push Not at hcon
    push_cast at hd' this
    nlinarith
  · rw [hl]
    by_contra hcon
    push Not at hcon
    have : (0 : ℤ) ≤ (ms.length % n : ℕ) := by positivity
    push_cast at hd' this hcon
    nlinarith

/-- Some chunk is at least as long as the average. -/
theorem chunks_gt (ms : List M) (n : Nat) (hn : n ≠ 0) (cs : List (List M))
    (h : arraySplit ms n = .ok cs) (t : ℤ) (ht : n * t < (ms.length : ℤ)) :
    ∃ c ∈ cs, t < (c.length : ℤ) := by
  obtain ⟨cs', h1, h2, h3, -⟩ := arraySplit_ok ms n hn
  rw [h] at h1; cases h1
  by_contra hcon
  push Not at hcon
  have key : ∀ l : List (List M), (∀ c ∈ l, (c.length : ℤ) ≤ t) →
      (l.flatten.length : ℤ) ≤ l.length * t := by
    intro l
    induction l with
    | nil => simp
    | cons a l ih =>
      intro hl
      have h1 := hl a (by simp)
      have h2 := ih fun c hc => hl c (by simp [hc])
      rw [List.flatten_cons, List.length_append, List.length_cons]
      push_cast
      linarith
  have := key cs hcon
  rw [h2, h3] at this
  linarith

/-- If every engine answers its chunk, the joined answers are the whole table. -/
theorem engines_answer (lik : List O → List M → List E → Arr3 α) (f : O → M → E → α)
    (hf : ∀ os ms es, (lik os ms es).IsTable f os ms es) (n : Nat) (hn : n ≠ 0)
    (os : List O) (ms : List M) (es : List E) (cs : List (List M)) (h : arraySplit ms n = .ok cs)
    (g : Nat × List M → Except PyErr (Arr3 α))
    (hg : ∀ p : Nat × List M, p.2 ∈ cs → g p = .ok (lik os p.2 es)) :
    ∃ A, (do let Ls ← (cs.mapIdx fun t mps => (t, mps)).mapM g
             concatenate Arr3.cat1 Ls) = (.ok A : Except PyErr (Arr3 α)) ∧
      A.IsTable f os ms es := by
  obtain ⟨cs', h1, h2, h3, -⟩ := arraySplit_ok ms n hn
  rw [h] at h1; cases h1
  rw [except_mapM_ok g (fun p => lik os p.2 es) _ fun p hp => hg p (mem_mapIdx_pair cs p hp),
    mapIdx_pair_map (fun mps => lik os mps es) cs]
  cases cs with
  | nil => simp at h3; omega
  | cons c cs =>
    obtain ⟨A, hA, hAt⟩ := foldl_table f os es lik hf cs _ c (hf os c es)
    refine ⟨A, hA, ?_⟩
    rw [← h2]; exact hAt

end QInfer
