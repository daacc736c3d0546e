import Verif.Props.Tomo

/-!
# C58: diffusive tomography
-/

set_option linter.unusedSectionVars false

namespace QInfer

open Matrix
open scoped ComplexOrder

variable {b : TomoBasis}

/-- The state part of a displaced particle: every component but the first moves by `ε √t z_k`. -/
noncomputable def Spec.displaced (x : List ℝ) (eps t : ℝ) (z : Nat → ℝ) : List ℝ :=
  x.mapIdx fun k v => if k = 0 then v else v + eps * Real.sqrt t * z k

theorem mapM_some_map {α β : Type} (l : List α) (f : α → Option β) (g : α → β)
    (h : ∀ a ∈ l, f a = some (g a)) : l.mapM f = some (l.map g) := by
  induction l with
  | nil => rfl
  | cons a l ih =>
    rw [List.mapM_cons, h a (by simp), ih fun x hx => h x (by simp [hx])]
    rfl

theorem diffDisplace_eq (y : List ℝ) (eps t : ℝ) (z : Nat → ℝ) (hy : y ≠ []) (ht : 0 ≤ t) :
    diffDisplace (y ++ [eps]) z t = some (Spec.displaced y eps t z ++ [eps]) := by
  have hlast : (y ++ [eps]).getLastD 0 = eps := by simp
  have hlen : (y ++ [eps]).length = y.length + 1 := by simp
  have hpos : 0 < y.length := List.length_pos_iff.2 hy
  unfold diffDisplace
  rw [mapM_some_map _ _ fun k => (Spec.displaced y eps t z ++ [eps]).getD k 0]
  · congr 1
    apply List.ext_getElem
    · simp [Spec.displaced]
    · intro n h1 h2
      simp only [List.getElem_map, List.getElem_range]
      rw [List.getD_eq_getElem?_getD, List.getElem?_eq_getElem h2]
      rfl
  · intro k hk
    rw [List.mem_range, hlen] at hk
    unfold diffStep
    rw [hlast, hlen]
    by_cases hkl : k = y.length
    · subst hkl
      rw [if_pos (Or.inr rfl)]
      simp [Spec.displaced, List.getD_eq_getElem?_getD]
    · have hk' : k < y.length := by omega
      have e1 : (y ++ [eps]).getD k 0 = y[k] := by
        rw [List.getD_eq_getElem?_getD, List.getElem?_append_left hk',
          List.getElem?_eq_getElem hk']; rfl
      have e2 : (Spec.displaced y eps t z ++ [eps]).getD k 0 =
          if k = 0 then y[k] else y[k] + eps * Real.sqrt t * z k := by
        rw [List.getD_eq_getElem?_getD, List.getElem?_append_left (by simpa [Spec.displaced] using hk')]
        simp [Spec.displaced, List.getElem?_mapIdx, hk']
      rw [e1, e2]
      by_cases hk0 : k = 0
      · rw [if_pos (Or.inl hk0), if_pos hk0]; simp
      · rw [if_neg (by omega), if_neg (by linarith), if_neg hk0]; rfl

theorem displaced_length (y : List ℝ) (eps t : ℝ) (z : Nat → ℝ) :
    (Spec.displaced y eps t z).length = y.length := by simp [Spec.displaced]

theorem displaced_head (y : List ℝ) (eps t : ℝ) (z : Nat → ℝ) :
    (Spec.displaced y eps t z).headD 0 = y.headD 0 := by
  cases y <;> simp [Spec.displaced, List.mapIdx_cons]

/-- The displacement does not change the trace, so a displaced density operator always has a
positive eigenvalue. -/
theorem displaced_not_neg (h : Spec.IsTomoBasis b.side b.data) (y : List ℝ)
    (hy : y.length = b.data.length) (hd : Spec.IsDensity (Spec.op b.side b.data y))
    (eps t : ℝ) (z : Nat → ℝ) :
    ¬ (-Spec.op b.side b.data (Spec.displaced y eps t z)).PosSemidef := by
  intro hn
  have h1 := hn.trace_nonneg
  have h2 : trace (Spec.op b.side b.data (Spec.displaced y eps t z)) = 1 := by
    rw [op_trace _ _ _ h (by rw [displaced_length, hy]), displaced_head, ← op_trace _ _ _ h hy, hd.2]
  rw [Matrix.trace_neg, h2] at h1
  norm_num [Complex.nonneg_iff] at h1

/-- A particle of the diffusive model: a state and its diffusion parameter. -/
structure Particle' where
  state : List ℝ
  eps : ℝ

/-- Its row in the particle array. -/
def Particle'.row (p : Particle') : List ℝ := p.state ++ [p.eps]

theorem zipIdx_mapM (ps : List Particle') (z : Nat → Nat → ℝ) (t : ℝ) (ht : 0 ≤ t)
    (hne : ∀ p ∈ ps, p.state ≠ []) (n : Nat) :
    ((ps.map Particle'.row).zipIdx n).mapM (fun p => diffDisplace p.1 (z p.2) t) =
      some ((ps.zipIdx n).map fun p => Spec.displaced p.1.state p.1.eps t (z p.2) ++ [p.1.eps]) := by
  induction ps generalizing n with
  | nil => rfl
  | cons p ps ih =>
    simp only [List.map_cons, List.zipIdx_cons, List.mapM_cons]
    rw [Particle'.row, diffDisplace_eq _ _ _ _ (hne p (by simp)) ht,
      ih (fun q hq => hne q (by simp [hq]))]
    rfl

/-- C58: for density-operator particles and nonnegative durations `update_timestep` succeeds.  For
every experiment and particle, the new state is the density operator proportional to the truncation
of the displaced state (its positive part when the eigenvectors are orthonormal), and the diffusion
parameter is kept. -/
theorem C58_update_timestep (h : Spec.IsTomoBasis b.side b.data) (hdim : b.dim = b.side)
    (hs : 0 < b.side) (eig : Plane → EigResult) (hE : EigContract b.side eig)
    (ps : List Particle') (hne : ps ≠ []) (hl : ∀ p ∈ ps, p.state.length = b.data.length)
    (hd : ∀ p ∈ ps, Spec.IsDensity (Spec.op b.side b.data p.state)) (z : Nat → Nat → ℝ)
    (ts : List ℝ) (ht : ∀ t ∈ ts, 0 ≤ t) :
    ∃ out, diffUpdateTimestep b eig false (ps.map Particle'.row) z ts = .ok out ∧
      List.Forall₂ (fun t rows => ∃ qs : List Particle', rows = qs.map Particle'.row ∧
        List.Forall₂ (fun p q => q.eps = p.1.eps ∧ q.state.length = b.data.length ∧
          Spec.IsDensity (Spec.op b.side b.data q.state) ∧
          ∃ (y : List ℝ) (c : ℂ), Spec.op b.side b.data y = c • Spec.op b.side b.data q.state ∧
            truncNegEigs b eig (Spec.displaced p.1.state p.1.eps t (z p.2)) = .ok y ∧
            (OrthonormalEig b.side eig → Spec.IsPosPart
              (Spec.op b.side b.data (Spec.displaced p.1.state p.1.eps t (z p.2)))
              (Spec.op b.side b.data y)))
          ps.zipIdx qs) ts out := by
  have hnil : ∀ p ∈ ps, p.state ≠ [] := by
    intro p hp h0
    have := hl p hp
    rw [h0, h.len] at this
    have := Nat.mul_pos hs hs
    simp at *
    omega
  have one : ∀ t, 0 ≤ t → ∃ rows,
      diffExperiment b eig false (ps.map Particle'.row) z t = .ok rows ∧
      ∃ qs : List Particle', rows = qs.map Particle'.row ∧
        List.Forall₂ (fun p q => q.eps = p.1.eps ∧ q.state.length = b.data.length ∧
          Spec.IsDensity (Spec.op b.side b.data q.state) ∧
          ∃ (y : List ℝ) (c : ℂ), Spec.op b.side b.data y = c • Spec.op b.side b.data q.state ∧
            truncNegEigs b eig (Spec.displaced p.1.state p.1.eps t (z p.2)) = .ok y ∧
            (OrthonormalEig b.side eig → Spec.IsPosPart
              (Spec.op b.side b.data (Spec.displaced p.1.state p.1.eps t (z p.2)))
              (Spec.op b.side b.data y)))
          ps.zipIdx qs := by
    intro t ht
    rw [diffExperiment, zipIdx_mapM ps z t ht hnil 0]
    dsimp only
    unfold diffCanonicalize
    have hdl : ((ps.zipIdx 0).map fun p =>
        Spec.displaced p.1.state p.1.eps t (z p.2) ++ [p.1.eps]).map List.dropLast =
        (ps.zipIdx 0).map fun p => Spec.displaced p.1.state p.1.eps t (z p.2) := by
      rw [List.map_map]
      refine List.map_congr_left fun p _ => ?_
      simp
    rw [hdl]
    have hmem : ∀ p ∈ ps.zipIdx 0, p.1 ∈ ps := fun p hp => List.fst_mem_of_mem_zipIdx hp
    have hl' : ∀ y ∈ (ps.zipIdx 0).map (fun p =>
        Spec.displaced p.1.state p.1.eps t (z p.2)), y.length = b.data.length := by
      intro y hy
      obtain ⟨p, hp, rfl⟩ := List.mem_map.1 hy
      rw [displaced_length, hl p.1 (hmem p hp)]
    obtain ⟨ys, e1, e2⟩ := (C41_canonicalize h hdim hs eig hE _ (by simpa using hne) hl').1 (by
      intro y hy
      obtain ⟨p, hp, rfl⟩ := List.mem_map.1 hy
      exact displaced_not_neg h _ (hl p.1 (hmem p hp)) (hd p.1 (hmem p hp)) _ _ _)
    rw [e1]
    refine ⟨_, rfl, List.zipWith (fun y p => (⟨y, p.1.eps⟩ : Particle')) ys (ps.zipIdx 0), ?_, ?_⟩
    · rw [List.map_zipWith, List.zipWith_map_right]
      congr 1
      funext y p
      simp [Particle'.row]
    · rw [List.forall₂_map_left_iff] at e2
      have e3 := (List.forall₂_and_left _ _).2 ⟨hmem, e2⟩
      clear e1 e2 hdl hl' hmem
      generalize ps.zipIdx 0 = zs at e3 ⊢
      induction e3 with
      | nil => exact .nil
      | @cons p y zs ys hpy _ ih =>
        refine .cons ?_ ih
        obtain ⟨hm, h1, h2, y', h3, h4⟩ := hpy
        refine ⟨rfl, h1, h2, y', _, h4, h3, fun hO => ?_⟩
        rcases C41_truncation_partial h eig hE hO _
          ((displaced_length p.1.state p.1.eps t (z p.2)).trans (hl p.1 hm)) with
          ⟨y'', k1, -, k3⟩ | ⟨k1, -, -⟩
        · rw [h3, Except.ok.injEq] at k1
          rw [k1]; exact k3
        · rw [h3] at k1; simp at k1
  unfold diffUpdateTimestep
  induction ts with
  | nil => exact ⟨[], rfl, .nil⟩
  | cons t ts ih =>
    obtain ⟨out, e1, e2⟩ := ih fun s hs => ht s (by simp [hs])
    obtain ⟨rows, e3, e4⟩ := one t (ht t (by simp))
    refine ⟨rows :: out, ?_, .cons e4 e2⟩
    rw [List.mapM_cons, e3, e1]
    rfl

/-- C58: particles that `are_models_valid` accepts are accepted after the timestep; ones with a diffusion
parameter that is not positive are refused before and after. -/
theorem C58_validity (h : Spec.IsTomoBasis b.side b.data) (hdim : b.dim = b.side)
    (hs : 0 < b.side) (eig : Plane → EigResult) (hE : EigContract b.side eig)
    (ps : List Particle') (hne : ps ≠ []) (hl : ∀ p ∈ ps, p.state.length = b.data.length)
    (hd : ∀ p ∈ ps, Spec.IsDensity (Spec.op b.side b.data p.state)) (z : Nat → Nat → ℝ)
    (ts : List ℝ) (ht : ∀ t ∈ ts, 0 ≤ t) :
    (∀ p : Particle', DiffValid p.row ↔ 0 < p.eps) ∧
    ∃ out, diffUpdateTimestep b eig false (ps.map Particle'.row) z ts = .ok out ∧
      ∀ rows ∈ out, List.Forall₂ (fun x y => DiffValid x ↔ DiffValid y) (ps.map Particle'.row) rows := by
  have hv : ∀ p : Particle', DiffValid p.row ↔ 0 < p.eps := fun p => by simp [DiffValid, Particle'.row]
  refine ⟨hv, ?_⟩
  obtain ⟨out, e1, e2⟩ := C58_update_timestep h hdim hs eig hE ps hne hl hd z ts ht
  refine ⟨out, e1, fun rows hr => ?_⟩
  clear e1 ht
  induction e2 with
  | nil => simp at hr
  | cons hab _ ih =>
    rcases List.mem_cons.1 hr with rfl | hr
    · obtain ⟨qs, rfl, hq⟩ := hab
      have hz : ps.map Particle'.row = (ps.zipIdx).map fun p => p.1.row := by
        conv_lhs => rw [← List.zipIdx_map_fst 0 ps, List.map_map]
        rfl
      rw [hz, List.forall₂_map_left_iff, List.forall₂_map_right_iff]
      exact hq.imp fun p q hpq => by rw [hv, hv, hpq.1]
    · exact ih hr

/-- C58: with duration zero (or diffusion parameter zero) density operators stay as they are, with
either setting of `allow_subnormalized`. -/
theorem C58_no_displacement (h : Spec.IsTomoBasis b.side b.data) (hdim : b.dim = b.side)
    (hs : 0 < b.side) (eig : Plane → EigResult) (hE : EigContract b.side eig) (allowSub : Bool)
    (ps : List Particle') (hne : ps ≠ []) (hl : ∀ p ∈ ps, p.state.length = b.data.length)
    (hd : ∀ p ∈ ps, Spec.IsDensity (Spec.op b.side b.data p.state)) (z : Nat → Nat → ℝ)
    (ts : List ℝ) (ht : ∀ t ∈ ts, 0 ≤ t) (h0 : (∀ t ∈ ts, t = 0) ∨ ∀ p ∈ ps, p.eps = 0) :
    diffUpdateTimestep b eig allowSub (ps.map Particle'.row) z ts =
      .ok (ts.map fun _ => ps.map Particle'.row) := by
  have hnil : ∀ p ∈ ps, p.state ≠ [] := by
    intro p hp h0
    have := hl p hp
    rw [h0, h.len] at this
    have := Nat.mul_pos hs hs
    simp at *
    omega
  unfold diffUpdateTimestep
  have one : ∀ t ∈ ts,
      diffExperiment b eig allowSub (ps.map Particle'.row) z t = .ok (ps.map Particle'.row) := by
    intro t htm
    rw [diffExperiment, zipIdx_mapM ps z t (ht t htm) hnil 0]
    dsimp only
    have hz : ((ps.zipIdx 0).map fun p =>
        Spec.displaced p.1.state p.1.eps t (z p.2) ++ [p.1.eps]) = ps.map Particle'.row := by
      have : ∀ p ∈ ps.zipIdx 0, Spec.displaced p.1.state p.1.eps t (z p.2) ++ [p.1.eps] =
          p.1.row := by
        intro p hp
        have hp' : p.1 ∈ ps := List.fst_mem_of_mem_zipIdx hp
        have e : p.1.eps * Real.sqrt t = 0 := by
          rcases h0 with h0 | h0
          · rw [h0 t htm]; simp
          · rw [h0 p.1 hp']; simp
        unfold Spec.displaced Particle'.row
        congr 1
        apply List.ext_getElem
        · simp
        · intro n h1 h2; simp [e]
      rw [List.map_congr_left this]
      conv_rhs => rw [← List.zipIdx_map_fst 0 ps, List.map_map]
      rfl
    rw [hz]
    unfold diffCanonicalize
    have hdl : (ps.map Particle'.row).map List.dropLast = ps.map Particle'.state := by
      rw [List.map_map]
      refine List.map_congr_left fun p _ => ?_
      simp [Particle'.row]
    rw [hdl, C41_density_unchanged h hdim hs eig hE allowSub _ (by simpa using hne) (by
      intro x hx
      obtain ⟨p, hp, rfl⟩ := List.mem_map.1 hx
      exact hl p hp) (by
      intro x hx
      obtain ⟨p, hp, rfl⟩ := List.mem_map.1 hx
      exact hd p hp)]
    change Except.ok _ = _
    congr 1
    rw [List.zipWith_map_left, List.zipWith_map_right]
    clear hnil hz hdl hd hl hne
    induction ps with
    | nil => rfl
    | cons p ps ih =>
      simp only [List.zipWith_cons_cons, List.map_cons]
      rw [ih (by rcases h0 with h0 | h0
                 · exact Or.inl h0
                 · exact Or.inr fun q hq => h0 q (by simp [hq]))]
      simp [Particle'.row]
  clear h0 ht
  induction ts with
  | nil => rfl
  | cons t ts ih =>
    rw [List.mapM_cons, one t (by simp), ih fun s hs => one s (by simp [hs])]
    rfl

/-- C58: a negative duration makes the update fail (in dimension two or more), whatever the noise. -/
theorem C58_negative_duration (h : Spec.IsTomoBasis b.side b.data) (hs : 2 ≤ b.side)
    (eig : Plane → EigResult) (allowSub : Bool) (ps : List Particle') (hne : ps ≠ [])
    (hl : ∀ p ∈ ps, p.state.length = b.data.length) (z : Nat → Nat → ℝ) (t : ℝ) (ht : t < 0)
    (ts : List ℝ) :
    diffUpdateTimestep b eig allowSub (ps.map Particle'.row) z (t :: ts) = .error .other := by
  unfold diffUpdateTimestep
  rw [List.mapM_cons]
  cases ps with
  | nil => exact absurd rfl hne
  | cons p ps =>
    have hn : diffDisplace p.row (z 0) t = none := by
      unfold diffDisplace
      have hlen : p.row.length = b.data.length + 1 := by
        simp [Particle'.row, hl p (by simp)]
      have h4 : 4 ≤ b.data.length := by
        rw [h.len]; exact Nat.mul_le_mul hs hs
      have h1 : (diffStep p.row (z 0) t 1) = none := by
        unfold diffStep
        rw [if_neg (by omega), if_pos ht]
      obtain ⟨n, hn⟩ : ∃ n, p.row.length = n + 2 := ⟨b.data.length - 1, by omega⟩
      rw [hn, List.range_succ_eq_map, List.mapM_cons, List.range_succ_eq_map, List.map_cons,
        List.mapM_cons]
      have : diffStep p.row (z 0) t (Nat.succ 0) = none := h1
      rw [this]
      cases diffStep p.row (z 0) t 0 <;> rfl
    rw [diffExperiment, List.map_cons, List.zipIdx_cons, List.mapM_cons, hn]
    rfl

/-! ## A concrete case -/

/-- The maximally mixed state in dimension two with diffusion parameter one half. -/
example : ∃ b eig, gellMannBasis 2 = .ok b ∧ Spec.IsTomoBasis b.side b.data ∧ b.dim = b.side ∧
    0 < b.side ∧ EigContract b.side eig ∧ OrthonormalEig b.side eig ∧
    ∃ p : Particle', p.eps = 1 / 2 ∧ p.state.length = b.data.length ∧
      Spec.IsDensity (Spec.op b.side b.data p.state) := by
  obtain ⟨b, h1, hside, -, hdim, -, h3⟩ := C40_gell_mann 2 (by norm_num)
  obtain ⟨eig, hE, hO⟩ := exists_orthonormal_eig b.side
  have h : Spec.IsTomoBasis b.side b.data := hside ▸ h3
  refine ⟨b, eig, h1, h, by omega, by omega, hE, hO,
    ⟨(1 / Real.sqrt 2) :: List.replicate 3 0, 1 / 2⟩, rfl, ?_, ?_⟩
  · rw [h3.len]; rfl
  · have hl : ((1 / Real.sqrt 2) :: List.replicate 3 (0 : ℝ)).length = b.data.length := by
      rw [h3.len]; rfl
    have hop : Spec.op b.side b.data ((1 / Real.sqrt 2) :: List.replicate 3 (0 : ℝ)) =
        ((1 / 2 : ℝ) : ℂ) • 1 := by
      have h4 : 0 < b.data.length := by rw [h3.len]; norm_num
      unfold Spec.op
      rw [Finset.sum_eq_single ⟨0, h4⟩]
      · simp only [Fin.getElem_fin]
        rw [h.first h4, smul_smul, hside]
        congr 1
        simp only [List.getD_cons_zero]
        rw [← Complex.ofReal_mul]
        congr 1
        rw [div_mul_div_comm, one_mul]
        congr 1
        exact_mod_cast Real.mul_self_sqrt (by norm_num : (0 : ℝ) ≤ 2)
      · intro a _ ha
        have : (a : Nat) ≠ 0 := fun h0 => ha (Fin.ext h0)
        obtain ⟨n, hn⟩ := Nat.exists_eq_succ_of_ne_zero this
        rw [hn]
        rw [Nat.succ_eq_add_one, List.getD_cons_succ, List.getD_eq_getElem?_getD,
          List.getElem?_replicate]
        split <;> simp
      · intro hn; exact absurd (Finset.mem_univ _) hn
    refine ⟨?_, ?_⟩
    · rw [hop]
      refine PosSemidef.one.smul ?_
      norm_num [Complex.nonneg_iff]
    · rw [hop, Matrix.trace_smul, Matrix.trace_one, Fintype.card_fin, hside]
      norm_num

end QInfer
