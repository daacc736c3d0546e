import Verif.Spec.Smc
import Mathlib.Algebra.Order.BigOperators.Group.List
import Mathlib.Algebra.BigOperators.Ring.List
import Mathlib.Tactic.Ring
import Mathlib.Tactic.Linarith
import Mathlib.Tactic.FieldSimp
import Mathlib.Tactic.Positivity
import Mathlib.Tactic.NormNum

/-! # Helper lemmas on the updater model -/

set_option linter.unusedSectionVars false

namespace QInfer

variable {K : Type*} {O E ω : Type*}
variable [Field K] [LinearOrder K]

/-- The invariant behind C01. -/
def WInv (s : Smc K O ω) : Prop := IsProb s.weights ∧ s.locs.length = s.weights.length

theorem bcast_eq (f : K → K → K) (a b : List K) (h : a.length = b.length) :
    bcast f a b = .ok (List.zipWith f a b) := by
  unfold bcast; rw [if_pos h]

/-- The pure form of a cell when weights and locations match. -/
theorem hypCell_eq (env : Env K O E ω) (w : List K) (locs : List (List K)) (o : O) (e : E)
    (h : locs.length = w.length) :
    hypCell env w locs o e = .ok
      ((List.zipWith (· * ·) w (env.likeRow locs o e)).map
          (· / (if |(List.zipWith (· * ·) w (env.likeRow locs o e)).sum| < eps then 1
            else (List.zipWith (· * ·) w (env.likeRow locs o e)).sum)),
        env.likeRow locs o e,
        (List.zipWith (· * ·) w (env.likeRow locs o e)).sum) := by
  unfold hypCell
  dsimp only
  rw [bcast_eq _ _ _ (by simp [Env.likeRow, h])]

theorem sum_map_div (l : List K) (c : K) : (l.map (· / c)).sum = l.sum / c := by
  induction l with
  | nil => simp
  | cons a l ih => simp [ih, add_div]

section
variable [IsStrictOrderedRing K]

theorem eps_pos : (0 : K) < eps := by unfold eps; positivity

theorem eps_lt_one : (eps : K) < 1 := by
  unfold eps
  rw [div_lt_one (by positivity)]
  norm_num

theorem zipWith_nonneg (w L : List K) (hw : ∀ x ∈ w, 0 ≤ x) (hL : ∀ x ∈ L, 0 ≤ x) :
    ∀ x ∈ List.zipWith (· * ·) w L, 0 ≤ x := by
  induction w generalizing L with
  | nil => simp
  | cons a w ih =>
    cases L with
    | nil => simp
    | cons b L =>
      intro x hx
      simp only [List.zipWith_cons_cons, List.mem_cons] at hx
      rcases hx with rfl | hx
      · exact mul_nonneg (hw a (by simp)) (hL b (by simp))
      · exact ih L (fun x hx => hw x (by simp [hx])) (fun x hx => hL x (by simp [hx])) x hx

theorem sum_nonneg' (l : List K) (h : ∀ x ∈ l, 0 ≤ x) : 0 ≤ l.sum :=
  List.sum_nonneg h

/-- Shape of the normalised weights of a cell for non-negative likelihoods. -/
theorem hypCell_nonneg (env : Env K O E ω) (w : List K) (locs : List (List K)) (o : O) (e : E)
    (hlen : locs.length = w.length) (hw : ∀ x ∈ w, 0 ≤ x)
    (hL : ∀ x, 0 ≤ env.likelihood o x e) :
    ∃ w' n, hypCell env w locs o e = .ok (w', env.likeRow locs o e, n) ∧
      w'.length = w.length ∧ (∀ x ∈ w', 0 ≤ x) ∧
      n = (List.zipWith (· * ·) w (env.likeRow locs o e)).sum ∧ 0 ≤ n ∧
      ((n < eps ∧ w'.sum = n) ∨ (eps ≤ n ∧ w'.sum = 1)) := by
  refine ⟨_, _, hypCell_eq env w locs o e hlen, ?_, ?_, rfl, ?_, ?_⟩
  · simp [Env.likeRow, hlen]
  · intro x hx
    have hz := zipWith_nonneg w (env.likeRow locs o e) hw (by
      intro x hx; simp only [Env.likeRow, List.mem_map] at hx
      obtain ⟨y, _, rfl⟩ := hx; exact hL y)
    obtain ⟨y, hy, rfl⟩ := List.mem_map.1 hx
    apply div_nonneg (hz y hy)
    split
    · exact zero_le_one
    · exact sum_nonneg' _ hz
  · exact sum_nonneg' _ (zipWith_nonneg w (env.likeRow locs o e) hw (by
      intro x hx; simp only [Env.likeRow, List.mem_map] at hx
      obtain ⟨y, _, rfl⟩ := hx; exact hL y))
  · have hn := sum_nonneg' _ (zipWith_nonneg w (env.likeRow locs o e) hw (by
      intro x hx; simp only [Env.likeRow, List.mem_map] at hx
      obtain ⟨y, _, rfl⟩ := hx; exact hL y))
    rw [sum_map_div, abs_of_nonneg hn]
    by_cases h : (List.zipWith (· * ·) w (env.likeRow locs o e)).sum < eps
    · left; simp [h]
    · right
      refine ⟨not_lt.1 h, ?_⟩
      rw [if_neg h]
      exact div_self (lt_of_lt_of_le eps_pos (not_lt.1 h)).ne'

end

theorem assignInto_eq (dst src : List K) (h : src.length = dst.length) :
    assignInto dst src = .ok src := by
  unfold assignInto; rw [if_pos h]

theorem reset_winv [IsStrictOrderedRing K] (cfg : SmcConfig K) (env : Env K O E ω)
    (hg : GoodEnv env) (s : Smc K O ω) (hs : WInv s) (n : Option Nat) (only : Option (List Nat))
    (rw_ : Bool) (hn : ∀ m, n = some m → 0 < m ∧ rw_ = true) :
    WInv (reset cfg env s n only rw_).1 := by
  obtain ⟨⟨hw0, hw1⟩, hlen⟩ := hs
  have hpos : 0 < s.weights.length := by
    rcases h : s.weights with _ | ⟨a, l⟩
    · rw [h] at hw1; simp at hw1
    · simp
  have hrep : ∀ m : Nat, 0 < m → IsProb (List.replicate m (1 / (m : K))) := by
    intro m hm
    refine ⟨?_, ?_⟩
    · intro x hx
      rw [List.eq_of_mem_replicate hx]; positivity
    · rw [List.sum_replicate, nsmul_eq_mul]
      have : (m : K) ≠ 0 := by exact_mod_cast hm.ne'
      field_simp
  have hm : 0 < n.getD s.nParticles := by
    cases n with
    | none => simpa [Smc.nParticles, hlen] using hpos
    | some m => simpa using (hn m rfl).1
  unfold reset
  split
  · exact ⟨⟨hw0, hw1⟩, hlen⟩
  · rename_i hboth
    dsimp only
    cases honly : only with
    | none =>
      refine ⟨?_, ?_⟩
      · cases rw_ with
        | true => exact hrep _ hm
        | false => exact ⟨hw0, hw1⟩
      · cases rw_ with
        | true => dsimp only; split <;> simp [hg.canon_len, hg.prior_len]
        | false =>
          have : n = none := by
            cases n with
            | none => rfl
            | some m => exact absurd (hn m rfl).2 (by simp)
          subst this
          dsimp only; split <;> simp [hg.canon_len, hg.prior_len, Smc.nParticles, hlen]
    | some cols =>
      have hnn : n = none := by
        cases n with
        | none => rfl
        | some m => simp [honly] at hboth
      subst hnn
      refine ⟨?_, ?_⟩
      · cases rw_ with
        | true => exact hrep _ hm
        | false => exact ⟨hw0, hw1⟩
      · cases rw_ with
        | true =>
          dsimp only
          split <;> simp [hg.canon_len, hg.prior_len, Smc.nParticles]
        | false =>
          dsimp only
          split <;> simp [hg.canon_len, hg.prior_len, Smc.nParticles, hlen]

theorem resample_winv (cfg : SmcConfig K) (env : Env K O E ω)
    (hg : GoodEnv env) (s : Smc K O ω) (hs : WInv s) : WInv (resample cfg env s).1 := by
  have hs' : WInv (markResampled s) := by
    unfold markResampled
    cases s.justResampled <;> exact hs
  unfold resample
  generalize markResampled s = t at hs'
  unfold runResampler
  split
  · exact hs'
  · rename_i w l seed heq
    have := hg.resampler_ok t.seed t.weights t.locs w l hs'.1 hs'.2 (by rw [heq])
    have key : WInv ({ t with
        weights := w
        locs := if cfg.canonicalize then env.canon l else l
        seed := seed } : Smc K O ω) := by
      refine ⟨this.1, ?_⟩
      dsimp only
      split <;> simp [hg.canon_len, this.2]
    cases env.clearCacheRaises <;> cases t.divergences <;> exact key

theorem maybeResample_winv (cfg : SmcConfig K) (env : Env K O E ω)
    (hg : GoodEnv env) (s : Smc K O ω) (hs : WInv s) : WInv (maybeResample cfg env s).1 := by
  unfold maybeResample
  dsimp only
  have hs' : WInv (if nEss s.weights ≤ ((10 : K) : WithTop K) then s.warn .smallEss else s) := by
    split <;> exact hs
  generalize (if nEss s.weights ≤ ((10 : K) : WithTop K) then s.warn .smallEss else s) = t at hs'
  split
  · exact resample_winv _ _ hg _ hs'
  · exact hs'

theorem finishUpdate_winv (cfg : SmcConfig K) (env : Env K O E ω)
    (hg : GoodEnv env) (s : Smc K O ω) (hlen : s.locs.length = s.weights.length)
    (w : List K) (hw : IsProb w) (hwl : w.length = s.weights.length) (norm : K) (e : E)
    (check : Bool) : WInv (finishUpdate cfg env s w norm e check).1 := by
  unfold finishUpdate
  rw [assignInto_eq _ _ hwl]
  dsimp only
  have key : WInv ({ s with
      weights := w
      normRecord := s.normRecord ++ [norm]
      locs := (env.timestep s.seed s.locs e).1
      seed := (env.timestep s.seed s.locs e).2 } : Smc K O ω) := ⟨hw, by simp [hg.timestep_len, hlen, hwl]⟩
  cases check with
  | true =>
    simp only [if_true]
    apply maybeResample_winv _ _ hg
    split <;> exact key
  | false =>
    simp only [Bool.false_eq_true, if_false]
    split <;> exact key

theorem update_winv [IsStrictOrderedRing K] (cfg : SmcConfig K) (env : Env K O E ω)
    (hg : GoodEnv env) (hp : cfg.policy = "error" ∨ cfg.policy = "skip")
    (ht : eps ≤ cfg.zeroThresh) (s : Smc K O ω) (hs : WInv s)
    (o : O) (e : E) (check : Bool) : WInv (update cfg env s o e check).1 := by
  obtain ⟨w', n, hc, hl, hnn, -, -, hsum⟩ := hypCell_nonneg env s.weights s.locs o e hs.2 hs.1.1
    (fun x => hg.like_nonneg o x e)
  have hc' : hypCell env (recordDatum s o).weights (recordDatum s o).locs o e =
      .ok (w', env.likeRow s.locs o e, n) := hc
  unfold update
  dsimp only
  rw [hc']
  dsimp only
  have hall : w'.all (fun x => decide (0 ≤ x)) = true := by
    simpa using hnn
  rw [if_pos hall]
  unfold applyUpdate
  split
  · rename_i hz
    rcases hp with hp | hp <;> simp [hp] <;> exact hs
  · rename_i hz
    have : w'.sum = 1 := by
      rcases hsum with ⟨h1, h2⟩ | ⟨_, h2⟩
      · exact absurd (h2 ▸ (h1.le.trans ht)) hz
      · exact h2
    exact finishUpdate_winv cfg env hg (recordDatum s o) hs.2 w' ⟨hnn, this⟩ hl n e check

theorem batchLoop_winv [IsStrictOrderedRing K] (cfg : SmcConfig K) (env : Env K O E ω)
    (hg : GoodEnv env) (hp : cfg.policy = "error" ∨ cfg.policy = "skip")
    (ht : eps ≤ cfg.zeroThresh) (interval : Int) (ds : List (O × E)) (idx : Nat)
    (s : Smc K O ω) (hs : WInv s) : WInv (batchLoop cfg env interval idx ds s).1 := by
  induction ds generalizing idx s with
  | nil => exact hs
  | cons d ds ih =>
    obtain ⟨o, e⟩ := d
    have hu := update_winv cfg env hg hp ht s hs o e false
    unfold batchLoop
    split
    · rename_i heq; rw [heq] at hu; exact hu
    · rename_i heq; rw [heq] at hu
      split
      · exact hu
      · split
        · have hm := maybeResample_winv cfg env hg _ hu
          split
          · rename_i heq2; rw [heq2] at hm; exact hm
          · rename_i heq2; rw [heq2] at hm; exact ih _ _ hm
        · exact ih _ _ hu

theorem step_winv [IsStrictOrderedRing K] (cfg : SmcConfig K) (env : Env K O E ω)
    (hg : GoodEnv env) (hp : cfg.policy = "error" ∨ cfg.policy = "skip")
    (ht : eps ≤ cfg.zeroThresh) (s : Smc K O ω) (hs : WInv s) (op : Op O E) (hop : op.Sane) :
    WInv (step cfg env s op).1 := by
  cases op with
  | update o e c => exact update_winv cfg env hg hp ht s hs o e c
  | batch os es i =>
    simp only [step, batchUpdate]
    split
    · exact hs
    · exact batchLoop_winv cfg env hg hp ht i _ 0 s hs
  | resample => exact resample_winv cfg env hg s hs
  | reset n only rw_ =>
    apply reset_winv cfg env hg s hs
    intro m hm; subst hm; exact hop

theorem run_winv [IsStrictOrderedRing K] (cfg : SmcConfig K) (env : Env K O E ω)
    (hg : GoodEnv env) (hp : cfg.policy = "error" ∨ cfg.policy = "skip")
    (ht : eps ≤ cfg.zeroThresh) (ops : List (Op O E)) (hops : ∀ op ∈ ops, op.Sane)
    (s : Smc K O ω) (hs : WInv s) : WInv (run cfg env ops s) := by
  induction ops generalizing s with
  | nil => exact hs
  | cons op ops ih =>
    exact ih (fun x hx => hops x (by simp [hx])) _
      (step_winv cfg env hg hp ht s hs op (hops op (by simp)))

theorem construct_winv [IsStrictOrderedRing K] (cfg : SmcConfig K) (env : Env K O E ω)
    (hg : GoodEnv env) (n : Nat) (hn : 0 < n) (td : Bool) (r : ω) :
    WInv (construct cfg env n td r).1 := by
  have hn0 : (n : K) ≠ 0 := by exact_mod_cast hn.ne'
  simp only [construct, reset, Option.isSome_none, Bool.and_false, Option.getD_some, if_true,
    Bool.false_eq_true, if_false]
  refine ⟨⟨?_, ?_⟩, ?_⟩
  · intro x hx
    rw [List.eq_of_mem_replicate hx]; positivity
  · rw [List.sum_replicate, nsmul_eq_mul]
    field_simp
  · split <;> simp [hg.canon_len, hg.prior_len]

end QInfer
