import Verif.Model.Forward
import Mathlib.Tactic

/-!
# C116: what a wrapped model passes on

The names, the number of parameters, the scale `Q`, the time step and the cost of every nesting of
wrappers.
-/

namespace QInfer
namespace Fwd

variable {K E : Type} [Field K] [LinearOrder K]

/-! ## Specification -/

/-- The stand-alone model at the bottom. -/
def Spec.root : Tree K E → Alone K E
  | .alone b => b
  | .wrap _ u => Spec.root u

/-- Number of parameters a wrapper adds according to its documentation: four for the hyperparameters,
one for each learned covariance parameter. -/
def Spec.added : Wrap K E → Nat
  | .hyper => 4
  | .gwalk _ extra _ => extra.length
  | _ => 0

/-- Number of parameters added by all wrappers together. -/
def Spec.total : Tree K E → Nat
  | .alone _ => 0
  | .wrap w u => Spec.added w + Spec.total u

/-! ## Lemmas -/

theorem scale_eq (t : Tree K E) : t.scale = List.replicate (Spec.root t).nParams 1 := by
  induction t with
  | alone b => rfl
  | wrap w u ih => simpa [Tree.scale, Spec.root] using ih

theorem names_length (t : Tree K E) :
    t.names.length = (Spec.root t).names.length + Spec.total t := by
  induction t with
  | alone b => simp [Tree.names, Spec.root, Spec.total]
  | wrap w u ih =>
    cases w <;> simp [Tree.names, Spec.root, Spec.total, Spec.added, ih] <;> omega

theorem bcast_same (f : K → K → K) (a b : List K) (h : a.length = b.length) :
    bcast f a b = .ok (List.zipWith f a b) := by simp [bcast, h]

theorem bcast_error (f : K → K → K) (a b : List K) (h : a.length ≠ b.length)
    (ha : a.length ≠ 1) (hb : b.length ≠ 1) : bcast f a b = .error .valueError := by
  unfold bcast
  rw [if_neg h]
  match a, b with
  | [x], _ => simp at ha
  | [], [y] => simp at hb
  | _ :: _ :: _, [y] => simp at hb
  | [], [] => rfl
  | [], _ :: _ :: _ => rfl
  | _ :: _ :: _, [] => rfl
  | _ :: _ :: _, _ :: _ :: _ => rfl

theorem bcast_one (f : K → K → K) (x : K) (b : List K) : bcast f [x] b = .ok (b.map (f x)) := by
  unfold bcast
  split
  · next h =>
    obtain ⟨y, rfl⟩ := List.length_eq_one_iff.1 (by simpa using h.symm : b.length = 1)
    simp
  · cases b <;> rfl

theorem bcast_one_right (f : K → K → K) (y : K) (a : List K) :
    bcast f a [y] = .ok (a.map (fun x => f x y)) := by
  unfold bcast
  split
  · next h =>
    obtain ⟨x, rfl⟩ := List.length_eq_one_iff.1 (by simpa using h : a.length = 1)
    simp
  · match a with
    | [] => rfl
    | [x] => rfl
    | _ :: _ :: _ => rfl

theorem zipWith_ones (n : Nat) (l : List K) (h : n = l.length) :
    List.zipWith (fun x y => x * y) (List.replicate n 1) l = l := by
  subst h
  induction l with
  | nil => rfl
  | cons x xs ih => simp [List.replicate_succ, ih]

theorem zipWith_ones_right {A : Type} (g : A → K) (n : Nat) (l : List A) (h : n = l.length) :
    List.zipWith (fun z w => g z * w) l (List.replicate n 1) = l.map g := by
  subst h
  induction l with
  | nil => rfl
  | cons x xs ih => simp [List.replicate_succ, ih]

theorem addAt_spec (is : List Nat) : ∀ (ss row : List K), is.length = ss.length → is.Nodup →
    (∀ i ∈ is, i < row.length) →
    ∃ r, addAt row is ss = .ok r ∧ r.length = row.length ∧
      (∀ j, j ∉ is → r.getD j 0 = row.getD j 0) ∧
      (∀ k < is.length, r.getD (is.getD k 0) 0 = row.getD (is.getD k 0) 0 + ss.getD k 0) := by
  induction is with
  | nil => intro ss row h _ _; exact ⟨row, by simp [addAt], rfl, fun _ _ => rfl, by simp⟩
  | cons i is ih =>
    intro ss row h hnd hlt
    cases ss with
    | nil => simp at h
    | cons s ss =>
      have hi : i < row.length := hlt i (by simp)
      obtain ⟨hni, hnd'⟩ := List.nodup_cons.1 hnd
      obtain ⟨r, h1, h2, h3, h4⟩ := ih ss (row.set i (row.getD i 0 + s)) (by simpa using h) hnd'
        (fun j hj => by simpa using hlt j (by simp [hj]))
      refine ⟨r, by simp only [addAt]; rw [if_pos hi]; exact h1, by simpa using h2, ?_, ?_⟩
      · intro j hj
        simp only [List.mem_cons, not_or] at hj
        rw [h3 j hj.2]
        simp [List.getD_eq_getElem?_getD, List.getElem?_set, Ne.symm hj.1]
      · intro k hk
        cases k with
        | zero =>
          simp only [List.getD_cons_zero]
          rw [h3 i hni]
          simp [List.getD_eq_getElem?_getD, List.getElem?_set, hi]
        | succ k =>
          simp only [List.length_cons, Nat.add_lt_add_iff_right] at hk
          simp only [List.getD_cons_succ]
          rw [h4 k hk]
          have hne : i ≠ is.getD k 0 := by
            intro hc
            apply hni
            rw [hc, show is.getD k 0 = is[k] by simp [List.getD_eq_getElem?_getD, hk]]
            exact List.getElem_mem hk
          simp [List.getD_eq_getElem?_getD, List.getElem?_set] at hne ⊢
          simp [hne]

/-! ## Theorems -/

/-- The names are those of the stand-alone model followed by further ones, and there is one name for
every parameter: the number of parameters is that of the stand-alone model plus what the wrappers
add. -/
theorem C116_names (t : Tree K E) (hb : (Spec.root t).names.length = (Spec.root t).nParams) :
    t.names.length = t.nParams ∧ t.nParams = (Spec.root t).nParams + Spec.total t ∧
      (Spec.root t).names <+: t.names := by
  have h1 : t.nParams = (Spec.root t).nParams + Spec.total t := by
    induction t with
    | alone b => simp [Tree.nParams, Spec.root, Spec.total]
    | wrap w u ih =>
      have hn := names_length (Tree.wrap w u)
      cases w with
      | plain c => simpa [Tree.nParams, Spec.root, Spec.total, Spec.added] using ih hb
      | walk d => simpa [Tree.nParams, Spec.root, Spec.total, Spec.added] using ih hb
      | hyper => simp only [Tree.nParams]; rw [hn, hb]
      | gwalk i x s => simp only [Tree.nParams]; rw [hn, hb]
  refine ⟨by rw [names_length, hb, h1], h1, ?_⟩
  clear h1 hb
  induction t with
  | alone b => exact List.prefix_rfl
  | wrap w u ih =>
    cases w with
    | plain c => simpa [Tree.names, Spec.root] using ih
    | walk d => simpa [Tree.names, Spec.root] using ih
    | hyper => simpa [Tree.names, Spec.root] using ih.trans (List.prefix_append _ _)
    | gwalk i x s => simpa [Tree.names, Spec.root] using ih.trans (List.prefix_append _ _)

/-- The scale has one entry per parameter exactly when no wrapper adds parameters. The full claim,
that it always has, fails: see `C116_distance_raises`. -/
theorem C116_scale_partial (t : Tree K E)
    (hb : (Spec.root t).names.length = (Spec.root t).nParams) :
    t.scale.length = t.nParams ↔ Spec.total t = 0 := by
  rw [scale_eq, List.length_replicate, (C116_names t hb).2.1]
  omega

/-- If no wrapper adds parameters, distances and losses of a wrapped model are those of the
stand-alone model: sums of absolute or squared differences. -/
theorem C116_distance_partial (t : Tree K E)
    (hb : (Spec.root t).names.length = (Spec.root t).nParams) (h0 : Spec.total t = 0)
    (a b : List K) (ha : a.length = t.nParams) (hb' : b.length = t.nParams) :
    t.distance a b = .ok (List.zipWith (fun x y => |x - y|) a b).sum ∧
    t.riskTerm a b = .ok (List.zipWith (fun x y => (x - y) ^ 2) a b).sum ∧
    t.loss a b = .ok (List.zipWith (fun x y => (x - y) ^ 2) a b).sum := by
  have hn : t.nParams = (Spec.root t).nParams := by have := (C116_names t hb).2.1; omega
  have hlen : (List.zipWith (fun x y : K => x - y) a b).length = (Spec.root t).nParams := by
    simp; omega
  have hab : a.length = b.length := by omega
  refine ⟨?_, ?_, ?_⟩
  · unfold Tree.distance
    rw [bcast_same _ a b hab]
    simp only [bind, Except.bind]
    rw [scale_eq, bcast_same _ _ _ (by rw [hlen]; simp)]
    simp only
    rw [zipWith_ones _ _ hlen.symm, List.map_zipWith]
  · unfold Tree.riskTerm
    rw [bcast_same _ a b hab]
    simp only [bind, Except.bind]
    rw [scale_eq, bcast_same _ _ _ (by rw [List.length_map, hlen]; simp)]
    simp only
    rw [zipWith_ones _ _ (by rw [List.length_map, hlen]), List.map_zipWith]
  · unfold Tree.loss
    rw [bcast_same _ a b hab]
    simp only [bind, Except.bind]
    rw [scale_eq, hn]
    simp only [List.length_replicate, Nat.sub_self, List.drop_zero]
    rw [if_pos hlen, zipWith_ones_right (fun z : K => z ^ 2) _ _ hlen.symm, List.map_zipWith]

/-- If wrappers add parameters, recording a performance loss always raises; the distance and the
Bayes risk raise too, unless the stand-alone model has exactly one parameter. -/
theorem C116_distance_raises (t : Tree K E)
    (hb : (Spec.root t).names.length = (Spec.root t).nParams) (h0 : 0 < Spec.total t)
    (a b : List K) (ha : a.length = t.nParams) (hb' : b.length = t.nParams) :
    t.loss a b = .error .valueError ∧
    ((Spec.root t).nParams ≠ 1 → 1 < t.nParams →
      t.distance a b = .error .valueError ∧ t.riskTerm a b = .error .valueError) ∧
    ((Spec.root t).nParams = 1 →
      t.distance a b = .ok (List.zipWith (fun x y => |x - y|) a b).sum) := by
  have hn := (C116_names t hb).2.1
  have hab : a.length = b.length := by omega
  have hlen : (List.zipWith (fun x y : K => x - y) a b).length = t.nParams := by simp; omega
  refine ⟨?_, fun h1 h2 => ⟨?_, ?_⟩, fun h1 => ?_⟩
  · unfold Tree.loss
    rw [bcast_same _ a b hab]
    simp only [bind, Except.bind]
    rw [scale_eq, if_neg]
    rw [hlen]
    simp
    omega
  · unfold Tree.distance
    rw [bcast_same _ a b hab]
    simp only [bind, Except.bind]
    rw [scale_eq, bcast_error _ _ _ (by rw [hlen]; simp; omega) (by simpa using h1)
      (by rw [hlen]; omega)]
  · unfold Tree.riskTerm
    rw [bcast_same _ a b hab]
    simp only [bind, Except.bind]
    rw [scale_eq, bcast_error _ _ _ (by rw [List.length_map, hlen]; simp; omega)
      (by simpa using h1) (by rw [List.length_map, hlen]; omega)]
  · unfold Tree.distance
    rw [bcast_same _ a b hab]
    simp only [bind, Except.bind]
    rw [scale_eq, h1]
    simp only [List.replicate_one, bcast_one, one_mul, List.map_id', List.map_zipWith]

/-- The cost of an experiment is lost by wrapping: every experiment costs the same, so the choice of
experiment no longer depends on the price of time: two experiments compare as their risks do,
whatever the weight of the cost. A stand-alone model keeps its cost, and an experiment is preferred
to a dearer one unless it adds more risk than the difference in cost is worth. -/
theorem C116_cost [IsStrictOrderedRing K] (w : Wrap K E) (u : Tree K E) (b : Alone K E) :
    (∀ e, (Tree.wrap w u).cost e = 1) ∧
    (∀ (risk : E → K) (k : K) (e e' : E),
      (Tree.wrap w u).objective risk k e ≤ (Tree.wrap w u).objective risk k e' ↔
        risk e ≤ risk e') ∧
    (∀ e, (Tree.alone b).cost e = b.cost e) ∧
    (∀ (risk : E → K) (k : K) (e e' : E),
      (Tree.alone b).objective risk k e ≤ (Tree.alone b).objective risk k e' ↔
        risk e - risk e' ≤ k * (b.cost e' - b.cost e)) := by
  refine ⟨fun _ => rfl, fun risk k e e' => ?_, fun _ => rfl, fun risk k e e' => ?_⟩
  · simp [Tree.objective, Tree.cost]
  · simp only [Tree.objective, Tree.cost]
    constructor <;> intro h <;> linarith

/-- Time steps pass through wrappers that are not walks; a walk adds its own step to its own
parameters, and the time step of the wrapped model is dropped, so of nested walks only the outermost
is taken. -/
theorem C116_time_step (u : Tree K E) (conv : E → E) (draw : List K) (e : E) (row : List K)
    (idxs : List Nat) (extra : List String) (steps : List K) (h : row.length = draw.length)
    (hs : idxs.length = steps.length) (hnd : idxs.Nodup) (hlt : ∀ i ∈ idxs, i < row.length) :
    (Tree.wrap (.plain conv) u).step e row = u.step (conv e) row ∧
    (Tree.wrap (.walk draw) u).step e row = .ok (List.zipWith (fun x y => x + y) row draw) ∧
    ∃ r, (Tree.wrap (.gwalk idxs extra steps) u).step e row = .ok r ∧ r.length = row.length ∧
      (∀ j, j ∉ idxs → r.getD j 0 = row.getD j 0) ∧
      (∀ k < idxs.length,
        r.getD (idxs.getD k 0) 0 = row.getD (idxs.getD k 0) 0 + steps.getD k 0) :=
  ⟨rfl, by simp only [Tree.step]; exact bcast_same _ _ _ h, by
    simp only [Tree.step]; exact addAt_spec idxs steps row hs hnd hlt⟩

/-- Hyperparameters around a random walk: with one walking parameter every parameter, the means and
variances of the readout included, is moved by the same step; with more than one the time step
raises. -/
theorem C116_hyper_walk (u : Tree K E) (draw : List K) (e : E) (row : List K)
    (hb : (Spec.root u).names.length = (Spec.root u).nParams)
    (hd : draw.length = u.nParams)
    (hr : row.length = (Tree.wrap .hyper (.wrap (.walk draw) u)).nParams) :
    (∀ d, draw = [d] → (Tree.wrap .hyper (.wrap (.walk draw) u)).step e row
        = .ok (row.map (fun x => x + d))) ∧
    (u.nParams ≠ 1 →
      (Tree.wrap .hyper (.wrap (.walk draw) u)).step e row = .error .valueError) := by
  have hn := (C116_names (Tree.wrap .hyper (.wrap (.walk draw) u)) hb).2.1
  have hu := (C116_names u hb).2.1
  simp only [Spec.total, Spec.added, Spec.root] at hn
  refine ⟨fun d hdd => ?_, fun h1 => ?_⟩
  · subst hdd
    simp only [Tree.step]
    exact bcast_one_right _ _ _
  · simp only [Tree.step]
    exact bcast_error _ _ _ (by omega) (by omega) (by omega)

/-- Canonical parameters: the whole row reaches the stand-alone model, so one that accepts only
rows of its own width (as the tomography models do) serves a wrapped model exactly when no
wrapper adds parameters. -/
theorem C116_canonicalize (t : Tree K E)
    (hb : (Spec.root t).names.length = (Spec.root t).nParams)
    (hc : ∀ row : List K, row.length ≠ (Spec.root t).nParams →
      (Spec.root t).canon row = .error .valueError)
    (row : List K) (hr : row.length = t.nParams) :
    (Spec.total t = 0 → t.canon row = (Spec.root t).canon row ∧
      row.length = (Spec.root t).nParams) ∧
    (0 < Spec.total t → t.canon row = .error .valueError) := by
  have hn := (C116_names t hb).2.1
  have h : t.canon row = (Spec.root t).canon row := by
    clear hb hc hr hn
    induction t with
    | alone b => rfl
    | wrap w u ih => simpa [Tree.canon, Spec.root] using ih
  exact ⟨fun h0 => ⟨h, by omega⟩, fun h0 => by rw [h]; exact hc row (by omega)⟩

/-! ## Examples -/

/-- A two-parameter model whose experiments cost their duration. -/
def twoParams : Alone ℚ ℚ := ⟨2, ["a", "b"], .ok, fun _ => .ok, fun e => e⟩

/-- A one-parameter model. -/
def oneParam : Alone ℚ ℚ := ⟨1, ["a"], .ok, fun _ => .ok, fun e => e⟩

example : (Tree.wrap .hyper (.wrap (.plain id) (.alone twoParams))).nParams = 6 ∧
    (Tree.wrap .hyper (.wrap (.plain id) (.alone twoParams))).scale = [1, 1] ∧
    (Tree.wrap .hyper (.wrap (.plain id) (.alone twoParams))).distance
      [1, 2, 3, 4, 5, 6] [0, 0, 0, 0, 0, 0] = .error .valueError := by decide +kernel

example : (Tree.wrap (.plain id) (.alone twoParams)).distance [1, 2] [0, 4] = .ok 3 ∧
    (Tree.wrap (.plain id) (.alone twoParams)).loss [1, 2] [0, 4] = .ok 5 := by decide +kernel

example : (Tree.wrap (.gwalk [0] ["sigma_a"] [1 / 2]) (.alone twoParams)).nParams = 3 ∧
    (Tree.wrap (.gwalk [0] ["sigma_a"] [1 / 2]) (.alone twoParams)).step 0 [1, 2, 3]
      = .ok [3 / 2, 2, 3] ∧
    (Tree.wrap (.gwalk [0] ["sigma_a"] [1 / 2]) (.alone twoParams)).loss [1, 2, 3] [0, 0, 0]
      = .error .valueError := by decide +kernel

/-- All five parameters move although only the first one walks. -/
example : (Tree.wrap .hyper (.wrap (.walk [1 / 2]) (.alone oneParam))).step 0 [1, 0, 1, 2, 2]
    = .ok [3 / 2, 1 / 2, 3 / 2, 5 / 2, 5 / 2] := by decide +kernel

/-- The dearer experiment is no dearer once the model is wrapped. -/
example : (Tree.alone twoParams).cost 10 = 10 ∧
    (Tree.wrap (.plain id) (.alone twoParams)).cost 10 = 1 ∧
    (Tree.wrap (.plain id) (.alone twoParams)).cost 1 = 1 := by decide +kernel

/-- The first of two walks is dropped. -/
example : (Tree.wrap (.walk [1 / 2, 0]) (.wrap (.walk [5, 7]) (.alone twoParams))).step 0 [1, 2]
    = .ok [3 / 2, 2] := by decide +kernel

end Fwd
end QInfer
