import Verif.Lemmas.Version

/-!
# C127: QuTiP is detected by its version

Release numbers are specified as lists of natural numbers written in decimal and joined by dots, their
order is the lexicographic one.
-/

namespace QInfer

open Spec

/-- Between release numbers the module is returned exactly if its number is not lexicographically
smaller than the required one: component by component as numbers, so `4.10` is later than `4.9`. -/
theorem C127_releases (a b : List ℕ) (ha : a ≠ []) (hb : b ≠ []) :
    getQutipModule true (.module (release a)) (release b)
      = .ok (if a < b then none else some (release a)) := by
  simp only [getQutipModule, looseVersion_release' a ha, looseVersion_release' b hb, bind,
    Except.bind, versionLt_nums, if_true]
  by_cases h : a < b <;> simp [h, pure, Except.pure]

example : getQutipModule true (.module "4.10".toList) "4.9".toList = .ok (some "4.10".toList)
    ∧ getQutipModule true (.module "3.1.9".toList) "3.2".toList = .ok none
    ∧ release [4, 10] = "4.10".toList ∧ ¬ ([4, 10] < [4, 9]) ∧ [3, 1, 9] < [3, 2] := by
  decide +kernel

/-- `None` for a required version that was met by nothing that is imported: QuTiP missing, or
`distutils` missing although QuTiP is there, whatever its version.  Any other exception of the import
of QuTiP is passed on. -/
theorem C127_imports (d : Bool) (v r : List Char) (e : PyErr) :
    getQutipModule d .missing r = .ok none
      ∧ getQutipModule false (.module v) r = .ok none
      ∧ getQutipModule d (.raises e) r = .error e := ⟨rfl, rfl, rfl⟩

/-- `check_qutip_version` always returns, and returns `True` exactly if `get_qutip_module` returns the
module. -/
theorem C127_check (d : Bool) (q : QutipImport) (r : List Char) :
    ∃ b, checkQutipVersion d q r = .ok b
      ∧ (b = true ↔ ∃ v, q = .module v ∧ getQutipModule d q r = .ok (some v)) := by
  unfold checkQutipVersion
  rcases h : getQutipModule d q r with e | m
  · exact ⟨false, rfl, by simp⟩
  · refine ⟨m.isSome, rfl, ?_⟩
    rcases q with _ | e | v
    · simp [getQutipModule] at h; simp [← h]
    · simp [getQutipModule] at h
    · cases m with
      | none => simp
      | some w =>
        suffices w = v by simp [this]
        cases d with
        | false => simp [getQutipModule] at h
        | true =>
          simp only [getQutipModule, bind, Except.bind, if_true] at h
          rcases hv : looseVersion v with e | x <;> rw [hv] at h <;> simp only [] at h
          · cases h
          rcases hr : looseVersion r with e | y <;> rw [hr] at h <;> simp only [] at h
          · cases h
          rcases hl : versionLt x y with e | b <;> rw [hl] at h <;> simp only [] at h
          · cases h
          cases b <;> simp [pure, Except.pure] at h
          exact h.symm

example : checkQutipVersion true (.module "4.0.dev".toList) "4.0.2".toList = .ok false
    ∧ checkQutipVersion true (.module "4.0.2".toList) "3.2".toList = .ok true := by decide +kernel

/-- The general rule.  Cut both versions into numbers, words of small letters and other characters
(dots only separate).  The first parts that differ decide: two numbers by size, two texts alphabetically,
and a number against a text is a `TypeError`. -/
theorem C127_first_difference (p p' s t : List (Bool × Tok)) (x y : Bool × Tok)
    (hp : p.map (·.2) = p'.map (·.2)) (hv : WellFormed (p ++ x :: s)) (hr : WellFormed (p' ++ y :: t))
    (hxy : x.2 ≠ y.2) :
    getQutipModule true (.module (versionText (p ++ x :: s))) (versionText (p' ++ y :: t)) =
      match x.2, y.2 with
      | .num m, .num n => .ok (if m < n then none else some (versionText (p ++ x :: s)))
      | .num _, _ => .error .typeError
      | _, .num _ => .error .typeError
      | a, b => .ok (if a.text < b.text then none else some (versionText (p ++ x :: s))) := by
  have hp' : (p.map fun x => tokComp x.2) = p'.map fun x => tokComp x.2 := by
    have := congrArg (List.map tokComp) hp
    simpa [Function.comp_def] using this
  have hne : tokComp x.2 ≠ tokComp y.2 :=
    tokComp_ne (hv.1 x (by simp)) (hr.1 y (by simp)) hxy
  simp only [getQutipModule, looseVersion_text _ hv (by simp), looseVersion_text _ hr (by simp), bind,
    Except.bind, if_true, List.map_append, hp', versionLt_common, List.map_cons, versionLt, hne, if_false]
  obtain ⟨d, x⟩ := x
  obtain ⟨e, y⟩ := y
  have ret : ∀ (b : Prop) [Decidable b] (v : List Char),
      (if decide b = true then pure none else pure (some v) : Except PyErr (Option (List Char)))
        = .ok (if b then none else some v) := by
    intro b _ v
    by_cases hb : b <;> simp [hb, pure, Except.pure]
  cases x <;> cases y <;> first | rfl | exact ret _ _

/-- If one version begins with all parts of the other, the longer one is the later one. -/
theorem C127_extension (p p' s : List (Bool × Tok)) (x : Bool × Tok) (hne : p ≠ [])
    (hp : p.map (·.2) = p'.map (·.2)) (hv : WellFormed p) (hr : WellFormed (p' ++ x :: s)) :
    getQutipModule true (.module (versionText p)) (versionText (p' ++ x :: s)) = .ok none
      ∧ getQutipModule true (.module (versionText (p' ++ x :: s))) (versionText p)
        = .ok (some (versionText (p' ++ x :: s))) := by
  have hp' : (p.map fun x => tokComp x.2) = p'.map fun x => tokComp x.2 := by
    have := congrArg (List.map tokComp) hp
    simpa [Function.comp_def] using this
  have h1 := versionLt_common (p'.map fun x => tokComp x.2) [] ((x :: s).map fun x => tokComp x.2)
  have h2 := versionLt_common (p'.map fun x => tokComp x.2) ((x :: s).map fun x => tokComp x.2) []
  rw [List.append_nil] at h1 h2
  simp only [getQutipModule, looseVersion_text _ hv hne, looseVersion_text _ hr (by simp), bind,
    Except.bind, if_true, List.map_append, hp', h1, h2]
  simp [versionLt, pure, Except.pure]

/-- `4.0.dev0+a1` against `4.0.dev0` and `4.0.dev2`. -/
example :
    let p : List (Bool × Tok) := [(false, .num 4), (true, .num 0), (true, .word ['d', 'e', 'v'])]
    let v := p ++ (false, .num 0) :: [(false, .mark ['+']), (false, .word ['a']), (false, .num 1)]
    WellFormed v ∧ versionText v = "4.0.dev0+a1".toList
      ∧ getQutipModule true (.module "4.0.dev0+a1".toList) "4.0.dev0".toList
          = .ok (some "4.0.dev0+a1".toList)
      ∧ getQutipModule true (.module "4.0.dev0+a1".toList) "4.0.dev2".toList = .ok none
      ∧ getQutipModule true (.module "4.0.dev+".toList) "4.0.dev2".toList = .error .typeError := by
  refine ⟨⟨?_, ?_⟩, by decide +kernel, by decide +kernel, by decide +kernel, by decide +kernel⟩
  · simp [Tok.Ok, Char.isLower, Char.isDigit]
  · simp [Separated, Tok.sameKind]

/-- Every version that is not the empty string is good enough for itself, and what is good enough for
`r` is good enough for everything that `r` is good enough for: lowering the requirement never loses the
module and never raises. -/
theorem C127_order (v r q : List Char) (hv : v ≠ []) :
    getQutipModule true (.module v) v = .ok (some v)
      ∧ (getQutipModule true (.module v) r = .ok (some v) →
          getQutipModule true (.module r) q = .ok (some r) →
          getQutipModule true (.module v) q = .ok (some v)) := by
  constructor
  · rw [getQutip_iff]
    exact ⟨_, _, if_neg hv, if_neg hv, versionLt_self _⟩
  · rw [getQutip_iff, getQutip_iff, getQutip_iff]
    rintro ⟨x, y, hx, hy, h1⟩ ⟨y', z, hy', hz, h2⟩
    obtain rfl : y = y' := Except.ok.inj (hy.symm.trans hy')
    exact ⟨x, z, hx, hz, versionLt_trans h1 h2⟩

example : getQutipModule true (.module "4.1.dev".toList) "4.1".toList = .ok (some "4.1.dev".toList)
    ∧ getQutipModule true (.module "4.1".toList) "3.2rc1".toList = .ok (some "4.1".toList) := by
  decide +kernel

/-- Against the documentation ("at least `required_version`"): a version that begins with the required
release is accepted whatever follows, as long as it is not a further digit: pre-releases count as the
release itself or later. -/
theorem C127_prerelease (a : List ℕ) (ha : a ≠ []) (t : List Char)
    (ht : ∀ c t', t = c :: t' → c.isDigit = false) :
    getQutipModule true (.module (release a ++ t)) (release a) = .ok (some (release a ++ t)) := by
  rw [getQutip_iff]
  refine ⟨_, _, looseVersion_release a ha t ?_, looseVersion_release' a ha, ?_⟩
  · intro c t' h
    have := ht c t' h
    unfold vcls
    rw [if_neg (by simp [this])]
    split_ifs <;> decide
  · have := versionLt_common (a.map VComp.num) ((pieces t).filterMap toComp) []
    rw [List.append_nil] at this
    rw [this]; unfold versionLt; rfl

example : getQutipModule true (.module "3.2rc1".toList) "3.2".toList = .ok (some "3.2rc1".toList) := by
  decide +kernel

/-- Against the documentation ("silently returns `None`"): if a number is required where the installed
version has letters, as in `4.0.dev` or `4.0rc1` for `4.0.2`, `get_qutip_module` raises `TypeError`;
`check_qutip_version` returns `False`. -/
theorem C127_mixed_raises (a : List ℕ) (ha : a ≠ []) (k : ℕ) (l : List ℕ) (dot : Bool) (c : Char)
    (t : List Char) (hc : c.isDigit = false) (hdot : c ≠ '.') :
    getQutipModule true (.module (release a ++ (if dot then ['.'] else []) ++ c :: t))
        (release (a ++ k :: l)) = .error .typeError
      ∧ checkQutipVersion true (.module (release a ++ (if dot then ['.'] else []) ++ c :: t))
        (release (a ++ k :: l)) = .ok false := by
  have hk : vcls c = .lower ∨ vcls c = .other := by
    unfold vcls
    rw [if_neg (by simp [hc])]
    split_ifs <;> simp
  have hnd : vcls c ≠ .digit := by rcases hk with h | h <;> rw [h] <;> decide
  have hndot : vcls c ≠ .dot := by rcases hk with h | h <;> rw [h] <;> decide
  obtain ⟨r, rs, hp⟩ := pieces_cons c t
  have hcomp : toComp (vcls c, c :: r) = some (.str (c :: r)) := by
    rcases hk with h | h <;> rw [h] <;> rfl
  have hpre : (pieces ((if dot then ['.'] else []) ++ c :: t)).filterMap toComp
      = .str (c :: r) :: rs.filterMap toComp := by
    have h0 : (pieces (c :: t)).filterMap toComp = .str (c :: r) :: rs.filterMap toComp := by
      rw [hp, List.filterMap_cons_some hcomp]
    cases dot with
    | false => simpa using h0
    | true =>
      have : pieces (['.'] ++ c :: t) = (.dot, ['.']) :: pieces (c :: t) := by
        refine pieces_run .dot ['.'] (by simp) (by decide) _ ?_
        intro d u hu
        rw [← (List.cons.inj hu).1]; exact hndot
      simp only [if_true]
      rw [this, List.filterMap_cons_none rfl, h0]
  have hv : looseVersion (release a ++ (if dot then ['.'] else []) ++ c :: t)
      = .ok (a.map VComp.num ++ (.str (c :: r) :: rs.filterMap toComp)) := by
    rw [List.append_assoc, looseVersion_release a ha _ ?_, hpre]
    intro d u hu
    cases dot with
    | false =>
      have : c = d := (List.cons.inj (by simpa using hu)).1
      rw [← this]; exact hnd
    | true =>
      have : '.' = d := (List.cons.inj hu).1
      rw [← this]; decide
  have hr : looseVersion (release (a ++ k :: l))
      = .ok (a.map VComp.num ++ (.num k :: l.map VComp.num)) := by
    rw [looseVersion_release' _ (by simp)]; simp
  have hget : getQutipModule true (.module (release a ++ (if dot then ['.'] else []) ++ c :: t))
      (release (a ++ k :: l)) = .error .typeError := by
    simp only [getQutipModule, hv, hr, bind, Except.bind, versionLt_common, if_true]
    simp [versionLt, VComp.lt]
  exact ⟨hget, by unfold checkQutipVersion; rw [hget]⟩

example : getQutipModule true (.module "4.0.dev-1f3a".toList) "4.0.2".toList = .error .typeError
    ∧ release [4, 0] ++ ['.'] ++ 'd' :: "ev-1f3a".toList = "4.0.dev-1f3a".toList := by decide +kernel

/-- Against the usual meaning: zeros at the end count, so `4.0` is not good enough for `4.0.0`. -/
theorem C127_trailing_zeros (a : List ℕ) (ha : a ≠ []) (n : ℕ) :
    getQutipModule true (.module (release a)) (release (a ++ List.replicate (n + 1) 0)) = .ok none := by
  rw [C127_releases _ _ ha (by simp [ha]), if_pos]
  clear ha
  induction a with
  | nil => simp [List.replicate_succ]
  | cons x a ih => simpa using ih

example : getQutipModule true (.module "4.0".toList) "4.0.0".toList = .ok none := by decide +kernel

/-- The empty string is no version, neither installed nor required. -/
theorem C127_empty (v : List Char) :
    getQutipModule true (.module v) [] = .error .attributeError
      ∧ getQutipModule true (.module []) v = .error .attributeError := by
  constructor
  · simp only [getQutipModule, bind, Except.bind, if_true]
    rcases h : looseVersion v with e | x
    · unfold looseVersion at h
      split_ifs at h
      simp only [Except.error.injEq] at h
      simp [h]
    · simp [looseVersion]
  · simp [getQutipModule, looseVersion, bind, Except.bind]

example : checkQutipVersion true (.module "4.0".toList) [] = .ok false := by decide +kernel

end QInfer
