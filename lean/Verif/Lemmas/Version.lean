import Verif.Model.Version
import Verif.Spec.Version
import Mathlib.Data.List.Basic
import Mathlib.Order.Basic

/-!
# Lemmas on the comparison of versions (C127)
-/

namespace QInfer

open Spec

theorem pieces_cons (c : Char) (s : List Char) :
    ∃ r rs, pieces (c :: s) = (vcls c, c :: r) :: rs := by
  show ∃ r rs, addChar c (pieces s) = _
  rcases pieces s with _ | ⟨⟨k, r⟩, rs⟩
  · exact ⟨[], [], rfl⟩
  · unfold addChar
    by_cases h : vcls c = k
    · exact ⟨r, rs, by simp [h]⟩
    · exact ⟨[], (k, r) :: rs, by simp [h]⟩

/-- A run of one kind in front of something that does not begin with that kind. -/
theorem pieces_run (k : VCls) (run : List Char) (hne : run ≠ []) (hall : ∀ c ∈ run, vcls c = k)
    (t : List Char) (ht : ∀ c t', t = c :: t' → vcls c ≠ k) :
    pieces (run ++ t) = (k, run) :: pieces t := by
  induction run with
  | nil => exact absurd rfl hne
  | cons c run ih =>
    show addChar c (pieces (run ++ t)) = _
    have hc : vcls c = k := hall c (by simp)
    by_cases hr : run = []
    · subst hr
      rcases t with _ | ⟨d, t⟩
      · simp [pieces, addChar, hc]
      · obtain ⟨r, rs, h⟩ := pieces_cons d t
        have hd := ht d t rfl
        simp only [List.nil_append, h]
        simp [addChar, hc, Ne.symm hd]
    · rw [ih hr (fun x hx => hall x (by simp [hx]))]
      simp [addChar, hc]

theorem vcls_digits (n : ℕ) : ∀ c ∈ Nat.toDigits 10 n, vcls c = .digit := by
  intro c hc
  have := Nat.isDigit_of_mem_toDigits (by decide) (by decide) hc
  simp [vcls, this]

theorem release_ne_nil (a : List ℕ) (ha : a ≠ []) : release a ≠ [] := by
  match a, ha with
  | [n], _ => exact Nat.toDigits_ne_nil
  | n :: m :: l, _ => simp [release]

theorem release_head (a : List ℕ) (ha : a ≠ []) : ∃ c t, release a = c :: t ∧ vcls c = .digit := by
  match a, ha with
  | [n], _ =>
    rcases h : Nat.toDigits 10 n with _ | ⟨c, t⟩
    · exact absurd h Nat.toDigits_ne_nil
    · exact ⟨c, t, h, vcls_digits n c (by simp [h])⟩
  | n :: m :: l, _ =>
    rcases h : Nat.toDigits 10 n with _ | ⟨c, t⟩
    · exact absurd h Nat.toDigits_ne_nil
    · exact ⟨c, _, by simp only [release, h]; rfl, vcls_digits n c (by simp [h])⟩

/-- The components of a release number followed by something that does not begin with a digit. -/
theorem components_release (a : List ℕ) (ha : a ≠ []) (t : List Char)
    (ht : ∀ c t', t = c :: t' → vcls c ≠ .digit) :
    (pieces (release a ++ t)).filterMap toComp
      = a.map VComp.num ++ (pieces t).filterMap toComp := by
  induction a with
  | nil => exact absurd rfl ha
  | cons n a ih =>
    rcases a with _ | ⟨m, l⟩
    · simp only [release]
      rw [pieces_run .digit _ Nat.toDigits_ne_nil (vcls_digits n) t ht]
      simp [toComp]
    · have ih := ih (by simp)
      simp only [release, List.append_assoc, List.cons_append]
      rw [pieces_run .digit _ Nat.toDigits_ne_nil (vcls_digits n) _ ?_]
      · obtain ⟨c, t', hc, hd⟩ := release_head (m :: l) (by simp)
        have : pieces ('.' :: (release (m :: l) ++ t)) = (.dot, ['.']) :: pieces (release (m :: l) ++ t) := by
          refine pieces_run .dot ['.'] (by simp) (by decide) _ ?_
          intro d u hu
          rw [hc] at hu
          have hu : c = d := (List.cons.inj hu).1
          rw [← hu, hd]; decide
        rw [this]
        rw [List.filterMap_cons_some (b := VComp.num n) (by simp [toComp]),
          List.filterMap_cons_none rfl, ih]
        rfl
      · intro d u hu
        simp only [List.cons.injEq] at hu
        rw [← hu.1]; decide

theorem looseVersion_release (a : List ℕ) (ha : a ≠ []) (t : List Char)
    (ht : ∀ c t', t = c :: t' → vcls c ≠ .digit) :
    looseVersion (release a ++ t) = .ok (a.map VComp.num ++ (pieces t).filterMap toComp) := by
  unfold looseVersion
  rw [if_neg (by simp [release_ne_nil a ha]), components_release a ha t ht]

theorem looseVersion_release' (a : List ℕ) (ha : a ≠ []) :
    looseVersion (release a) = .ok (a.map VComp.num) := by
  have := looseVersion_release a ha [] (by simp)
  simpa [pieces] using this

theorem versionLt_nums (a b : List ℕ) :
    versionLt (a.map VComp.num) (b.map VComp.num) = .ok (decide (a < b)) := by
  induction a generalizing b with
  | nil => rcases b with _ | ⟨y, b⟩ <;> simp [versionLt]
  | cons x a ih =>
    rcases b with _ | ⟨y, b⟩
    · simp [versionLt]
    · simp only [List.map_cons, versionLt, VComp.num.injEq]
      by_cases h : x = y
      · subst h; simp [ih]
      · simp [h, VComp.lt, List.cons_lt_cons_iff]

theorem versionLt_common (p x y : List VComp) : versionLt (p ++ x) (p ++ y) = versionLt x y := by
  induction p with
  | nil => rfl
  | cons c p ih => simp [versionLt, ih]

theorem versionLt_self (x : List VComp) : versionLt x x = .ok false := by
  have := versionLt_common x [] []
  simpa [versionLt] using this

theorem vcomp_trans {x y z : VComp} (hxy : x ≠ y) (h1 : x.lt y = .ok false) (hyz : y ≠ z)
    (h2 : y.lt z = .ok false) : x ≠ z ∧ x.lt z = .ok false := by
  cases x <;> cases y <;> cases z <;> simp_all [VComp.lt]
  · omega
  · rename_i r s t
    exact ⟨fun h => hxy (List.le_antisymm (h ▸ h2) h1), List.le_trans h2 h1⟩

theorem versionLt_trans {x y z : List VComp} (h1 : versionLt x y = .ok false)
    (h2 : versionLt y z = .ok false) : versionLt x z = .ok false := by
  induction x generalizing y z with
  | nil =>
    rcases y with _ | ⟨b, y⟩
    · exact h2
    · simp [versionLt] at h1
  | cons a x ih =>
    rcases z with _ | ⟨c, z⟩
    · simp [versionLt]
    rcases y with _ | ⟨b, y⟩
    · simp [versionLt] at h2
    simp only [versionLt] at h1 h2 ⊢
    by_cases hab : a = b
    · subst hab
      rw [if_pos rfl] at h1
      by_cases hac : a = c
      · subst hac; rw [if_pos rfl] at h2 ⊢; exact ih h1 h2
      · rw [if_neg hac] at h2 ⊢; exact h2
    · rw [if_neg hab] at h1
      by_cases hbc : b = c
      · subst hbc; rw [if_neg hab]; exact h1
      · rw [if_neg hbc] at h2
        obtain ⟨hne, h⟩ := vcomp_trans hab h1 hbc h2
        rw [if_neg hne]; exact h

theorem getQutip_iff (v r : List Char) :
    getQutipModule true (.module v) r = .ok (some v) ↔
      ∃ x y, looseVersion v = .ok x ∧ looseVersion r = .ok y ∧ versionLt x y = .ok false := by
  simp only [getQutipModule, bind, Except.bind, if_true]
  rcases hv : looseVersion v with e | x
  · simp
  rcases hr : looseVersion r with e | y
  · simp
  rcases hl : versionLt x y with e | b
  · simp [hl]
  · cases b <;> simp [hl, pure, Except.pure]

/-- The kind of the characters of a part. -/
def tokCls : Tok → VCls
  | .num _ => .digit
  | .word _ => .lower
  | .mark _ => .other

/-- The component that a part becomes. -/
def tokComp : Tok → VComp
  | .num n => .num n
  | .word w => .str w
  | .mark u => .str u

theorem not_isDigit_of_isLower {c : Char} (h : c.isLower = true) : c.isDigit = false := by
  by_contra h'
  have h' : c.isDigit = true := by simpa using h'
  simp only [Char.isLower, Char.isDigit, Bool.and_eq_true, decide_eq_true_eq, UInt32.le_iff_toNat_le] at h h'
  have e1 : (48 : UInt32).toNat = 48 := rfl
  have e2 : (57 : UInt32).toNat = 57 := rfl
  have e3 : 'a'.val.toNat = 97 := rfl
  have := h.1
  have := h'.2
  simp_all
  omega

theorem tok_all (t : Tok) (ht : t.Ok) : ∀ c ∈ t.text, vcls c = tokCls t := by
  intro c hc
  cases t with
  | num n => exact vcls_digits n c hc
  | word w => simp [vcls, tokCls, ht.2 c hc, not_isDigit_of_isLower (ht.2 c hc)]
  | mark u =>
    obtain ⟨h1, h2, h3⟩ := ht.2 c hc
    simp [vcls, tokCls, h1, h2, h3]

theorem tok_ne_nil (t : Tok) (ht : t.Ok) : t.text ≠ [] := by
  cases t with
  | num n => exact Nat.toDigits_ne_nil
  | word w => exact ht.1
  | mark u => exact ht.1

theorem tok_comp (t : Tok) : toComp (tokCls t, t.text) = some (tokComp t) := by
  cases t <;> simp [tokCls, tokComp, toComp, Tok.text]

theorem tokCls_same {s t : Tok} (h : ¬ s.sameKind t) : tokCls t ≠ tokCls s := by
  cases s <;> cases t <;> simp_all [Tok.sameKind, tokCls]

theorem components_text (l : List (Bool × Tok)) (h : WellFormed l) :
    (pieces (versionText l)).filterMap toComp = l.map fun x => tokComp x.2 := by
  induction l with
  | nil => simp [versionText, pieces]
  | cons x l ih =>
    obtain ⟨d, t⟩ := x
    have ht : t.Ok := h.1 (d, t) (by simp)
    have hl : WellFormed l := by
      refine ⟨fun y hy => h.1 y (by simp [hy]), ?_⟩
      rcases l with _ | ⟨b, l⟩
      · exact trivial
      · exact h.2.2
    have hrun : pieces (t.text ++ versionText l) = (tokCls t, t.text) :: pieces (versionText l) := by
      refine pieces_run _ _ (tok_ne_nil t ht) (tok_all t ht) _ ?_
      intro c u hu
      rcases l with _ | ⟨⟨e, s⟩, l⟩
      · simp [versionText] at hu
      have hs : s.Ok := h.1 (e, s) (by simp)
      cases e with
      | true =>
        have : '.' = c := by
          simp only [versionText, List.flatMap_cons, if_true] at hu
          exact (List.cons.inj hu).1
        subst this
        cases t <;> simp [vcls, tokCls] <;> decide
      | false =>
        have hk : ¬ t.sameKind s := by
          rcases h.2.1 with h | h
          · simp at h
          · exact h
        rcases hs' : s.text with _ | ⟨c', r⟩
        · exact absurd hs' (tok_ne_nil s hs)
        · have : c' = c := by
            simp only [versionText, List.flatMap_cons, hs'] at hu
            exact (List.cons.inj hu).1
          subst this
          rw [tok_all s hs c' (by simp [hs'])]
          exact tokCls_same hk
    have h0 : (pieces (t.text ++ versionText l)).filterMap toComp
        = tokComp t :: l.map fun x => tokComp x.2 := by
      rw [hrun, List.filterMap_cons_some (tok_comp t), ih hl]
    cases d with
    | false => simpa [versionText] using h0
    | true =>
      have e : versionText ((true, t) :: l) = ['.'] ++ (t.text ++ versionText l) := by
        simp [versionText]
      rw [e, pieces_run .dot ['.'] (by simp) (by decide) _ ?_, List.filterMap_cons_none rfl, h0]
      · rfl
      · intro c u hu
        rcases ht' : t.text with _ | ⟨c', r⟩
        · exact absurd ht' (tok_ne_nil t ht)
        · rw [ht'] at hu
          have : c' = c := (List.cons.inj hu).1
          subst this
          rw [tok_all t ht c' (by simp [ht'])]
          cases t <;> simp [tokCls]

theorem looseVersion_text (l : List (Bool × Tok)) (h : WellFormed l) (hne : l ≠ []) :
    looseVersion (versionText l) = .ok (l.map fun x => tokComp x.2) := by
  unfold looseVersion
  rw [if_neg, components_text l h]
  rcases l with _ | ⟨x, l⟩
  · exact absurd rfl hne
  · have := tok_ne_nil x.2 (h.1 x (by simp))
    simp [versionText, this]

theorem tokComp_ne {s t : Tok} (hs : s.Ok) (ht : t.Ok) (h : s ≠ t) : tokComp s ≠ tokComp t := by
  intro hc
  have mixed : ∀ w u : List Char, (Tok.word w).Ok → (Tok.mark u).Ok → w ≠ u := by
    intro w u hw hu e
    subst e
    rcases w with _ | ⟨c, w⟩
    · exact hw.1 rfl
    · have h1 := hw.2 c (by simp)
      have h2 := (hu.2 c (by simp)).2.1
      rw [h1] at h2
      cases h2
  cases s <;> cases t <;> simp [tokComp] at hc <;> first
    | exact mixed _ _ hs ht hc
    | exact mixed _ _ ht hs hc.symm
    | exact h (by rw [hc])

end QInfer
