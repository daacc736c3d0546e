import Verif.Model.Config
import Mathlib.Data.List.Induction

/-!
# C144: preferences are kept
-/

namespace QInfer

open Function

/-- A disk as an operating system keeps it: the root is a directory, and whatever exists lies in one. -/
structure Spec.Sound (d : Disk) : Prop where
  root : d [] = some .dir
  parent : ∀ p, p ≠ [] → d p ≠ none → d p.dropLast = some .dir

/-- No part of the path to the preferences is a file, and the preferences are not a directory. -/
def Spec.Free (d : Disk) (p : List String) : Prop :=
  (∀ q, q <+: p.dropLast → ∀ text, d q ≠ some (.file text)) ∧ d p ≠ some .dir

open Spec

variable {P : Type} {m : Machine} {d : Disk} {p : List String}

theorem prefPath_ne_nil (h : prefPath m = some p) : p ≠ [] := by
  unfold prefPath at h
  split at h
  · cases h; simp
  · split at h
    · cases h; simp
    · cases h

theorem Spec.Sound.above (hd : Sound d) {p q : List String} (h : q <+: p) (hp : d p ≠ none) (hq : q ≠ p) :
    d q = some .dir := by
  obtain ⟨r, rfl⟩ := h
  induction r using List.reverseRec with
  | nil => simp at hq
  | append_singleton r x ih =>
    have h1 := hd.parent (q ++ (r ++ [x])) (by simp) hp
    rw [← List.append_assoc, List.dropLast_concat] at h1
    by_cases hr : r = []
    · subst hr; simpa using h1
    · exact ih (by rw [h1]; simp) (by simpa using hr)

/-- What `ensuredir` does. -/
theorem ensuredir_ok (hd : Sound d) (hp : p ≠ []) (hf : Free d p) :
    ∃ d', ensuredir d p = .ok d' ∧ Sound d' ∧ d' p.dropLast = some .dir ∧ d' p = d p ∧
      (∀ q, q <+: p.dropLast → d' q = some .dir) ∧ (∀ q, ¬ q <+: p.dropLast → d' q = d q) := by
  have hnot : ¬ p <+: p.dropLast := fun h => by
    have := h.length_le
    have := List.length_pos_iff.2 hp
    rw [List.length_dropLast] at *
    omega
  unfold ensuredir
  cases hx : d p.dropLast with
  | some x =>
    have hdir : d p.dropLast = some .dir := by
      cases x with
      | dir => exact hx
      | file t => exact absurd hx (hf.1 _ (List.prefix_refl _) t)
    refine ⟨d, rfl, hd, hdir, rfl, fun q hq => ?_, fun _ _ => rfl⟩
    by_cases he : q = p.dropLast
    · rw [he]; exact hdir
    · exact hd.above hq (by rw [hdir]; simp) he
  | none =>
    have hno : ¬ ((List.range (p.dropLast.length + 1)).any fun k =>
        (d (p.dropLast.take k)).any Node.isFile) = true := by
      rw [List.any_eq_true]
      rintro ⟨k, -, hk⟩
      cases hn : d (p.dropLast.take k) with
      | none => rw [hn] at hk; cases hk
      | some n =>
        cases n with
        | dir => rw [hn] at hk; cases hk
        | file t => exact hf.1 _ (List.take_prefix _ _) t hn
    refine ⟨fun q => if q <+: p.dropLast then some .dir else d q, by simp only [makedirs, if_neg hno],
      ⟨?_, ?_⟩, ?_, ?_, fun q hq => if_pos hq, fun q hq => if_neg hq⟩
    · exact if_pos List.nil_prefix
    · intro q hq hne
      by_cases h1 : q.dropLast <+: p.dropLast
      · exact if_pos h1
      · have h2 : ¬ q <+: p.dropLast := fun h => h1 ((List.dropLast_prefix q).trans h)
        rw [if_neg h2] at hne
        rw [if_neg h1]
        exact hd.parent q hq hne
    · exact if_pos (List.prefix_refl _)
    · exact if_neg hnot

/-- **C144.**  On a supported platform with the path to the preferences free, saving succeeds, whether or
not directory and file existed before; reading afterwards gives back what was saved, and changes nothing
more; a later saving replaces the earlier one.  Nothing else on the disk changes than the file and the
directories leading to it. -/
theorem C144_saved (empty : P) (parse : String → Except PyErr P) (print : P → String)
    (hrt : ∀ c, parse (print c) = .ok c) (hd : Sound d) (hp : prefPath m = some p) (hf : Free d p) (c : P) :
    ∃ d', saveConfig print m d c = .ok d' ∧ readConfig empty parse m d' = .ok (d', c) ∧
      Sound d' ∧ Free d' p ∧
      (∀ c', ∃ d'', saveConfig print m d' c' = .ok d'' ∧ readConfig empty parse m d'' = .ok (d'', c')) ∧
      ∀ q, q ≠ p → ¬ q <+: p.dropLast → d' q = d q := by
  have hne := prefPath_ne_nil hp
  have hnp : p.dropLast ≠ p := fun h => by
    have := congrArg List.length h
    have := List.length_pos_iff.2 hne
    rw [List.length_dropLast] at *
    omega
  have step : ∀ (d : Disk), Sound d → Free d p → ∀ c : P, ∃ d',
      saveConfig print m d c = .ok d' ∧ readConfig empty parse m d' = .ok (d', c) ∧ Sound d' ∧ Free d' p ∧
      ∀ q, q ≠ p → ¬ q <+: p.dropLast → d' q = d q := by
    intro d hd hf c
    obtain ⟨e, he, hes, hdir, hep, hpre, hrest⟩ := ensuredir_ok hd hne hf
    have hnotdir : e p ≠ some .dir := by rw [hep]; exact hf.2
    have hup : ∀ q, q <+: p.dropLast → update e p (some (.file (print c))) q = some .dir := fun q hq => by
      have hqp : q ≠ p := fun h => by
        have := hq.length_le
        have := List.length_pos_iff.2 hne
        rw [h, List.length_dropLast] at *
        omega
      rw [update_of_ne hqp]; exact hpre q hq
    refine ⟨update e p (some (.file (print c))), ?_, ?_, ⟨?_, ?_⟩, ⟨?_, ?_⟩, ?_⟩
    · simp only [saveConfig, preffilename, hp, he, writeFile, hdir, bind, Except.bind]
      rw [if_pos ⟨trivial, hnotdir⟩]
    · have hex : ensuredir (update e p (some (.file (print c)))) p = .ok (update e p (some (.file (print c)))) := by
        unfold ensuredir
        rw [hup _ (List.prefix_refl _)]
      simp only [readConfig, preffilename, hp, hex, bind, Except.bind, update_self, hrt]
    · exact hup [] List.nil_prefix
    · intro q hq hqn
      by_cases h1 : q = p
      · rw [h1]; exact hup _ (List.prefix_refl _)
      · rw [update_of_ne h1] at hqn
        have := hes.parent q hq hqn
        by_cases h2 : q.dropLast = p
        · rw [h2] at this; exact absurd this hnotdir
        · rw [update_of_ne h2]; exact this
    · intro q hq t
      rw [hup q hq]
      simp
    · rw [update_self]; simp
    · intro q hq hq2
      rw [update_of_ne hq]; exact hrest q hq2
  obtain ⟨d', h1, h2, h3, h4, h5⟩ := step d hd hf c
  refine ⟨d', h1, h2, h3, h4, fun c' => ?_, h5⟩
  obtain ⟨d'', g1, g2, -⟩ := step d' h3 h4 c'
  exact ⟨d'', g1, g2⟩

/-- **C144, place.**  What is saved lands in `~/.config/qinfer.conf`, or in `qinfer.conf` under `%APPDATA%` on
Windows. -/
theorem C144_place (print : P → String) (c : P) {d' : Disk} (hs : saveConfig print m d c = .ok d') :
    ((m.platform.startsWith "linux" ∨ m.platform.startsWith "darwin" ∨ m.platform.startsWith "cygwin") →
      d' (m.home ++ [".config", "qinfer.conf"]) = some (.file (print c))) ∧
    (m.platform.startsWith "win" → (∀ x ∈ ["linux", "darwin", "cygwin"], m.platform.startsWith x = false) →
      d' (m.appdata ++ ["qinfer.conf"]) = some (.file (print c))) := by
  have key : ∀ p, prefPath m = some p → d' p = some (.file (print c)) := by
    intro p hp
    simp only [saveConfig, preffilename, hp, bind, Except.bind] at hs
    cases he : ensuredir d p with
    | error e => rw [he] at hs; cases hs
    | ok e =>
      rw [he] at hs
      simp only [writeFile] at hs
      split at hs
      · cases hs; exact update_self ..
      · cases hs
  refine ⟨fun h => key _ ?_, fun h h2 => key _ ?_⟩
  · unfold prefPath
    rw [if_pos]
    simpa [or_assoc] using h
  · simp only [List.mem_cons, List.not_mem_nil, or_false, forall_eq_or_imp, forall_eq] at h2
    simp [prefPath, h2.1, h2.2.1, h2.2.2, h]

/-- **C144, first reading.**  Where nothing was saved, reading gives an empty parser; it creates the
directory all the same, but no file. -/
theorem C144_first (empty : P) (parse : String → Except PyErr P) (hd : Sound d) (hp : prefPath m = some p)
    (hf : Free d p) (hnone : d p = none) :
    ∃ d', readConfig empty parse m d = .ok (d', empty) ∧ d' p.dropLast = some .dir ∧
      ∀ q text, d' q = some (.file text) ↔ d q = some (.file text) := by
  obtain ⟨e, he, hes, hdir, hep, hpre, hrest⟩ := ensuredir_ok hd (prefPath_ne_nil hp) hf
  rw [hnone] at hep
  refine ⟨e, ?_, hdir, fun q text => ?_⟩
  · simp only [readConfig, preffilename, hp, he, bind, Except.bind, hep]
  · by_cases h : q <+: p.dropLast
    · rw [hpre q h]
      constructor
      · intro h2; cases h2
      · intro h2; exact absurd h2 (hf.1 q h text)
    · rw [hrest q h]

/-- **C144, elsewhere.**  On platforms that are neither Linux, macOS, Cygwin nor Windows both functions
raise `TypeError`: `preffilename` returns `NotImplemented` instead of raising. -/
theorem C144_elsewhere (empty : P) (parse : String → Except PyErr P) (print : P → String) (c : P)
    (h : ∀ x ∈ ["linux", "darwin", "cygwin", "win"], m.platform.startsWith x = false) :
    preffilename m d = .ok (d, none) ∧ readConfig empty parse m d = .error .typeError ∧
      saveConfig print m d c = .error .typeError := by
  have hp : prefPath m = none := by
    simp only [List.mem_cons, List.not_mem_nil, or_false, forall_eq_or_imp, forall_eq] at h
    obtain ⟨h1, h2, h3, h4⟩ := h
    simp [prefPath, h1, h2, h3, h4]
  refine ⟨?_, ?_, ?_⟩
  · simp only [preffilename, hp]
  · simp only [readConfig, preffilename, hp, bind, Except.bind]
  · simp only [saveConfig, preffilename, hp, bind, Except.bind]

/-- A disk with a home directory and a file of somebody else's. -/
def aDisk : Disk := fun q =>
  if q = [] ∨ q = ["home"] then some .dir
  else if q = ["home", "notes"] then some (.file "x") else none

theorem aDisk_sound : Sound aDisk where
  root := by simp [aDisk]
  parent := by
    intro q _ h
    unfold aDisk at h
    split_ifs at h with h1 h2
    · rcases h1 with rfl | rfl <;> simp [aDisk]
    · subst h2; simp [aDisk]
    · exact absurd rfl h

/-- Preferences on Linux under a home directory without `.config`. -/
example : ∃ d', saveConfig (P := String) id ⟨"linux2", ["home"], []⟩ aDisk "plot = yes" = .ok d' ∧
    readConfig "" .ok ⟨"linux2", ["home"], []⟩ d' = .ok (d', "plot = yes") ∧
    d' ["home", ".config", "qinfer.conf"] = some (.file "plot = yes") ∧
    d' ["home", "notes"] = some (.file "x") := by
  have hp : prefPath ⟨"linux2", ["home"], []⟩ = some ["home", ".config", "qinfer.conf"] := by decide +kernel
  have hf : Free aDisk ["home", ".config", "qinfer.conf"] := by
    refine ⟨fun q hq t h => ?_, by simp [aDisk]⟩
    have hn : q = ["home", "notes"] := by
      by_contra hc
      unfold aDisk at h
      rw [if_neg hc] at h
      split_ifs at h <;> cases h
    subst hn
    revert hq
    decide +kernel
  obtain ⟨d', h1, h2, -, -, -, h3⟩ := C144_saved (P := String) "" .ok id (fun _ => rfl) aDisk_sound hp hf
    "plot = yes"
  refine ⟨d', h1, h2, (C144_place id _ h1).1 (.inl (by decide +kernel)), ?_⟩
  rw [h3 _ (by decide +kernel) (by decide +kernel)]
  simp [aDisk]

/-- Nothing was saved on this disk; reading does not fail. -/
example : ∃ d', readConfig (P := String) "" .ok ⟨"linux2", ["home"], []⟩ aDisk = .ok (d', "") ∧
    d' ["home", ".config"] = some .dir := by
  have hp : prefPath ⟨"linux2", ["home"], []⟩ = some ["home", ".config", "qinfer.conf"] := by decide +kernel
  have hf : Free aDisk ["home", ".config", "qinfer.conf"] := by
    refine ⟨fun q hq t h => ?_, by simp [aDisk]⟩
    have hn : q = ["home", "notes"] := by
      by_contra hc
      unfold aDisk at h
      rw [if_neg hc] at h
      split_ifs at h <;> cases h
    subst hn
    revert hq
    decide +kernel
  obtain ⟨d', h1, h2, -⟩ := C144_first (P := String) "" .ok aDisk_sound hp hf (by simp [aDisk])
  exact ⟨d', h1, h2⟩

/-- FreeBSD. -/
example : saveConfig (P := String) id ⟨"freebsd14", ["home"], []⟩ aDisk "plot = yes" = .error .typeError :=
  (C144_elsewhere "" .ok id "plot = yes" (by decide +kernel)).2.2

end QInfer
