import Verif.Props.MainHnf

/-!
# C09, C10, C67 under both interpreters

Under Python 2 `reduce_hnfs` may keep several members of a class (`C09_python2_fails`), because the normal form
it computes of a member of an orbit is not canonical there.  It still is a base of the same sublattice, and so no
class is ever lost: this is the half of the properties that holds under both interpreters.
-/

namespace Verif.Props

open Matrix Verif.Spec Verif.Model Verif.Lemmas

variable {n : ℕ}

/-- `r` is a list without repetitions of members of `l`, and every member of `l` is related by the group to at
least one of them. -/
def CoversClasses (lg l r : List (Matrix (Fin n) (Fin n) ℤ)) : Prop :=
  (∀ h ∈ r, h ∈ l) ∧ r.Nodup ∧ ∀ h ∈ l, ∃ k ∈ r, SymRelated lg h k

/-- The test on the orbit never raises, and a positive answer means that a related normal form was kept. -/
theorem orbitHit_sound (py : Py) (rh : List (Matrix (Fin (n + 1)) (Fin (n + 1)) ℤ))
    (h : Matrix (Fin (n + 1)) (Fin (n + 1)) ℤ) (hh : h.det ≠ 0) :
    ∀ lg : List (Matrix (Fin (n + 1)) (Fin (n + 1)) ℤ), (∀ M ∈ lg, M.det ≠ 0) →
    ∃ b, orbitHit py rh h lg = .ok b ∧ (b = true → ∃ k ∈ rh, SymRelated lg h k)
  | [], _ => ⟨false, rfl, by simp⟩
  | M :: lg, hlg => by
    have hdet : (M * h).det ≠ 0 := by
      rw [Matrix.det_mul]
      exact mul_ne_zero (hlg M (by simp)) hh
    obtain ⟨H, hH, -, -, -⟩ := C08_hnfd_partial py n (M * h) hdet
    obtain ⟨b, hb, hbs⟩ := orbitHit_sound py rh h hh lg (fun N hN => hlg N (by simp [hN]))
    by_cases hm : H ∈ rh
    · refine ⟨true, by simp [orbitHit, hH, hm], fun _ => ?_⟩
      obtain ⟨A, hA, hAH⟩ := hnfdH_colEq py n (M * h) H hH
      exact ⟨H, hm, M, by simp, A, hA, hAH.symm⟩
    · refine ⟨b, by simp [orbitHit, hH, hm, hb], fun hbt => ?_⟩
      obtain ⟨k, hk, N, hN, r⟩ := hbs hbt
      exact ⟨k, hk, N, by simp [hN], r⟩

theorem reduceLoop_covers (py : Py) {lg : List (Matrix (Fin (n + 1)) (Fin (n + 1)) ℤ)} (hg : IsMatGroup lg) :
    ∀ (hs seen rh : List (Matrix (Fin (n + 1)) (Fin (n + 1)) ℤ)),
      (∀ h ∈ hs, h.det ≠ 0) → CoversClasses lg seen rh →
      ∃ r, reduceLoop py lg rh hs = .ok r ∧ CoversClasses lg (seen ++ hs) r
  | [], seen, rh, _, h => ⟨rh, rfl, by simpa using h⟩
  | h :: hs, seen, rh, hhs, hrh => by
    obtain ⟨b, hb, hbs⟩ := orbitHit_sound py rh h (hhs h (by simp)) lg (fun M hM => matGroup_unimodular hg hM)
    suffices hs' : CoversClasses lg (seen ++ [h]) (if b then rh else dictSet rh h) by
      obtain ⟨r, hr, hr'⟩ := reduceLoop_covers py hg hs (seen ++ [h]) _ (fun k hk => hhs k (by simp [hk])) hs'
      exact ⟨r, by simp [reduceLoop, hb, hr], by simpa using hr'⟩
    obtain ⟨h1, h2, h3⟩ := hrh
    have sub : ∀ k ∈ dictSet rh h, k ∈ rh ∨ k = h := by
      intro k hk
      unfold dictSet at hk
      split at hk
      · exact .inl hk
      · simpa using hk
    have sup : (∀ k ∈ rh, k ∈ dictSet rh h) ∧ h ∈ dictSet rh h := by
      unfold dictSet
      split
      · rename_i hm
        exact ⟨fun _ hk => hk, hm⟩
      · exact ⟨fun k hk => by simp [hk], by simp⟩
    cases b with
    | true =>
      refine ⟨fun k hk => by simp [h1 k hk], h2, fun x hx => ?_⟩
      rcases List.mem_append.mp hx with hx | hx
      · exact h3 x hx
      · rw [List.mem_singleton.mp hx]
        exact hbs rfl
    | false =>
      simp only [Bool.false_eq_true, if_false]
      refine ⟨fun k hk => ?_, ?_, fun x hx => ?_⟩
      · rcases sub k hk with hk | rfl
        · simp [h1 k hk]
        · simp
      · unfold dictSet
        split
        · exact h2
        · rename_i hm
          rw [List.nodup_append]
          refine ⟨h2, by simp, ?_⟩
          intro a ha b hb' hab
          rw [List.mem_singleton.mp hb'] at hab
          exact hm (hab ▸ ha)
      · rcases List.mem_append.mp hx with hx | hx
        · obtain ⟨k, hk, hr⟩ := h3 x hx
          exact ⟨k, sup.1 k hk, hr⟩
        · rw [List.mem_singleton.mp hx]
          exact ⟨h, sup.2, symRelated_refl hg h⟩

/-- C09, the half that holds under both interpreters (and for any list of nonsingular matrices):
`reduce_hnfs` ends without an exception, returns members of the list without repetitions, and loses no class: every
member of the list is related by the group to a returned one. -/
theorem C09_nothing_lost (py : Py) (n : ℕ) (hnfs lg : List (Matrix (Fin (n + 1)) (Fin (n + 1)) ℤ))
    (hh : ∀ h ∈ hnfs, h.det ≠ 0) (hg : IsMatGroup lg) :
    ∃ r, reduceHnfs py hnfs lg = .ok r ∧ CoversClasses lg hnfs r := by
  obtain ⟨r, hr, h⟩ := reduceLoop_covers py hg hnfs [] [] hh ⟨by simp, by simp, by simp⟩
  exact ⟨r, hr, by simpa using h⟩

-- the seven sublattices of index 4 under Python 2: five are kept, of four classes
example : (∀ h ∈ hnf4, h.det ≠ 0) ∧ IsMatGroup rot4 ∧ reduceHnfs .py2 hnf4 rot4 =
    .ok [!![1, 0; 0, 4], !![1, 0; -1, 4], !![1, 0; -2, 4], !![2, 0; 0, 2], !![2, 0; -1, 2]] :=
  ⟨fun h hh => isHNF_det_ne (hnf4_isHNF h hh), rot4_group, by decide +kernel⟩

/-- C10, the half that holds under both interpreters: for every number of workers, the parallel branch ends
without an exception and loses no class. -/
theorem C10_parallel_nothing_lost (py : Py) (n poolsize : ℕ) (hp : 0 < poolsize)
    (hnfs lg : List (Matrix (Fin (n + 1)) (Fin (n + 1)) ℤ))
    (hh : ∀ h ∈ hnfs, h.det ≠ 0) (hg : IsMatGroup lg) :
    ∃ r, reduceStepPar py poolsize (fun c => reduceHnfs py c lg) hnfs lg = .ok r ∧ CoversClasses lg hnfs r := by
  unfold reduceStepPar
  split
  · rename_i hlen
    have hcs : 0 < chunkSize py hnfs.length poolsize := by
      cases py <;> exact Nat.div_pos (by omega) hp
    obtain ⟨sub, hsub, hflat, -⟩ := C10_divide_work hnfs _ hcs
    obtain ⟨red, hred, hP⟩ := mapExcept_ok (f := fun c => reduceHnfs py c lg)
      (P := CoversClasses lg) sub (by
        intro c hc
        apply C09_nothing_lost py n c lg _ hg
        intro h hm
        apply hh
        rw [← hflat]
        exact List.mem_flatten.mpr ⟨c, hc, hm⟩)
    have h1 : (∀ h ∈ red.flatten, h ∈ sub.flatten) ∧ ∀ h ∈ sub.flatten, ∃ k ∈ red.flatten, SymRelated lg h k := by
      clear hred hsub hflat
      induction hP with
      | nil => simp
      | cons hab _ ih =>
        simp only [List.flatten_cons, List.mem_append]
        refine ⟨fun h hm => hm.imp (hab.1 h) (ih.1 h), fun h hm => ?_⟩
        rcases hm with hm | hm
        · obtain ⟨k, hk, hr⟩ := hab.2.2 h hm
          exact ⟨k, .inl hk, hr⟩
        · obtain ⟨k, hk, hr⟩ := ih.2 h hm
          exact ⟨k, .inr hk, hr⟩
    rw [hflat] at h1
    obtain ⟨r, hr, o1, o2, o3⟩ := C09_nothing_lost py n red.flatten lg (fun h hm => hh h (h1.1 h hm)) hg
    refine ⟨r, by simp [hsub, hred, hr], fun h hm => h1.1 h (o1 h hm), o2, fun h hm => ?_⟩
    obtain ⟨k, hk, hhk⟩ := h1.2 h hm
    obtain ⟨m, hm1, hm2⟩ := o3 k hk
    exact ⟨m, hm1, symRelated_trans hg hhk hm2⟩
  · exact C09_nothing_lost py n hnfs lg hh hg

-- a run of Python 2 that takes the parallel branch
example : 1 * 20 < (hnf4 ++ hnf4 ++ hnf4).length ∧
    reduceStepPar .py2 1 (fun c => reduceHnfs .py2 c rot4) (hnf4 ++ hnf4 ++ hnf4) rot4 =
      .ok [!![1, 0; 0, 4], !![1, 0; -1, 4], !![1, 0; -2, 4], !![2, 0; 0, 2], !![2, 0; -1, 2]] := by decide +kernel

/-- C67, the half that holds under both interpreters: every sublattice whose index lies in the window is related
by the symmetry group to at least one of the normal forms that are searched. -/
theorem C67_nothing_lost (py : Py) (N : ℕ) (volTh r : ℝ) (hr : 0 < r) (hv : volTh < 1)
    (hw : ∃ k : ℤ, (1 - volTh) * r ≤ k ∧ (k : ℝ) ≤ (1 + volTh) * r)
    (lg : List (Matrix (Fin (N + 1)) (Fin (N + 1)) ℤ)) (hg : IsMatGroup lg) :
    ∃ l, allHnfs (N + 1) (sizes volTh r) = .ok l ∧ ∃ red, reduceHnfs py l lg = .ok red ∧ red.Nodup ∧
      (∀ h ∈ red, IsHNF h ∧ (1 - volTh) * r ≤ h.det ∧ (h.det : ℝ) ≤ (1 + volTh) * r) ∧
      ∀ M : Matrix (Fin (N + 1)) (Fin (N + 1)) ℤ, (1 - volTh) * r ≤ |M.det| →
        ((|M.det| : ℤ) : ℝ) ≤ (1 + volTh) * r → ∃ h ∈ red, SymRelated lg M h := by
  -- the list of all normal forms does not depend on the interpreter
  obtain ⟨l, hl, red3, hred3, hin3, hall3⟩ := C67_search_space N volTh r hr hv hw lg hg
  have hs := (C42_sizes volTh r).2.1 hw
  have hlow : 0 < (1 - volTh) * r := mul_pos (by linarith) hr
  obtain ⟨l', hl', hmem⟩ := allHnfs_spec N (sizes volTh r) (by
    intro k hk
    have : (0 : ℝ) < k := lt_of_lt_of_le hlow ((hs k).mp hk).1
    exact_mod_cast this)
  obtain rfl : l = l' := by simpa [hl] using hl'
  obtain ⟨red, hred, o1, o2, o3⟩ := C09_nothing_lost py N l lg
    (fun h hh => isHNF_det_ne ((hmem h).mp hh).1) hg
  refine ⟨l, hl, red, hred, o2, ?_, ?_⟩
  · intro h hh
    have := (hmem h).mp (o1 h hh)
    exact ⟨this.1, (hs _).mp this.2⟩
  · intro M h1 h2
    obtain ⟨k, ⟨hk, hk'⟩, -⟩ := hall3 M h1 h2
    obtain ⟨a, b, c⟩ := hin3 k hk
    obtain ⟨m, hm, hm'⟩ := o3 k ((hmem k).mpr ⟨a, (hs _).mpr ⟨b, c⟩⟩)
    exact ⟨m, hm, symRelated_trans hg hk' hm'⟩

-- the window around 4.1 with the rotations of the square
example : (0 : ℝ) < 41 / 10 ∧ (1 / 10 : ℝ) < 1 ∧
    (∃ k : ℤ, (1 - (1 / 10 : ℝ)) * (41 / 10) ≤ k ∧ (k : ℝ) ≤ (1 + 1 / 10) * (41 / 10)) ∧ IsMatGroup rot4 :=
  ⟨by norm_num, by norm_num, ⟨4, by norm_num, by norm_num⟩, rot4_group⟩

end Verif.Props
