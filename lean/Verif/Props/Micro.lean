import Verif.Model.Micro
import Verif.Props.Martensite
import Verif.Props.SetLaue

/-!
# Property C80: the class `Microstructure`
-/

namespace Verif.Props

open Matrix Verif.Model Verif.Spec

/-- C80: every symmetric positive definite stretch, given as an array or by one to four numbers, is taken, and `getU`
then returns it; the Laue group stays. -/
theorem C80_stretch (m : Micro) (U : M3) (_ : IsSPD U) :
    (∃ m', m.setU [.arr (.mat 3 3 false U)] = .ok m' ∧ m'.getU = .ok (.arr (.mat 3 3 false U)) ∧
      m'.getLaue = m.getLaue) ∧
    ∀ args, ((∃ x, U = Matrix.diagonal ![x, x, x] ∧ args = [.num x]) ∨
        (∃ x y, U = Matrix.diagonal ![x, x, y] ∧ args = [.num x, .num y]) ∨
        (∃ x y z, U = !![x, y, 0; y, x, 0; 0, 0, z] ∧ args = [.num x, .num y, .num z]) ∨
        ∃ x y z w, U = !![x, y, 0; y, z, 0; 0, 0, w] ∧ args = [.num x, .num y, .num z, .num w]) →
      ∃ m', m.setU args = .ok m' ∧ m'.getU = .ok (.arr (.mat 3 3 false U)) ∧ m'.getLaue = m.getLaue := by
  refine ⟨⟨_, rfl, rfl, rfl⟩, ?_⟩
  rintro args (⟨x, rfl, rfl⟩ | ⟨x, y, rfl, rfl⟩ | ⟨x, y, z, rfl, rfl⟩ | ⟨x, y, z, w, rfl, rfl⟩) <;>
    exact ⟨_, rfl, rfl, rfl⟩

theorem setU_matrix {M3' : Mart} {args : List UArg} {M' : Mart} (h : M3'.setU args = .ok M')
    {U : M3} (hU : M'.getU = .ok U) : uOf args = .ok (some U) := by
  unfold Mart.setU at h
  split at h
  · cases h
  · cases h
  · rename_i V hV
    split at h
    · cases h
    split at h
    · cases h
    cases h
    cases hU
    exact hV

/-- C80: for the arguments that the class `Martensite` takes as well (an array alone, or numbers), both classes return
the same stretch. -/
theorem C80_same_as_martensite (m : Micro) (M M' : Mart) (args : List UArg) (h : M.setU args = .ok M')
    (ha : args.length = 1 ∨ ∀ a ∈ args, ∃ x, a = .num x) :
    ∃ m' b U, m.setU args = .ok m' ∧ M'.getU = .ok U ∧ m'.getU = .ok (.arr (.mat 3 3 b U)) := by
  have hU : ∃ U, M'.getU = .ok U := by
    unfold Mart.setU at h
    split at h
    · cases h
    · cases h
    · split at h
      · cases h
      split at h
      · cases h
      cases h
      exact ⟨_, rfl⟩
  obtain ⟨U, hU⟩ := hU
  have h1 := setU_matrix h hU
  rcases args with _ | ⟨_ | a, args⟩
  · simp [uOf] at h1
  · rename_i A
    rcases ha with ha | ha
    · rcases args with _ | ⟨b, args⟩
      · rcases A with _ | _ | ⟨k, n, b, A⟩
        · simp [uOf] at h1
        · simp [uOf] at h1
        · simp only [uOf] at h1
          split at h1
          · rename_i hk
            obtain ⟨rfl, rfl⟩ := hk
            cases h1
            exact ⟨_, b, _, rfl, hU, rfl⟩
          · cases h1
      · simp at ha
    · obtain ⟨x, hx⟩ := ha (.arr A) (by simp)
      cases hx
  · have hn : ∀ a ∈ args, ∃ x, a = .num x := by
      rcases ha with ha | ha
      · have : args = [] := by simpa using ha
        simp [this]
      · exact fun b hb => ha b (by simp [hb])
    rcases args with _ | ⟨b, args⟩
    · cases h1
      exact ⟨_, _, _, rfl, hU, rfl⟩
    obtain ⟨b, rfl⟩ := hn b (by simp)
    rcases args with _ | ⟨c, args⟩
    · cases h1
      exact ⟨_, _, _, rfl, hU, rfl⟩
    obtain ⟨c, rfl⟩ := hn c (by simp)
    rcases args with _ | ⟨d, args⟩
    · cases h1
      exact ⟨_, _, _, rfl, hU, rfl⟩
    obtain ⟨d, rfl⟩ := hn d (by simp)
    rcases args with _ | ⟨e, args⟩
    · cases h1
      exact ⟨_, _, _, rfl, hU, rfl⟩
    · simp only [uOf] at h1
      split at h1 <;> cases h1

/-- a call that both classes take -/
example : ∃ M', (⟨none, cubicR⟩ : Mart).setU [.num 2] = .ok M' :=
  ⟨_, (C51_accepts ⟨none, cubicR⟩ (Matrix.diagonal ![2, 2, 2]) (by
    refine ⟨Matrix.diagonal_transpose _, fun x hx => ?_⟩
    have h0 : 0 ≤ x 0 ^ 2 ∧ 0 ≤ x 1 ^ 2 ∧ 0 ≤ x 2 ^ 2 := ⟨sq_nonneg _, sq_nonneg _, sq_nonneg _⟩
    have hne : x 0 ^ 2 + x 1 ^ 2 + x 2 ^ 2 ≠ 0 := by
      intro h
      apply hx
      have h0' : x 0 ^ 2 = 0 := by linarith
      have h1' : x 1 ^ 2 = 0 := by linarith
      have h2' : x 2 ^ 2 = 0 := by linarith
      ext i
      fin_cases i
      · simpa using h0'
      · simpa using h1'
      · simpa using h2'
    have hp : 0 < x 0 ^ 2 + x 1 ^ 2 + x 2 ^ 2 := lt_of_le_of_ne (by linarith) (Ne.symm hne)
    simp [Matrix.mulVec, dotProduct, Fin.sum_univ_three, Matrix.diagonal_apply]
    nlinarith) false []).2.1 2 rfl⟩

/-- C80 fails: `setLaue` raises for every argument. -/
theorem C80_setLaue_fails (py : Py) (m : Micro) (arg : LaueArg) : ∃ e, m.setLaue py arg = .error e := by
  unfold Micro.setLaue
  repeat' first | exact ⟨_, rfl⟩ | split

/-- C80 fails: the exception is `AttributeError` for the id of a cubic lattice, and `NameError` for an integer that is
no id. -/
theorem C80_setLaue_errors_fails (py : Py) (m : Micro) :
    (∀ k : ℤ, k ≤ 0 ∨ 14 < k → m.setLaue py (.int k) = .error .nameError) ∧
    m.setLaue py .other = .error .nameError ∧ (∀ G, m.setLaue py (.group G) = .error .nameError) ∧
    m.setLaue py (.int 1) = .error .attributeError := by
  refine ⟨fun k hk => ?_, rfl, fun _ => rfl, ?_⟩
  · unfold Micro.setLaue
    simp only
    rw [if_neg (by omega)]
  · have h := set_1 (t := .exact) (Or.inr rfl) (py := py) (m := ⟨none, []⟩)
    unfold Mart.setLaue at h
    simp only at h
    rw [if_pos (by norm_num)] at h
    unfold Micro.setLaue
    simp only
    rw [if_pos (by norm_num)]
    split at h
    · cases h
    · rename_i L hL
      rw [hL]

/-- C80: in every history the Laue group is the one given to the constructor, the cubic one if none was given. -/
theorem C80_history_partial (py : Py) (a : Option (UArg × Option (List M3))) (calls : List MicroCall) :
    (calls.foldl (Micro.step py) (Micro.new a)).getLaue =
      (match a with
        | some (_, some G) => G
        | _ => cubicLaue.map toR) := by
  have h : ∀ (m : Micro) (c : MicroCall), (m.step py c).laue = m.laue := by
    intro m c
    unfold Micro.step
    rcases c with args | arg
    · simp only
      split
      · rename_i m' hm
        unfold Micro.setU at hm
        repeat' first | (cases hm; done) | (cases hm; rfl) | split at hm
      · rfl
    · simp only
      obtain ⟨e, he⟩ := C80_setLaue_fails py m arg
      rw [he]
  have h2 : ∀ m : Micro, (calls.foldl (Micro.step py) m).laue = m.laue := by
    induction calls with
    | nil => exact fun _ => rfl
    | cons c cs ih => exact fun m => (ih _).trans (h m c)
  change (calls.foldl (Micro.step py) (Micro.new a)).laue = _
  rw [h2]
  rcases a with _ | ⟨u, _ | G⟩ <;> rfl

/-- C80: in every history `getU` returns the stretch of the last accepted call of `setU`. -/
theorem C80_last_stretch (py : Py) (a : Option (UArg × Option (List M3))) (pre post : List MicroCall)
    (args : List UArg) (m' : Micro) (h : (pre.foldl (Micro.step py) (Micro.new a)).setU args = .ok m')
    (hp : ∀ c ∈ post, ∀ args, c = .setU args → args.length = 0 ∨ 4 < args.length) :
    ((pre ++ .setU args :: post).foldl (Micro.step py) (Micro.new a)).getU = m'.getU := by
  have h2 : ∀ m : Micro, (post.foldl (Micro.step py) m) = m := by
    clear h
    induction post with
    | nil => exact fun _ => rfl
    | cons c cs ih =>
      intro m
      rw [List.foldl_cons, ih fun c hc => hp c (by simp [hc])]
      rcases c with args | arg
      · have := hp _ (by simp) args rfl
        unfold Micro.step Micro.setU
        simp only
        split
        · rename_i hm
          split at hm <;> first | (simp at this; done) | (rw [if_pos this] at hm; cases hm)
        · rfl
      · obtain ⟨e, he⟩ := C80_setLaue_fails py m arg
        unfold Micro.step
        simp only
        rw [he]
  rw [List.foldl_append, List.foldl_cons, h2]
  generalize List.foldl (Micro.step py) (Micro.new a) pre = q at h
  unfold Micro.step
  simp only
  rw [h]

/-- a history -/
example : ((([.setLaue .other] : List MicroCall) ++ MicroCall.setU [.num 2, .num 3] :: [.setU []]).foldl (Micro.step .py3)
    (Micro.new none)).getU = .ok (.arr (.mat 3 3 false (Matrix.diagonal ![2, 2, 3]))) := by
  rw [C80_last_stretch .py3 none [.setLaue .other] [.setU []] [.num 2, .num 3] _ rfl (by simp)]
  rfl

/-- C80 fails: `setU` checks nothing.  It takes matrices that are not symmetric, negative stretches, and arrays of
other sizes; the class `Martensite` refuses them. -/
theorem C80_unchecked_fails (m : Micro) (M : Mart) :
    (∀ A, ∃ m', m.setU [.arr A] = .ok m' ∧ m'.getU = .ok (.arr A)) ∧
    (∀ x, ∃ m', m.setU [.num x] = .ok m') ∧
    M.setU [.num (-1)] = .error .typeError ∧
    ∀ b, M.setU [.arr (.mat 3 3 b !![1, 1, 0; 0, 1, 0; 0, 0, 1])] = .error .typeError := by
  refine ⟨fun A => ⟨_, rfl, rfl⟩, fun x => ⟨_, rfl⟩, ?_, fun b => ?_⟩
  · unfold Mart.setU
    simp only [uOf]
    rw [if_neg (by simp), if_pos (by simp [Matrix.det_diagonal, Fin.prod_univ_three])]
  · refine (C51_rejects_partial M).2.1 _ _ ?_
    rintro ⟨b', U, hU, h1, -⟩
    cases hU
    have := congrFun (congrFun h1 0) 1
    simp at this

/-- C80 fails: without an argument there is no stretch, and a number given to the constructor is not made a matrix, as
it is by `setU`. -/
theorem C80_constructor_fails (x : ℝ) (G : Option (List M3)) :
    (Micro.new none).getU = .error .attributeError ∧ (Micro.new (some (.num x, G))).getU = .ok (.num x) ∧
    ∃ m', (Micro.new none).setU [.num x] = .ok m' ∧
      m'.getU = .ok (.arr (.mat 3 3 false (Matrix.diagonal ![x, x, x]))) := by
  refine ⟨rfl, ?_, _, rfl, rfl⟩
  rcases G with _ | G <;> rfl

/-- C80 fails: a wrong number of arguments raises `NameError`. -/
theorem C80_count_fails (m : Micro) (args : List UArg) (h : args.length = 0 ∨ 4 < args.length) :
    m.setU args = .error .nameError := by
  unfold Micro.setU
  split <;> first | (simp at h; done) | exact if_pos h

end Verif.Props
