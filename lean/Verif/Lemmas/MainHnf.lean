import Verif.Model.MainHnf
import Verif.Spec.MatGroup
import Verif.Props.Hnf

namespace Verif.Lemmas

open Matrix Verif.Spec Verif.Model Verif.Props

variable {n : ℕ}

theorem symRelated_refl {lg : List (Matrix (Fin n) (Fin n) ℤ)} (hg : IsMatGroup lg)
    (h : Matrix (Fin n) (Fin n) ℤ) : SymRelated lg h h :=
  ⟨1, hg.one_mem, 1, unimodular_one, by simp⟩

theorem symRelated_symm {lg : List (Matrix (Fin n) (Fin n) ℤ)} (hg : IsMatGroup lg)
    {h k : Matrix (Fin n) (Fin n) ℤ} (hk : SymRelated lg h k) : SymRelated lg k h := by
  obtain ⟨M, hM, A, hA, rfl⟩ := hk
  obtain ⟨B, hB, hMB⟩ := hg.inv_mem M hM
  obtain ⟨V, hV, h1, h2⟩ := unimodular_exists_inv hA
  have hBM : B * M = 1 := mul_eq_one_comm.mp hMB
  refine ⟨B, hB, V, hV, ?_⟩
  have : B * (M * h * A) * V = (B * M) * h * (A * V) := by simp only [Matrix.mul_assoc]
  rw [this, hBM, h1, Matrix.one_mul, Matrix.mul_one]

theorem symRelated_trans {lg : List (Matrix (Fin n) (Fin n) ℤ)} (hg : IsMatGroup lg)
    {h k m : Matrix (Fin n) (Fin n) ℤ} (hk : SymRelated lg h k) (hm : SymRelated lg k m) :
    SymRelated lg h m := by
  obtain ⟨M, hM, A, hA, rfl⟩ := hk
  obtain ⟨N, hN, B, hB, rfl⟩ := hm
  exact ⟨N * M, hg.mul_mem _ hN _ hM, A * B, unimodular_mul hA hB, by simp only [Matrix.mul_assoc]⟩

theorem matGroup_unimodular {lg : List (Matrix (Fin n) (Fin n) ℤ)} (hg : IsMatGroup lg)
    {M : Matrix (Fin n) (Fin n) ℤ} (hM : M ∈ lg) : M.det ≠ 0 := by
  obtain ⟨B, -, hB⟩ := hg.inv_mem M hM
  intro h
  have := congrArg Matrix.det hB
  rw [Matrix.det_mul, h] at this
  simp at this

theorem isHNF_det_ne {H : Matrix (Fin n) (Fin n) ℤ} (hH : IsHNF H) : H.det ≠ 0 := by
  rw [det_isHNF hH]
  exact Finset.prod_ne_zero_iff.mpr fun i _ => (hH.diag i).ne'

/-- The orbit test never raises and finds exactly the symmetry-related normal forms. -/
theorem orbitHit_spec (rh : List (Matrix (Fin (n + 1)) (Fin (n + 1)) ℤ))
    (hrh : ∀ k ∈ rh, IsHNF k) (h : Matrix (Fin (n + 1)) (Fin (n + 1)) ℤ) (hh : IsHNF h) :
    ∀ lg : List (Matrix (Fin (n + 1)) (Fin (n + 1)) ℤ), (∀ M ∈ lg, M.det ≠ 0) →
    ∃ b, orbitHit .py3 rh h lg = .ok b ∧ (b = true ↔ ∃ k ∈ rh, SymRelated lg h k)
  | [], _ => ⟨false, rfl, by simp [SymRelated]⟩
  | M :: lg, hlg => by
    have hdet : (M * h).det ≠ 0 := by
      rw [Matrix.det_mul]
      exact mul_ne_zero (hlg M (by simp)) (isHNF_det_ne hh)
    obtain ⟨H, L, -, h2, h3, h4, h5⟩ := C05_hnfd n (M * h) hdet
    obtain ⟨b, hb, hbs⟩ := orbitHit_spec rh hrh h hh lg (fun N hN => hlg N (by simp [hN]))
    have key : ∀ k ∈ rh, (∃ A, Unimodular A ∧ M * h * A = k) → k = H := by
      rintro k hk ⟨A, hA, hAk⟩
      have e1 : ColEq (M * h) k := ⟨A, hA, hAk.symm⟩
      have e2 : ColEq H (M * h) := ⟨L, h4, h5.symm⟩
      exact (hnf_unique h3 (hrh k hk) (e2.trans e1)).symm
    by_cases hm : H ∈ rh
    · refine ⟨true, by simp [orbitHit, h2, hm], ?_⟩
      simp only [true_iff]
      have e2 : ColEq H (M * h) := ⟨L, h4, h5.symm⟩
      obtain ⟨A, hA, hAH⟩ := e2.symm
      exact ⟨H, hm, M, by simp, A, hA, hAH.symm⟩
    · refine ⟨b, by simp [orbitHit, h2, hm, hb], hbs.trans ⟨?_, ?_⟩⟩
      · rintro ⟨k, hk, N, hN, r⟩
        exact ⟨k, hk, N, by simp [hN], r⟩
      · rintro ⟨k, hk, N, hN, r⟩
        rcases List.mem_cons.mp hN with rfl | hN
        · exact absurd (key k hk r ▸ hk) hm
        · exact ⟨k, hk, N, hN, r⟩

/-- Loop invariant: the loop of `reduce_hnfs` turns a set of representatives of the classes seen so
far into a set of representatives of all classes. -/
theorem reduceLoop_spec {lg : List (Matrix (Fin (n + 1)) (Fin (n + 1)) ℤ)} (hg : IsMatGroup lg) :
    ∀ (hs seen rh : List (Matrix (Fin (n + 1)) (Fin (n + 1)) ℤ)),
      (∀ h ∈ hs, IsHNF h) → (∀ h ∈ seen, IsHNF h) → OnePerClass lg seen rh →
      ∃ r, reduceLoop .py3 lg rh hs = .ok r ∧ OnePerClass lg (seen ++ hs) r
  | [], seen, rh, _, _, h => ⟨rh, rfl, by simpa using h⟩
  | h :: hs, seen, rh, hhs, hseen, hrh => by
    obtain ⟨b, hb, hbs⟩ := orbitHit_spec rh (fun k hk => hseen k (hrh.1 k hk)) h (hhs h (by simp)) lg
      (fun M hM => matGroup_unimodular hg hM)
    have hh := hhs h (by simp)
    have hseen' : ∀ k ∈ seen ++ [h], IsHNF k := by
      intro k hk
      rcases List.mem_append.mp hk with hk | hk
      · exact hseen k hk
      · rw [List.mem_singleton.mp hk]; exact hh
    suffices hs' : OnePerClass lg (seen ++ [h]) (if b then rh else dictSet rh h) by
      obtain ⟨r, hr, hr'⟩ := reduceLoop_spec hg hs (seen ++ [h]) _
        (fun k hk => hhs k (by simp [hk])) hseen' hs'
      exact ⟨r, by simp [reduceLoop, hb, hr], by simpa using hr'⟩
    obtain ⟨h1, h2, h3⟩ := hrh
    have huniq : ∀ x k k', k ∈ rh → k' ∈ rh → SymRelated lg x k → SymRelated lg x k' → k = k' := by
      intro x k k' hk hk' hx hx'
      obtain ⟨u, -, hu⟩ := h3 k (h1 k hk)
      rw [hu k ⟨hk, symRelated_refl hg k⟩,
        hu k' ⟨hk', symRelated_trans hg (symRelated_symm hg hx) hx'⟩]
    cases b with
    | true =>
      simp only [if_true]
      refine ⟨fun k hk => by simp [h1 k hk], h2, ?_⟩
      intro x hx
      rcases List.mem_append.mp hx with hx | hx
      · exact h3 x hx
      · rw [List.mem_singleton.mp hx]
        obtain ⟨k, hk, hr⟩ := hbs.mp rfl
        exact ⟨k, ⟨hk, hr⟩, fun y hy => huniq h y k hy.1 hk hy.2 hr⟩
    | false =>
      have hno : ¬ ∃ k ∈ rh, SymRelated lg h k := fun hc => by simpa using hbs.mpr hc
      have hnm : h ∉ rh := fun hm => hno ⟨h, hm, symRelated_refl hg h⟩
      simp only [Bool.false_eq_true, if_false, dictSet, hnm]
      refine ⟨?_, ?_, ?_⟩
      · intro k hk
        rcases List.mem_append.mp hk with hk | hk
        · simp [h1 k hk]
        · simp [List.mem_singleton.mp hk]
      · rw [List.nodup_append]
        refine ⟨h2, by simp, ?_⟩
        intro a ha b hb' hab
        rw [List.mem_singleton.mp hb'] at hab
        exact hnm (hab ▸ ha)
      · intro x hx
        rcases List.mem_append.mp hx with hx | hx
        · obtain ⟨k, ⟨hk, hxk⟩, -⟩ := h3 x hx
          refine ⟨k, ⟨by simp [hk], hxk⟩, ?_⟩
          rintro y ⟨hy, hxy⟩
          rcases List.mem_append.mp hy with hy | hy
          · exact huniq x y k hy hk hxy hxk
          · rw [List.mem_singleton.mp hy] at hxy
            exact absurd ⟨k, hk, symRelated_trans hg (symRelated_symm hg hxy) hxk⟩ hno
        · rw [List.mem_singleton.mp hx]
          refine ⟨h, ⟨by simp, symRelated_refl hg h⟩, ?_⟩
          rintro y ⟨hy, hxy⟩
          rcases List.mem_append.mp hy with hy | hy
          · exact absurd ⟨y, hy, hxy⟩ hno
          · exact List.mem_singleton.mp hy

/-- Slices of consecutive windows concatenate to the list. -/
theorem flatten_windows {α : Type} (W : List α) (size : ℕ) :
    ∀ m, ((List.range m).map fun g =>
      (W.drop (g * size)).take (min ((g + 1) * size) W.length - g * size)).flatten
        = W.take (m * size)
  | 0 => by simp
  | m + 1 => by
    rw [List.range_succ, List.map_append, List.flatten_append, flatten_windows W size m]
    simp only [List.map_cons, List.map_nil, List.flatten_cons, List.flatten_nil, List.append_nil]
    have : (m + 1) * size = m * size + size := by ring
    rw [this, List.take_add]
    congr 1
    rcases Nat.le_total (m * size + size) W.length with h | h
    · rw [Nat.min_eq_left h]; congr 1; omega
    · rw [Nat.min_eq_right h]
      rw [List.take_of_length_le (by simp), List.take_of_length_le (by simp; omega)]

theorem mapExcept_ok {α β : Type} {f : α → Except Err β} {P : α → β → Prop} :
    ∀ (l : List α), (∀ a ∈ l, ∃ b, f a = .ok b ∧ P a b) →
      ∃ bs, mapExcept f l = .ok bs ∧ List.Forall₂ P l bs
  | [], _ => ⟨[], rfl, .nil⟩
  | a :: as, h => by
    obtain ⟨b, hb, hP⟩ := h a (by simp)
    obtain ⟨bs, hbs, hPs⟩ := mapExcept_ok as (fun x hx => h x (by simp [hx]))
    exact ⟨b :: bs, by simp [mapExcept, hb, hbs], .cons hP hPs⟩

end Verif.Lemmas
