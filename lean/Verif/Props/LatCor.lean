import Verif.Model.LatCor
import Verif.Props.Bravais
import Verif.Props.LatticeGroups
import Verif.Props.DirectRuns
import Verif.Props.Report
import Verif.Props.Init

/-!
# Property C77: what a call of `lat_cor` (direct search) returns
-/

namespace Verif.Props

open Matrix Verif.Model Verif.Spec Verif.Lemmas

variable {N : ℕ}

/-! ### The statement -/

/-- `BravaisLattice(id, arg, dim=N)` is accepted and has the primitive base `E` and the transformation `C` to
the conventional cell `E C`. -/
def Constructs (py : Py) (id : ℤ) (arg : PArg) (N : ℕ) (E C : Matrix (Fin N) (Fin N) ℝ) : Prop :=
  ∃ (L : BLat) (hN : N = L.N), BLat.new py id arg N = .ok L ∧ L.E = some (castSq hN hN E) ∧
    L.conventionalTrans = castSq hN hN C

/-- The candidates for symmetries in dimension 2 and 3. -/
noncomputable def candidates : (N : ℕ) → List (Matrix (Fin N) (Fin N) ℝ)
  | 2 => candidates2
  | 3 => candidates3
  | _ => []

/-- What is assumed about `quart_min`, `la.eig` and the iteration over a set: the minimisation finds the
minimum over all unit vectors, `la.eig` diagonalises symmetric matrices, and the iteration visits the
elements of the set and nothing else. -/
structure Sound (o : Outside N) : Prop where
  quart : ∀ T, IsLeast {v | ∃ x : Fin N × Fin N → ℝ, ∑ p, x p ^ 2 = 1 ∧ v = quartForm T x} (o.quartMin T)
  eig : ∀ A, Aᵀ = A → IsEigenSystem A (o.eigsys A).1 (o.eigsys A).2
  visit : ∀ S X, X ∈ o.order S ↔ X ∈ S

/-! ### The groups -/

theorem conj_neg_one {E : Matrix (Fin N) (Fin N) ℝ} (hE : E.det ≠ 0) :
    Lat.conj ⟨N, E⟩ (-1) = -1 := by
  have h := conj_spec hE (inPointGroup_neg (inPointGroup_one E))
  refine conj_unique hE (h.trans ?_)
  rw [toR_neg, toR_one, Matrix.neg_mul, Matrix.mul_neg, Matrix.one_mul, Matrix.mul_one]

theorem pointGroup_neg (hN : N = 2 ∨ N = 3) (t : Tol) {E : Matrix (Fin N) (Fin N) ℝ} (hE : E.det ≠ 0)
    (hr : Reliable t E (candidates N)) :
    ∃ g, Lat.pointGroup t ⟨N, E⟩ = .ok g ∧ IsSymmetryGroup E g ∧ -1 ∈ g := by
  rcases hN with rfl | rfl
  · rw [pointGroup_two]
    obtain ⟨p, h1, h2⟩ := C16_point_group_2d_partial t E hE hr
    rw [pointGroup_two] at h1
    refine ⟨p, h1, h2, ?_⟩
    obtain ⟨T, hT, h⟩ := select_ok t hE (squareExt.map .int) hex2dExt 4
    rw [h1] at h
    cases h
    have hm : NMat.int (!![-1, 0; 0, -1] : Matrix (Fin 2) (Fin 2) ℤ) ∈ T := by
      rcases hT with rfl | rfl
      · exact List.mem_map.mpr ⟨_, by unfold squareExt; decide +kernel, rfl⟩
      · simp [hex2dExt]
    have e : NMat.val (.int (!![-1, 0; 0, -1] : Matrix (Fin 2) (Fin 2) ℤ)) = -1 := by
      rw [show (!![-1, 0; 0, -1] : Matrix (Fin 2) (Fin 2) ℤ) = -1 by decide +kernel]
      change toR (-1) = -1
      rw [toR_neg, toR_one]
    have hT' : Reliable t E (T.map NMat.val) := hr.mono (by
      intro Q hQ
      rcases hT with rfl | rfl
      · rw [map_int_val] at hQ
        exact List.mem_append_left _ hQ
      · exact List.mem_append_right _ hQ)
    refine List.mem_map.mpr ⟨_, List.mem_filter.mpr ⟨hm, ?_⟩, e⟩
    rw [passes_reliable hE hT' _ hm, e]
    exact inPointGroup_neg (inPointGroup_one E)
  · obtain ⟨g, p, h1, h2, h3, h4, -⟩ := C16_point_group_3d t E hE hr
    refine ⟨p, h2, h4, ?_⟩
    obtain ⟨g', hg', hs, -⟩ := C15_laue_group_3d t E hE hr
    rw [h1] at hg'
    cases hg'
    rw [h3]
    exact List.mem_append_right _ (List.mem_map.mpr ⟨1, hs.one, rfl⟩)

theorem latticeGroup_sym (hN : N = 2 ∨ N = 3) (t : Tol) {E : Matrix (Fin N) (Fin N) ℝ} (hE : E.det ≠ 0)
    (hr : Reliable t E (candidates N)) :
    ∃ G, Lat.latticeGroup t ⟨N, E⟩ = .ok G ∧ IsMatGroup G ∧ G.Nodup ∧ (∀ M ∈ G, IsLatticeSym E M) ∧ -1 ∈ G := by
  obtain ⟨g, h1, h2, h3⟩ := pointGroup_neg hN t hE hr
  obtain ⟨-, hn, hg⟩ := conj_list hE h2
  refine ⟨g.map (Lat.conj ⟨N, E⟩), by simp only [Lat.latticeGroup, h1], hg, hn, ?_, ?_⟩
  · intro M hM
    obtain ⟨Q, hQ, rfl⟩ := List.mem_map.mp hM
    refine ⟨Q, ?_, (conj_spec hE (h2.sym Q hQ)).symm⟩
    exact mul_eq_one_comm.mp (h2.sym Q hQ).1
  · exact List.mem_map.mpr ⟨_, h3, conj_neg_one hE⟩

/-! ### The radius -/

theorem quart_pos {EA EMinv : Matrix (Fin N) (Fin N) ℝ} (hA : EA.det ≠ 0) (hM : EMinv.det ≠ 0) {m : ℝ}
    (h : IsLeast {v | ∃ x : Fin N × Fin N → ℝ, ∑ p, x p ^ 2 = 1 ∧ v = quartForm (quartD EA EMinv) x} m) :
    0 < m ∧ ∀ X : Matrix (Fin N) (Fin N) ℝ, ∑ i, ∑ j, X i j ^ 2 = 1 →
      m ≤ ∑ i, ∑ j, (((EA * X * EMinv) * (EA * X * EMinv)ᵀ) i j) ^ 2 := by
  constructor
  · obtain ⟨x, hx, rfl⟩ := h.1
    have e : quartForm (quartD EA EMinv) x = _ :=
      C31_tensor_real EA EMinv (Matrix.of fun i j => x (i, j))
    rw [e]
    set X : Matrix (Fin N) (Fin N) ℝ := Matrix.of fun i j => x (i, j)
    set F := EA * X * EMinv with hF
    by_contra hle
    have h0 : ∑ i, ∑ j, ((F * Fᵀ) i j) ^ 2 = 0 :=
      le_antisymm (not_lt.mp hle) (Finset.sum_nonneg fun i _ => Finset.sum_nonneg fun j _ => sq_nonneg _)
    have h1 : F * Fᵀ = 0 := by
      ext i j
      have a := (Finset.sum_eq_zero_iff_of_nonneg
        (fun i _ => Finset.sum_nonneg fun j _ => sq_nonneg _)).mp h0 i (Finset.mem_univ i)
      have b := (Finset.sum_eq_zero_iff_of_nonneg (fun j _ => sq_nonneg _)).mp a j (Finset.mem_univ j)
      simpa using b
    have h2 : F = 0 := by
      have := Matrix.self_mul_conjTranspose_eq_zero (A := F)
      rw [Matrix.conjTranspose_eq_transpose_of_trivial] at this
      exact this.mp h1
    have h3 : X = 0 := by
      have : EA⁻¹ * F * EMinv⁻¹ = X := by
        rw [hF, Matrix.mul_assoc EA, ← Matrix.mul_assoc, Matrix.nonsing_inv_mul _ (isUnit_det_of_ne hA),
          Matrix.one_mul, Matrix.mul_assoc, Matrix.mul_nonsing_inv _ (isUnit_det_of_ne hM), Matrix.mul_one]
      rw [← this, h2]
      simp
    have h4 : ∀ p, x p = 0 := fun p => congrFun (congrFun h3 p.1) p.2
    simp [h4] at hx
  · intro X hX
    rw [← C31_tensor_real]
    exact h.2 ⟨_, by rw [← hX, Fintype.sum_prod_type], rfl⟩

/-- The setting of a call: the bases of two accepted lattices. -/
theorem call_setting (hN : N = 2 ∨ N = 3) (t : Tol) {o : Outside N} (ho : Sound o)
    {EA EM : Matrix (Fin N) (Fin N) ℝ} (hA : EA.det ≠ 0) (hM : EM.det ≠ 0)
    (hrA : Reliable t EA (candidates N)) (hrM : Reliable t EM (candidates N)) :
    ∃ GA GM, Lat.latticeGroup t ⟨N, EA⟩ = .ok GA ∧ Lat.latticeGroup t ⟨N, EM⟩ = .ok GM ∧
      SearchSetting EA EM EM⁻¹ GA GM (o.quartMin (quartD EA EM⁻¹)) := by
  obtain ⟨GA, a1, a2, -, a3, a4⟩ := latticeGroup_sym hN t hA hrA
  obtain ⟨GM, b1, b2, -, b3, -⟩ := latticeGroup_sym hN t hM hrM
  have hMi : (EM⁻¹).det ≠ 0 := by
    rw [Matrix.det_nonsing_inv, Ring.inverse_eq_inv']
    exact inv_ne_zero hM
  obtain ⟨c1, c2⟩ := quart_pos hA hMi (ho.quart _)
  exact ⟨GA, GM, a1, b1, ⟨isUnit_det_of_ne hA, Matrix.mul_nonsing_inv _ (isUnit_det_of_ne hM), a2, b2, a3, b3,
    a4, c1, c2⟩⟩

/-! ### The volume test -/

theorem volOk_iff {v : ℝ} (h0 : 0 < v) (h1 : v ≤ 1) (L : Matrix (Fin N) (Fin N) ℤ) :
    (1 - v < (L.det : ℝ) ∧ (L.det : ℝ) < 1 + v) ↔ L.det = 1 := by
  constructor
  · rintro ⟨a, b⟩
    have a' : (0 : ℝ) < (L.det : ℝ) := by linarith
    have b' : (L.det : ℝ) < ((2 : ℤ) : ℝ) := by
      rw [show ((2 : ℤ) : ℝ) = 2 by norm_num]
      linarith
    have a'' : 0 < L.det := by exact_mod_cast a'
    have b'' : L.det < 2 := by exact_mod_cast b'
    omega
  · intro h
    rw [h]
    push_cast
    constructor <;> linarith

theorem directSearch_congr {D : Type} [LinearOrder D] (GA GM : List (Matrix (Fin N) (Fin N) ℤ)) (nsol : ℕ)
    (dist : Matrix (Fin N) (Fin N) ℤ → D) (sliceSz : ℕ) (rmax : D → ℝ)
    (p q : Matrix (Fin N) (Fin N) ℤ → Prop) [DecidablePred p] [DecidablePred q] (h : ∀ L, p L ↔ q L)
    (samples : List (Matrix (Fin N) (Fin N) ℤ)) (fuel : ℕ) :
    directSearch GA GM nsol dist sliceSz rmax p samples fuel
      = directSearch GA GM nsol dist sliceSz rmax q samples fuel := by
  obtain rfl : p = q := funext fun L => propext (h L)
  congr!

/-! ### The main result -/

theorem mismatch_eq {EA EM : Matrix (Fin N) (Fin N) ℝ} (L : Matrix (Fin N) (Fin N) ℤ) :
    cauchyDist L EA EM⁻¹ = mismatch EA EM L := by
  simp only [cauchyDist, mismatch, Cinv, Finv, intMat]
  exact Finset.sum_congr rfl fun i _ => Finset.sum_congr rfl fun j _ => (pow_two _).symm

theorem forall₂_right {α β : Type} {R : α → β → Prop} {l : List α} {l' : List β} (h : List.Forall₂ R l l') :
    ∀ b ∈ l', ∃ a ∈ l, R a b := by
  induction h with
  | nil => simp
  | cons hab _ ih =>
    intro b hb
    rcases List.mem_cons.mp hb with rfl | hb
    · exact ⟨_, List.mem_cons_self, hab⟩
    · obtain ⟨a, ha, hr⟩ := ih b hb
      exact ⟨a, List.mem_cons_of_mem _ ha, hr⟩

theorem forall₂_left {α β : Type} {R : α → β → Prop} {l : List α} {l' : List β} (h : List.Forall₂ R l l') :
    ∀ a ∈ l, ∃ b ∈ l', R a b :=
  forall₂_right h.flip

/-- What the model guarantees for the result of the search on two bases, see `C77_lat_cor_partial`. -/
theorem core_outcome (hN : N = 2 ∨ N = 3) (t : Tol) {o : Outside N} (ho : Sound o)
    {EA EM CA CM : Matrix (Fin N) (Fin N) ℝ} (hA : EA.det ≠ 0) (hM : EM.det ≠ 0) (hCA : CA.det ≠ 0)
    (hrA : Reliable t EA (candidates N)) (hrM : Reliable t EM (candidates N))
    {nsol sliceSz : ℕ} {volTh : ℝ} (hn : 1 ≤ nsol) (hsz : 1 ≤ sliceSz) (hv : 0 < volTh) (hv1 : volTh ≤ 1) :
    ∃ GA GM, Lat.latticeGroup t ⟨N, EA⟩ = .ok GA ∧ Lat.latticeGroup t ⟨N, EM⟩ = .ok GM ∧
      IsMatGroup GA ∧ IsMatGroup GM ∧
      (∀ M ∈ GA, IsLatticeSym EA M) ∧ (∀ M ∈ GM, IsLatticeSym EM M) ∧
      (latCorCore t o nsol volTh sliceSz EA EM CA CM = .error .stopIteration ∨
      (∃ trace, latCorCore t o nsol volTh sliceSz EA EM CA CM = .ok (none, trace)) ∨
      ∃ rs trace, latCorCore t o nsol volTh sliceSz EA EM CA CM = .ok (some rs, trace) ∧ nsol ≤ rs.length ∧
        rs.Pairwise (fun r s => r.d ≤ s.d ∧ ¬ Equivalent GA GM r.l s.l) ∧
        (∀ r ∈ rs, r.d = mismatch EA EM r.l ∧ r.l.det ≠ 0 ∧ (N = 3 → 0 < r.l.det) ∧
          ConsistentReport EA EM CA CM r.l r.cor r.u r.lams) ∧
        ((∀ c ∈ trace, PositiveThenZero c.tail) →
          ∀ L : Matrix (Fin N) (Fin N) ℤ, L.det ≠ 0 → (¬ ∃ r ∈ rs, Equivalent GA GM r.l L) →
            ∀ r ∈ rs, r.d < mismatch EA EM L)) := by
  obtain ⟨GA, GM, hGA, hGM, hS⟩ := call_setting hN t ho hA hM hrA hrM
  refine ⟨GA, GM, hGA, hGM, hS.groupA, hS.groupM, hS.symA, hS.symM, ?_⟩
  have hN1 : 1 ≤ N := by rcases hN with rfl | rfl <;> norm_num
  have hN3 : N ≤ 3 := by rcases hN with rfl | rfl <;> norm_num
  have key := directSearch_congr GA GM nsol (fun L => cauchyDist L EA EM⁻¹) sliceSz
    (rmaxFn (o.quartMin (quartD EA EM⁻¹))) _ (fun L => L.det = 1) (volOk_iff (N := N) hv hv1)
    (o.shifts.map fun shift => startL0 EA EM + shift) o.rounds
  simp only [latCorCore, hGA, hGM]
  rw [directSearch_congr GA GM nsol (fun L => cauchyDist L EA EM⁻¹) sliceSz
    (rmaxFn (o.quartMin (quartD EA EM⁻¹))) _ (fun L => L.det = 1) (volOk_iff (N := N) hv hv1)]
  rcases C38_examined GA GM (fun L => cauchyDist L EA EM⁻¹) nsol sliceSz
    (rmaxFn (o.quartMin (quartD EA EM⁻¹))) (fun L => L.det = 1) hS.groupA hS.groupM (setting_class hS) hn hsz hN1
    (by intro L hL; rw [hL]; decide) (fun L => rmaxFn_nonneg hS.pos (C28_nonneg EA EM⁻¹ L))
    (fun L L' hd => rmaxFn_mono hS.pos (C28_nonneg EA EM⁻¹ L) hd)
    (o.shifts.map fun shift => startL0 EA EM + shift) o.rounds with
    h | ⟨t', h⟩ | ⟨sols, ext, dmax, trace, cs, h, hb, hlen⟩
  · left; rw [h]
  · right; left; rw [h]; exact ⟨t', rfl⟩
  · right; right
    obtain ⟨rs, h1, h2, h3⟩ := C39_direct_run hN1 ho.eig (CM := CM) hS hCA
      (fun L => o.order (eqlatcor GA GM L)) (fun L X => ho.visit _ _) nsol sliceSz hn hsz _ _ _ _ _ _ h
    rw [h]
    simp only [h1]
    have htrans : ∀ L L', Equivalent GA GM L L' → Equivalent GA GM L' L := by
      rintro L _ ⟨M1, m1, M2, m2, rfl⟩
      obtain ⟨K1, k1, e1⟩ := hS.groupA.inv_mem M1 m1
      obtain ⟨K2, k2, e2⟩ := hS.groupM.inv_mem M2 m2
      refine ⟨K1, k1, K2, k2, ?_⟩
      have e1' : K1 * M1 = 1 := mul_eq_one_comm.mp e1
      calc L = (K1 * M1) * L * (M2 * K2) := by rw [e1', e2]; simp
        _ = K1 * (M1 * L * M2) * K2 := by simp only [Matrix.mul_assoc]
    have hcomp : ∀ L L' L'', Equivalent GA GM L L' → Equivalent GA GM L' L'' → Equivalent GA GM L L'' := by
      rintro L _ _ ⟨M1, m1, M2, m2, rfl⟩ ⟨K1, k1, K2, k2, rfl⟩
      exact ⟨K1 * M1, hS.groupA.mul_mem _ k1 _ m1, M2 * K2, hS.groupM.mul_mem _ m2 _ k2,
        by simp only [Matrix.mul_assoc]⟩
    refine ⟨rs, trace, rfl, h2, ?_, ?_, ?_⟩
    · have hp : sols.Pairwise (fun s s' => s.d ≤ s'.d ∧ ¬ Equivalent GA GM s.l s'.l) := by
        have p1 := List.pairwise_map.mp hb.sorted
        have p2 := List.pairwise_map.mp hb.inequivalent
        exact p1.and p2
      clear h1 h2 h hb hlen
      induction h3 with
      | nil => exact .nil
      | @cons s r ss rr hsr hrest ih =>
        rw [List.pairwise_cons] at hp
        refine List.pairwise_cons.mpr ⟨fun r' hr' => ?_, ih hp.2⟩
        obtain ⟨s', hs', hq⟩ := forall₂_right hrest r' hr'
        have := hp.1 s' hs'
        refine ⟨by rw [hsr.2.1, hq.2.1]; exact this.1, fun he => this.2 ?_⟩
        exact hcomp _ _ _ hsr.1 (hcomp _ _ _ he (htrans _ _ hq.1))
    · intro r hr
      obtain ⟨s, hs, hq⟩ := forall₂_right h3 r hr
      exact ⟨by rw [← mismatch_eq]; exact hq.2.2.1, hq.2.2.2.1, hq.2.2.2.2.2.1, hq.2.2.2.2.2.2⟩
    · intro htrace L hL hno r hr
      obtain ⟨s, hs, hq⟩ := forall₂_right h3 r hr
      rw [← mismatch_eq, hq.2.1]
      refine C38_cauchy_optimal_partial hN1 hN3 hS nsol sliceSz hn hsz _ _ _ _ _ _ h htrace L hL ?_ s hs
      rintro ⟨s', hs', he⟩
      obtain ⟨r', hr', hq'⟩ := forall₂_left h3 s' hs'
      exact hno ⟨r', hr', hcomp _ _ _ (htrans _ _ hq'.1) he⟩

/-- an accepted lattice has an invertible base and an invertible transformation -/
theorem constructs_det {py : Py} {id : ℤ} {arg : PArg} {E C : Matrix (Fin N) (Fin N) ℝ}
    (h : Constructs py id arg N E C) : (N = 2 ∨ N = 3) ∧ E.det ≠ 0 ∧ C.det ≠ 0 := by
  obtain ⟨L, hN, h1, h2, h3⟩ := h
  obtain ⟨-, -, -, hd, hE⟩ := C21_accepted py id arg N L h1
  obtain ⟨⟨M, hM, hMd⟩, -⟩ := C23_conventional_trans py id arg N L h1
  obtain ⟨N', E', id', p', C'⟩ := L
  dsimp only at hN h2 h3 hd hE hM
  subst hN
  rw [castSq_rfl] at h2 h3
  refine ⟨by omega, hE E h2, ?_⟩
  rw [← h3, hM, toR_det, hMd]
  rcases hd with ⟨a, b, c, d, e⟩ | ⟨a, b, c, d, e⟩
  · rw [if_pos a]
    have : id = 1 ∨ id = 2 ∨ id = 3 ∨ id = 4 ∨ id = 5 ∨ id = 6 ∨ id = 7 ∨ id = 8 ∨ id = 9 ∨ id = 10 ∨ id = 11 ∨
      id = 12 ∨ id = 13 ∨ id = 14 := by omega
    rcases this with rfl | rfl | rfl | rfl | rfl | rfl | rfl | rfl | rfl | rfl | rfl | rfl | rfl | rfl <;>
      norm_num [pointsPerCell3]
  · rw [if_neg (by omega)]
    have : id = 1 ∨ id = 2 ∨ id = 3 ∨ id = 4 ∨ id = 5 := by omega
    rcases this with rfl | rfl | rfl | rfl | rfl <;> norm_num [pointsPerCell2]

theorem latCor_eq {t : Tol} {py : Py} {kw : LatCorKw} {o : Outside (readkw kw.dim 3)} {brava bravm : ℤ}
    {pa pm : PArg} {EA CA EM CM : Matrix (Fin (readkw kw.dim 3)) (Fin (readkw kw.dim 3)) ℝ}
    (hA : Constructs py brava pa (readkw kw.dim 3) EA CA) (hM : Constructs py bravm pm (readkw kw.dim 3) EM CM) :
    latCor t py kw o brava pa bravm pm
      = latCorCore t o (readkw kw.nsol 1) (readkw kw.volTh 0.1) (readkw kw.sliceSz 100) EA EM CA CM := by
  obtain ⟨L, hN, h1, h2, h3⟩ := hA
  obtain ⟨L', hN', h1', h2', h3'⟩ := hM
  obtain ⟨N', E', id', p', C'⟩ := L
  obtain ⟨N'', E'', id'', p'', C''⟩ := L'
  dsimp only at hN h2 h3 hN' h2' h3'
  change C' = _ at h3
  change C'' = _ at h3'
  subst h2 h3 h2' h3'
  unfold latCor
  simp only [h1, h1']
  rw [dif_pos hN.symm, dif_pos hN'.symm]
  rfl

/-- **C77**, proved part: for any two lattices the constructor accepts with a finite base, on which the
comparisons of the group computation are reliable, and any values of the keyword arguments (`nsol` and
`slice_sz` positive, `vol_th` between 0 and 1), a call of `lat_cor` raises `StopIteration`, goes on drawing
or searching, or returns a list of at least `nsol` solutions in the order of their distances, no two of them
equivalent under the symmetries found.  Each distance is that of the correspondence reported with it, and the
other entries are consistent with it; in three dimensions the correspondences have positive determinant.  If
apart from the first coordinate the positive coordinates of the checkpoints of the run are followed by zeros
only, no other correspondence is as close as a returned one.
Missing: the runs of `C77_stop_iteration_fails` and, for the optimality, of `C38_missed_fails`. -/
theorem C77_lat_cor_partial (t : Tol) (py : Py) (kw : LatCorKw) (o : Outside (readkw kw.dim 3)) (ho : Sound o)
    (brava bravm : ℤ) (pa pm : PArg) (EA CA EM CM : Matrix (Fin (readkw kw.dim 3)) (Fin (readkw kw.dim 3)) ℝ)
    (hA : Constructs py brava pa (readkw kw.dim 3) EA CA) (hM : Constructs py bravm pm (readkw kw.dim 3) EM CM)
    (hrA : Reliable t EA (candidates _)) (hrM : Reliable t EM (candidates _))
    (hn : 1 ≤ readkw kw.nsol 1) (hsz : 1 ≤ readkw kw.sliceSz 100)
    (hv : 0 < readkw kw.volTh 0.1) (hv1 : readkw kw.volTh 0.1 ≤ 1) :
    ∃ GA GM, Lat.latticeGroup t ⟨_, EA⟩ = .ok GA ∧ Lat.latticeGroup t ⟨_, EM⟩ = .ok GM ∧
      IsMatGroup GA ∧ IsMatGroup GM ∧
      (∀ M ∈ GA, IsLatticeSym EA M) ∧ (∀ M ∈ GM, IsLatticeSym EM M) ∧
      (latCor t py kw o brava pa bravm pm = .error .stopIteration ∨
      (∃ trace, latCor t py kw o brava pa bravm pm = .ok (none, trace)) ∨
      ∃ rs trace, latCor t py kw o brava pa bravm pm = .ok (some rs, trace) ∧
        readkw kw.nsol 1 ≤ rs.length ∧
        rs.Pairwise (fun r s => r.d ≤ s.d ∧ ¬ Equivalent GA GM r.l s.l) ∧
        (∀ r ∈ rs, r.d = mismatch EA EM r.l ∧ r.l.det ≠ 0 ∧ (readkw kw.dim 3 = 3 → 0 < r.l.det) ∧
          ConsistentReport EA EM CA CM r.l r.cor r.u r.lams) ∧
        ((∀ c ∈ trace, PositiveThenZero c.tail) →
          ∀ L, L.det ≠ 0 → (¬ ∃ r ∈ rs, Equivalent GA GM r.l L) → ∀ r ∈ rs, r.d < mismatch EA EM L)) := by
  obtain ⟨hN, dA, dCA⟩ := constructs_det hA
  obtain ⟨-, dM, -⟩ := constructs_det hM
  rw [latCor_eq hA hM]
  exact core_outcome hN t ho dA dM dCA hrA hrM hn hsz hv hv1

end Verif.Props
