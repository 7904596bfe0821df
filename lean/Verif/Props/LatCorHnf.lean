import Verif.Lemmas.HnfMerge
import Verif.Model.LatCorHnf
import Verif.Props.LatCor
import Verif.Props.LatOpt
import Verif.Props.LLLTerm
import Verif.Props.MainHnf
import Verif.Props.Python2

/-!
# Property C85: what a call of `lat_cor_hnf` returns
-/

namespace Verif.Props

open Matrix Verif.Model Verif.Spec Verif.Lemmas

/-! ### The statement -/

/-- A process pool that has a worker, and in which the result of every task is ready after some time. -/
def Fair : HnfPool → Prop
  | .serial => True
  | .pool size ready => 1 ≤ size ∧ ∀ h, ∃ T, ∀ k, T ≤ k → ready h k = true

/-- The relative change of volume of a sublattice of index `k` is within the threshold. -/
def InWindow (volTh ratio : ℝ) (k : ℤ) : Prop := (1 - volTh) * ratio ≤ k ∧ (k : ℝ) ≤ (1 + volTh) * ratio

/-! ### The order of the results -/

theorem pollRun_stays {τ : Type} {size : ℕ} {ready : τ → ℕ → Bool} {tasks : List τ} {K : ℕ}
    (h : ∀ k, K ≤ k → (pollRun size ready tasks k).queue = []) :
    ∀ k, K ≤ k → pollRun size ready tasks k = pollRun size ready tasks K := by
  intro k hk
  induction k, hk using Nat.le_induction with
  | base => rfl
  | succ k hk ih =>
    rw [pollRun_succ, pollStep, h k hk, ih]

theorem mergeOrder_fair {pool : HnfPool} (hp : Fair pool) (hnfs : List Z3) :
    ∃ order N, (∀ F, N ≤ F → mergeOrder F hnfs pool = some order) ∧ order.Perm hnfs := by
  cases pool with
  | serial => exact ⟨hnfs, 0, fun _ _ => rfl, .refl _⟩
  | pool size ready =>
    obtain ⟨h1, h2⟩ := hp
    obtain ⟨K, hK⟩ := pollRun_terminates (poolsize := size) ready hnfs fun h _ => h2 h
    refine ⟨(pollRun size ready hnfs K).merged, K, fun F hF => ?_, pollRun_done h1 ready hnfs K (hK K le_rfl)⟩
    simp only [mergeOrder, hK F hF, List.length_nil, if_true]
    rw [pollRun_stays hK F hF]

/-! ### One sublattice -/

theorem Finv_sublattice (h l : Z3) (EA EMinv : Matrix (Fin 3) (Fin 3) ℝ) :
    Finv l (EA * intMat ℝ h) EMinv = Finv (h * l) EA EMinv := by
  unfold Finv intMat
  have := Matrix.map_mul (L := h) (M := l) (f := Int.castRingHom ℝ)
  simp only [Int.coe_castRingHom] at this
  rw [this]
  simp only [Matrix.mul_assoc]

theorem namedDist_sublattice (eig : Matrix (Fin 3) (Fin 3) ℝ → Fin 3 → ℝ) (EA EM : Matrix (Fin 3) (Fin 3) ℝ)
    (name : String) (h l : Z3) :
    namedDist eig (EA * intMat ℝ h) EM name l = namedDist eig EA EM name (h * l) := by
  unfold namedDist
  split_ifs
  · simp only [strainDist, Cinv, Finv_sublattice]
  · have e : intMat ℝ (h * l) = intMat ℝ h * intMat ℝ l := by
      unfold intMat
      have := Matrix.map_mul (L := h) (M := l) (f := Int.castRingHom ℝ)
      simpa only [Int.coe_castRingHom] using this
    simp only [ericDist, e, Matrix.transpose_mul, Matrix.mul_assoc]
  · simp only [cauchyDist, Cinv, Finv_sublattice]

theorem namedDist_class {eig : Matrix (Fin 3) (Fin 3) ℝ → Fin 3 → ℝ}
    (heig : ∀ A : Matrix (Fin 3) (Fin 3) ℝ, Aᵀ = A → IsEigenvalues A (eig A)) {EA EM : Matrix (Fin 3) (Fin 3) ℝ}
    (hM : EM.det ≠ 0) {name : String} (hn : name ≠ "Ericksen") {GA GM : List Z3}
    (hGA : ∀ M ∈ GA, IsLatticeSym EA M) (hGM : ∀ M ∈ GM, IsLatticeSym EM M) :
    ∀ L X, Equivalent GA GM L X → namedDist eig EA EM name X = namedDist eig EA EM name L := by
  have hE : EM * EM⁻¹ = 1 := Matrix.mul_nonsing_inv _ (isUnit_iff_ne_zero.mpr hM)
  intro L X hLX
  unfold namedDist
  rw [if_neg hn]
  split_ifs
  · obtain ⟨M1, m1, M2, m2, rfl⟩ := hLX
    exact C30_strain_lattice_groups EA EM EM⁻¹ L eig heig hE M1 M2 (hGA M1 m1) (hGM M2 m2)
  · exact C28_class_function EA EM EM⁻¹ hE GA GM hGA hGM L X hLX

/-- what `lat_opt` does on non-singular bases whose groups are found and whose first one is reduced -/
theorem latOpt_runs {t : Tol} (eig : Matrix (Fin 3) (Fin 3) ℝ → Fin 3 → ℝ)
    {E1 E2 Er1 : Matrix (Fin 3) (Fin 3) ℝ} (h1 : E1.det ≠ 0) (h2 : E2.det ≠ 0)
    (r1 : Reliable t E1 candidates3) (hlll : lll E1 = .base Er1) (kw : HnfKw) (GM : List Z3)
    (hk : readkw kw.dist "Cauchy" = "Cauchy" ∨ readkw kw.dist "Cauchy" = "strain" ∨
      readkw kw.dist "Cauchy" = "Ericksen") :
    ∃ (GA : List Z3) (lo : Z3), IsMatGroup GA ∧ (∀ M ∈ GA, IsLatticeSym E1 M) ∧
      Lat.specialLatticeGroup t ⟨3, E1⟩ = .ok GA ∧ lo.det = 1 ∧
      Er1 = E1 * lo.map (Int.cast : ℤ → ℝ) ∧
      ∀ F, latOpt t eig F E1 E2 (hnfOptions kw GM) =
        (optCore ⟨namedDist eig E1 E2 (readkw kw.dist "Cauchy"), eqlatcor GA GM, readkw kw.nsol 1,
          kw.miniter.getD 3, kw.maxiter.getD (maxiterByNsol (readkw kw.nsol 1))⟩ F lo).bind
          fun r => .ok (r.1.lopt, r.1.dopt) := by
  obtain ⟨GA, hGA, gA, sA⟩ := special_group h1 r1
  obtain ⟨lo, hdet, hlo⟩ := C48_lattice_partial h1 hlll
  have hrint : rintMat (E1⁻¹ * Er1) = lo := by
    have : E1⁻¹ * Er1 = lo.map (Int.cast : ℤ → ℝ) := by
      rw [hlo, ← Matrix.mul_assoc, Matrix.nonsing_inv_mul _ (isUnit_iff_ne_zero.mpr h1), Matrix.one_mul]
    rw [this]
    exact rintMat_toR lo
  have hopt : optDist eig E1 E2 (readkw kw.dist "Cauchy")
      = .ok (some (namedDist eig E1 E2 (readkw kw.dist "Cauchy"))) := by
    rcases hk with h | h | h <;> simp [h, optDist, namedDist, h2]
  refine ⟨GA, lo, gA, sA, hGA, hdet, hlo, fun F => ?_⟩
  simp only [latOpt, hnfOptions, Option.getD_some, if_neg h1, hlll, hrint, hopt, hGA]

/-- What is needed about the results `new` for the sublattice `h`. -/
structure SubResult (t : Tol) (o : HnfOutside) (EA EM : Matrix (Fin 3) (Fin 3) ℝ) (kw : HnfKw) (GM : List Z3)
    (h : Z3) (new : List (Sol Z3 ℝ)) : Prop where
  runs : ∃ N, ∀ F, N ≤ F → searchOne t o F EA EM (hnfOptions kw GM) h = .ok new
  nonempty : new ≠ []
  distances : ∀ s ∈ new, s.d = namedDist o.eig EA EM (readkw kw.dist "Cauchy") s.l
  form : ∀ s ∈ new, ∃ l : Z3, l.det = 1 ∧ s.l = h * l
  sorted : new.Pairwise fun a b => a.d ≤ b.d
  inequivalent : ∃ GS, Lat.specialLatticeGroup t ⟨3, EA * intMat ℝ h⟩ = .ok GS ∧
    ∀ l l' : Z3, new.Pairwise fun a b => a.l = h * l → b.l = h * l' → ¬ Equivalent GS GM l l'
  best : readkw kw.dist "Cauchy" ≠ "Ericksen" →
    ∃ l : Z3, l.det = 1 ∧ LocalMin (namedDist o.eig EA EM (readkw kw.dist "Cauchy")) (h * l) ∧
      ∃ s ∈ new, s.d ≤ namedDist o.eig EA EM (readkw kw.dist "Cauchy") (h * l)

/-- the results for one sublattice -/
theorem searchOne_ok {t : Tol} {o : HnfOutside}
    (heig : ∀ A : Matrix (Fin 3) (Fin 3) ℝ, Aᵀ = A → IsEigenvalues A (o.eig A))
    {EA EM : Matrix (Fin 3) (Fin 3) ℝ} (hA : EA.det ≠ 0) (hM : EM.det ≠ 0) {h : Z3} (hh : h.det ≠ 0)
    (hr : Reliable t (EA * intMat ℝ h) candidates3) {B : Matrix (Fin 3) (Fin 3) ℝ}
    (hB : lll (EA * intMat ℝ h) = .base B) (kw : HnfKw) {GM : List Z3} (gM : IsMatGroup GM)
    (sM : ∀ M ∈ GM, IsLatticeSym EM M) (hn : 1 ≤ readkw kw.nsol 1)
    (hk : readkw kw.dist "Cauchy" = "Cauchy" ∨ readkw kw.dist "Cauchy" = "strain" ∨
      readkw kw.dist "Cauchy" = "Ericksen") :
    ∃ new, SubResult t o EA EM kw GM h new := by
  set name := readkw kw.dist "Cauchy" with hname
  have hE1 : (EA * intMat ℝ h).det ≠ 0 := by
    rw [Matrix.det_mul]; exact mul_ne_zero hA (intMat_det_ne hh)
  obtain ⟨GS, lo, gS, sS, hGS, hlo, -, hrun⟩ := latOpt_runs o.eig hE1 hM hr hB kw GM hk
  set P : OptParams ℝ := ⟨namedDist o.eig (EA * intMat ℝ h) EM name, eqlatcor GS GM, readkw kw.nsol 1,
    kw.miniter.getD 3, kw.maxiter.getD (maxiterByNsol (readkw kw.nsol 1))⟩ with hP
  have hMi : (EM⁻¹).det ≠ 0 := C43_cauchy.det_inv_ne hM
  have hfin : ∀ c, {L | P.dist L < c}.Finite := by
    intro c
    simp only [hP]
    unfold namedDist
    split_ifs
    · exact strain_finite hE1 hMi o.eig heig c
    · exact eric_finite hE1 hM c
    · exact cauchy_finite hE1 hMi c
  obtain ⟨opt, mem, N, hN, hgood⟩ := C45_core (P := P) rfl gS gM hfin lo
  have hdet : ∀ L ∈ opt.lopt, L.det = 1 := by
    intro L hL
    obtain ⟨S, hS, rfl⟩ := hgood.orbit L hL
    rw [det_mul, hlo, hS, mul_one]
  have hlen : opt.lopt.length = opt.dopt.length := by rw [hgood.distances, List.length_map]
  have hzip : opt.lopt.zip opt.dopt = opt.lopt.map fun L => (L, P.dist L) := by
    rw [hgood.distances]
    generalize opt.lopt = l
    induction l with
    | nil => rfl
    | cons a l ih => simp [ih]
  set new : List (Sol Z3 ℝ) := (opt.lopt.zip opt.dopt).map fun p => ⟨h * p.1, p.2⟩ with hnew
  have hnew' : new = opt.lopt.map fun L => ⟨h * L, P.dist L⟩ := by
    rw [hnew, hzip, List.map_map]; rfl
  have hPd : ∀ l, P.dist l = namedDist o.eig EA EM name (h * l) :=
    fun l => namedDist_sublattice o.eig EA EM name h l
  refine ⟨new, ⟨N, fun F hF => ?_⟩, ?_, ?_, ?_, ?_, ?_, ?_⟩
  · rw [searchOne, hrun F, hN F hF]; rfl
  · rw [hnew']; simpa using hgood.nonempty
  · intro s hs
    rw [hnew'] at hs
    obtain ⟨L, hL, rfl⟩ := List.mem_map.mp hs
    exact hPd L
  · intro s hs
    rw [hnew'] at hs
    obtain ⟨L, hL, rfl⟩ := List.mem_map.mp hs
    exact ⟨L, hdet L hL, rfl⟩
  · rw [hnew', List.pairwise_map]
    have := hgood.sorted
    rwa [hgood.distances, List.pairwise_map] at this
  · refine ⟨GS, hGS, fun l l' => ?_⟩
    rw [hnew', List.pairwise_map]
    refine hgood.inequivalent.imp ?_
    intro a b hab ha hb
    have inj : ∀ x y : Z3, h * x = h * y → x = y := fun x y hxy => by
      have := congrArg (fun Z => h.adjugate * Z) hxy
      simp only [← Matrix.mul_assoc, Matrix.adjugate_mul, Matrix.smul_mul, Matrix.one_mul] at this
      exact smul_right_injective _ hh this
    rw [← inj _ _ ha, ← inj _ _ hb]
    exact hab
  · intro hne
    have hcl := namedDist_class heig hM hne (EA := EA * intMat ℝ h) sS sM
    obtain ⟨visited, hinv, -, s, hs, hst, -⟩ := optCore_spec (hN N le_rfl)
    have hvd : ∀ L ∈ visited, L.det = 1 := by
      intro L hL
      obtain ⟨S, hS, rfl⟩ := hinv.orbit L hL
      rw [det_mul, hlo, hS, mul_one]
    have hv0 : ∀ L ∈ visited, L.det ≠ 0 := fun L hL => by rw [hvd L hL]; norm_num
    obtain ⟨-, b2⟩ := C46_best_visited GS GM P.dist P.nsol gS gM hcl hn visited hv0
    have e : opt = visited.foldl (fun st L => (updateSolutions (eqlatcor GS GM) P.nsol P.dist st L).2)
        ⟨[], [], ∅⟩ := hinv.fold
    rw [← e] at b2
    obtain ⟨a, ha, hle⟩ := head_le hcl hn hv0 b2 hs
    refine ⟨s, hvd s hs, ?_, ⟨h * a.1, a.2⟩, List.mem_map.mpr ⟨a, List.mem_of_head? ha, rfl⟩, ?_⟩
    · intro M hM'
      have := (localMin_iff P.dist s).mpr hst M hM'
      rwa [hPd, hPd, ← Matrix.mul_assoc] at this
    · rw [← hPd]; exact hle

/-! ### All sublattices -/

theorem searchAll_ok {t : Tol} {o : HnfOutside} {EA EM : Matrix (Fin 3) (Fin 3) ℝ} {opts : OptKw} {GA GM : List Z3}
    {n : ℕ} {dist : Z3 → ℝ} (hA : IsMatGroup GA) (hM : IsMatGroup GM) (hn : 1 ≤ n)
    {R : Z3 → List (Sol Z3 ℝ) → Prop}
    (hR : ∀ h new, R h new → (∀ s ∈ new, s.d = dist s.l) ∧ new.Pairwise fun a b => a.d ≤ b.d) :
    ∀ (order : List Z3) (seen : List Z3) (st : List (Sol Z3 ℝ) × Finset Z3),
      (∀ h ∈ order, ∃ new N, (∀ F, N ≤ F → searchOne t o F EA EM opts h = .ok new) ∧ R h new) →
      MInv GA GM dist n seen st.1 st.2 →
      ∃ st' news N, (∀ F, N ≤ F → searchAll t o F EA EM opts GA GM n order st = .ok st') ∧
        List.Forall₂ R order news ∧ MInv GA GM dist n (seen ++ news.flatten.map Sol.l) st'.1 st'.2 := by
  intro order
  induction order with
  | nil =>
    intro seen st _ h
    exact ⟨st, [], 0, fun _ _ => rfl, .nil, by simpa using h⟩
  | cons h hs ih =>
    intro seen st hone hst
    obtain ⟨new, N1, h1, h2⟩ := hone h (by simp)
    obtain ⟨d1, d2⟩ := hR h new h2
    have hst' := hnfMerge_inv hA hM hn new hst d1 d2
    obtain ⟨st', news, N2, k1, k2, k3⟩ := ih _ _ (fun x hx => hone x (by simp [hx])) hst'
    refine ⟨st', new :: news, max N1 N2, fun F hF => ?_, .cons h2 k2, by simpa using k3⟩
    rw [searchAll, h1 F (by omega)]
    exact k1 F (by omega)

/-- What the model guarantees for the result of the search on two bases, see `C85_lat_cor_hnf_partial`. -/
theorem hnf_outcome (t : Tol) (py : Py) {o : HnfOutside}
    (heig : ∀ A : Matrix (Fin 3) (Fin 3) ℝ, Aᵀ = A → IsEigenvalues A (o.eig A))
    (hsys : ∀ A, Aᵀ = A → IsEigenSystem A (o.eigsys A).1 (o.eigsys A).2)
    {EA EM CA CM : Matrix (Fin 3) (Fin 3) ℝ} (hA : EA.det ≠ 0) (hM : EM.det ≠ 0) (hCA : CA.det ≠ 0)
    (hrA : Reliable t EA candidates3) (hrM : Reliable t EM candidates3) (kw : HnfKw) (pool : HnfPool)
    (hpool : Fair pool) (hn : 1 ≤ readkw kw.nsol 1)
    (hk : readkw kw.dist "Cauchy" = "Cauchy" ∨ readkw kw.dist "Cauchy" = "strain" ∨
      readkw kw.dist "Cauchy" = "Ericksen")
    (hratio : 0 < EM.det / EA.det) (hv : readkw kw.volTh 0.1 < 1)
    (hw : ∃ k, InWindow (readkw kw.volTh 0.1) (EM.det / EA.det) k)
    (hsub : ∀ h : Z3, IsHNF h → InWindow (readkw kw.volTh 0.1) (EM.det / EA.det) h.det →
      Reliable t (EA * intMat ℝ h) candidates3 ∧ ∃ B, lll (EA * intMat ℝ h) = .base B) :
    ∃ GA GM, Lat.specialLatticeGroup t ⟨3, EA⟩ = .ok GA ∧ Lat.specialLatticeGroup t ⟨3, EM⟩ = .ok GM ∧
      IsMatGroup GA ∧ IsMatGroup GM ∧ (∀ M ∈ GA, IsLatticeSym EA M) ∧ (∀ M ∈ GM, IsLatticeSym EM M) ∧
      ∃ (rs : List (Report 3)) (N : ℕ) (news : List (List (Sol Z3 ℝ))) (red : List Z3),
        (∀ F, N ≤ F → latCorHnfCore t py o kw pool F EA EM CA CM = .ok rs) ∧
        List.Forall₂ (fun h new => (IsHNF h ∧ InWindow (readkw kw.volTh 0.1) (EM.det / EA.det) h.det) ∧
          SubResult t o EA EM kw GM h new) red news ∧
        (∀ M : Z3, InWindow (readkw kw.volTh 0.1) (EM.det / EA.det) |M.det| →
          (∃ h ∈ red, SymRelated GA M h) ∧ (py = .py3 → ∃! h, h ∈ red ∧ SymRelated GA M h)) ∧
        (∃ sols ext, MInv GA GM (namedDist o.eig EA EM (readkw kw.dist "Cauchy")) (readkw kw.nsol 1)
          (news.flatten.map Sol.l) sols ext ∧
          List.Forall₂ (fun s r => r.l = s.l ∧ r.d = s.d ∧ ConsistentReport EA EM CA CM s.l r.cor r.u r.lams)
            sols rs) := by
  obtain ⟨GA, hGA, gA, sA⟩ := special_group hA hrA
  obtain ⟨GM, hGM, gM, sM⟩ := special_group hM hrM
  refine ⟨GA, GM, hGA, hGM, gA, gM, sA, sM, ?_⟩
  obtain ⟨all, hall, red, hred, -, hin, hcov⟩ := C67_nothing_lost py 2 (readkw kw.volTh 0.1) (EM.det / EA.det) hratio hv
    hw GA gA
  obtain ⟨order, N1, ho, hperm⟩ := mergeOrder_fair hpool red
  have hdetpos : ∀ h : Z3, IsHNF h → 0 < h.det := by
    intro h hh
    rw [det_isHNF hh]
    exact Finset.prod_pos fun i _ => hh.diag i
  obtain ⟨st, news, N2, h1, h2, h3⟩ := searchAll_ok (t := t) (o := o) (EA := EA) (EM := EM)
    (opts := hnfOptions kw GM) gA gM hn
    (dist := namedDist o.eig EA EM (readkw kw.dist "Cauchy"))
    (R := fun h new => (IsHNF h ∧ InWindow (readkw kw.volTh 0.1) (EM.det / EA.det) h.det) ∧
      SubResult t o EA EM kw GM h new)
    (fun h new hR => ⟨hR.2.distances, hR.2.sorted⟩) order [] ([], ∅)
    (fun h hh => by
      obtain ⟨i1, i2⟩ := hin h (hperm.mem_iff.mp hh)
      obtain ⟨r1, B, hB⟩ := hsub h i1 i2
      obtain ⟨new, b⟩ := searchOne_ok heig hA hM (hdetpos h i1).ne' r1 hB kw gM sM hn hk
      obtain ⟨N, a⟩ := b.runs
      exact ⟨new, N, a, ⟨i1, i2⟩, b⟩) MInv.nil
  rw [List.nil_append] at h3
  have hdet : ∀ s ∈ st.1, s.l.det ≠ 0 := by
    intro s hs
    obtain ⟨u, hu, he⟩ := List.mem_map.mp (h3.origin s hs)
    obtain ⟨new, hnew, hu⟩ := List.mem_flatten.mp hu
    obtain ⟨h, -, hR⟩ := forall₂_right h2 new hnew
    obtain ⟨l, hl, hul⟩ := hR.2.form u hu
    rw [← he, hul, Matrix.det_mul, hl, mul_one]
    exact (hdetpos h hR.1.1).ne'
  obtain ⟨rs, hrs, hF⟩ := mapExcept_forall₂ (f := report o.eigsys EA EM CA CM)
    (P := fun s r => r.l = s.l ∧ r.d = s.d ∧ ConsistentReport EA EM CA CM s.l r.cor r.u r.lams) st.1
    (fun s hs => C39_report hsys hA hM hCA s (hdet s hs))
  refine ⟨rs, max N1 N2, news, order, fun F hF' => ?_, h2, ?_, st.1, st.2, h3, hF⟩
  · unfold latCorHnfCore
    rw [show Lat.specialLatticeGroup t ⟨3, EA⟩ = .ok GA from hGA,
      show Lat.specialLatticeGroup t ⟨3, EM⟩ = .ok GM from hGM]
    simp only [Run.ofExcept, Run.bind]
    rw [hall]
    simp only [Run.ofExcept, Run.bind]
    rw [hred]
    simp only [Run.ofExcept, Run.bind]
    rw [ho F (by omega)]
    simp only
    rw [h1 F (by omega)]
    simp only
    rw [hrs]
  · intro M hM'
    obtain ⟨k, a, b⟩ := hcov M hM'.1 hM'.2
    refine ⟨⟨k, hperm.mem_iff.mpr a, b⟩, ?_⟩
    rintro rfl
    obtain ⟨all', hall', red', hred', -, huniq⟩ := C67_search_space 2 (readkw kw.volTh 0.1) (EM.det / EA.det)
      hratio hv hw GA gA
    obtain rfl : all = all' := by simpa [hall] using hall'
    obtain rfl : red = red' := by simpa [hred] using hred'
    obtain ⟨k, ⟨a, b⟩, u⟩ := huniq M hM'.1 hM'.2
    exact ⟨k, ⟨hperm.mem_iff.mpr a, b⟩, fun y hy => u y ⟨hperm.mem_iff.mp hy.1, hy.2⟩⟩

theorem latCorHnf_eq {t : Tol} {py : Py} {o : HnfOutside} {kw : HnfKw} {pool : HnfPool} {F : ℕ} {brava bravm : ℤ}
    {pa pm : PArg} {EA CA EM CM : Matrix (Fin 3) (Fin 3) ℝ}
    (hA : Constructs py brava pa 3 EA CA) (hM : Constructs py bravm pm 3 EM CM) :
    latCorHnf t py o kw pool F brava pa bravm pm = latCorHnfCore t py o kw pool F EA EM CA CM := by
  obtain ⟨L, hN, h1, h2, h3⟩ := hA
  obtain ⟨L', hN', h1', h2', h3'⟩ := hM
  obtain ⟨N', E', id', p', C'⟩ := L
  obtain ⟨N'', E'', id'', p'', C''⟩ := L'
  dsimp only at hN h2 h3 hN' h2' h3'
  change C' = _ at h3
  change C'' = _ at h3'
  subst h2 h3 h2' h3'
  unfold latCorHnf
  rw [show BLat.new py brava pa 3 = _ from h1, show BLat.new py bravm pm 3 = _ from h1']
  simp only [Run.ofExcept, Run.bind]
  rw [dif_pos hN.symm, dif_pos hN'.symm]
  rfl

/-- **C85**, proved part: for two lattices the constructor accepts, on which (and on the sublattices to be
searched) the comparisons of the group computation are reliable and `LLL` returns a base, with a positive
ratio of volumes, a threshold below 1 that leaves some index of sublattices, any number of solutions and
iteration bounds, any of the three distances, any pool of processes that does its work and either interpreter, a
call of `lat_cor_hnf` ends with a non-empty list of solutions in the order of their distances, no two of them
equivalent under the symmetries found.  Each distance is that of the correspondence reported with it, whose
change of volume is within the threshold, the other entries are consistent with it, and fewer than `nsol`
solutions are better than any of the list.  For the Cauchy and the strain distance every sublattice within the
threshold is, up to symmetry, the lattice of a local minimum of the distance that is not better than the first
solution.  Missing: lattices outside of the hypotheses (`C85_reflected_fails`), and solutions that the code
leaves out although they are as good as the returned ones (`C85_missed_fails`). -/
theorem C85_lat_cor_hnf_partial (t : Tol) (py : Py) (o : HnfOutside)
    (heig : ∀ A : Matrix (Fin 3) (Fin 3) ℝ, Aᵀ = A → IsEigenvalues A (o.eig A))
    (hsys : ∀ A, Aᵀ = A → IsEigenSystem A (o.eigsys A).1 (o.eigsys A).2)
    (brava bravm : ℤ) (pa pm : PArg) (EA CA EM CM : Matrix (Fin 3) (Fin 3) ℝ)
    (hA : Constructs py brava pa 3 EA CA) (hM : Constructs py bravm pm 3 EM CM)
    (hrA : Reliable t EA candidates3) (hrM : Reliable t EM candidates3) (kw : HnfKw) (pool : HnfPool)
    (hpool : Fair pool) (hn : 1 ≤ readkw kw.nsol 1)
    (hk : readkw kw.dist "Cauchy" = "Cauchy" ∨ readkw kw.dist "Cauchy" = "strain" ∨
      readkw kw.dist "Cauchy" = "Ericksen")
    (hratio : 0 < EM.det / EA.det) (hv : readkw kw.volTh 0.1 < 1)
    (hw : ∃ k, InWindow (readkw kw.volTh 0.1) (EM.det / EA.det) k)
    (hsub : ∀ h : Z3, IsHNF h → InWindow (readkw kw.volTh 0.1) (EM.det / EA.det) h.det →
      Reliable t (EA * intMat ℝ h) candidates3 ∧ ∃ B, lll (EA * intMat ℝ h) = .base B) :
    ∃ GA GM, Lat.specialLatticeGroup t ⟨3, EA⟩ = .ok GA ∧ Lat.specialLatticeGroup t ⟨3, EM⟩ = .ok GM ∧
      ∃ (rs : List (Report 3)) (N : ℕ),
        (∀ F, N ≤ F → latCorHnf t py o kw pool F brava pa bravm pm = .ok rs) ∧ rs ≠ [] ∧
        rs.Pairwise (fun r s => r.d ≤ s.d ∧ ¬ Equivalent GA GM r.l s.l) ∧
        (∀ r ∈ rs, r.d = namedDist o.eig EA EM (readkw kw.dist "Cauchy") r.l ∧
          InWindow (readkw kw.volTh 0.1) (EM.det / EA.det) r.l.det ∧
          ConsistentReport EA EM CA CM r.l r.cor r.u r.lams ∧
          (rs.filter fun s => s.d < r.d).length < readkw kw.nsol 1) ∧
        (readkw kw.dist "Cauchy" ≠ "Ericksen" →
          ∀ M : Z3, InWindow (readkw kw.volTh 0.1) (EM.det / EA.det) |M.det| →
            ∃ L, SymRelated GA M L ∧ LocalMin (namedDist o.eig EA EM (readkw kw.dist "Cauchy")) L ∧
              ∀ r, rs.head? = some r → r.d ≤ namedDist o.eig EA EM (readkw kw.dist "Cauchy") L) := by
  obtain ⟨-, dA, cA⟩ := constructs_det hA
  obtain ⟨-, dM, -⟩ := constructs_det hM
  obtain ⟨GA, GM, hGA, hGM, gA, gM, sA, sM, rs, N, news, red, h1, h2, h3, sols, ext, h4, h5⟩ :=
    hnf_outcome t py heig hsys dA dM cA (CM := CM) hrA hrM kw pool hpool hn hk hratio hv hw hsub
  set dist := namedDist o.eig EA EM (readkw kw.dist "Cauchy") with hdist
  refine ⟨GA, GM, hGA, hGM, rs, N, fun F hF => by rw [latCorHnf_eq hA hM]; exact h1 F hF, ?_, ?_, ?_, ?_⟩
  · intro h0
    rw [h0] at h5
    have hs0 : sols = [] := List.forall₂_nil_right_iff.mp h5
    obtain ⟨k, hk'⟩ := hw
    have hkpos : (0 : ℝ) < k := lt_of_lt_of_le (mul_pos (by linarith) hratio) hk'.1
    have hkpos' : 0 < k := by exact_mod_cast hkpos
    obtain ⟨⟨h, hh, -⟩, -⟩ := h3 (Matrix.diagonal ![1, 1, k]) (by
      rw [Matrix.det_diagonal]
      simpa [Fin.prod_univ_three, abs_of_pos hkpos'] using hk')
    obtain ⟨new, hnew, hR⟩ := forall₂_left h2 h hh
    obtain ⟨s, hs⟩ := List.exists_mem_of_ne_nil _ hR.2.nonempty
    refine h4.nonempty (List.ne_nil_of_mem (a := s.l) ?_) hs0
    exact List.mem_map.mpr ⟨s, List.mem_flatten.mpr ⟨new, hnew, hs⟩, rfl⟩
  · have hp : sols.Pairwise fun s s' => s.d ≤ s'.d ∧ ¬ Equivalent GA GM s.l s'.l :=
      h4.sorted.and h4.inequivalent
    clear h1 h4
    induction h5 with
    | nil => exact .nil
    | @cons s r ss rr hsr hrest ih =>
      rw [List.pairwise_cons] at hp
      refine List.pairwise_cons.mpr ⟨fun r' hr' => ?_, ih hp.2⟩
      obtain ⟨s', hs', hq⟩ := forall₂_right hrest r' hr'
      have := hp.1 s' hs'
      rw [hsr.1, hsr.2.1, hq.1, hq.2.1]
      exact this
  · intro r hr
    obtain ⟨s, hs, e1, e2, e3⟩ := forall₂_right h5 r hr
    refine ⟨by rw [e1, e2]; exact h4.distances s hs, ?_, by rw [e1]; exact e3, ?_⟩
    · obtain ⟨u, hu, he⟩ := List.mem_map.mp (h4.origin s hs)
      obtain ⟨new, hnew, hu⟩ := List.mem_flatten.mp hu
      obtain ⟨h, -, hR⟩ := forall₂_right h2 new hnew
      obtain ⟨l, hl, hul⟩ := hR.2.form u hu
      rw [e1, ← he, hul, Matrix.det_mul, hl, mul_one]
      exact hR.1.2
    · have := h4.few s hs
      rw [← e2] at this
      refine lt_of_eq_of_lt ?_ this
      clear h4 hs hr h1 this
      induction h5 with
      | nil => rfl
      | @cons s' r' ss rr hsr hrest ih =>
        simp only [List.filter_cons, hsr.2.1]
        split_ifs <;> simp [ih]
  · intro hne M hM'
    have hcl := namedDist_class heig dM hne sA sM
    obtain ⟨⟨h, hh, M1, m1, U, hU, hrel⟩, -⟩ := h3 M hM'
    obtain ⟨new, hnew, hR⟩ := forall₂_left h2 h hh
    obtain ⟨l, hl, hmin, s, hs, hsd⟩ := hR.2.best hne
    refine ⟨h * l, ⟨M1, m1, U * l, ?_, by rw [← Matrix.mul_assoc, hrel]⟩, hmin, ?_⟩
    · unfold Unimodular
      rw [Matrix.det_mul, hl, mul_one]
      exact hU
    · intro r hr
      obtain ⟨u, hu, hud⟩ := h4.first hcl s.l (List.mem_map.mpr ⟨s, List.mem_flatten.mpr ⟨new, hnew, hs⟩, rfl⟩)
      refine le_trans ?_ hsd
      rw [hR.2.distances s hs]
      refine le_trans ?_ hud
      cases h5 with
      | nil => simp at hr
      | @cons s' r' ss rr hsr hrest =>
        simp only [List.head?_cons, Option.some.injEq] at hr
        subst hr
        rw [hsr.2.1]
        rcases List.mem_cons.mp hu with rfl | hu
        · exact le_rfl
        · exact (List.pairwise_cons.mp h4.sorted).1 u hu

end Verif.Props
