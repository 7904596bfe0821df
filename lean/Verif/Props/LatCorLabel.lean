import Verif.Props.LatCorRuns

/-!
# Properties C77 (the end of a call) and C78 (the label of the distance)
-/

namespace Verif.Props

open Matrix Verif.Model Verif.Spec Verif.Lemmas

variable {N : ℕ}

set_option synthInstance.maxHeartbeats 400000
set_option synthInstance.maxSize 4000
set_option maxRecDepth 100000

/-- **C77**, the end of a call, proved part: for lattices as in `C77_lat_cor_partial`, and if enough matrices can
be drawn (one of the two conditions of `C72_direct_partial`), every fair sequence of draws and enough rounds let
the call end, with a result or `StopIteration`.  Missing: the calls in which too few inequivalent matrices can
be drawn, which go on drawing (`C72_few`, `C72_square_fails`). -/
theorem C77_ends_partial (t : Tol) (py : Py) (kw : LatCorKw) (o : Outside (readkw kw.dim 3)) (ho : Sound o)
    (brava bravm : ℤ) (pa pm : PArg) (EA CA EM CM : Matrix (Fin (readkw kw.dim 3)) (Fin (readkw kw.dim 3)) ℝ)
    (hA : Constructs py brava pa (readkw kw.dim 3) EA CA) (hM : Constructs py bravm pm (readkw kw.dim 3) EM CM)
    (hrA : Reliable t EA (candidates _)) (hrM : Reliable t EM (candidates _))
    (hn : 1 ≤ readkw kw.nsol 1) (hsz : 1 ≤ readkw kw.sliceSz 100)
    (hv : 0 < readkw kw.volTh 0.1) (hv1 : readkw kw.volTh 0.1 ≤ 1)
    (hb : ∀ GA GM, Lat.latticeGroup t ⟨_, EA⟩ = .ok GA → Lat.latticeGroup t ⟨_, EM⟩ = .ok GM →
      EnoughNearBy GA GM (mismatch EA EM) (startL0 EA EM) (readkw kw.nsol 1) ∨
      ManyNearBy GA GM (startL0 EA EM) (20 * readkw kw.nsol 1))
    (shift : ℕ → Matrix (Fin (readkw kw.dim 3)) (Fin (readkw kw.dim 3)) ℤ) (hf : FairDraws 0 shift) :
    ∃ m, ∀ m' ≥ m, ∃ R, ∀ R' ≥ R, ∀ trace,
      latCor t py kw { o with shifts := (List.range m').map shift, rounds := R' } brava pa bravm pm
        ≠ .ok (none, trace) := by
  obtain ⟨hN, dA, dCA⟩ := constructs_det hA
  obtain ⟨-, dM, -⟩ := constructs_det hM
  obtain ⟨GA, GM, hGA, hGM, hS⟩ := call_setting hN t ho dA dM hrA hrM
  have hN1 : 1 ≤ readkw kw.dim 3 := by omega
  have hN3 : readkw kw.dim 3 ≤ 3 := by omega
  have hd : (fun L => cauchyDist L EA EM⁻¹) = mismatch EA EM := funext fun L => mismatch_eq L
  have hfair : FairDraws (startL0 EA EM) (fun k => startL0 EA EM + shift k) := by
    refine ⟨fun k i j => ?_, fun L hL k => ?_⟩
    · have := hf.1 k i j
      simpa using this
    · obtain ⟨m, hm, he⟩ := hf.2 (L - startL0 EA EM) (fun i j => by simpa using hL i j) k
      exact ⟨m, hm, by simp [he]⟩
  obtain ⟨m, h⟩ := C72_direct_partial hN1 hN3 hS (readkw kw.sliceSz 100) hn hsz
    (by rw [hd]; exact hb GA GM hGA hGM) _ hfair
  refine ⟨m, fun m' hm' => ?_⟩
  obtain ⟨R, hR⟩ := h m' hm'
  refine ⟨R, fun R' hR' trace => ?_⟩
  rw [latCor_eq hA hM]
  unfold latCorCore
  simp only [hGA, hGM]
  rw [directSearch_congr _ _ _ _ _ _ _ (fun L => L.det = 1) (volOk_iff hv hv1), List.map_map]
  have := hR R' hR'
  intro heq
  split at heq
  · cases heq
  · rename_i tr hrun
    exact this _ hrun
  · split at heq
    · cases heq
    · cases heq

/-! ### C78 -/

/-- the distances of the square lattice onto the rhombic one -/
def labDist (L : Matrix (Fin 2) (Fin 2) ℤ) : ℤ :=
  let a := L 0 0
  let b := L 0 1
  let c := L 1 0
  let d := L 1 1
  let q11 := 25 * (a * a) - 30 * (a * b) + 25 * (b * b) - 16
  let q12 := 25 * (a * c) - 15 * (a * d + b * c) + 25 * (b * d)
  let q22 := 25 * (c * c) - 30 * (c * d) + 25 * (d * d) - 16
  q11 * q11 + 2 * (q12 * q12) + q22 * q22

theorem labDist_eq (L : Matrix (Fin 2) (Fin 2) ℤ) :
    cauchyDist L 1 rhombus⁻¹ = (labDist L : ℝ) / 16 ^ 2 := by
  rw [rhombus_inv]
  simp only [cauchyDist, Cinv, Finv, intMat, Fin.sum_univ_two, Matrix.mul_apply, Matrix.one_mul,
    Matrix.sub_apply, Matrix.transpose_apply, Matrix.map_apply, labDist]
  simp
  ring

/-- 68/25 times the Ericksen distance, times 25 -/
def labEric (L : Matrix (Fin 2) (Fin 2) ℤ) : ℤ :=
  let a := L 0 0
  let b := L 0 1
  let c := L 1 0
  let d := L 1 1
  25 * ((a * a + c * c - 1) * (a * a + c * c - 1)) + 2 * ((5 * (a * b + c * d) - 3) * (5 * (a * b + c * d) - 3)) +
    25 * ((b * b + d * d - 1) * (b * b + d * d - 1))

theorem labEric_eq (L : Matrix (Fin 2) (Fin 2) ℤ) : ericDist L 1 rhombus = (labEric L : ℝ) / 68 := by
  simp only [ericDist, intMat, rhombus, Matrix.trace, Matrix.diag, Fin.sum_univ_two, Matrix.mul_apply,
    Matrix.sub_apply, Matrix.transpose_apply, Matrix.map_apply, labEric]
  simp
  ring

theorem row_small (a b : ℤ) (h : 25 * (a * a) - 30 * (a * b) + 25 * (b * b) - 16 ≤ 17) :
    -1 ≤ a ∧ a ≤ 1 ∧ -1 ≤ b ∧ b ≤ 1 := by
  have h1 : a * a + b * b ≤ 3 := by nlinarith [sq_nonneg (a - b)]
  refine ⟨?_, ?_, ?_, ?_⟩ <;> nlinarith [mul_self_nonneg a, mul_self_nonneg b]

theorem lab_table : ∀ a ∈ [(-1 : ℤ), 0, 1], ∀ b ∈ [(-1 : ℤ), 0, 1], ∀ c ∈ [(-1 : ℤ), 0, 1], ∀ d ∈ [(-1 : ℤ), 0, 1],
    (!![a, b; c, d] : Matrix (Fin 2) (Fin 2) ℤ).det ≠ 0 →
      297 ≤ labDist !![a, b; c, d] ∧ (labDist !![a, b; c, d] = 297 → labEric !![a, b; c, d] = 33) := by
  decide +kernel

/-- the smallest distance is 297/256; the Ericksen distance of the correspondences that have it is 33/68 -/
theorem lab_min (L : Matrix (Fin 2) (Fin 2) ℤ) (hL : L.det ≠ 0) :
    297 ≤ labDist L ∧ (labDist L = 297 → labEric L = 33) := by
  by_cases hbig : 297 < labDist L
  · exact ⟨hbig.le, fun h => absurd h hbig.ne'⟩
  have hL' : L = !![L 0 0, L 0 1; L 1 0, L 1 1] := by
    ext i j
    fin_cases i <;> fin_cases j <;> rfl
  have hq : ∀ x y z : ℤ, x * x + 2 * (y * y) + z * z ≤ 297 → x ≤ 17 ∧ z ≤ 17 := by
    intro x y z h
    constructor <;> nlinarith [mul_self_nonneg x, mul_self_nonneg y, mul_self_nonneg z]
  obtain ⟨h1, h2⟩ := hq _ _ _ (not_lt.mp hbig)
  obtain ⟨a1, a2, b1, b2⟩ := row_small _ _ h1
  obtain ⟨c1, c2, d1, d2⟩ := row_small _ _ h2
  have mem : ∀ x : ℤ, -1 ≤ x → x ≤ 1 → x ∈ [(-1 : ℤ), 0, 1] := by
    intro x h1 h2
    simp only [List.mem_cons, List.not_mem_nil, or_false]
    omega
  rw [hL'] at hL ⊢
  exact lab_table _ (mem _ a1 a2) _ (mem _ b1 b2) _ (mem _ c1 c2) _ (mem _ d1 d2) hL

/-- **C78**, proved part: the value in the line of the distance is always the Cauchy distance of the
correspondence, so the label is right if the keyword is left out or is `'Cauchy'`.  Missing: the other values of
the keyword, `C78_label_fails`. -/
theorem C78_label_partial (t : Tol) (py : Py) (kw : LatCorKw) (o : Outside (readkw kw.dim 3)) (ho : Sound o)
    (brava bravm : ℤ) (pa pm : PArg) (EA CA EM CM : Matrix (Fin (readkw kw.dim 3)) (Fin (readkw kw.dim 3)) ℝ)
    (hA : Constructs py brava pa (readkw kw.dim 3) EA CA) (hM : Constructs py bravm pm (readkw kw.dim 3) EM CM)
    (hrA : Reliable t EA (candidates _)) (hrM : Reliable t EM (candidates _))
    (hn : 1 ≤ readkw kw.nsol 1) (hsz : 1 ≤ readkw kw.sliceSz 100)
    (hv : 0 < readkw kw.volTh 0.1) (hv1 : readkw kw.volTh 0.1 ≤ 1)
    (rs : List (Report (readkw kw.dim 3))) (trace : List (List ℤ))
    (hrun : latCor t py kw o brava pa bravm pm = .ok (some rs, trace)) :
    (kw.dist = none ∨ kw.dist = some "Cauchy" → ∀ p ∈ printedDistances kw rs,
      p.1 = " - Assigned distance (Cauchy distance)") ∧
    (printedDistances kw rs).map Prod.snd = rs.map (fun r => mismatch EA EM r.l) := by
  obtain ⟨GA, GM, -, -, -, -, -, -, h⟩ := C77_lat_cor_partial t py kw o ho brava bravm pa pm EA CA EM CM hA hM hrA hrM
    hn hsz hv hv1
  rw [hrun] at h
  rcases h with h | ⟨tr, h⟩ | ⟨rs', tr, h, -, -, h3, -⟩
  · cases h
  · cases h
  · cases h
    refine ⟨?_, ?_⟩
    · rintro hk p hp
      unfold printedDistances at hp
      obtain ⟨r, -, rfl⟩ := List.mem_map.mp hp
      rcases hk with hk | hk <;> rw [hk] <;> dsimp only <;> decide +kernel
    · unfold printedDistances
      rw [List.map_map]
      exact List.map_congr_left fun r hr => (h3 r hr).1

/-- **C78**: the keyword `dist` has no effect on the returned solutions. -/
theorem C78_dist_ignored (t : Tol) (py : Py) (kw : LatCorKw) (s : Option String)
    (o : Outside (readkw kw.dim 3)) (brava bravm : ℤ) (pa pm : PArg) :
    latCor t py { kw with dist := s } o brava pa bravm pm = latCor t py kw o brava pa bravm pm := rfl

/-- the draws: the best correspondence and nineteen times a shear -/
def labSamples : List (Matrix (Fin 2) (Fin 2) ℤ) := !![1, 0; 1, 1] :: List.replicate 19 !![1, 0; -1, 1]

theorem lab_init : initLoop (eqlatcor squareExt pm1) (fun L => L.det ≠ 0) (fun L => L.det = 1) 1
    labDist labSamples 20 ([], ∅, none)
      = .ok (some ([⟨!![1, 0; 1, 1], 297⟩], eqlatcor squareExt pm1 !![1, 0; 1, 1], some 297)) := by
  decide +kernel

theorem square_rhombus_setting {o : Outside 2} (ho : Sound o) :
    SearchSetting 1 rhombus rhombus⁻¹ squareExt pm1 (o.quartMin (quartD 1 rhombus⁻¹)) := by
  have hE : rhombus.det ≠ 0 := by rw [rhombus_det]; norm_num
  have hI : (rhombus⁻¹).det ≠ 0 := by rw [rhombus_inv]; simp [Matrix.det_fin_two]
  obtain ⟨c1, c2⟩ := quart_pos (EA := 1) (by simp) hI (ho.quart _)
  have hR := rhombus_setting ho
  refine ⟨by simp, hR.invM, ?_, pm1_matGroup, ?_, hR.symM, by unfold squareExt; decide +kernel, c1, c2⟩
  · refine ⟨?_, ?_, ?_⟩ <;> unfold squareExt <;> decide +kernel
  · intro M hM
    have key : ∀ M ∈ squareExt, Mᵀ * M = 1 := by unfold squareExt; decide +kernel
    refine ⟨toR M, ?_, ?_⟩
    · have := congrArg toR (key M hM)
      rw [toR_mul, toR_one] at this
      exact this
    · simp [toR]

/-- **C78** fails: with `dist='Ericksen'` the line of the distance is labelled as an Ericksen distance, but the
number is another one.  Square lattice onto the lattice of two unit vectors with the angle `arccos (3/5)`. -/
theorem C78_label_fails (t : Tol) (ht : t = .code ∨ t = .exact) (py : Py) :
    ∃ o : Outside 2, Sound o ∧ (∀ s ∈ o.shifts, ∀ i j, |s i j| ≤ 1) ∧
      ∃ (rs : List (Report 2)) (trace : List (List ℤ)),
        latCor t py { dim := some 2, dist := some "Ericksen" } o 1 (.num (.float [1])) 5 rhombusParam
          = .ok (some rs, trace) ∧
        ∃ r ∈ rs, (" - Assigned distance (Ericksen distance):", r.d) ∈
            printedDistances { dim := some 2, dist := some "Ericksen" } rs ∧
          r.d ≠ ericDist r.l 1 rhombus := by
  have htol : TolOK t := by rcases ht with rfl | rfl; exacts [tolOK_code, tolOK_exact]
  obtain ⟨o, ho, hs, hr⟩ := sound_exists (N := 2) (by norm_num)
    (labSamples.map (fun L => L - !![1, 0; 0, 0])) 1
  refine ⟨o, ho, by rw [hs]; decide +kernel, ?_⟩
  have hS := square_rhombus_setting ho
  have hcall : latCor t py { dim := some 2, dist := some "Ericksen" } o 1 (.num (.float [1])) 5 rhombusParam
      = latCorCore t o 1 0.1 100 1 rhombus 1 1 :=
    latCor_eq (kw := { dim := some 2, dist := some "Ericksen" }) (square_constructs py) (rhombus_constructs py)
  have hL0 : startL0 1 rhombus = !![1, 0; 0, 0] := by
    unfold startL0
    rw [inv_one, Matrix.one_mul]
    ext i j
    fin_cases i <;> fin_cases j <;> norm_num [rhombus]
  have e0 : (labSamples.map (fun L => L - !![1, 0; 0, 0])).map (fun shift => !![1, 0; 0, 0] + shift)
      = labSamples := by
    rw [List.map_map]
    conv_rhs => rw [← List.map_id labSamples]
    exact List.map_congr_left fun L _ => by simp
  have e : (fun L => cauchyDist L 1 rhombus⁻¹) = fun L => (fun z : ℤ => (z : ℝ) / 16 ^ 2) (labDist L) :=
    funext labDist_eq
  have hmono := strictMono_div (16 ^ 2) (by norm_num)
  have hclass : ∀ L X, Equivalent squareExt pm1 L X → labDist X = labDist L := by
    intro L X h
    have := setting_class hS L X h
    rw [labDist_eq, labDist_eq] at this
    exact hmono.injective this
  have hsym := eqlatcor_isSymmetry hS.groupA pm1_matGroup hclass
  have hgood : ∃ seen, Good squareExt pm1 1 labDist seen
      ([⟨!![1, 0; 1, 1], 297⟩], eqlatcor squareExt pm1 !![1, 0; 1, 1], 297) := by
    rcases initLoop_spec hsym le_rfl (volOk := fun L => L.det = 1) (by intro L hL; rw [hL]; decide) labSamples 20
      [] [] ∅ none Inv.nil ExtInv.nil rfl (by simp) with h | ⟨acc, s1, e1, d1, h1, -, h3⟩
    · rw [lab_init] at h; cases h
    · rw [lab_init] at h1
      cases h1
      exact ⟨_, h3⟩
  obtain ⟨seen, hgood⟩ := hgood
  obtain ⟨st, hst⟩ := searchLoop_bottom hsym le_rfl (sz := 100)
    (rmax := fun d : ℤ => rmaxFn (o.quartMin (quartD 1 rhombus⁻¹)) ((d : ℝ) / 16 ^ 2)) 0
    (List.replicate (2 ^ 2) 0) seen _ hgood (fun L hL => (lab_min L hL).1)
  have hrun : directSearch squareExt pm1 1 (fun L => cauchyDist L 1 rhombus⁻¹) 100
      (rmaxFn (o.quartMin (quartD 1 rhombus⁻¹))) (fun L => L.det = 1) labSamples 1
      = .ok (some (mapState (fun z : ℤ => (z : ℝ) / 16 ^ 2) st), [List.replicate (2 ^ 2) 0]) := by
    rw [e, directSearch_map hmono]
    unfold directSearch
    rw [show 20 * 1 = 20 from rfl, lab_init]
    simp only
    rw [hst]
    rfl
  set st' := mapState (fun z : ℤ => (z : ℝ) / 16 ^ 2) st with hst'
  obtain ⟨sols, ext, dmax⟩ := st'
  obtain ⟨rs, h1, h2, h3⟩ := C39_direct_run (N := 2) (by norm_num) ho.eig (CA := 1) (CM := 1) hS (by simp)
    (fun L => o.order (eqlatcor squareExt pm1 L)) (fun L X => ho.visit _ _) 1 100 le_rfl (by norm_num) _ _ _ _ _ _
    hrun
  have hopt := C38_cauchy_optimal_partial (N := 2) (by norm_num) (by norm_num) hS 1 100 le_rfl (by norm_num)
    _ _ _ _ _ _ hrun (by simp [PositiveThenZero])
  refine ⟨rs, [List.replicate (2 ^ 2) 0], ?_, ?_⟩
  · rw [hcall]
    unfold latCorCore
    simp only [square_group_eq t htol, rhombus_group t ht]
    rw [directSearch_congr _ _ _ _ _ _ _ (fun L => L.det = 1)
      (volOk_iff (N := 2) (v := 0.1) (by norm_num) (by norm_num)), hL0, hs, hr, e0, hrun]
    simp only [h1]
    rfl
  have hne : sols ≠ [] := by
    rintro rfl
    cases h3
    simp at h2
  obtain ⟨s, ss, rfl⟩ := List.exists_cons_of_ne_nil hne
  -- the distance of the best solution
  have hbest : ∃ s' ∈ s :: ss, labDist s'.l = 297 := by
    by_cases hex : ∃ s' ∈ s :: ss, Equivalent squareExt pm1 s'.l !![1, 0; 1, 1]
    · obtain ⟨s', hs', h⟩ := hex
      exact ⟨s', hs', by rw [← hclass _ _ h]; decide +kernel⟩
    · exfalso
      have hlt := hopt !![1, 0; 1, 1] (by decide +kernel) hex s List.mem_cons_self
      obtain ⟨r, hr1, hq⟩ := forall₂_left h3 s List.mem_cons_self
      have hdet : r.l.det ≠ 0 := hq.2.2.2.1
      rw [← hq.2.1, hq.2.2.1, labDist_eq, labDist_eq] at hlt
      have h4 := hmono.lt_iff_lt.mp hlt
      have h5 := (lab_min r.l hdet).1
      have h6 : labDist !![1, 0; 1, 1] = 297 := by decide +kernel
      omega
  obtain ⟨s', hs', h297⟩ := hbest
  obtain ⟨r, hr1, hq⟩ := forall₂_left h3 s' hs'
  have hdet : r.l.det ≠ 0 := hq.2.2.2.1
  have hl : labDist r.l = 297 := by rw [hclass _ _ hq.1, h297]
  refine ⟨r, hr1, ?_, ?_⟩
  · unfold printedDistances
    refine List.mem_map.mpr ⟨r, hr1, ?_⟩
    rw [show distLabel (readkw (some "Ericksen") "Cauchy") = " - Assigned distance (Ericksen distance):" by
      decide +kernel]
  · rw [hq.2.2.1, labDist_eq, labEric_eq, hl, (lab_min r.l hdet).2 hl]
    norm_num

/-! ### Cases that meet the hypotheses -/

/-- all parameters that describe a cell meet the hypotheses on the lattice, with exact tests -/
theorem constructs_3d (py : Py) (id : ℤ) (h1 : 1 ≤ id) (h2 : id ≤ 14) (x : Nums)
    (he : py = .py3 ∨ x.isInt = false) (hpos : ∀ v ∈ x.vals, 0 < v)
    (hlen : x.vals.length = paramCount3 id) (hf : Feasible3 (angles3 id x.get)) :
    ∃ E C, Constructs py id (.list x) 3 E C ∧ Reliable .exact E (candidates 3) := by
  obtain ⟨E, C, B, h, -⟩ := C22_cell_3d_partial py id h1 h2 x he hpos hlen hf
  exact ⟨E, C, ⟨_, rfl, h, rfl, rfl⟩, .inl rfl⟩

/-- `C77_lat_cor_partial`, `C77_symmetries_partial`: face-centred cubic and body-centred tetragonal -/
example (py : Py) : ∃ (o : Outside 3) (EA CA EM CM : Matrix (Fin 3) (Fin 3) ℝ), Sound o ∧
    Constructs py 2 (.list (.float [2])) 3 EA CA ∧ Constructs py 7 (.list (.float [1.4, 2.1])) 3 EM CM ∧
    Reliable .exact EA (candidates 3) ∧ Reliable .exact EM (candidates 3) := by
  obtain ⟨o, ho, -, -⟩ := sound_exists (N := 3) (by norm_num) [] 0
  have h90 : cosDeg 90 = 0 := by
    rw [cosDeg, show (90 : ℝ) * Real.pi / 180 = Real.pi / 2 by ring, Real.cos_pi_div_two]
  have hf : Feasible3 ![90, 90, 90] := by
    refine ⟨fun i => by fin_cases i <;> simp <;> norm_num, ?_⟩
    simp [h90]
  obtain ⟨EA, CA, hA, rA⟩ := constructs_3d py 2 (by norm_num) (by norm_num) (.float [2]) (.inr rfl)
    (by simp [Nums.vals]) (by simp [Nums.vals, paramCount3]) (by simpa [angles3] using hf)
  obtain ⟨EM, CM, hM, rM⟩ := constructs_3d py 7 (by norm_num) (by norm_num) (.float [1.4, 2.1]) (.inr rfl)
    (by simp [Nums.vals]; norm_num) (by simp [Nums.vals, paramCount3]) (by simpa [angles3] using hf)
  exact ⟨o, EA, CA, EM, CM, ho, hA, hM, rA, rM⟩

/-- `C77_lat_cor_partial`, `C78_label_partial`: two-dimensional lattices -/
example (py : Py) : ∃ o : Outside 2, Sound o ∧ Constructs py 1 (.num (.float [1])) 2 1 1 ∧
    Constructs py 5 rhombusParam 2 rhombus 1 ∧ Reliable .exact (1 : Matrix (Fin 2) (Fin 2) ℝ) (candidates 2) ∧
    Reliable .exact rhombus (candidates 2) := by
  obtain ⟨o, ho, -, -⟩ := sound_exists (N := 2) (by norm_num) [] 0
  exact ⟨o, ho, square_constructs py, rhombus_constructs py, .inl rfl, .inl rfl⟩

/-- `C77_ends_partial`: the square lattice onto itself, one solution -/
example (py : Py) : ∃ o : Outside 2, Sound o ∧ ∃ shift, FairDraws 0 shift ∧
    ∃ m, ∀ m' ≥ m, ∃ R, ∀ R' ≥ R, ∀ trace,
      latCor .exact py { dim := some 2 } { o with shifts := (List.range m').map shift, rounds := R' }
        1 (.num (.float [1])) 1 (.num (.float [1])) ≠ .ok (none, trace) := by
  obtain ⟨o, ho, -, -⟩ := sound_exists (N := 2) (by norm_num) [] 0
  obtain ⟨shift, hf⟩ := fairDraws_exist (0 : Matrix (Fin 2) (Fin 2) ℤ)
  refine ⟨o, ho, shift, hf, C77_ends_partial .exact py { dim := some 2 } o ho 1 1 _ _ 1 1 1 1 (square_constructs py)
    (square_constructs py) (.inl rfl) (.inl rfl) le_rfl (by norm_num [readkw]) (by norm_num [readkw])
    (by norm_num [readkw]) ?_ shift hf⟩
  intro GA GM hGA hGM
  replace hGA := (square_group_eq .exact tolOK_exact).symm.trans hGA
  replace hGM := (square_group_eq .exact tolOK_exact).symm.trans hGM
  cases hGA
  cases hGM
  left
  change EnoughNearBy squareExt squareExt (mismatch (1 : Matrix (Fin 2) (Fin 2) ℝ) 1) (startL0 1 1) 1
  rw [startL0_one]
  refine ⟨!![1, 1; 0, 1], by unfold NearBy; decide +kernel, by decide +kernel, [1], rfl, by simp, ?_⟩
  intro b hb
  rw [List.mem_singleton] at hb
  subst hb
  refine ⟨by unfold NearBy; decide +kernel, by simp, ?_⟩
  rw [← mismatch_eq, ← mismatch_eq, inv_one, squareDist_eq, squareDist_eq]
  exact strictMono_div 1 one_pos (by decide +kernel)

end Verif.Props
