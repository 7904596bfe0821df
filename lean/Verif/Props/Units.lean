import Verif.Model.LatCorHnf
import Verif.Props.LLLSimilar
import Verif.Props.Bravais

/-!
# C90: the results do not depend on the unit of length

Multiplying all lengths among the lattice parameters by one positive factor changes nothing but the scale of the
bases: the symmetry groups and the results of both versions of `lat_cor` are the same.
-/

namespace Verif.Props

open Matrix Verif.Spec Verif.Model Verif.Lemmas

/-- How many of the parameters of a Bravais lattice are lengths; they come first, angles follow. -/
def lengthCount (dim : ℕ) (id : ℤ) : ℕ :=
  if dim = 2 then (if id = 1 ∨ id = 4 then 1 else 2)
  else if id = 1 ∨ id = 2 ∨ id = 3 ∨ id = 5 then 1
  else if id = 4 ∨ id = 6 ∨ id = 7 then 2
  else 3

/-- The parameters of the lattice in another unit of length. -/
def inUnit (dim : ℕ) (id : ℤ) (c : ℝ) (l : List ℝ) : List ℝ :=
  (l.take (lengthCount dim id)).map (c * ·) ++ l.drop (lengthCount dim id)

theorem getD_inUnit (k : ℕ) (c : ℝ) (l : List ℝ) (i : ℕ) :
    ((l.take k).map (c * ·) ++ l.drop k).getD i 0 = if i < k then c * l.getD i 0 else l.getD i 0 := by
  induction l generalizing k i with
  | nil => simp
  | cons a l ih =>
    cases k with
    | zero => simp
    | succ k =>
      cases i with
      | zero => simp
      | succ i =>
        simpa using ih k i

theorem length_inUnit (dim : ℕ) (id : ℤ) (c : ℝ) (l : List ℝ) : (inUnit dim id c l).length = l.length := by
  unfold inUnit
  simp
  omega

theorem pos_inUnit {dim : ℕ} {id : ℤ} {c : ℝ} (hc : 0 < c) {l : List ℝ} :
    (∃ v ∈ inUnit dim id c l, v ≤ 0) ↔ ∃ v ∈ l, v ≤ 0 := by
  unfold inUnit
  generalize lengthCount dim id = k
  conv_rhs => rw [← List.take_append_drop k l]
  simp only [List.mem_append, List.mem_map]
  constructor
  · rintro ⟨v, ⟨w, hw, rfl⟩ | hv, h0⟩
    · exact ⟨w, .inl hw, by
        by_contra hc'
        exact absurd h0 (not_le.mpr (mul_pos hc (not_le.mp hc')))⟩
    · exact ⟨v, .inr hv, h0⟩
  · rintro ⟨v, hv | hv, h0⟩
    · exact ⟨c * v, .inl ⟨v, hv, rfl⟩, mul_nonpos_of_nonneg_of_nonpos hc.le h0⟩
    · exact ⟨v, .inr hv, h0⟩

theorem primBase3_scale (py : Py) {x y : Bool} (hd : py = .py3 ∨ (x = false ∧ y = false)) {id : ℤ} (h1 : 1 ≤ id)
    (h2 : id < 15) {c : ℝ} (hc : 0 < c) (p : ℕ → ℝ) :
    primBase3 py y id (fun i => if i < lengthCount 3 id then c * p i else p i)
      = (primBase3 py x id p).map (c • ·) := by
  have hx : ∀ u v : ℝ, npdiv py x u v = u / v := by
    intro u v
    rcases hd with rfl | ⟨rfl, rfl⟩ <;> simp [npdiv]
  have hy : ∀ u v : ℝ, npdiv py y u v = u / v := by
    intro u v
    rcases hd with rfl | ⟨rfl, rfl⟩ <;> simp [npdiv]
  have hdiv : ∀ u v : ℝ, c * u / (c * v) = u / v := fun u v => mul_div_mul_left u v hc.ne'
  unfold primBase3
  simp only [hx, hy]
  interval_cases id
  all_goals norm_num [lengthCount]
  all_goals try rw [hdiv]
  all_goals first
    | (ext i j; fin_cases i <;> fin_cases j <;> simp <;> ring)
    | (split_ifs
       · rfl
       · simp only [Option.map_some, Option.some.injEq]
         ext i j; fin_cases i <;> fin_cases j <;> simp <;> ring)

theorem primBase2_scale {id : ℤ} (h1 : 1 ≤ id) (h2 : id < 6) (c : ℝ) (p : ℕ → ℝ) :
    primBase2 id (fun i => if i < lengthCount 2 id then c * p i else p i) = c • primBase2 id p := by
  unfold primBase2
  interval_cases id
  all_goals norm_num [lengthCount]
  all_goals (ext i j; fin_cases i <;> fin_cases j <;> simp <;> ring)

/-- The argument `y` gives the same lattice as `x` in another unit of length.  (Under Python 2 the divisions of
`bravais_lattice.py` are floor divisions for integers, so there both must be floating point numbers.) -/
inductive SameInUnit (py : Py) (dim : ℕ) (id : ℤ) (c : ℝ) : PArg → PArg → Prop
  | num {x y : Nums} (h : y.vals = inUnit dim id c x.vals)
      (hd : py = .py3 ∨ (x.isInt = false ∧ y.isInt = false)) : SameInUnit py dim id c (.num x) (.num y)
  | list {x y : Nums} (h : y.vals = inUnit dim id c x.vals)
      (hd : py = .py3 ∨ (x.isInt = false ∧ y.isInt = false)) : SameInUnit py dim id c (.list x) (.list y)

theorem initBase_scale {N : ℕ} {c : ℝ} (hc : 0 < c) (E : Option (Matrix (Fin N) (Fin N) ℝ)) :
    initBase (E.map (c • ·)) = initBase E := by
  cases E with
  | none => rfl
  | some E =>
    have hdet : ((c • E).det ^ 2 ≤ 0) ↔ (E.det ^ 2 ≤ 0) := by
      rw [Matrix.det_smul, mul_pow]
      have hp : 0 < (c ^ Fintype.card (Fin N)) ^ 2 := by positivity
      constructor
      · intro h
        by_contra h'
        exact absurd h (not_le.mpr (mul_pos hp (not_le.mp h')))
      · intro h
        exact mul_nonpos_of_nonneg_of_nonpos hp.le h
    have e1 : castSq rfl (rfl : N = N) (c • E) = c • E := rfl
    have e2 : castSq rfl (rfl : N = N) E = E := rfl
    simp only [Option.map_some, initBase, Lat.new, dite_true, e1, e2, hdet]
    split_ifs <;> rfl

theorem nums_scale {py : Py} {dim : ℕ} {id : ℤ} {c : ℝ} (hc : 0 < c) (hdim : dim = 2 ∨ dim = 3) {x y : Nums}
    (h : y.vals = inUnit dim id c x.vals) (hd : py = .py3 ∨ (x.isInt = false ∧ y.isInt = false)) :
    let f := fun z : Nums => BLat.new py id (.list z) dim
    (∃ e, f x = .error e ∧ f y = .error e) ∨
      ∃ (n : ℕ) (E : Option (Matrix (Fin n) (Fin n) ℝ)) (C : Matrix (Fin n) (Fin n) ℝ),
        f x = .ok ⟨n, E, id, x, C⟩ ∧ f y = .ok ⟨n, E.map (c • ·), id, y, C⟩ := by
  intro f
  have hp : (∃ v ∈ y.vals, v ≤ 0) ↔ ∃ v ∈ x.vals, v ≤ 0 := by rw [h]; exact pos_inUnit hc
  have hl : y.vals.length = x.vals.length := by rw [h]; exact length_inUnit _ _ _ _
  have hg : y.get = fun i => if i < lengthCount dim id then c * x.get i else x.get i := by
    funext i
    simp only [Nums.get, h, inUnit]
    exact getD_inUnit _ _ _ _
  by_cases h0 : ∃ v ∈ x.vals, v ≤ 0
  · left
    exact ⟨.valueError, by simp only [f, BLat.new, checkParam, if_pos h0], by simp only [f, BLat.new, checkParam, if_pos (hp.mpr h0)]⟩
  have h0' : ¬ ∃ v ∈ y.vals, v ≤ 0 := fun hh => h0 (hp.mp hh)
  rcases hdim with rfl | rfl
  · by_cases hid : 1 ≤ id ∧ id < 6
    · by_cases hlen : x.vals.length = paramLen2.getD (id - 1).toNat 0
      · have hb : some (primBase2 id y.get) = (some (primBase2 id x.get)).map (c • ·) := by
          rw [hg, primBase2_scale hid.1 hid.2]; rfl
        have hi := initBase_scale hc (some (primBase2 id x.get))
        rw [← hb] at hi
        cases hx : initBase (some (primBase2 id x.get)) with
        | error e =>
          left
          exact ⟨e, by simp [f, BLat.new, checkParam, h0, hid, hlen, hx], by simp [f, BLat.new, checkParam, h0', hid, hlen, hl, hi, hx]⟩
        | ok u =>
          right
          refine ⟨2, some (primBase2 id x.get), (centring2 id)⁻¹, ?_, ?_⟩
          · simp [f, BLat.new, checkParam, h0, hid, hlen, hx]
          · rw [← hb]
            simp [f, BLat.new, checkParam, h0', hid, hlen, hl, hi, hx]
      · left
        exact ⟨.valueError, by
          simp [f, BLat.new, checkParam, h0, hid]
          exact fun hh => absurd (by simpa using hh) hlen, by
          simp [f, BLat.new, checkParam, h0', hid, hl]
          exact fun hh => absurd (by simpa using hh) hlen⟩
    · left
      exact ⟨.valueError, by simp [f, BLat.new, checkParam, h0, hid], by simp [f, BLat.new, checkParam, h0', hid]⟩
  · by_cases hid : 1 ≤ id ∧ id < 15
    · by_cases hlen : x.vals.length = paramLen3.getD (id - 1).toNat 0
      · have hb : primBase3 py y.isInt id y.get = (primBase3 py x.isInt id x.get).map (c • ·) := by
          rw [hg, primBase3_scale py hd hid.1 hid.2 hc]
        have hi := initBase_scale hc (primBase3 py x.isInt id x.get)
        rw [← hb] at hi
        cases hx : initBase (primBase3 py x.isInt id x.get) with
        | error e =>
          left
          exact ⟨e, by simp [f, BLat.new, checkParam, h0, hid, hlen, hx], by simp [f, BLat.new, checkParam, h0', hid, hlen, hl, hi, hx]⟩
        | ok u =>
          right
          refine ⟨3, primBase3 py x.isInt id x.get, (centring3 id)⁻¹, ?_, ?_⟩
          · simp [f, BLat.new, checkParam, h0, hid, hlen, hx]
          · rw [← hb]
            simp [f, BLat.new, checkParam, h0', hid, hlen, hl, hi, hx]
      · left
        exact ⟨.valueError, by
          simp [f, BLat.new, checkParam, h0, hid]
          exact fun hh => absurd (by simpa using hh) hlen, by
          simp [f, BLat.new, checkParam, h0', hid, hl]
          exact fun hh => absurd (by simpa using hh) hlen⟩
    · left
      exact ⟨.valueError, by simp [f, BLat.new, checkParam, h0, hid], by simp [f, BLat.new, checkParam, h0', hid]⟩

/-- C90, the lattice: in another unit of length the constructor raises the same exception, or returns an object
with the same identifier and the same centring matrix whose base vectors are those of the first times `c`. -/
theorem C90_bravais {py : Py} {dim : ℕ} (hdim : dim = 2 ∨ dim = 3) {id : ℤ} {c : ℝ} (hc : 0 < c) {pa pa' : PArg}
    (h : SameInUnit py dim id c pa pa') :
    (∃ e, BLat.new py id pa dim = .error e ∧ BLat.new py id pa' dim = .error e) ∨
      ∃ (n : ℕ) (E : Option (Matrix (Fin n) (Fin n) ℝ)) (x y : Nums) (C : Matrix (Fin n) (Fin n) ℝ),
        BLat.new py id pa dim = .ok ⟨n, E, id, x, C⟩ ∧
        BLat.new py id pa' dim = .ok ⟨n, E.map (c • ·), id, y, C⟩ := by
  cases h with
  | @num x y h hd =>
    rcases nums_scale hc hdim h hd with ⟨e, h1, h2⟩ | ⟨n, E, C, h1, h2⟩
    · exact .inl ⟨e, h1, h2⟩
    · exact .inr ⟨n, E, x, y, C, h1, h2⟩
  | @list x y h hd =>
    rcases nums_scale hc hdim h hd with ⟨e, h1, h2⟩ | ⟨n, E, C, h1, h2⟩
    · exact .inl ⟨e, h1, h2⟩
    · exact .inr ⟨n, E, x, y, C, h1, h2⟩

/-! ### The symmetry groups -/

theorem inv_smul_mul_smul {n : ℕ} {c : ℝ} (hc : c ≠ 0) (A B : Matrix (Fin n) (Fin n) ℝ) :
    (c • A)⁻¹ * (c • B) = A⁻¹ * B := by
  have h : (c • A)⁻¹ = c⁻¹ • A⁻¹ := by
    by_cases hA : A.det = 0
    · by_cases hn : n = 0
      · subst hn
        exact Subsingleton.elim _ _
      · have h2 : (c • A).det = 0 := by rw [Matrix.det_smul, hA, mul_zero]
        rw [Matrix.nonsing_inv_apply_not_isUnit A (by rw [hA]; exact not_isUnit_zero),
          Matrix.nonsing_inv_apply_not_isUnit (c • A) (by rw [h2]; exact not_isUnit_zero), smul_zero]
    · have := Matrix.inv_smul' (A := A) (Units.mk0 c hc) (isUnit_iff_ne_zero.mpr hA)
      exact this
  rw [h, Matrix.smul_mul, Matrix.mul_smul, smul_smul, inv_mul_cancel₀ hc, one_smul]

theorem mul_smul_inv_smul {n : ℕ} {c : ℝ} (hc : c ≠ 0) (A B : Matrix (Fin n) (Fin n) ℝ) (hB : B.det ≠ 0) :
    (c • A) * (c • B)⁻¹ = A * B⁻¹ := by
  have h : (c • B)⁻¹ = c⁻¹ • B⁻¹ := Matrix.inv_smul' (A := B) (Units.mk0 c hc) (isUnit_iff_ne_zero.mpr hB)
  rw [h, Matrix.smul_mul, Matrix.mul_smul, smul_smul, mul_inv_cancel₀ hc, one_smul]

theorem eqTest_scale (t : Tol) {N : ℕ} {c : ℝ} (hc : c ≠ 0) (E X : Matrix (Fin N) (Fin N) ℝ) :
    eqTest t (c • E) (X * (c • E)) = eqTest t E (X * E) := by
  rw [Matrix.mul_smul]
  unfold eqTest
  rw [inv_smul_mul_smul hc]

theorem inPointGroup_scale (t : Tol) {N : ℕ} {c : ℝ} (hc : 0 < c) (E : Matrix (Fin N) (Fin N) ℝ) (a : Arr) :
    Lat.inPointGroup t ⟨N, c • E⟩ a = Lat.inPointGroup t ⟨N, E⟩ a := by
  cases a with
  | invalid => rfl
  | nonmat => rfl
  | mat m n isInt Q =>
    simp only [Lat.inPointGroup]
    split_ifs with h h1 h2 <;> try rfl
    have e0 : ∀ X : Matrix (Fin N) (Fin N) ℝ, castSq rfl (rfl : N = N) X = X := fun X => rfl
    have hdet : ∀ X : Matrix (Fin N) (Fin N) ℝ, ((X * (c • E)).det ^ 2 ≤ 0) ↔ ((X * E).det ^ 2 ≤ 0) := by
      intro X
      rw [Matrix.mul_smul, Matrix.det_smul, mul_pow]
      have hp : 0 < (c ^ Fintype.card (Fin N)) ^ 2 := by positivity
      constructor
      · intro h
        by_contra h'
        exact absurd h (not_le.mpr (mul_pos hp (not_le.mp h')))
      · intro h
        exact mul_nonpos_of_nonneg_of_nonpos hp.le h
    simp only [Lat.new, dite_true, e0, hdet]
    split_ifs with h3
    · rfl
    · simp only [Lat.eq, dite_true]
      exact congrArg Except.ok (eqTest_scale t hc.ne' E (castSq h2 (h.trans h2) Q))

theorem filter_scale (t : Tol) {N : ℕ} {c : ℝ} (hc : 0 < c) (E : Matrix (Fin N) (Fin N) ℝ) {n : ℕ}
    (l : List (NMat n)) : Lat.filter t ⟨N, c • E⟩ l = Lat.filter t ⟨N, E⟩ l := by
  induction l with
  | nil => rfl
  | cons Q Qs ih => simp only [Lat.filter, inPointGroup_scale t hc, ih]

theorem select_scale (t : Tol) {N : ℕ} {c : ℝ} (hc : 0 < c) (E : Matrix (Fin N) (Fin N) ℝ) {n : ℕ}
    (G H : List (NMat n)) (k : ℕ) : Lat.select t ⟨N, c • E⟩ G H k = Lat.select t ⟨N, E⟩ G H k := by
  simp only [Lat.select, filter_scale t hc]

/-- C90, `Laue_group`. -/
theorem C90_laue_group (t : Tol) {N : ℕ} {c : ℝ} (hc : 0 < c) (E : Matrix (Fin N) (Fin N) ℝ) :
    Lat.laueGroup t ⟨N, c • E⟩ = Lat.laueGroup t ⟨N, E⟩ := by
  simp only [Lat.laueGroup, select_scale t hc]

/-- C90, `point_group`. -/
theorem C90_point_group (t : Tol) {N : ℕ} {c : ℝ} (hc : 0 < c) (E : Matrix (Fin N) (Fin N) ℝ) :
    Lat.pointGroup t ⟨N, c • E⟩ = Lat.pointGroup t ⟨N, E⟩ := by
  simp only [Lat.pointGroup, select_scale t hc, C90_laue_group t hc]
  cases Lat.laueGroup t ⟨N, E⟩ <;> cases Lat.select t ⟨N, E⟩ (squareExt.map .int) hex2dExt 4 <;> rfl

theorem conj_scale {N : ℕ} {c : ℝ} (hc : 0 < c) (E Q : Matrix (Fin N) (Fin N) ℝ) :
    Lat.conj ⟨N, c • E⟩ Q = Lat.conj ⟨N, E⟩ Q := by
  simp only [Lat.conj, Matrix.mul_smul, inv_smul_mul_smul hc.ne']

/-- C90, `special_lattice_group`. -/
theorem C90_special_lattice_group (t : Tol) {N : ℕ} {c : ℝ} (hc : 0 < c) (E : Matrix (Fin N) (Fin N) ℝ) :
    Lat.specialLatticeGroup t ⟨N, c • E⟩ = Lat.specialLatticeGroup t ⟨N, E⟩ := by
  have : Lat.conj ⟨N, c • E⟩ = Lat.conj ⟨N, E⟩ := funext (conj_scale hc E)
  simp only [Lat.specialLatticeGroup, C90_laue_group t hc, this]
  cases Lat.laueGroup t ⟨N, E⟩ <;> rfl

/-- C90, `lattice_group`. -/
theorem C90_lattice_group (t : Tol) {N : ℕ} {c : ℝ} (hc : 0 < c) (E : Matrix (Fin N) (Fin N) ℝ) :
    Lat.latticeGroup t ⟨N, c • E⟩ = Lat.latticeGroup t ⟨N, E⟩ := by
  have : Lat.conj ⟨N, c • E⟩ = Lat.conj ⟨N, E⟩ := funext (conj_scale hc E)
  simp only [Lat.latticeGroup, C90_point_group t hc, this]
  cases Lat.pointGroup t ⟨N, E⟩ <;> rfl

/-! ### The distances and the tensor -/

section Dist

variable {N : ℕ} {c : ℝ} (hc : 0 < c) (L : Matrix (Fin N) (Fin N) ℤ) (E1 E2 : Matrix (Fin N) (Fin N) ℝ)

include hc

theorem inv_scale (h : E2.det ≠ 0) : (c • E2)⁻¹ = c⁻¹ • E2⁻¹ :=
  Matrix.inv_smul' (A := E2) (Units.mk0 c hc.ne') (isUnit_iff_ne_zero.mpr h)

theorem finv_scale (h : E2.det ≠ 0) : Finv L (c • E1) (c • E2)⁻¹ = Finv L E1 E2⁻¹ := by
  simp only [Finv, inv_scale hc E2 h, Matrix.smul_mul, Matrix.mul_smul, smul_smul, inv_mul_cancel₀ hc.ne', one_smul]

theorem cinv_scale (h : E2.det ≠ 0) : Cinv L (c • E1) (c • E2)⁻¹ = Cinv L E1 E2⁻¹ := by
  simp only [Cinv, finv_scale hc L E1 E2 h]

/-- C90, the Cauchy distance. -/
theorem C90_cauchy_dist (h : E2.det ≠ 0) : cauchyDist L (c • E1) (c • E2)⁻¹ = cauchyDist L E1 E2⁻¹ := by
  simp only [cauchyDist, cinv_scale hc L E1 E2 h]

/-- C90, the strain distance. -/
theorem C90_strain_dist (eig : Matrix (Fin N) (Fin N) ℝ → Fin N → ℝ) (h : E2.det ≠ 0) :
    strainDist eig L (c • E1) (c • E2)⁻¹ = strainDist eig L E1 E2⁻¹ := by
  simp only [strainDist, cinv_scale hc L E1 E2 h]

/-- C90, the Ericksen distance. -/
theorem C90_eric_dist : ericDist L (c • E1) (c • E2) = ericDist L E1 E2 := by
  have h2 : c * c ≠ 0 := mul_ne_zero hc.ne' hc.ne'
  have h4 : (c * c) * (c * c) ≠ 0 := mul_ne_zero h2 h2
  simp only [ericDist, Matrix.transpose_smul, Matrix.smul_mul, Matrix.mul_smul, smul_smul, ← smul_sub,
    Matrix.trace_smul, smul_eq_mul]
  exact mul_div_mul_left _ _ h4

theorem quartD_scale (h : E2.det ≠ 0) : quartD (c • E1) (c • E2)⁻¹ = quartD E1 E2⁻¹ := by
  have h1 : quartC1 (c • E1) (c • E2)⁻¹ = quartC1 E1 E2⁻¹ := by
    funext a d b e
    simp only [quartC1, inv_scale hc E2 h, Matrix.smul_apply, smul_eq_mul]
    field_simp
  have h2 : quartC2 (c • E1) (c • E2)⁻¹ = quartC2 E1 E2⁻¹ := by
    funext a d b
    simp only [quartC2, h1]
  funext i j k l
  simp only [quartD, h2]

theorem report_scale (eigsys : Matrix (Fin N) (Fin N) ℝ → (Fin N → ℝ) × Matrix (Fin N) (Fin N) ℝ)
    (CA CM : Matrix (Fin N) (Fin N) ℝ) :
    report eigsys (c • E1) (c • E2) CA CM = report eigsys E1 E2 CA CM := by
  funext s
  have hdet : ((c • E1) * intMat ℝ s.l).det = 0 ↔ (E1 * intMat ℝ s.l).det = 0 := by
    rw [Matrix.smul_mul, Matrix.det_smul, mul_eq_zero]
    exact ⟨fun h => h.resolve_left (pow_ne_zero _ hc.ne'), .inr⟩
  by_cases h2 : (E1 * intMat ℝ s.l).det = 0
  · simp only [report, hdet, h2, if_true]
  · have := mul_smul_inv_smul hc.ne' E2 (E1 * intMat ℝ s.l) h2
    rw [← Matrix.smul_mul c E1] at this
    simp only [report, hdet, this]

end Dist

/-! ### The search in one sublattice -/

theorem det_scale {N : ℕ} {c : ℝ} (hc : 0 < c) (E : Matrix (Fin N) (Fin N) ℝ) :
    (c • E).det = 0 ↔ E.det = 0 := by
  rw [Matrix.det_smul, mul_eq_zero]
  exact ⟨fun h => h.resolve_left (pow_ne_zero _ hc.ne'), .inr⟩

theorem isSimilarity_smul {n : ℕ} {c : ℝ} (hc : 0 < c) :
    IsSimilarity (c • (1 : Matrix (Fin n) (Fin n) ℝ)) (c * c) := by
  refine ⟨mul_pos hc hc, ?_⟩
  simp [Matrix.transpose_smul, Matrix.smul_mul, Matrix.mul_smul, smul_smul]

theorem optDist_scale (eig : Matrix (Fin 3) (Fin 3) ℝ → Fin 3 → ℝ) {c : ℝ} (hc : 0 < c)
    (E1 E2 : Matrix (Fin 3) (Fin 3) ℝ) (name : String) :
    optDist eig (c • E1) (c • E2) name = optDist eig E1 E2 name := by
  simp only [optDist, C90_eric_dist hc, det_scale hc]
  split_ifs with h1 h2 h3 h4 h5 <;> try rfl
  · simp only [C90_strain_dist hc _ _ _ eig h3]
  · simp only [C90_cauchy_dist hc _ _ _ h5]

/-- C90, the optimisation in one sublattice: the correspondences and the distances `lat_opt` returns are the
same in every unit of length. -/
theorem C90_lat_opt (t : Tol) (eig : Matrix (Fin 3) (Fin 3) ℝ → Fin 3 → ℝ) (F : ℕ) {c : ℝ} (hc : 0 < c)
    (E1 E2 : Matrix (Fin 3) (Fin 3) ℝ) (kw : OptKw) :
    latOpt t eig F (c • E1) (c • E2) kw = latOpt t eig F E1 E2 kw := by
  by_cases h : E1.det = 0
  · have h' := (det_scale hc E1).mpr h
    simp only [latOpt, h, h', if_true]
  · have h' : ¬ (c • E1).det = 0 := fun hh => h ((det_scale hc E1).mp hh)
    have hl := C89_lll_similar h (isSimilarity_smul (n := 3) hc)
    rw [Matrix.smul_mul, Matrix.one_mul] at hl
    simp only [latOpt, h, h', if_false, hl, optDist_scale eig hc, Lat.getspeciallatticegroup,
      C90_special_lattice_group t hc, det_scale hc]
    cases hL : lll E1 with
    | pair B b => rfl
    | base B =>
      simp only [LLLResult.map, Matrix.smul_mul, Matrix.one_mul, inv_smul_mul_smul hc.ne']
      cases optDist eig E1 E2 (kw.dist.getD "Cauchy") <;> cases Lat.specialLatticeGroup t ⟨3, E1⟩ <;>
        cases kw.solg2 <;> rfl

/-! ### The two searches -/

theorem startL0_scale {N : ℕ} {c : ℝ} (hc : 0 < c) (E1 E2 : Matrix (Fin N) (Fin N) ℝ) :
    startL0 (c • E1) (c • E2) = startL0 E1 E2 := by
  simp only [startL0, inv_smul_mul_smul hc.ne']

open Classical in
/-- `lat_cor` after everything that depends on the bases has been computed. -/
noncomputable def directBody {N : ℕ} (o : Outside N) (nsol : ℕ) (volTh : ℝ) (sliceSz : ℕ)
    (gA gM : Except Err (List (Matrix (Fin N) (Fin N) ℤ)))
    (D : Fin N × Fin N → Fin N × Fin N → Fin N × Fin N → Fin N × Fin N → ℝ)
    (L0 : Matrix (Fin N) (Fin N) ℤ) (dist : Matrix (Fin N) (Fin N) ℤ → ℝ)
    (rep : Sol (Matrix (Fin N) (Fin N) ℤ) ℝ → Except Err (Report N)) :
    Except Err (Option (List (Report N)) × List (List ℤ)) :=
  match gA with
  | .error e => .error e
  | .ok GA =>
    match gM with
    | .error e => .error e
    | .ok GM =>
      match directSearch GA GM nsol dist sliceSz (rmaxFn (o.quartMin D))
          (fun L => 1 - volTh < (L.det : ℝ) ∧ (L.det : ℝ) < 1 + volTh) (o.shifts.map (fun shift => L0 + shift))
          o.rounds with
      | .error e => .error e
      | .ok (none, trace) => .ok (none, trace)
      | .ok (some (sols, _, _), trace) =>
        match mapExcept (fun s => rep ⟨chooseRep s.l (o.order (eqlatcor GA GM s.l)), s.d⟩) sols with
        | .error e => .error e
        | .ok rs => .ok (some rs, trace)

theorem latCorCore_body (t : Tol) {N : ℕ} (o : Outside N) (nsol : ℕ) (volTh : ℝ) (sliceSz : ℕ)
    (EA EM CA CM : Matrix (Fin N) (Fin N) ℝ) :
    latCorCore t o nsol volTh sliceSz EA EM CA CM
      = directBody o nsol volTh sliceSz (Lat.latticeGroup t ⟨N, EA⟩) (Lat.latticeGroup t ⟨N, EM⟩) (quartD EA EM⁻¹)
        (startL0 EA EM) (fun L => cauchyDist L EA EM⁻¹) (report o.eigsys EA EM CA CM) := by
  unfold latCorCore directBody finishDirect
  rcases Lat.latticeGroup t ⟨N, EA⟩ with e | GA
  · rfl
  rcases Lat.latticeGroup t ⟨N, EM⟩ with e | GM
  · rfl
  dsimp only
  split
  · rename_i h
    erw [h]
  · rename_i h
    erw [h]
  · rename_i h
    erw [h]
    dsimp only
    generalize mapExcept _ _ = q
    cases q <;> rfl

theorem latCorCore_scale (t : Tol) {N : ℕ} (o : Outside N) (nsol : ℕ) (volTh : ℝ) (sliceSz : ℕ) {c : ℝ} (hc : 0 < c)
    (EA EM CA CM : Matrix (Fin N) (Fin N) ℝ) (hM : EM.det ≠ 0) :
    latCorCore t o nsol volTh sliceSz (c • EA) (c • EM) CA CM = latCorCore t o nsol volTh sliceSz EA EM CA CM := by
  have h1 := C90_lattice_group t hc EA
  have h2 := C90_lattice_group t hc EM
  have h3 : (fun L => cauchyDist L (c • EA) (c • EM)⁻¹) = fun L => cauchyDist L EA EM⁻¹ :=
    funext fun L => C90_cauchy_dist hc L EA EM hM
  rw [latCorCore_body, latCorCore_body, quartD_scale hc EA EM hM, startL0_scale hc, h3, report_scale hc EA EM]
  exact congrArg₂ (fun a b => directBody o nsol volTh sliceSz a b (quartD EA EM⁻¹) (startL0 EA EM)
    (fun L => cauchyDist L EA EM⁻¹) (report o.eigsys EA EM CA CM)) h1 h2

theorem searchOne_scale (t : Tol) (o : HnfOutside) (F : ℕ) {c : ℝ} (hc : 0 < c) (EA EM : Matrix (Fin 3) (Fin 3) ℝ)
    (opts : OptKw) (h : Z3) :
    searchOne t o F (c • EA) (c • EM) opts h = searchOne t o F EA EM opts h := by
  simp only [searchOne, Matrix.smul_mul, C90_lat_opt t _ F hc]

theorem searchAll_scale (t : Tol) (o : HnfOutside) (F : ℕ) {c : ℝ} (hc : 0 < c) (EA EM : Matrix (Fin 3) (Fin 3) ℝ)
    (opts : OptKw) (LGA LGM : List Z3) (nsol : ℕ) (hs : List Z3) (st : List (Sol Z3 ℝ) × Finset Z3) :
    searchAll t o F (c • EA) (c • EM) opts LGA LGM nsol hs st = searchAll t o F EA EM opts LGA LGM nsol hs st := by
  induction hs generalizing st with
  | nil => rfl
  | cons h hs ih => simp only [searchAll, searchOne_scale t o F hc, ih]

theorem latCorHnfCore_scale (t : Tol) (py : Py) (o : HnfOutside) (kw : HnfKw) (pool : HnfPool) (F : ℕ) {c : ℝ}
    (hc : 0 < c) (EA EM CA CM : Matrix (Fin 3) (Fin 3) ℝ) :
    latCorHnfCore t py o kw pool F (c • EA) (c • EM) CA CM = latCorHnfCore t py o kw pool F EA EM CA CM := by
  have h1 := C90_special_lattice_group t hc EA
  have h2 := C90_special_lattice_group t hc EM
  have h3 : (c • EM).det / (c • EA).det = EM.det / EA.det := by
    rw [Matrix.det_smul, Matrix.det_smul]
    exact mul_div_mul_left _ _ (pow_ne_zero _ hc.ne')
  simp only [latCorHnfCore, h1, h2, h3, searchAll_scale t o F hc, report_scale hc EA EM]

/-- C90, `lat_cor`: if all lengths among the parameters of both lattices are given in another unit, the result is
the same: the same exception, or the same list of solutions with the same correspondences, distances, stretch
tensors and principal stretches, found on the same way. -/
theorem C90_lat_cor (t : Tol) (py : Py) (kw : LatCorKw) (o : Outside (readkw kw.dim 3))
    (hdim : readkw kw.dim 3 = 2 ∨ readkw kw.dim 3 = 3) {ba bm : ℤ} {c : ℝ} (hc : 0 < c) {pa pa' pm pm' : PArg}
    (ha : SameInUnit py (readkw kw.dim 3) ba c pa pa') (hm : SameInUnit py (readkw kw.dim 3) bm c pm pm') :
    latCor t py kw o ba pa' bm pm' = latCor t py kw o ba pa bm pm := by
  rcases C90_bravais hdim hc ha with ⟨e, h1, h2⟩ | ⟨n, EA, x, y, CA, h1, h2⟩
  · simp only [latCor, h1, h2]
  rcases C90_bravais hdim hc hm with ⟨e, h3, h4⟩ | ⟨m, EM, x', y', CM, h3, h4⟩
  · simp only [latCor, h1, h2, h3, h4]
  simp only [latCor, h1, h2, h3, h4]
  cases EA with
  | none => rfl
  | some EA =>
    cases EM with
    | none => rfl
    | some EM =>
      by_cases hA : n = readkw kw.dim 3
      · by_cases hM : m = readkw kw.dim 3
        · simp only [Option.map_some, hA, hM, dite_true]
          have hdet : (castSq hM hM EM).det ≠ 0 := by
            have hEM : EM.det ≠ 0 := (C21_accepted _ _ _ _ _ h3).2.2.2.2 EM rfl
            subst hM
            exact hEM
          exact latCorCore_scale t o _ _ _ hc (castSq hA hA EA) (castSq hM hM EM) _ _ hdet
        · simp only [Option.map_some, hA, hM, dite_true, dite_false]
      · simp only [Option.map_some, hA, dite_false]

/-- C90, `lat_cor_hnf`: the same for the search through sublattices, for every number of processes and every
order in which their results arrive. -/
theorem C90_lat_cor_hnf (t : Tol) (py : Py) (o : HnfOutside) (kw : HnfKw) (pool : HnfPool) (F : ℕ) {ba bm : ℤ}
    {c : ℝ} (hc : 0 < c) {pa pa' pm pm' : PArg} (ha : SameInUnit py 3 ba c pa pa')
    (hm : SameInUnit py 3 bm c pm pm') :
    latCorHnf t py o kw pool F ba pa' bm pm' = latCorHnf t py o kw pool F ba pa bm pm := by
  rcases C90_bravais (.inr rfl) hc ha with ⟨e, h1, h2⟩ | ⟨n, EA, x, y, CA, h1, h2⟩
  · rw [Nat.cast_ofNat] at h1 h2
    simp only [latCorHnf, h1, h2]
    rfl
  rcases C90_bravais (.inr rfl) hc hm with ⟨e, h3, h4⟩ | ⟨m, EM, x', y', CM, h3, h4⟩
  · rw [Nat.cast_ofNat] at h1 h2 h3 h4
    simp only [latCorHnf, h1, h2, h3, h4]
    rfl
  rw [Nat.cast_ofNat] at h1 h2 h3 h4
  simp only [latCorHnf, h1, h2, h3, h4, Run.ofExcept, Run.bind]
  cases EA with
  | none => rfl
  | some EA =>
    cases EM with
    | none => rfl
    | some EM =>
      by_cases hA : n = 3
      · by_cases hM : m = 3
        · simp only [Option.map_some, hA, hM, dite_true]
          exact latCorHnfCore_scale t py o kw pool F hc (castSq hA hA EA) (castSq hM hM EM) _ _
        · simp only [Option.map_some, hA, hM, dite_true, dite_false]
      · simp only [Option.map_some, hA, dite_false]

/-! ### Cases that meet the hypotheses -/

/-- A monoclinic lattice in angstroms and in nanometres; the angle stays. -/
example (py : Py) : SameInUnit py 3 12 (1 / 10) (.list (.float [2, 3, 4, 97])) (.list (.float [0.2, 0.3, 0.4, 97])) :=
  .list (by simp [Nums.vals, inUnit, lengthCount]; norm_num) (.inr ⟨rfl, rfl⟩)

/-- Integers under Python 3, also mixed with floating point numbers. -/
example : SameInUnit .py3 3 7 2 (.list (.int [3, 5])) (.list (.int [6, 10])) ∧
    SameInUnit .py3 2 3 (1 / 2) (.list (.int [3, 5])) (.list (.float [1.5, 2.5])) :=
  ⟨.list (by simp [Nums.vals, inUnit, lengthCount]; norm_num) (.inl rfl),
    .list (by simp [Nums.vals, inUnit, lengthCount]; norm_num) (.inl rfl)⟩

/-- A cubic and a tetragonal lattice in two units, under either interpreter. -/
example (t : Tol) (py : Py) (o : HnfOutside) (kw : HnfKw) (pool : HnfPool) (F : ℕ) :
    latCorHnf t py o kw pool F 2 (.num (.float [0.4])) 6 (.list (.float [0.3, 0.5]))
      = latCorHnf t py o kw pool F 2 (.num (.float [4])) 6 (.list (.float [3, 5])) :=
  C90_lat_cor_hnf t py o kw pool F (c := 1 / 10) (by norm_num)
    (.num (by simp [Nums.vals, inUnit, lengthCount]; norm_num) (.inr ⟨rfl, rfl⟩))
    (.list (by simp [Nums.vals, inUnit, lengthCount]; norm_num) (.inr ⟨rfl, rfl⟩))

/-- C90 for integers under Python 2 does not hold: the face-centred orthorhombic lattice with the parameters 3, 3,
3 has the entry 1 in its base, and with the parameters 6, 6, 6 the entry 3. -/
theorem C90_python2_integers_fails :
    ¬ ∀ (x y : Nums) (E E' : Matrix (Fin 3) (Fin 3) ℝ) (C C' : Matrix (Fin 3) (Fin 3) ℝ),
      y.vals = inUnit 3 10 2 x.vals →
      BLat.new .py2 10 (.list x) 3 = .ok ⟨3, some E, 10, x, C⟩ →
      BLat.new .py2 10 (.list y) 3 = .ok ⟨3, some E', 10, y, C'⟩ → E' = (2 : ℝ) • E := by
  intro h
  have hp : ∀ k : ℤ, primBase3 .py2 true 10 (Nums.get (.int [k, k, k])) =
      some !![(⌊(k : ℝ) / 2⌋ : ℝ), (⌊(k : ℝ) / 2⌋ : ℝ), 0; 0, (⌊(k : ℝ) / 2⌋ : ℝ), (⌊(k : ℝ) / 2⌋ : ℝ);
        (⌊(k : ℝ) / 2⌋ : ℝ), 0, (⌊(k : ℝ) / 2⌋ : ℝ)]ᵀ := by
    intro k
    simp [primBase3, npdiv, Nums.get, Nums.vals]
  have f3 : ⌊(3 : ℝ) / 2⌋ = 1 := by rw [Int.floor_eq_iff]; norm_num
  have f6 : ⌊(6 : ℝ) / 2⌋ = 3 := by rw [Int.floor_eq_iff]; norm_num
  have e3 := hp 3
  have e6 := hp 6
  push_cast at e3 e6
  rw [f3] at e3
  rw [f6] at e6
  have d3 : (!![((1 : ℤ) : ℝ), ((1 : ℤ) : ℝ), 0; 0, ((1 : ℤ) : ℝ), ((1 : ℤ) : ℝ);
      ((1 : ℤ) : ℝ), 0, ((1 : ℤ) : ℝ)]ᵀ).det ≠ 0 := by
    rw [Matrix.det_transpose, Matrix.det_fin_three]; simp; try norm_num
  have d6 : (!![((3 : ℤ) : ℝ), ((3 : ℤ) : ℝ), 0; 0, ((3 : ℤ) : ℝ), ((3 : ℤ) : ℝ);
      ((3 : ℤ) : ℝ), 0, ((3 : ℤ) : ℝ)]ᵀ).det ≠ 0 := by
    rw [Matrix.det_transpose, Matrix.det_fin_three]; simp; try norm_num
  have z3 : (!![((1 : ℤ) : ℝ), ((1 : ℤ) : ℝ), 0; 0, ((1 : ℤ) : ℝ), ((1 : ℤ) : ℝ);
      ((1 : ℤ) : ℝ), 0, ((1 : ℤ) : ℝ)]ᵀ) 0 0 = 1 := by simp
  have z6 : (!![((3 : ℤ) : ℝ), ((3 : ℤ) : ℝ), 0; 0, ((3 : ℤ) : ℝ), ((3 : ℤ) : ℝ);
      ((3 : ℤ) : ℝ), 0, ((3 : ℤ) : ℝ)]ᵀ) 0 0 = 3 := by simp
  generalize (!![((1 : ℤ) : ℝ), ((1 : ℤ) : ℝ), 0; 0, ((1 : ℤ) : ℝ), ((1 : ℤ) : ℝ);
      ((1 : ℤ) : ℝ), 0, ((1 : ℤ) : ℝ)]ᵀ) = B3 at *
  generalize (!![((3 : ℤ) : ℝ), ((3 : ℤ) : ℝ), 0; 0, ((3 : ℤ) : ℝ), ((3 : ℤ) : ℝ);
      ((3 : ℤ) : ℝ), 0, ((3 : ℤ) : ℝ)]ᵀ) = B6 at *
  have b3 : BLat.new .py2 10 (.list (.int [3, 3, 3])) 3 =
      .ok ⟨3, some B3, 10, .int [3, 3, 3], (centring3 10)⁻¹⟩ := by
    simp only [BLat.new, checkParam_list (x := .int [3, 3, 3]) (by simp [Nums.vals]), Nums.isInt, e3, initBase_some,
      if_neg d3]
    norm_num [Nums.vals, paramLen3]
    exact fun hh => absurd rfl hh
  have b6 : BLat.new .py2 10 (.list (.int [6, 6, 6])) 3 =
      .ok ⟨3, some B6, 10, .int [6, 6, 6], (centring3 10)⁻¹⟩ := by
    simp only [BLat.new, checkParam_list (x := .int [6, 6, 6]) (by simp [Nums.vals]), Nums.isInt, e6, initBase_some,
      if_neg d6]
    norm_num [Nums.vals, paramLen3]
    exact fun hh => absurd rfl hh
  have := congrFun (congrFun
    (h _ _ _ _ _ _ (by simp [Nums.vals, inUnit, lengthCount]; norm_num) b3 b6) 0) 0
  rw [Matrix.smul_apply, z3, z6] at this
  norm_num at this

end Verif.Props
