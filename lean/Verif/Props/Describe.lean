import Verif.Model.Describe
import Verif.Spec.Describe
import Verif.Props.Bravais

/-!
# C75: descriptions
-/

namespace Verif.Props

open Matrix Verif.Model Verif.Spec Verif.Lemmas

/-- What the description of a three-dimensional lattice says. -/
theorem describe3_read (C : Matrix (Fin 3) (Fin 3) ℝ) (id : ℤ) (h1 : 1 ≤ id) (h2 : id ≤ 13) (x : Nums)
    (hlen : x.vals.length = paramCount3 id) (E' : Option (Matrix (Fin 3) (Fin 3) ℝ)) :
    ∃ d, BLat.describe ⟨3, E', id, x, C⟩ = .ok d ∧ d.dim = 3 ∧
      readLengths d.values = some (lengths3 id x.get) ∧ readAngles d.family d.values = some (angles3 id x.get) ∧
      readPoints d.centring = some (pointsPerCell3 id) := by
  interval_cases id <;> simp only [paramCount3] at hlen <;>
    simp [BLat.describe, typeNames3, addValue, hlen, readLengths, readAngles, readPoints, valueOf, lengths3,
      angles3, pointsPerCell3, Nums.get, List.getD]

theorem describe2_read (C : Matrix (Fin 2) (Fin 2) ℝ) (id : ℤ) (h1 : 1 ≤ id) (h2 : id ≤ 5) (x : Nums)
    (hlen : x.vals.length = paramCount2 id) (E' : Option (Matrix (Fin 2) (Fin 2) ℝ)) :
    ∃ d, BLat.describe ⟨2, E', id, x, C⟩ = .ok d ∧ d.dim = 2 ∧
      readLengths2 d.values = some (lengths2 id x.get) ∧ readAngle2 d.family d.values = some (angle2 id x.get) ∧
      readPoints d.centring = some (pointsPerCell2 id) := by
  interval_cases id <;> simp only [paramCount2] at hlen <;>
    simp [BLat.describe, typeNames2, addValue, hlen, readLengths2, readAngle2, readPoints, valueOf, lengths2,
      angle2, pointsPerCell2, Nums.get, List.getD]

/-- **C75** (partial), three dimensions: `str(lattice)` of every accepted lattice that is not triclinic names the
lengths and angles of the conventional cell, and the centring symbol gives the number of its lattice points.
Missing: triclinic lattices (`C75_triclinic_fails`). -/
theorem C75_bravais_3d_partial (py : Py) (id : ℤ) (hid : id ≠ 14) (x : Nums) (L : BLat)
    (h : BLat.new py id (.list x) 3 = .ok L) (he : py = .py3 ∨ x.isInt = false)
    (hf : Feasible3 (angles3 id x.get)) :
    ∃ d ls as ps, L.describe = .ok d ∧ d.dim = L.N ∧ readLengths d.values = some ls ∧
      readAngles d.family d.values = some as ∧ readPoints d.centring = some ps ∧
      L.conventionalTrans.det = ps ∧
      ∃ (hN : 3 = L.N) (B : Matrix (Fin 3) (Fin 3) ℝ), L.conventionalBase = some (castSq hN hN B) ∧
        Bᵀ * B = metric3 ls as := by
  obtain ⟨ha, hpos, hlid, hl, -⟩ := C21_accepted py id _ 3 L h
  have hx : x = L.latParams := by
    rcases ha with ha | ha <;> cases ha
    rfl
  rcases hl with ⟨-, hN, h1, h2, hlen⟩ | ⟨h0, -⟩
  swap
  · exact absurd h0 (by decide)
  obtain ⟨E, C, B, hnew, hB, hm, -⟩ := C22_cell_3d_partial py id h1 h2 x he (by rw [hx]; exact hpos)
    (by rw [hx]; exact hlen) hf
  rw [hnew] at h
  cases h
  obtain ⟨d, d1, d2, d3, d4, d5⟩ := describe3_read C id h1 (by omega) x hlen (some E)
  obtain ⟨⟨M, hM, hMd⟩, -⟩ := C23_conventional_trans py id _ 3 _ hnew
  refine ⟨d, _, _, _, d1, d2, d3, d4, d5, ?_, rfl, B, ?_, hm⟩
  · rw [hM, toR_det, hMd, if_pos rfl]
  · rw [hB, castSq_rfl]

/-- **C75**, two dimensions: the same for every accepted plane lattice. -/
theorem C75_bravais_2d (py : Py) (id : ℤ) (x : Nums) (L : BLat)
    (h : BLat.new py id (.list x) 2 = .ok L) (hf : 0 < angle2 id x.get ∧ angle2 id x.get < 180) :
    ∃ d ls γ ps, L.describe = .ok d ∧ d.dim = L.N ∧ readLengths2 d.values = some ls ∧
      readAngle2 d.family d.values = some γ ∧ readPoints d.centring = some ps ∧
      L.conventionalTrans.det = ps ∧
      ∃ (hN : 2 = L.N) (B : Matrix (Fin 2) (Fin 2) ℝ), L.conventionalBase = some (castSq hN hN B) ∧
        Bᵀ * B = metric2 ls γ := by
  obtain ⟨ha, hpos, hlid, hl, -⟩ := C21_accepted py id _ 2 L h
  have hx : x = L.latParams := by
    rcases ha with ha | ha <;> cases ha
    rfl
  rcases hl with ⟨h0, -⟩ | ⟨-, hN, h1, h2, hlen⟩
  · exact absurd h0 (by decide)
  obtain ⟨E, C, B, hnew, hB, hm, -⟩ := C22_cell_2d py id h1 h2 x (by rw [hx]; exact hpos)
    (by rw [hx]; exact hlen) hf
  rw [hnew] at h
  cases h
  obtain ⟨d, d1, d2, d3, d4, d5⟩ := describe2_read C id h1 h2 x hlen (some E)
  obtain ⟨⟨M, hM, hMd⟩, -⟩ := C23_conventional_trans py id _ 2 _ hnew
  refine ⟨d, _, _, _, d1, d2, d3, d4, d5, ?_, rfl, B, ?_, hm⟩
  · rw [hM, toR_det, hMd, if_neg (by decide)]
  · rw [hB, castSq_rfl]

/-- **C75** fails for triclinic lattices: the value printed as `alpha` is the length `b`.  For `a = b = c = 1` and
three angles of 60 degrees a reader finds an angle of one degree. -/
theorem C75_triclinic_fails (py : Py) :
    (∀ x L, BLat.new py 14 (.list x) 3 = .ok L → ∃ d, L.describe = .ok d ∧
      valueOf d.values "b" = some (x.get 1) ∧ valueOf d.values "alpha" = some (x.get 1)) ∧
    ∃ L d as B, BLat.new py 14 (.list (.float [1, 1, 1, 60, 60, 60])) 3 = .ok L ∧ L.describe = .ok d ∧
      readLengths d.values = some ![1, 1, 1] ∧ readAngles d.family d.values = some as ∧
      ∃ hN : 3 = L.N, L.conventionalBase = some (castSq hN hN B) ∧ Bᵀ * B ≠ metric3 ![1, 1, 1] as := by
  constructor
  · intro x L h
    obtain ⟨ha, -, hlid, hl, -⟩ := C21_accepted py 14 _ 3 L h
    have hx : x = L.latParams := by
      rcases ha with ha | ha <;> cases ha
      rfl
    rcases hl with ⟨-, hN, -, -, hlen⟩ | ⟨h0, -⟩
    swap
    · exact absurd h0 (by decide)
    obtain ⟨N, E, id, x', C⟩ := L
    simp only [BLat.id, BLat.latParams] at hlid hN hx hlen
    subst hlid hx hN
    simp only [paramCount3] at hlen
    simp [BLat.describe, typeNames3, addValue, hlen, valueOf, Nums.get, List.getD]
  · have ha : angles3 14 (Nums.float [1, 1, 1, 60, 60, 60]).get = ![60, 60, 60] := by
      simp [angles3, Nums.get, Nums.vals]
    have hl : lengths3 14 (Nums.float [1, 1, 1, 60, 60, 60]).get = ![1, 1, 1] := by
      simp [lengths3, Nums.get, Nums.vals]
    obtain ⟨E, C, B, hnew, hB, hm, -⟩ := C22_cell_3d_partial py 14 (by norm_num) (by norm_num)
      (.float [1, 1, 1, 60, 60, 60]) (.inr rfl) (by simp [Nums.vals]) (by simp [Nums.vals, paramCount3]) (by
        rw [ha]
        refine ⟨fun i => by fin_cases i <;> simp <;> norm_num, ?_⟩
        simp [cosDeg_60]
        norm_num)
    refine ⟨_, ⟨3, "Triclinic", "P", [("a", 1), ("b", 1), ("c", 1), ("alpha", 1), ("beta", 60), ("gamma", 60)]⟩,
      ![1, 60, 60], B, hnew, ?_, ?_, ?_, rfl, ?_, ?_⟩
    · simp [BLat.describe, typeNames3, addValue, Nums.vals]
    · simp [readLengths, valueOf]
    · simp [readAngles, valueOf]
    · rw [hB, castSq_rfl]
    · rw [hm, ha, hl]
      intro hc
      have := congrFun (congrFun hc 1) 2
      simp [metric3, cosDeg_60] at this
      have hlt : cosDeg 60 < cosDeg 1 := by
        unfold cosDeg
        have hpi := Real.pi_pos
        apply Real.cos_lt_cos_of_nonneg_of_le_pi <;> linarith
      rw [cosDeg_60] at hlt
      linarith

/-- **C75**, plain lattices: the description of a lattice determines it. -/
theorem C75_lattice (L L' : Lat) (h : L.describe = L'.describe) : L = L' := by
  obtain ⟨N, E⟩ := L
  obtain ⟨N', E'⟩ := L'
  simp only [Lat.describe, Prod.mk.injEq] at h
  obtain ⟨rfl, h⟩ := h
  congr 1
  ext k i
  have h1 := List.map_inj_left.1 h i (List.mem_finRange i)
  simp only [Prod.mk.injEq, true_and] at h1
  exact List.map_inj_left.1 h1 k (List.mem_finRange k)

-- monoclinic and plane lattices that meet the hypotheses
example : ∃ L, BLat.new .py3 12 (.list (.float [1, 2, 3, 90])) 3 = .ok L ∧
    Feasible3 (angles3 12 (Nums.float [1, 2, 3, 90]).get) := by
  have ha : angles3 12 (Nums.float [1, 2, 3, 90]).get = ![90, 90, 90] := by
    simp [angles3, Nums.get, Nums.vals]
  have hf : Feasible3 (angles3 12 (Nums.float [1, 2, 3, 90]).get) := by
    rw [ha]
    have h90 : cosDeg 90 = 0 := by
      rw [cosDeg, show (90 : ℝ) * Real.pi / 180 = Real.pi / 2 by ring, Real.cos_pi_div_two]
    refine ⟨fun i => by fin_cases i <;> simp <;> norm_num, ?_⟩
    simp [h90]
  obtain ⟨E, C, B, hnew, -⟩ := C22_cell_3d_partial .py3 12 (by norm_num) (by norm_num)
    (.float [1, 2, 3, 90]) (.inr rfl) (by simp [Nums.vals]) (by simp [Nums.vals, paramCount3]) hf
  exact ⟨_, hnew, hf⟩

end Verif.Props
