import Verif.Lemmas.SolsText
import Verif.Props.Describe
import Verif.Props.LatCorRuns

/-!
# C75: the text of the description of a Bravais lattice
-/

namespace Verif.Props

open Verif.Model Verif.Spec Verif.Lemmas

theorem wordsOf_sep {s : Char} (hs : isSep s = true) (a b : List Char) :
    wordsOf (a ++ s :: b) = wordsOf a ++ wordsOf b := by
  unfold wordsOf
  rw [cut_append hs, List.filter_append]

theorem wordsOf_word {w : List Char} (hw : Plain w) (hne : w ≠ []) : wordsOf w = [w] := by
  unfold wordsOf
  rw [cut_none fun c hc => (hw c hc).1]
  simp [hne]

theorem statements_skip (w e : List Char) (he : e ≠ ['=']) (rest : List (List Char)) :
    statements (w :: e :: rest) = statements (e :: rest) := by
  cases rest with
  | nil => rfl
  | cons n rest => rw [statements, if_neg he]

theorem statements_pre : ∀ (pre : List (List Char)), (∀ w ∈ pre, w ≠ ['=']) → ∀ (w0 g : List Char), w0 ≠ ['='] →
    ∀ (q : ℚ), readToken g = some q → ∀ rest,
    statements (pre ++ w0 :: ['='] :: g :: rest) = (w0, q) :: statements rest
  | [], _, w0, g, _, q, hq, rest => by
    rw [List.nil_append, statements, if_pos rfl, hq]
  | [p], h, w0, g, hw, q, hq, rest => by
    rw [List.singleton_append, statements_skip p w0 hw]
    exact statements_pre [] (by simp) w0 g hw q hq rest
  | p :: p' :: pre, h, w0, g, hw, q, hq, rest => by
    rw [List.cons_append, List.cons_append, statements_skip p p' (h p' (by simp))]
    exact statements_pre (p' :: pre) (fun w hw' => h w (List.mem_cons_of_mem _ hw')) w0 g hw q hq rest

/-- The words for one named value. -/
noncomputable def stmtWords (v : String × ℝ) : List (List Char) := [v.1.toList, ['='], fmtG v.2]

theorem statements_values : ∀ (vs : List (String × ℝ)), (∀ v ∈ vs, v.1.toList ≠ ['=']) →
    List.Forall₂ (fun s v => s.1 = v.1.toList ∧ ReadsAs s.2 (v.2, errG v.2)) (statements (vs.flatMap stmtWords)) vs
  | [], _ => by simp [statements]
  | v :: vs, h => by
    obtain ⟨q, hq, h1, h2, -⟩ := read_fmtG v.2
    have := statements_pre [] (by simp) v.1.toList (fmtG v.2) (h v (by simp)) q
      (by rw [readToken_ends (fmtG_ends _), hq]) (vs.flatMap stmtWords)
    rw [List.flatMap_cons]
    change List.Forall₂ _ (statements ([] ++ v.1.toList :: ['='] :: fmtG v.2 :: vs.flatMap stmtWords)) _
    rw [this]
    exact .cons ⟨rfl, reads_errG h1 h2⟩ (statements_values vs fun v hv => h v (List.mem_cons_of_mem _ hv))

/-- The text and the named values agree. -/
def TextHas (pre : List (List Char)) : Except Err (List Char) → Except Err (List (String × ℝ)) → Prop
  | .ok s, .ok vs => wordsOf s = pre ++ vs.flatMap stmtWords ∧ ∀ v ∈ vs, v.1.toList ≠ ['=']
  | .error e, .error e' => e = e'
  | _, _ => False

theorem addText_has {pre : List (List Char)} (x : Nums) (cond : Bool) {sep name : String}
    (hsep : ∀ a b, wordsOf (a ++ (sep.toList ++ b)) = wordsOf a ++ wordsOf b) (hname : Plain name.toList)
    (hne : name.toList ≠ []) (heq : name.toList ≠ ['=']) (i : ℕ) {s : Except Err (List Char)}
    {l : Except Err (List (String × ℝ))} (h : TextHas pre s l) :
    TextHas pre (addText x cond sep name i s) (addValue x cond name i l) := by
  cases s with
  | error e =>
    cases l with
    | error e' => exact h
    | ok l => exact h.elim
  | ok s =>
    cases l with
    | error e' => exact h.elim
    | ok l =>
      unfold addText addValue
      dsimp only
      split_ifs
      · cases hx : x.vals[i]? with
        | none => exact rfl
        | some v =>
          refine ⟨?_, ?_⟩
          · obtain ⟨q, -, -, -, hp⟩ := read_fmtG v
            have hg : fmtG v ≠ [] := by
              obtain ⟨a, n, -, e⟩ := fmtG_ends v
              rw [e]; simp
            rw [List.append_assoc, List.append_assoc, List.append_assoc, hsep, h.1]
            have e1 : name.toList ++ (" = ".toList ++ fmtG v) = name.toList ++ ' ' :: (['='] ++ ' ' :: fmtG v) := rfl
            rw [e1, wordsOf_sep (by decide), wordsOf_sep (by decide), wordsOf_word hname hne,
              wordsOf_word (by unfold Plain; decide) (by simp), wordsOf_word hp hg, List.flatMap_append,
              List.append_assoc]
            rfl
          · intro w hw
            rcases List.mem_append.mp hw with hw | hw
            · exact h.2 w hw
            · rw [List.mem_singleton.mp hw]; exact heq
      · exact h

theorem sep_colon (a b : List Char) : wordsOf (a ++ (":    ".toList ++ b)) = wordsOf a ++ wordsOf b := by
  have e : a ++ (":    ".toList ++ b) = (a ++ ':' :: "   ".toList) ++ ' ' :: b := by simp
  rw [e, wordsOf_sep (by decide), wordsOf_sep (by decide), show wordsOf "   ".toList = [] by decide +kernel,
    List.append_nil]

theorem sep_comma (a b : List Char) : wordsOf (a ++ (",    ".toList ++ b)) = wordsOf a ++ wordsOf b := by
  have e : a ++ (",    ".toList ++ b) = (a ++ ',' :: "   ".toList) ++ ' ' :: b := by simp
  rw [e, wordsOf_sep (by decide), wordsOf_sep (by decide), show wordsOf "   ".toList = [] by decide +kernel,
    List.append_nil]

/-- What is left of the text once the statements have been read. -/
theorem read_text {pre : List (List Char)} {s : List Char} {vs : List (String × ℝ)} (hpre : ∀ w ∈ pre, w ≠ ['='])
    (hv : vs ≠ []) (h : TextHas pre (.ok s) (.ok vs)) :
    List.Forall₂ (fun s v => s.1 = v.1.toList ∧ ReadsAs s.2 (v.2, errG v.2)) (statements (wordsOf s)) vs := by
  rw [h.1]
  obtain ⟨v, vs', rfl⟩ := List.exists_cons_of_ne_nil hv
  obtain ⟨q, hq, h1, h2, -⟩ := read_fmtG v.2
  have := statements_pre pre hpre v.1.toList (fmtG v.2) (h.2 v (by simp)) q
    (by rw [readToken_ends (fmtG_ends _), hq]) (vs'.flatMap stmtWords)
  rw [List.flatMap_cons]
  change List.Forall₂ _ (statements (pre ++ v.1.toList :: ['='] :: fmtG v.2 :: vs'.flatMap stmtWords)) _
  rw [this]
  exact .cons ⟨rfl, reads_errG h1 h2⟩
    (statements_values vs' fun v hv' => h.2 v (List.mem_cons_of_mem _ hv'))

theorem names3 : ∀ k < 14, ∃ des ty, desList3[k]? = some des ∧ typeNames3[k]? = some ty ∧
    (wordsOf ("3D Bravais Lattice - ".toList ++ des.toList)).take 6 =
      ["3D".toList, "Bravais".toList, "Lattice".toList, "-".toList, ty.1.toList, ty.2.toList] ∧
    ∀ w ∈ wordsOf ("3D Bravais Lattice - ".toList ++ des.toList), w ≠ ['='] := by
  intro k hk
  interval_cases k <;> exact ⟨_, _, rfl, rfl, by decide +kernel, by decide +kernel⟩

theorem names2 : ∀ k < 5, ∃ des ty, desList2[k]? = some des ∧ typeNames2[k]? = some ty ∧
    (wordsOf ("2D Bravais Lattice - ".toList ++ des.toList)).take 6 =
      ["2D".toList, "Bravais".toList, "Lattice".toList, "-".toList, ty.1.toList, ty.2.toList] ∧
    ∀ w ∈ wordsOf ("2D Bravais Lattice - ".toList ++ des.toList), w ≠ ['='] := by
  intro k hk
  interval_cases k <;> exact ⟨_, _, rfl, rfl, by decide +kernel, by decide +kernel⟩

/-- The words of a text say what a description says: the first six give the dimension and the type, and the
statements `name = number` are the named values, with six significant digits. -/
def SaysDescription (s : List Char) (d : Description) : Prop :=
  (wordsOf s).take 6 = [fmtD d.dim ++ ['D'], "Bravais".toList, "Lattice".toList, "-".toList, d.family.toList,
    d.centring.toList] ∧
  List.Forall₂ (fun s v => s.1 = v.1.toList ∧ ReadsAs s.2 (v.2, errG v.2)) (statements (wordsOf s)) d.values

theorem addValue_ne_nil {x : Nums} {c : Bool} {name : String} {i : ℕ} {l l' : List (String × ℝ)}
    (h : addValue x c name i (.ok l) = .ok l') (hl : l ≠ []) : l' ≠ [] := by
  unfold addValue at h
  dsimp only at h
  split_ifs at h
  · split at h
    · cases h
    · cases h; simp
  · cases h; exact hl

theorem addValue_ok {x : Nums} {c : Bool} {name : String} {i : ℕ} {l : Except Err (List (String × ℝ))}
    {l' : List (String × ℝ)} (h : addValue x c name i l = .ok l') : ∃ l0, l = .ok l0 ∧
      addValue x c name i (.ok l0) = .ok l' := by
  cases l with
  | error e => cases h
  | ok l0 => exact ⟨l0, rfl, h⟩

theorem addValue_first {x : Nums} {name : String} {i : ℕ} {l' : List (String × ℝ)}
    (h : addValue x true name i (.ok []) = .ok l') : l' ≠ [] := by
  unfold addValue at h
  dsimp only at h
  rw [if_pos rfl] at h
  split at h
  · cases h
  · cases h; simp

/-- **C75**, the text: for every lattice the constructor accepts, `str(lattice)` gives the dimension, the type and
the named values of the description, the values with six significant digits. -/
theorem C75_text (py : Py) (id : ℤ) (arg : PArg) (dim : ℤ) (L : BLat) (h : BLat.new py id arg dim = .ok L)
    (d : Description) (hd : L.describe = .ok d) : ∃ s, L.str = .ok s ∧ SaysDescription s d := by
  obtain ⟨-, -, hlid, hl, -⟩ := C21_accepted py id arg dim L h
  have hid : L.latID = id := hlid
  have fin : ∀ {pre : List (List Char)} {t : Except Err (List Char)} {vs : List (String × ℝ)},
      TextHas pre t (.ok vs) → ∃ s, t = .ok s ∧ TextHas pre (.ok s) (.ok vs) := by
    intro pre t vs ht
    cases t with
    | error e => exact ht.elim
    | ok s => exact ⟨s, rfl, ht⟩
  rcases hl with ⟨-, hN, h1, h2, -⟩ | ⟨-, hN, h1, h2, -⟩
  · obtain ⟨des, ty, e1, e2, e3, e4⟩ := names3 (id - 1).toNat (by omega)
    unfold BLat.describe at hd
    unfold BLat.str
    rw [hid] at hd ⊢
    simp only [hN, if_true, e1, e2] at hd ⊢
    split at hd
    · cases hd
    rename_i vs hvs
    cases hd
    have h0 : TextHas (wordsOf ("3D Bravais Lattice - ".toList ++ des.toList))
        (.ok ("3D Bravais Lattice - ".toList ++ des.toList)) (.ok []) := ⟨by simp, by simp⟩
    have g := addText_has L.latParam (decide (id = 14)) (sep := ",    ") (name := "gamma") sep_comma
      (by unfold Plain; decide) (by decide) (by decide) 5
      (addText_has L.latParam (decide (id = 14)) (sep := ",    ") (name := "beta") sep_comma
      (by unfold Plain; decide) (by decide) (by decide) 4
      (addText_has L.latParam (decide (id = 12 ∨ id = 13)) (sep := ",    ") (name := "beta") sep_comma
      (by unfold Plain; decide) (by decide) (by decide) 3
      (addText_has L.latParam (decide (id = 5 ∨ id = 14)) (sep := ",    ") (name := "alpha") sep_comma
      (by unfold Plain; decide) (by decide) (by decide) 1
      (addText_has L.latParam (decide (8 ≤ id ∧ id < 15)) (sep := ",    ") (name := "c") sep_comma
      (by unfold Plain; decide) (by decide) (by decide) 2
      (addText_has L.latParam (decide (id = 4 ∨ id = 6 ∨ id = 7)) (sep := ",    ") (name := "c") sep_comma
      (by unfold Plain; decide) (by decide) (by decide) 1
      (addText_has L.latParam (decide (8 ≤ id ∧ id < 15)) (sep := ",    ") (name := "b") sep_comma
      (by unfold Plain; decide) (by decide) (by decide) 1
      (addText_has L.latParam true (sep := ":    ") (name := "a") sep_colon
      (by unfold Plain; decide) (by decide) (by decide) 0 h0)))))))
    rw [hvs] at g
    obtain ⟨s, hs, hT⟩ := fin g
    have hne : vs ≠ [] := by
      obtain ⟨l7, q7, r7⟩ := addValue_ok hvs
      obtain ⟨l6, q6, r6⟩ := addValue_ok q7
      obtain ⟨l5, q5, r5⟩ := addValue_ok q6
      obtain ⟨l4, q4, r4⟩ := addValue_ok q5
      obtain ⟨l3, q3, r3⟩ := addValue_ok q4
      obtain ⟨l2, q2, r2⟩ := addValue_ok q3
      obtain ⟨l1, q1, r1⟩ := addValue_ok q2
      exact addValue_ne_nil r7 (addValue_ne_nil r6 (addValue_ne_nil r5 (addValue_ne_nil r4 (addValue_ne_nil r3
        (addValue_ne_nil r2 (addValue_ne_nil r1 (addValue_first q1)))))))
    refine ⟨s, hs, ?_, read_text e4 hne hT⟩
    rw [hT.1, List.take_append_of_le_length, e3]
    · rfl
    · have := congrArg List.length e3
      rw [List.length_take] at this
      simp only [List.length_cons, List.length_nil] at this
      omega
  · obtain ⟨des, ty, e1, e2, e3, e4⟩ := names2 (id - 1).toNat (by omega)
    unfold BLat.describe at hd
    unfold BLat.str
    rw [hid] at hd ⊢
    have hN' : ¬ L.N = 3 := by omega
    simp only [hN', if_false, e1, e2] at hd ⊢
    split at hd
    · cases hd
    rename_i vs hvs
    cases hd
    have h0 : TextHas (wordsOf ("2D Bravais Lattice - ".toList ++ des.toList))
        (.ok ("2D Bravais Lattice - ".toList ++ des.toList)) (.ok []) := ⟨by simp, by simp⟩
    have g := addText_has L.latParam (decide (id = 5)) (sep := ",    ") (name := "gamma") sep_comma
      (by unfold Plain; decide) (by decide) (by decide) 2
      (addText_has L.latParam (decide (id = 2 ∨ id = 3 ∨ id = 5)) (sep := ",    ") (name := "b") sep_comma
      (by unfold Plain; decide) (by decide) (by decide) 1
      (addText_has L.latParam true (sep := ":    ") (name := "a") sep_colon
      (by unfold Plain; decide) (by decide) (by decide) 0 h0))
    rw [hvs] at g
    obtain ⟨s, hs, hT⟩ := fin g
    have hne : vs ≠ [] := by
      obtain ⟨l2, q2, r2⟩ := addValue_ok hvs
      obtain ⟨l1, q1, r1⟩ := addValue_ok q2
      exact addValue_ne_nil r2 (addValue_ne_nil r1 (addValue_first q1))
    refine ⟨s, hs, ?_, read_text e4 hne hT⟩
    rw [hT.1, List.take_append_of_le_length, e3]
    · rfl
    · have := congrArg List.length e3
      rw [List.length_take] at this
      simp only [List.length_cons, List.length_nil] at this
      omega

/-- The hypotheses are met by every accepted plane lattice with a possible angle, and the text then tells the
values a reader needs. -/
example (py : Py) (id : ℤ) (x : Nums) (L : BLat) (h : BLat.new py id (.list x) 2 = .ok L)
    (hf : 0 < angle2 id x.get ∧ angle2 id x.get < 180) :
    ∃ s d ls γ, L.str = .ok s ∧ SaysDescription s d ∧ readLengths2 d.values = some ls ∧
      readAngle2 d.family d.values = some γ := by
  obtain ⟨d, ls, γ, -, h1, -, h2, h3, -⟩ := C75_bravais_2d py id x L h hf
  obtain ⟨s, hs, h4⟩ := C75_text py id _ 2 L h d h1
  exact ⟨s, d, ls, γ, hs, h4, h2, h3⟩

/-- For the square lattice the text is the one expected. -/
example (py : Py) : ∃ L s, BLat.new py 1 (.num (.float [1])) 2 = .ok L ∧ L.str = .ok s ∧
    (wordsOf s).take 6 = ["2D".toList, "Bravais".toList, "Lattice".toList, "-".toList, "Square".toList, "P".toList] := by
  have hE : ∃ L, BLat.new py 1 (.num (.float [1])) 2 = .ok L ∧ ∃ d, L.describe = .ok d ∧ d.dim = 2 ∧
      d.family = "Square" ∧ d.centring = "P" := by
    obtain ⟨L, hN, h1, -⟩ := square_constructs py
    refine ⟨L, h1, ?_⟩
    obtain ⟨ha, -, hid, hl, -⟩ := C21_accepted py 1 _ 2 L h1
    rcases hl with ⟨h0, -⟩ | ⟨-, hN, -, -, hlen⟩
    · exact absurd h0 (by decide)
    · have hp : L.latParam.vals.length = 1 := by simpa [BLat.latParams, paramCount2] using hlen
      have hid' : L.latID = 1 := hid
      obtain ⟨v, hv⟩ := List.length_eq_one_iff.mp hp
      refine ⟨⟨2, "Square", "P", [("a", v)]⟩, ?_, rfl, rfl, rfl⟩
      unfold BLat.describe
      simp [hN, hid', typeNames2, addValue, hv]
  obtain ⟨L, h1, d, h2, h3, h4, h5⟩ := hE
  obtain ⟨s, hs, h6, -⟩ := C75_text py 1 _ 2 L h1 d h2
  refine ⟨L, s, h1, hs, ?_⟩
  rw [h6, h3, h4, h5]
  rfl

end Verif.Props
