import Mathlib.Tactic.Linarith
import Mathlib.Tactic.Ring
import Mathlib.Tactic.FieldSimp
import Mathlib.Tactic.IntervalCases
import Mathlib.Data.Nat.Digits.Lemmas
import Verif.Model.Format
import Verif.Spec.Numeral
import Verif.Lemmas.LLL
import Verif.Lemmas.Lattice

/-!
# Lemmas: reading the numbers that the conversions print
-/

namespace Verif.Lemmas

open Verif.Model Verif.Spec

/-! ### Digits -/

/-- One step of `readDigits`. -/
def rdStep (acc : Option ℕ) (c : Char) : Option ℕ :=
  match acc, digitVal c with
  | some a, some d => some (10 * a + d)
  | _, _ => none

theorem readDigits_eq (l : List Char) : readDigits l = l.foldl rdStep (some 0) := rfl

theorem foldl_none (l : List Char) : l.foldl rdStep none = none := by
  induction l with
  | nil => rfl
  | cons c l ih => simpa [rdStep] using ih

/-- A list of digits. -/
def AllDig (l : List Char) : Prop := ∀ c ∈ l, ∃ n, n < 10 ∧ c = digit n

theorem digit_val {n : ℕ} (h : n < 10) : digitVal (digit n) = some n := by
  interval_cases n <;> decide

theorem digit_ne {n : ℕ} (h : n < 10) : digit n ≠ '.' ∧ digit n ≠ 'e' ∧ digit n ≠ '-' ∧ digit n ≠ '+' ∧
    isSep (digit n) = false ∧ digit n ≠ '\n' := by
  interval_cases n <;> decide

theorem AllDig.append {a b : List Char} (ha : AllDig a) (hb : AllDig b) : AllDig (a ++ b) := by
  intro c hc
  rcases List.mem_append.mp hc with h | h
  exacts [ha c h, hb c h]

theorem step_digit (a : ℕ) {n : ℕ} (h : n < 10) : rdStep (some a) (digit n) = some (10 * a + n) := by
  simp [rdStep, digit_val h]

theorem foldl_revDigits : ∀ (l : List ℕ) (a : ℕ), (∀ d ∈ l, d < 10) →
    (l.reverse.map digit).foldl rdStep (some a) = some (a * 10 ^ l.length + Nat.ofDigits 10 l)
  | [], a, _ => by simp
  | d :: l, a, h => by
    rw [List.reverse_cons, List.map_append, List.foldl_append,
      foldl_revDigits l a fun x hx => h x (List.mem_cons_of_mem _ hx)]
    simp only [List.map_cons, List.map_nil, List.foldl_cons, List.foldl_nil]
    rw [step_digit _ (h d (List.mem_cons_self ..)), Nat.ofDigits_cons, List.length_cons]
    congr 1
    push_cast
    ring

theorem fmtD_allDig (n : ℕ) : AllDig (fmtD n) := by
  unfold fmtD
  split_ifs with h
  · intro c hc
    rw [List.mem_singleton.mp hc]
    exact ⟨0, by norm_num, by decide⟩
  · intro c hc
    obtain ⟨d, hd, rfl⟩ := List.mem_map.mp hc
    exact ⟨d, Nat.digits_lt_base (by norm_num) (List.mem_reverse.mp hd), rfl⟩

theorem fmtD_ne_nil (n : ℕ) : fmtD n ≠ [] := by
  unfold fmtD
  split_ifs with h
  · simp
  · simpa using Nat.digits_ne_nil_iff_ne_zero.mpr h

theorem foldl_fmtD (n : ℕ) : (fmtD n).foldl rdStep (some 0) = some n := by
  unfold fmtD
  split_ifs with h
  · subst h; decide
  · rw [foldl_revDigits _ 0 fun d hd => Nat.digits_lt_base (by norm_num) hd, Nat.ofDigits_digits, Nat.zero_mul,
      Nat.zero_add]

theorem lastDigits_length : ∀ d n, (lastDigits d n).length = d
  | 0, _ => rfl
  | d + 1, n => by simp [lastDigits, lastDigits_length d]

theorem lastDigits_allDig : ∀ d n, AllDig (lastDigits d n)
  | 0, _ => by intro c hc; simp [lastDigits] at hc
  | d + 1, n => (lastDigits_allDig d _).append (by
      intro c hc
      rw [List.mem_singleton.mp hc]
      exact ⟨n % 10, Nat.mod_lt _ (by norm_num), rfl⟩)

theorem foldl_lastDigits : ∀ d n a, n < 10 ^ d →
    (lastDigits d n).foldl rdStep (some a) = some (a * 10 ^ d + n)
  | 0, n, a, h => by
    have : n = 0 := by simpa using h
    simp [lastDigits, this]
  | d + 1, n, a, h => by
    rw [lastDigits, List.foldl_append, foldl_lastDigits d (n / 10) a (by rw [pow_succ] at h; omega)]
    simp only [List.foldl_cons, List.foldl_nil]
    rw [step_digit _ (Nat.mod_lt _ (by norm_num))]
    congr 1
    rw [pow_succ]
    have := Nat.div_add_mod n 10
    ring_nf
    omega

theorem foldl_zeros (k a : ℕ) : (List.replicate k '0').foldl rdStep (some a) = some (a * 10 ^ k) := by
  induction k generalizing a with
  | zero => simp
  | succ k ih =>
    rw [List.replicate_succ, List.foldl_cons]
    have : rdStep (some a) '0' = some (10 * a) := step_digit a (n := 0) (by norm_num)
    rw [this, ih, pow_succ]
    congr 1
    ring

/-! ### Decimal numbers -/

theorem takeWhile_all {p : Char → Bool} : ∀ {l : List Char}, (∀ c ∈ l, p c = true) →
    ∀ r, (l ++ r).takeWhile p = l ++ r.takeWhile p ∧ (l ++ r).dropWhile p = r.dropWhile p
  | [], _, r => by simp
  | c :: l, h, r => by
    have hc := h c (List.mem_cons_self ..)
    obtain ⟨h1, h2⟩ := takeWhile_all (fun x hx => h x (List.mem_cons_of_mem _ hx)) r
    simp [List.takeWhile_cons, List.dropWhile_cons, hc, h1, h2]

theorem AllDig.noDot {l : List Char} (h : AllDig l) : ∀ c ∈ l, (decide (c ≠ '.')) = true := by
  intro c hc
  obtain ⟨n, hn, rfl⟩ := h c hc
  exact decide_eq_true (digit_ne hn).1

theorem AllDig.noE {l : List Char} (h : AllDig l) : ∀ c ∈ l, (decide (c ≠ 'e')) = true := by
  intro c hc
  obtain ⟨n, hn, rfl⟩ := h c hc
  exact decide_eq_true (digit_ne hn).2.1

theorem readDecimal_int {ip : List Char} (h : AllDig ip) (hne : ip ≠ []) :
    readDecimal ip = (readDigits ip).map fun (n : ℕ) => (n : ℚ) := by
  obtain ⟨h1, h2⟩ := takeWhile_all h.noDot []
  rw [List.append_nil] at h1 h2
  simp only [List.takeWhile_nil, List.dropWhile_nil, List.append_nil] at h1 h2
  unfold readDecimal
  simp only [h1, h2, if_neg hne, List.tail_nil, List.append_nil, List.length_nil, pow_zero, div_one]

theorem readDecimal_point {ip fr : List Char} (h : AllDig ip) (hne : ip ≠ []) :
    readDecimal (ip ++ '.' :: fr) = (readDigits (ip ++ fr)).map fun (n : ℕ) => (n : ℚ) / 10 ^ fr.length := by
  obtain ⟨h1, h2⟩ := takeWhile_all h.noDot ('.' :: fr)
  simp only [List.takeWhile_cons, List.dropWhile_cons] at h1 h2
  unfold readDecimal
  simp only [h1, h2]
  simp [hne]

/-- Removing zeros at the end does not change the value. -/
theorem readDecimal_withFraction {ip fr : List Char} {a n : ℕ} (h : AllDig ip) (hne : ip ≠ [])
    (hip : readDigits ip = some a) (hfr : fr.foldl rdStep (some a) = some n) :
    readDecimal (withFraction ip fr) = some ((n : ℚ) / 10 ^ fr.length) := by
  set s := fr.rdropWhile (· == '0') with hs
  obtain ⟨k, hk⟩ : ∃ k, fr = s ++ List.replicate k '0' := by
    refine ⟨(fr.rtakeWhile (· == '0')).length, ?_⟩
    have h1 : fr.rtakeWhile (· == '0') = List.replicate (fr.rtakeWhile (· == '0')).length '0' := by
      refine List.eq_replicate_iff.mpr ⟨rfl, fun c hc => ?_⟩
      have := List.mem_rtakeWhile_imp hc
      simpa using this
    rw [← h1, hs]
    exact (List.rdropWhile_append_rtakeWhile).symm
  obtain ⟨b, hb⟩ : ∃ b, s.foldl rdStep (some a) = some b := by
    cases hc : s.foldl rdStep (some a) with
    | none =>
      rw [hk, List.foldl_append, hc, foldl_none] at hfr
      cases hfr
    | some b => exact ⟨b, rfl⟩
  have hn : n = b * 10 ^ k := by
    rw [hk, List.foldl_append, hb, foldl_zeros] at hfr
    exact (Option.some.inj hfr).symm
  have hl : fr.length = s.length + k := by rw [hk]; simp
  unfold withFraction
  rw [← hs]
  split_ifs with h0
  · rw [readDecimal_int h hne, hip]
    rw [h0] at hb hl
    simp only [List.foldl_nil, Option.some.injEq] at hb
    simp only [Option.map_some, Option.some.injEq, hn, ← hb, hl, List.length_nil, Nat.zero_add]
    push_cast
    rw [mul_div_cancel_right₀ _ (pow_ne_zero _ (by norm_num))]
  · rw [readDecimal_point h hne]
    have : readDigits (ip ++ s) = some b := by
      rw [readDigits_eq, List.foldl_append, ← readDigits_eq, hip, hb]
    rw [this]
    simp only [Option.map_some, Option.some.injEq, hn, hl]
    push_cast
    rw [pow_add, mul_comm (10 ^ s.length : ℚ), mul_comm (b : ℚ),
      mul_div_mul_left _ _ (pow_ne_zero k (by norm_num : (10 : ℚ) ≠ 0))]

theorem readUnsigned_noE {l : List Char} (h : ∀ c ∈ l, (decide (c ≠ 'e')) = true) :
    readUnsigned l = readDecimal l := by
  obtain ⟨h1, h2⟩ := takeWhile_all h []
  rw [List.append_nil] at h1 h2
  unfold readUnsigned
  rw [h1, h2]
  simp

theorem readUnsigned_exp {l ex : List Char} (h : ∀ c ∈ l, (decide (c ≠ 'e')) = true) {q : ℚ} {k : ℤ}
    (hl : readDecimal l = some q) (hk : readExponent ex = some k) :
    readUnsigned (l ++ 'e' :: ex) = some (q * 10 ^ k) := by
  obtain ⟨h1, h2⟩ := takeWhile_all h ('e' :: ex)
  have e1 : ('e' :: ex).takeWhile (fun c => decide (c ≠ 'e')) = [] := by simp
  have e2 : ('e' :: ex).dropWhile (fun c => decide (c ≠ 'e')) = 'e' :: ex := by simp
  rw [e1, List.append_nil] at h1
  rw [e2] at h2
  unfold readUnsigned
  rw [h1, h2]
  simp [hl, hk]

theorem readNumber_pos {l : List Char} (h : l.head? ≠ some '-') : readNumber l = readUnsigned l := by
  cases l with
  | nil => rfl
  | cons c l =>
    unfold readNumber
    split
    · rename_i h'
      simp only [List.cons.injEq] at h'
      simp [h'.1] at h
    · rfl

theorem readExponent_expText (e : ℤ) : readExponent (expText e) = some e := by
  have hz : ∀ n : ℕ, ∃ c l, (if n < 10 then '0' :: fmtD n else fmtD n) = c :: l ∧
      readDigits (c :: l) = some n := by
    intro n
    split_ifs with h
    · refine ⟨'0', fmtD n, rfl, ?_⟩
      rw [readDigits_eq, List.foldl_cons]
      have : rdStep (some 0) '0' = some 0 := by decide
      rw [this, foldl_fmtD]
    · cases hn : fmtD n with
      | nil => exact absurd hn (fmtD_ne_nil n)
      | cons c l => exact ⟨c, l, rfl, by rw [← hn, readDigits_eq, foldl_fmtD]⟩
  obtain ⟨c, l, h1, h2⟩ := hz e.natAbs
  unfold expText
  rw [h1]
  split_ifs with h
  · simp only [readExponent, h2, Option.map_some]
    congr 1
    omega
  · simp only [readExponent, h2, Option.map_some]
    congr 1
    omega

/-! ### The conversions -/

/-- Neither a separator nor an end of line. -/
def Plain (l : List Char) : Prop := ∀ c ∈ l, isSep c = false ∧ c ≠ '\n'

theorem Plain.append {a b : List Char} (ha : Plain a) (hb : Plain b) : Plain (a ++ b) := by
  intro c hc
  rcases List.mem_append.mp hc with h | h
  exacts [ha c h, hb c h]

theorem Plain.cons {c : Char} {l : List Char} (h : isSep c = false ∧ c ≠ '\n') (hl : Plain l) :
    Plain (c :: l) := by
  intro x hx
  rcases List.mem_cons.mp hx with rfl | h'
  exacts [h, hl x h']

theorem AllDig.plain {l : List Char} (h : AllDig l) : Plain l := by
  intro c hc
  obtain ⟨n, hn, rfl⟩ := h c hc
  exact ⟨(digit_ne hn).2.2.2.2.1, (digit_ne hn).2.2.2.2.2⟩

theorem signText_plain (x : ℝ) : Plain (signText x) := by
  unfold signText
  split_ifs
  · exact Plain.cons (by decide) (by simp [Plain])
  · simp [Plain]

theorem withFraction_allOf {P : Char → Prop} {ip fr : List Char} (hip : ∀ c ∈ ip, P c) (hfr : ∀ c ∈ fr, P c)
    (hd : P '.') : ∀ c ∈ withFraction ip fr, P c := by
  intro c hc
  unfold withFraction at hc
  split_ifs at hc
  · exact hip c hc
  · rcases List.mem_append.mp hc with h | h
    · exact hip c h
    · rcases List.mem_cons.mp h with rfl | h
      · exact hd
      · exact hfr c ((List.rdropWhile_prefix _ _).subset h)

theorem head_fmtD (n : ℕ) (r : List Char) : (fmtD n ++ r).head? ≠ some '-' := by
  cases h : fmtD n with
  | nil => exact absurd h (fmtD_ne_nil n)
  | cons c l =>
    obtain ⟨k, hk, rfl⟩ := fmtD_allDig n c (by rw [h]; exact List.mem_cons_self ..)
    simpa using (digit_ne hk).2.2.1

theorem head_withFraction (n : ℕ) (fr r : List Char) :
    (withFraction (fmtD n) fr ++ r).head? ≠ some '-' := by
  unfold withFraction
  split_ifs
  · exact head_fmtD n r
  · rw [List.append_assoc]
    exact head_fmtD n _

theorem readNumber_sign (x : ℝ) {u : List Char} {q : ℚ} (hu : u.head? ≠ some '-')
    (h : readUnsigned u = some q) :
    readNumber (signText x ++ u) = some (if x < 0 then -q else q) := by
  unfold signText
  split_ifs with hx
  · simp [readNumber, h]
  · rw [List.nil_append, readNumber_pos hu, h]

theorem roundEven_nonneg {y : ℝ} (h : 0 ≤ y) : 0 ≤ roundEven y := by
  have h1 := abs_le.mp (roundEven_near y)
  by_contra hn
  have : (roundEven y : ℝ) ≤ -1 := by
    have : roundEven y ≤ -1 := by omega
    exact_mod_cast this
  linarith

theorem toNat_roundEven {y : ℝ} (h : 0 ≤ y) : (((roundEven y).toNat : ℕ) : ℝ) = roundEven y := by
  have : ((roundEven y).toNat : ℤ) = roundEven y := Int.toNat_of_nonneg (roundEven_nonneg h)
  exact_mod_cast this

/-- From an approximation of `|x|` to one of `x`. -/
theorem signed_close {x : ℝ} {q : ℚ} {ε : ℝ} (h : abs ((q : ℝ) - |x|) ≤ ε) :
    |((if x < 0 then -q else q : ℚ) : ℝ) - x| ≤ ε := by
  split_ifs with hx
  · rw [abs_of_neg hx] at h
    rw [← abs_neg]
    push_cast
    rw [show -(-(q : ℝ) - x) = q - -x by ring]
    exact h
  · rwa [abs_of_nonneg (not_lt.mp hx)] at h

/-- What is printed with `d` digits after the point is read as a number that differs from `x` by at most half
a unit of the last digit; a number with at most `d` digits after the point is read exactly. -/
theorem read_fmtF (d : ℕ) (x : ℝ) : ∃ q : ℚ, readNumber (fmtF d x) = some q ∧
    |(q : ℝ) - x| ≤ 1 / 2 / 10 ^ d ∧ (∀ k : ℤ, x * 10 ^ d = k → (q : ℝ) = x) ∧ Plain (fmtF d x) := by
  have h10 : (0 : ℝ) < 10 ^ d := by positivity
  have hy : 0 ≤ |x| * 10 ^ d := by positivity
  set m := (roundEven (|x| * 10 ^ d)).toNat with hm
  have hmr : (m : ℝ) = roundEven (|x| * 10 ^ d) := toNat_roundEven hy
  have hu : readUnsigned (fmtD (m / 10 ^ d) ++ '.' :: lastDigits d (m % 10 ^ d)) =
      some ((m : ℚ) / 10 ^ d) := by
    rw [readUnsigned_noE, readDecimal_point (fmtD_allDig _) (fmtD_ne_nil _), readDigits_eq, List.foldl_append,
      foldl_fmtD, foldl_lastDigits _ _ _ (Nat.mod_lt _ (by positivity)), lastDigits_length]
    · simp only [Option.map_some, Option.some.injEq]
      rw [Nat.mul_comm, Nat.div_add_mod]
    · intro c hc
      rcases List.mem_append.mp hc with h | h
      · exact (fmtD_allDig _).noE c h
      · rcases List.mem_cons.mp h with rfl | h
        · decide
        · exact (lastDigits_allDig _ _).noE c h
  have hval : abs ((((m : ℚ) / 10 ^ d : ℚ) : ℝ) - |x|) ≤ 1 / 2 / 10 ^ d := by
    push_cast
    rw [show (m : ℝ) / 10 ^ d - |x| = (m - |x| * 10 ^ d) / 10 ^ d by field_simp, abs_div,
      abs_of_pos h10, div_le_div_iff_of_pos_right h10, hmr, abs_sub_comm]
    exact roundEven_near _
  refine ⟨_, ?_, signed_close hval, ?_, ?_⟩
  · unfold fmtF
    simp only [← hm]
    rw [List.append_assoc]
    exact readNumber_sign x (head_fmtD _ _) hu
  · intro k hk
    have hk' : |x| * 10 ^ d = ((|k| : ℤ) : ℝ) := by
      rw [Int.cast_abs, ← hk, abs_mul, abs_of_pos h10]
    have h0 : abs ((((m : ℚ) / 10 ^ d : ℚ) : ℝ) - |x|) ≤ 0 := by
      push_cast
      rw [hmr, hk', roundEven_intCast, ← hk']
      rw [mul_div_cancel_right₀ _ h10.ne', sub_self, abs_zero]
    have := signed_close h0
    exact sub_eq_zero.mp (abs_eq_zero.mp (le_antisymm this (abs_nonneg _)))
  · unfold fmtF
    exact ((signText_plain x).append (fmtD_allDig _).plain).append
      (Plain.cons (by decide) (lastDigits_allDig _ _).plain)

theorem sixDigits_spec {x : ℝ} (hx : x ≠ 0) :
    (sixDigits x).1 < 10 ^ 6 ∧
    abs (((sixDigits x).1 : ℝ) * 10 ^ ((sixDigits x).2 - 5) - |x|) ≤ 5 / 10 ^ 6 * |x| ∧
    (∀ k : ℤ, x = k → |k| < 10 ^ 6 → ((sixDigits x).1 : ℝ) * 10 ^ ((sixDigits x).2 - 5) = |x|) := by
  have hpos : 0 < |x| := abs_pos.mpr hx
  set e := Int.log 10 |x|
  have l1 : (10 : ℝ) ^ e ≤ |x| := by
    have := Int.zpow_log_le_self (b := 10) (by norm_num) hpos
    exact_mod_cast this
  have l2 : |x| < (10 : ℝ) ^ (e + 1) := by
    have := Int.lt_zpow_succ_log_self (b := 10) (by norm_num) |x|
    exact_mod_cast this
  have hp : (0 : ℝ) < 10 ^ (5 - e) := by positivity
  have hpe : (10 : ℝ) ^ (5 - e) * 10 ^ (e - 5) = 1 := by
    rw [← zpow_add₀ (by norm_num)]; norm_num
  have hy : 0 ≤ |x| * 10 ^ (5 - e) := by positivity
  set m := (roundEven (|x| * 10 ^ (5 - e))).toNat with hm
  have hmr : (m : ℝ) = roundEven (|x| * 10 ^ (5 - e)) := toNat_roundEven hy
  have hnear : |(m : ℝ) - |x| * 10 ^ (5 - e)| ≤ 1 / 2 := by
    rw [hmr, abs_sub_comm]; exact roundEven_near _
  have hup : |x| * 10 ^ (5 - e) < 10 ^ 6 := by
    have := mul_lt_mul_of_pos_right l2 hp
    rwa [← zpow_add₀ (by norm_num), show e + 1 + (5 - e) = ((6 : ℕ) : ℤ) by push_cast; ring, zpow_natCast] at this
  have hm6 : m ≤ 10 ^ 6 := by
    have := (abs_le.mp hnear).2
    have h2 : (m : ℝ) < 10 ^ 6 + 1 := by linarith
    have h3 : m < 10 ^ 6 + 1 := by exact_mod_cast h2
    omega
  have herr : abs ((m : ℝ) * 10 ^ (e - 5) - |x|) ≤ 5 / 10 ^ 6 * |x| := by
    have e1 : (m : ℝ) * 10 ^ (e - 5) - |x| = (m - |x| * 10 ^ (5 - e)) * 10 ^ (e - 5) := by
      rw [sub_mul, mul_assoc |x|, hpe, mul_one]
    rw [e1, abs_mul, abs_of_pos (by positivity : (0 : ℝ) < 10 ^ (e - 5))]
    calc |(m : ℝ) - |x| * 10 ^ (5 - e)| * 10 ^ (e - 5) ≤ 1 / 2 * 10 ^ (e - 5) := by gcongr
      _ = 5 / 10 ^ 6 * 10 ^ e := by
        rw [zpow_sub₀ (by norm_num)]; norm_num; ring
      _ ≤ _ := by gcongr
  have hex : ∀ k : ℤ, x = k → |k| < 10 ^ 6 → (m : ℝ) * 10 ^ (e - 5) = |x| := by
    intro k hk hk6
    have hx6 : |x| < 10 ^ 6 := by
      rw [hk, ← Int.cast_abs]; exact_mod_cast hk6
    have he5 : e ≤ 5 := by
      have : (10 : ℝ) ^ e < 10 ^ (6 : ℤ) := lt_of_le_of_lt l1 (by exact_mod_cast hx6)
      have := (zpow_lt_zpow_iff_right₀ (by norm_num : (1 : ℝ) < 10)).mp this
      omega
    obtain ⟨n, hn⟩ : ∃ n : ℕ, 5 - e = n := ⟨(5 - e).toNat, by omega⟩
    have hint : |x| * 10 ^ (5 - e) = ((|k| * 10 ^ n : ℤ) : ℝ) := by
      rw [hn, zpow_natCast, hk, ← Int.cast_abs]; push_cast; ring
    have : (m : ℝ) = |x| * 10 ^ (5 - e) := by rw [hmr, hint, roundEven_intCast]
    rw [this, mul_assoc, hpe, mul_one]
  have hs : sixDigits x = if m = 10 ^ 6 then (10 ^ 5, e + 1) else (m, e) := rfl
  rw [hs]
  split_ifs with h
  · have e2 : (((10 ^ 5 : ℕ) : ℕ) : ℝ) * 10 ^ (e + 1 - 5) = (m : ℝ) * 10 ^ (e - 5) := by
      rw [h, show e + 1 - 5 = (e - 5) + 1 by ring, zpow_add₀ (by norm_num)]
      push_cast
      norm_num
      ring
    refine ⟨by norm_num, ?_, ?_⟩
    · simp only [e2]; exact herr
    · simp only [e2]; exact hex
  · exact ⟨by omega, herr, hex⟩

/-- What `{:g}` prints is read as a number with a relative error of at most `5e-6`; zero and integers below a
million are read exactly. -/
theorem read_fmtG (x : ℝ) : ∃ q : ℚ, readNumber (fmtG x) = some q ∧ |(q : ℝ) - x| ≤ 5 / 10 ^ 6 * |x| ∧
    (∀ k : ℤ, x = k → |k| < 10 ^ 6 → (q : ℝ) = x) ∧ Plain (fmtG x) := by
  unfold fmtG
  split_ifs with h0
  · refine ⟨0, by decide +kernel, by simp [h0], fun _ _ _ => by simp [h0], ?_⟩
    exact Plain.cons (by decide) (by simp [Plain])
  obtain ⟨s1, s2, s3⟩ := sixDigits_spec h0
  set m := (sixDigits x).1 with hm
  set e := (sixDigits x).2 with hee
  have fin : ∀ q : ℚ, (q : ℝ) = (m : ℝ) * 10 ^ (e - 5) →
      |((if x < 0 then -q else q : ℚ) : ℝ) - x| ≤ 5 / 10 ^ 6 * |x| ∧
      (∀ k : ℤ, x = k → |k| < 10 ^ 6 → ((if x < 0 then -q else q : ℚ) : ℝ) = x) := by
    intro q hq
    refine ⟨signed_close (by rw [hq]; exact s2), fun k hk hk6 => ?_⟩
    have : abs ((q : ℝ) - |x|) ≤ 0 := by rw [hq, s3 k hk hk6, sub_self, abs_zero]
    exact sub_eq_zero.mp (abs_eq_zero.mp (le_antisymm (signed_close this) (abs_nonneg _)))
  have frac : ∀ D : ℕ, readDecimal (withFraction (fmtD (m / 10 ^ D)) (lastDigits D (m % 10 ^ D))) =
      some ((m : ℚ) / 10 ^ D) := by
    intro D
    rw [readDecimal_withFraction (a := m / 10 ^ D) (n := m) (fmtD_allDig _) (fmtD_ne_nil _)
      (by rw [readDigits_eq, foldl_fmtD]), lastDigits_length]
    rw [foldl_lastDigits _ _ _ (Nat.mod_lt _ (by positivity)), Nat.mul_comm, Nat.div_add_mod]
  have noE : ∀ D : ℕ, ∀ c ∈ withFraction (fmtD (m / 10 ^ D)) (lastDigits D (m % 10 ^ D)),
      (decide (c ≠ 'e')) = true := fun D =>
    withFraction_allOf (fmtD_allDig _).noE (lastDigits_allDig _ _).noE (by decide)
  have pl : ∀ D : ℕ, Plain (withFraction (fmtD (m / 10 ^ D)) (lastDigits D (m % 10 ^ D))) := fun D =>
    withFraction_allOf (fmtD_allDig _).plain (lastDigits_allDig _ _).plain (by decide)
  dsimp only
  by_cases he : -4 ≤ e ∧ e < 6
  · rw [if_pos he]
    have hv : (((m : ℚ) / 10 ^ (5 - e).toNat : ℚ) : ℝ) = (m : ℝ) * 10 ^ (e - 5) := by
      push_cast
      rw [div_eq_mul_inv, ← zpow_natCast, ← zpow_neg, show -(((5 - e).toNat : ℕ) : ℤ) = e - 5 by omega]
    obtain ⟨f1, f2⟩ := fin _ hv
    refine ⟨_, ?_, f1, f2, ?_⟩
    · refine readNumber_sign x ?_ ?_
      · have := head_withFraction (m / 10 ^ (5 - e).toNat) (lastDigits (5 - e).toNat (m % 10 ^ (5 - e).toNat)) []
        rwa [List.append_nil] at this
      · rw [readUnsigned_noE (noE _), frac]
    · exact (signText_plain x).append (pl _)
  · rw [if_neg he]
    have hv : (((m : ℚ) / 10 ^ 5 * 10 ^ e : ℚ) : ℝ) = (m : ℝ) * 10 ^ (e - 5) := by
      push_cast
      rw [zpow_sub₀ (by norm_num : (10 : ℝ) ≠ 0)]
      norm_num
      ring
    obtain ⟨f1, f2⟩ := fin _ hv
    refine ⟨_, ?_, f1, f2, ?_⟩
    · rw [List.append_assoc]
      refine readNumber_sign x (head_withFraction _ _ _) ?_
      exact readUnsigned_exp (noE 5) (frac 5) (readExponent_expText e)
    · refine ((signText_plain x).append (pl 5)).append (Plain.cons (by decide) ?_)
      unfold expText
      refine Plain.cons (by split_ifs <;> decide) ?_
      split_ifs
      · exact Plain.cons (by decide) (fmtD_allDig _).plain
      · exact (fmtD_allDig _).plain

theorem read_fmtD (n : ℕ) : readNumber (fmtD n) = some (n : ℚ) := by
  have h := head_fmtD n []
  rw [List.append_nil] at h
  rw [readNumber_pos h, readUnsigned_noE (fmtD_allDig n).noE, readDecimal_int (fmtD_allDig n) (fmtD_ne_nil n),
    readDigits_eq, foldl_fmtD]
  rfl

end Verif.Lemmas
