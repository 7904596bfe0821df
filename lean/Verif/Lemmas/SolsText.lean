import Verif.Lemmas.Format
import Verif.Model.SolsText
import Verif.Spec.PrintedReport

/-!
# Lemmas about the text that describes the solutions
-/

namespace Verif.Lemmas

open Verif.Model Verif.Spec

/-! ### Words -/

/-- The text ends with a digit. -/
def EndsDig (l : List Char) : Prop := ∃ a n, n < 10 ∧ l = a ++ [digit n]

theorem EndsDig.app {b : List Char} (h : EndsDig b) (a : List Char) : EndsDig (a ++ b) := by
  obtain ⟨c, n, hn, rfl⟩ := h
  exact ⟨a ++ c, n, hn, by rw [List.append_assoc]⟩

theorem AllDig.ends {l : List Char} (h : AllDig l) (hne : l ≠ []) : EndsDig l := by
  obtain ⟨n, hn, e⟩ := h (l.getLast hne) (List.getLast_mem hne)
  exact ⟨l.dropLast, n, hn, by rw [← e]; exact (List.dropLast_append_getLast hne).symm⟩

theorem fmtF_ends {d : ℕ} (hd : d ≠ 0) (x : ℝ) : EndsDig (fmtF d x) := by
  unfold fmtF
  refine EndsDig.app ?_ _
  have h : EndsDig (lastDigits d ((roundEven (|x| * 10 ^ d)).toNat % 10 ^ d)) :=
    (lastDigits_allDig _ _).ends fun h => hd (by rw [← lastDigits_length d, h]; rfl)
  exact h.app ['.']

theorem withFraction_ends {ip fr : List Char} (hip : AllDig ip) (hne : ip ≠ []) (hfr : AllDig fr) :
    EndsDig (withFraction ip fr) := by
  unfold withFraction
  split_ifs with h
  · exact hip.ends hne
  · have : AllDig (fr.rdropWhile (· == '0')) := fun c hc => hfr c ((List.rdropWhile_prefix _ _).subset hc)
    exact ((this.ends h).app ['.']).app ip

theorem fmtG_ends (x : ℝ) : EndsDig (fmtG x) := by
  unfold fmtG
  split_ifs with h0
  · exact ⟨[], 0, by norm_num, rfl⟩
  · dsimp only
    split_ifs with he
    · exact (withFraction_ends (fmtD_allDig _) (fmtD_ne_nil _) (lastDigits_allDig _ _)).app _
    · refine EndsDig.app (EndsDig.app (b := expText _) ?_ ['e']) _
      unfold expText
      split_ifs
      all_goals first
        | exact (((fmtD_allDig _).ends (fmtD_ne_nil _)).app ['0']).app [_]
        | exact ((fmtD_allDig _).ends (fmtD_ne_nil _)).app [_]

theorem readToken_ends {l : List Char} (h : EndsDig l) : readToken l = readNumber l := by
  obtain ⟨a, n, hn, rfl⟩ := h
  unfold readToken
  rw [if_neg]
  rw [List.getLast?_append]
  simpa using (digit_ne hn).1

theorem readToken_stop (l : List Char) : readToken (l ++ ['.']) = readNumber l := by
  unfold readToken
  rw [if_pos (by simp)]
  simp

/-- A word that begins with another character is not a number. -/
theorem readNumber_word {c : Char} (h1 : digitVal c = none) (h2 : c ≠ '-') (h3 : c ≠ 'e') (h4 : c ≠ '.')
    (w : List Char) : readNumber (c :: w) = none := by
  rw [readNumber_pos (by simpa using h2)]
  have hd : ∀ r, readDecimal (c :: r) = none := by
    intro r
    unfold readDecimal
    simp only [List.takeWhile_cons, List.dropWhile_cons, h4, ne_eq, not_false_eq_true, decide_true, if_true]
    rw [if_neg (by simp), readDigits_eq, List.cons_append, List.foldl_cons]
    have : rdStep (some 0) c = none := by simp [rdStep, h1]
    rw [this, foldl_none]
    rfl
  unfold readUnsigned
  simp only [List.takeWhile_cons, List.dropWhile_cons, h3, ne_eq, not_false_eq_true, decide_true, if_true]
  rw [hd]
  split <;> rfl

theorem readToken_word {c : Char} (h1 : digitVal c = none) (h2 : c ≠ '-') (h3 : c ≠ 'e') (h4 : c ≠ '.')
    {w : List Char} (hw : EndsDig (c :: w)) : readToken (c :: w) = none := by
  rw [readToken_ends hw, readNumber_word h1 h2 h3 h4]

/-! ### Lines -/

theorem cut_ne_nil (p : Char → Bool) (l : List Char) : cut p l ≠ [] := by
  cases l with
  | nil => simp [cut]
  | cons c l =>
    unfold cut
    split_ifs
    · simp
    · split <;> simp

theorem cut_cons (p : Char → Bool) (c : Char) (l : List Char) : cut p (c :: l) =
    if p c then [] :: cut p l
    else match cut p l with
      | w :: ws => (c :: w) :: ws
      | [] => [[c]] := rfl

theorem cut_append {p : Char → Bool} {s : Char} (hs : p s = true) (b : List Char) :
    ∀ a, cut p (a ++ s :: b) = cut p a ++ cut p b
  | [] => by simp [cut, hs]
  | c :: a => by
    have ih := cut_append hs b a
    rw [List.cons_append, cut_cons, cut_cons, ih]
    split_ifs
    · rfl
    · cases h : cut p a with
      | nil => exact absurd h (cut_ne_nil p a)
      | cons w ws => rfl

theorem cut_none {p : Char → Bool} : ∀ {a : List Char}, (∀ c ∈ a, p c = false) → cut p a = [a]
  | [], _ => rfl
  | c :: a, h => by
    unfold cut
    rw [cut_none fun x hx => h x (List.mem_cons_of_mem _ hx), h c (List.mem_cons_self ..)]
    rfl

theorem numbersIn_sep {s : Char} (hs : isSep s = true) (a b : List Char) :
    numbersIn (a ++ s :: b) = numbersIn a ++ numbersIn b := by
  unfold numbersIn
  rw [cut_append hs, List.filterMap_append]

theorem numbersIn_nil : numbersIn [] = [] := by decide +kernel

theorem numbersIn_cons {s : Char} (hs : isSep s = true) (b : List Char) : numbersIn (s :: b) = numbersIn b := by
  have := numbersIn_sep hs [] b
  rwa [numbersIn_nil] at this

theorem numbersIn_word {w : List Char} (hw : Plain w) : numbersIn w = (readToken w).toList := by
  unfold numbersIn
  rw [cut_none fun c hc => (hw c hc).1]
  cases h : readToken w <;> simp [h]

theorem numbersIn_spaces (k : ℕ) (b : List Char) : numbersIn (List.replicate k ' ' ++ b) = numbersIn b := by
  induction k with
  | zero => rfl
  | succ k ih => rw [List.replicate_succ, List.cons_append, numbersIn_cons (by decide), ih]

/-- The numbers of a line are the given ones. -/
def LineSays (w : List Char) (es : List (ℝ × ℝ)) : Prop := List.Forall₂ ReadsAs (numbersIn w) es

theorem LineSays.sep {s : Char} (hs : isSep s = true) {a b : List Char} {es fs : List (ℝ × ℝ)}
    (ha : LineSays a es) (hb : LineSays b fs) : LineSays (a ++ s :: b) (es ++ fs) := by
  unfold LineSays
  rw [numbersIn_sep hs]
  exact List.rel_append ha hb

theorem LineSays.skip {a b : List Char} {s : Char} {fs : List (ℝ × ℝ)} (ha : numbersIn a = [])
    (hs : isSep s = true) (hb : LineSays b fs) : LineSays (a ++ s :: b) fs := by
  unfold LineSays
  rw [numbersIn_sep hs, ha]
  exact hb

theorem reads_errF {d : ℕ} {x : ℝ} {q : ℚ} (h1 : |(q : ℝ) - x| ≤ 1 / 2 / 10 ^ d)
    (h2 : ∀ k : ℤ, x * 10 ^ d = k → (q : ℝ) = x) : ReadsAs q (x, errF d x) := by
  unfold ReadsAs errF
  split_ifs with h
  · obtain ⟨k, hk⟩ := h
    simp [h2 k hk]
  · exact h1

theorem reads_errG {x : ℝ} {q : ℚ} (h1 : |(q : ℝ) - x| ≤ 5 / 10 ^ 6 * |x|)
    (h2 : ∀ k : ℤ, x = k → |k| < 10 ^ 6 → (q : ℝ) = x) : ReadsAs q (x, errG x) := by
  unfold ReadsAs errG
  split_ifs with h
  · obtain ⟨k, hk, hk6⟩ := h
    simp [h2 k hk hk6]
  · exact h1

theorem numbersIn_pad (w : ℕ) (s : List Char) : numbersIn (padLeft w s) = numbersIn s := numbersIn_spaces _ _

theorem line_fmtF {d : ℕ} (hd : d ≠ 0) (w : ℕ) (x : ℝ) : LineSays (padLeft w (fmtF d x)) [(x, errF d x)] := by
  obtain ⟨q, hq, h1, h2, hp⟩ := read_fmtF d x
  unfold LineSays
  rw [numbersIn_pad, numbersIn_word hp, readToken_ends (fmtF_ends hd x), hq]
  exact .cons (reads_errF h1 h2) .nil

theorem line_fmtG (x : ℝ) : LineSays (fmtG x) [(x, errG x)] := by
  obtain ⟨q, hq, h1, h2, hp⟩ := read_fmtG x
  unfold LineSays
  rw [numbersIn_word hp, readToken_ends (fmtG_ends x), hq]
  exact .cons (reads_errG h1 h2) .nil

theorem line_fmtG_pad (w : ℕ) (x : ℝ) : LineSays (padLeft w (fmtG x)) [(x, errG x)] := by
  unfold LineSays
  rw [numbersIn_pad]
  exact line_fmtG x

theorem line_fmtG_stop (x : ℝ) : LineSays (fmtG x ++ ['.']) [(x, errG x)] := by
  obtain ⟨q, hq, h1, h2, hp⟩ := read_fmtG x
  unfold LineSays
  rw [numbersIn_word (hp.append (Plain.cons (by decide) (by simp [Plain]))), readToken_stop, hq]
  exact .cons (reads_errG h1 h2) .nil

theorem line_fmtD (n : ℕ) : LineSays (fmtD n) [((n : ℝ), 0)] := by
  unfold LineSays
  rw [numbersIn_word (fmtD_allDig n).plain, readToken_ends ((fmtD_allDig n).ends (fmtD_ne_nil n)), read_fmtD]
  exact .cons (by simp [ReadsAs]) .nil

theorem line_cells {α : Type} {f : α → List Char} {g : α → ℝ × ℝ} (hf : ∀ x, LineSays (f x) [g x])
    {b : List Char} {fs : List (ℝ × ℝ)} (hb : LineSays b fs) :
    ∀ row : List α, LineSays (cellsText f row ++ b) (row.map g ++ fs)
  | [] => hb
  | x :: row => by
    have := (hf x).sep (s := ' ') (by decide) (line_cells hf hb row)
    simpa [cellsText] using this

/-- The space after the last number is replaced. -/
theorem line_replace {s s' : Char} (hs : isSep s = true) (hs' : isSep s' = true) {a b : List Char}
    {es fs : List (ℝ × ℝ)} (ha : LineSays (a ++ [s]) es) (hb : LineSays b fs) :
    LineSays ((a ++ [s]).dropLast ++ s' :: b) (es ++ fs) := by
  rw [List.dropLast_concat]
  refine LineSays.sep hs' ?_ hb
  unfold LineSays at ha ⊢
  rwa [numbersIn_sep hs, numbersIn_nil, List.append_nil] at ha

theorem cells_concat {α : Type} (f : α → List Char) {row : List α} (h : row ≠ []) :
    ∃ a, cellsText f row = a ++ [' '] := by
  refine ⟨cellsText f row.dropLast ++ f (row.getLast h), ?_⟩
  conv_lhs => rw [← List.dropLast_append_getLast h]
  simp [cellsText]

/-! ### The whole text -/

/-- No end of line. -/
def OneLine (w : List Char) : Prop := ∀ c ∈ w, c ≠ '\n'

theorem Plain.one {w : List Char} (h : Plain w) : OneLine w := fun c hc => (h c hc).2

theorem OneLine.append {a b : List Char} (ha : OneLine a) (hb : OneLine b) : OneLine (a ++ b) := by
  intro c hc
  rcases List.mem_append.mp hc with h | h
  exacts [ha c h, hb c h]

theorem OneLine.dropLast {a : List Char} (ha : OneLine a) : OneLine a.dropLast :=
  fun c hc => ha c (List.mem_of_mem_dropLast hc)

theorem OneLine.flat {α : Type} {f : α → List Char} {l : List α} (h : ∀ x ∈ l, OneLine (f x)) :
    OneLine (l.flatMap f) := by
  intro c hc
  obtain ⟨x, hx, hc'⟩ := List.mem_flatMap.mp hc
  exact h x hx c hc'

theorem one_pad (w : ℕ) {s : List Char} (hs : OneLine s) : OneLine (padLeft w s) := by
  refine OneLine.append (fun c hc => ?_) hs
  rw [List.eq_of_mem_replicate hc]
  decide

theorem one_cells {α : Type} {f : α → List Char} (h : ∀ x, OneLine (f x)) (row : List α) :
    OneLine (cellsText f row) :=
  OneLine.flat fun x _ => (h x).append (by intro c hc; rw [List.mem_singleton.mp hc]; decide)

theorem numberLines_cons {w : List Char} (hw : OneLine w) (rest : List Char) :
    numberLines (w ++ '\n' :: rest) = [numbersIn w].filter (· ≠ []) ++ numberLines rest := by
  unfold numberLines linesOf
  rw [cut_append (by decide), cut_none (a := w) fun c hc => by simpa using hw c hc, List.map_append,
    List.filter_append]
  rfl

theorem says_nil : Says [] [] := by
  unfold Says
  rw [show numberLines [] = [] by decide +kernel]
  exact .nil

theorem says_line {w rest : List Char} {es : List (ℝ × ℝ)} {ls : List (List (ℝ × ℝ))} (hw : OneLine w)
    (hl : LineSays w es) (hes : es ≠ []) (hr : Says rest ls) : Says (w ++ '\n' :: rest) (es :: ls) := by
  unfold Says
  rw [numberLines_cons hw]
  have : numbersIn w ≠ [] := by
    intro h
    unfold LineSays at hl
    rw [h] at hl
    cases hl
    exact hes rfl
  rw [List.filter_cons_of_pos (by simpa using this)]
  exact .cons hl hr

theorem says_skip {w rest : List Char} {ls : List (List (ℝ × ℝ))} (hw : OneLine w) (hl : numbersIn w = [])
    (hr : Says rest ls) : Says (w ++ '\n' :: rest) ls := by
  unfold Says
  rw [numberLines_cons hw, hl]
  exact hr

theorem says_lines {N : ℕ} {f : Fin N → List Char} {g : Fin N → List (ℝ × ℝ)}
    (h : ∀ j, ∃ w, f j = w ++ ['\n'] ∧ OneLine w ∧ LineSays w (g j) ∧ g j ≠ []) {rest : List Char}
    {ls : List (List (ℝ × ℝ))} (hr : Says rest ls) :
    Says ((List.ofFn f).flatten ++ rest) (List.ofFn g ++ ls) := by
  rw [List.ofFn_eq_map, List.ofFn_eq_map]
  generalize List.finRange N = js
  induction js with
  | nil => exact hr
  | cons j js ih =>
    obtain ⟨w, h1, h2, h3, h4⟩ := h j
    rw [List.map_cons, List.map_cons, List.flatten_cons, h1]
    simp only [List.append_assoc, List.cons_append, List.nil_append]
    exact says_line h2 h3 h4 ih

theorem corLine_says {N : ℕ} (cor : Matrix (Fin N) (Fin N) ℝ) (j : Fin N) :
    ∃ w, corLine cor j = w ++ ['\n'] ∧ OneLine w ∧
      LineSays w ((List.ofFn fun k => (cor k j, errF 2 (cor k j))) ++
        List.ofFn fun k => ((1 : Matrix (Fin N) (Fin N) ℝ) j k, 0)) ∧
      ((List.ofFn fun k => (cor k j, errF 2 (cor k j))) ++
        List.ofFn fun k => ((1 : Matrix (Fin N) (Fin N) ℝ) j k, (0 : ℝ))) ≠ [] := by
  have hN : N ≠ 0 := by rintro rfl; exact j.elim0
  refine ⟨_, rfl, ?_, ?_, by simp [hN]⟩
  · refine ((OneLine.append (OneLine.dropLast (OneLine.append (by unfold OneLine; decide) ?_))
      (by unfold OneLine; decide)).append ?_).append (by unfold OneLine; decide)
    · exact one_cells (fun x => one_pad 5 (read_fmtF 2 x).choose_spec.2.2.2.one) _
    · exact one_cells (fun x => (fmtD_allDig x).plain.one) _
  · obtain ⟨a, ha⟩ := cells_concat (fun x => padLeft 5 (fmtF 2 x))
      (row := List.ofFn fun k => cor k j) (by simp [hN])
    have h1 : LineSays ("    [".toList ++ cellsText (fun x => padLeft 5 (fmtF 2 x)) (List.ofFn fun k => cor k j))
        (List.ofFn fun k => (cor k j, errF 2 (cor k j))) := by
      have := line_cells (f := fun x => padLeft 5 (fmtF 2 x)) (g := fun x => (x, errF 2 x))
        (fun x => line_fmtF (by norm_num) 5 x) (b := []) (fs := []) (by unfold LineSays; rw [numbersIn_nil]; exact .nil)
        (List.ofFn fun k => cor k j)
      rw [List.append_nil, List.append_nil, List.map_ofFn] at this
      exact LineSays.skip (a := "    ".toList) (s := '[') (by decide +kernel) (by decide) this
    have h2 : LineSays (cellsText fmtD (List.ofFn fun k => (1 : Matrix (Fin N) (Fin N) ℕ) j k) ++ "]".toList)
        (List.ofFn fun k => ((1 : Matrix (Fin N) (Fin N) ℝ) j k, 0)) := by
      have := line_cells (f := fmtD) (g := fun n : ℕ => ((n : ℝ), 0)) line_fmtD (b := "]".toList) (fs := [])
        (by unfold LineSays; rw [show numbersIn "]".toList = [] by decide +kernel]; exact .nil)
        (List.ofFn fun k => (1 : Matrix (Fin N) (Fin N) ℕ) j k)
      rw [List.append_nil, List.map_ofFn] at this
      have e : ((fun n : ℕ => ((n : ℝ), (0 : ℝ))) ∘ fun k => (1 : Matrix (Fin N) (Fin N) ℕ) j k)
          = fun k => ((1 : Matrix (Fin N) (Fin N) ℝ) j k, 0) := by
        funext k
        by_cases h : j = k <;> simp [Matrix.one_apply, h]
      rwa [e] at this
    rw [ha, ← List.append_assoc] at h1 ⊢
    have h3 : LineSays (" ==> [ ".toList ++ (cellsText fmtD (List.ofFn fun k => (1 : Matrix (Fin N) (Fin N) ℕ) j k)
        ++ "]".toList)) (List.ofFn fun k => ((1 : Matrix (Fin N) (Fin N) ℝ) j k, 0)) :=
      LineSays.skip (a := " ==> [".toList) (s := ' ') (by decide +kernel) (by decide) h2
    have h4 := line_replace (s := ' ') (s' := ']') (by decide) (by decide) h1 h3
    simpa [List.append_assoc] using h4

theorem rowLine_says {N : ℕ} {α : Type} {f : α → List Char} {g : α → ℝ × ℝ} (hf : ∀ x, LineSays (f x) [g x])
    (hf1 : ∀ x, OneLine (f x)) {name a0 : List Char} (hn : name = a0 ++ ['[']) (h0 : numbersIn a0 = [])
    (h1 : OneLine a0) (A : Matrix (Fin N) (Fin N) α) (j : Fin N) :
    ∃ w, rowLine name f A j = w ++ ['\n'] ∧ OneLine w ∧ LineSays w (List.ofFn fun k => g (A j k)) ∧
      (List.ofFn fun k => g (A j k)) ≠ [] := by
  have hN : N ≠ 0 := by rintro rfl; exact j.elim0
  refine ⟨_, rfl, ?_, ?_, by simp [hN]⟩
  · refine OneLine.append (OneLine.dropLast (OneLine.append ?_ (one_cells hf1 _))) (by unfold OneLine; decide)
    split_ifs
    · rw [hn]; exact h1.append (by unfold OneLine; decide)
    · unfold OneLine; decide
  · obtain ⟨a, ha⟩ := cells_concat f (row := List.ofFn fun k => A j k) (by simp [hN])
    have h2 : LineSays (cellsText f (List.ofFn fun k => A j k)) (List.ofFn fun k => g (A j k)) := by
      have := line_cells hf (b := []) (fs := []) (by unfold LineSays; rw [numbersIn_nil]; exact .nil)
        (List.ofFn fun k => A j k)
      rwa [List.append_nil, List.append_nil, List.map_ofFn] at this
    have h3 : LineSays ((if j.val = 0 then name else "       [".toList) ++
        cellsText f (List.ofFn fun k => A j k)) (List.ofFn fun k => g (A j k)) := by
      split_ifs
      · rw [hn, List.append_assoc]
        exact LineSays.skip h0 (by decide) h2
      · exact LineSays.skip (a := "       ".toList) (s := '[') (by decide +kernel) (by decide) h2
    rw [ha, ← List.append_assoc] at h3 ⊢
    have h4 := line_replace (s := ' ') (s' := ']') (by decide) (by decide) h3 (b := []) (fs := [])
      (by unfold LineSays; rw [numbersIn_nil]; exact .nil)
    rw [List.append_nil] at h4
    exact h4

theorem line_lambda (n : ℕ) {b : List Char} {fs : List (ℝ × ℝ)} (hb : LineSays b fs) :
    LineSays ("lambda_".toList ++ fmtD n ++ " = ".toList ++ b) fs := by
  have h : numbersIn ("lambda_".toList ++ fmtD n) = [] := by
    have hp : Plain "lambda_".toList := by unfold Plain; decide
    rw [numbersIn_word (hp.append (fmtD_allDig n).plain)]
    have he : EndsDig ('l' :: ("ambda_".toList ++ fmtD n)) :=
      ((fmtD_allDig n).ends (fmtD_ne_nil n)).app "lambda_".toList
    have : readToken ("lambda_".toList ++ fmtD n) = none :=
      readToken_word (c := 'l') (by decide) (by decide) (by decide) (by decide) he
    rw [this]
    rfl
  have h2 : LineSays ("=".toList ++ ' ' :: b) fs := LineSays.skip (by decide +kernel) (by decide) hb
  rw [List.append_assoc ("lambda_".toList ++ fmtD n)]
  exact LineSays.skip (s := ' ') h (by decide) h2

theorem line_lambdas (lams : List ℝ) {b : List Char} {fs : List (ℝ × ℝ)} (hb : LineSays b fs) :
    ∀ js : List ℕ, LineSays ((js.flatMap fun j =>
      "lambda_".toList ++ fmtD (j + 1) ++ " = ".toList ++ fmtG (lams.getD j 0) ++ ", ".toList) ++ b)
      (js.map (fun j => (lams.getD j 0, errG (lams.getD j 0))) ++ fs)
  | [] => hb
  | j :: js => by
    have h1 := line_lambdas lams hb js
    have h2 : LineSays (' ' :: ((js.flatMap fun j =>
        "lambda_".toList ++ fmtD (j + 1) ++ " = ".toList ++ fmtG (lams.getD j 0) ++ ", ".toList) ++ b))
        (js.map (fun j => (lams.getD j 0, errG (lams.getD j 0))) ++ fs) :=
      LineSays.skip (a := []) numbersIn_nil (by decide) h1
    have h3 := line_lambda (j + 1) ((line_fmtG (lams.getD j 0)).sep (s := ',') (by decide) h2)
    simpa [List.append_assoc] using h3

theorem lamsLine_says {N : ℕ} (hN : N ≠ 0) (lams : List ℝ) :
    ∃ w, lamsLine N lams = w ++ ['\n'] ∧ OneLine w ∧
      LineSays w (List.ofFn fun k : Fin N => (lams.getD k 0, errG (lams.getD k 0))) := by
  obtain ⟨n, rfl⟩ := Nat.exists_eq_succ_of_ne_zero hN
  refine ⟨_, rfl, ?_, ?_⟩
  · refine OneLine.append (OneLine.dropLast (OneLine.dropLast (OneLine.append (by unfold OneLine; decide) ?_)))
      (by unfold OneLine; decide)
    refine OneLine.flat fun j _ => ((((OneLine.append (by unfold OneLine; decide) ?_)).append
      (by unfold OneLine; decide)).append ?_).append (by unfold OneLine; decide)
    · exact (fmtD_allDig _).plain.one
    · exact (read_fmtG _).choose_spec.2.2.2.one
  · have h1 := line_lambdas lams (line_lambda (n + 1) (line_fmtG_stop (lams.getD n 0))) (List.range n)
    have h2 : LineSays ("    ".toList ++ _) _ := LineSays.skip (a := "   ".toList) (s := ' ') (by decide +kernel)
      (by decide) h1
    have e1 : List.range (n + 1) = List.range n ++ [n] := List.range_succ
    have e2 : (List.ofFn fun k : Fin (n + 1) => (lams.getD k 0, errG (lams.getD k 0)))
        = (List.range n).map (fun j => (lams.getD j 0, errG (lams.getD j 0))) ++
          [(lams.getD n 0, errG (lams.getD n 0))] := by
      have : (List.ofFn fun k : Fin (n + 1) => (lams.getD k 0, errG (lams.getD k 0)))
        = (List.range (n + 1)).map fun j => (lams.getD j 0, errG (lams.getD j 0)) := by
        apply List.ext_getElem
        · simp
        · intro i h1 h2
          simp only [List.getElem_ofFn, List.getElem_map, List.getElem_range]
      rw [this, e1, List.map_append]
      rfl
    rw [e2]
    convert h2 using 1
    rw [e1, List.flatMap_append]
    have e3 : ∀ x y : List Char, ((x ++ (y ++ ", ".toList)).dropLast.dropLast) = x ++ y := by
      intro x y
      rw [show x ++ (y ++ ", ".toList) = ((x ++ y) ++ [',']) ++ [' '] by simp]
      rw [List.dropLast_concat, List.dropLast_concat]
    rw [show List.flatMap (fun j => "lambda_".toList ++ fmtD (j + 1) ++ " = ".toList ++ fmtG (lams.getD j 0) ++
        ", ".toList) [n] = ("lambda_".toList ++ fmtD (n + 1) ++ " = ".toList ++ fmtG (lams.getD n 0)) ++
        ", ".toList by rw [List.flatMap_singleton]]
    rw [← List.append_assoc "    ".toList, e3]
    simp [List.append_assoc]

theorem distLabel_one (dist : String) : OneLine (distLabel dist).toList ∧
    numbersIn (distLabel dist).toList = [] := by
  unfold distLabel OneLine
  split_ifs <;> decide +kernel

/-- The text about one solution. -/
theorem solText_says (dist : String) (nsol : ℕ) {N : ℕ} (hN : N ≠ 0) (i : ℕ) (r : Report N)
    (h : Option (Matrix (Fin N) (Fin N) ℤ)) {rest : List Char} {ls : List (List (ℝ × ℝ))} (hr : Says rest ls) :
    Says (solText dist nsol i r h ++ rest)
      (solutionSays nsol i r.cor r.u h (fun k => r.lams.getD k 0) r.d ++ ls) := by
  obtain ⟨wl, e1, e2, e3⟩ := lamsLine_says hN r.lams
  have s1 : Says ("    dist = ".toList ++ fmtG r.d ++ '\n' :: (" ".toList ++ '\n' :: rest)) ([(r.d, errG r.d)] :: ls) := by
    refine says_line (OneLine.append (by unfold OneLine; decide) (read_fmtG _).choose_spec.2.2.2.one) ?_ (by simp)
      (says_skip (by unfold OneLine; decide) (by decide +kernel) hr)
    exact LineSays.skip (a := "    dist =".toList) (s := ' ') (by decide +kernel) (by decide) (line_fmtG _)
  have s2 := says_skip (distLabel_one dist).1 (distLabel_one dist).2 s1
  have s3 := says_line e2 e3 (by simp [hN]) s2
  have s4 : Says (" - Sorted eigen strains:".toList ++ '\n' :: _) _ :=
    says_skip (by unfold OneLine; decide) (by decide +kernel) s3
  have s5 : Says ((match h with
      | none => []
      | some h => " - Hermite normal form:".toList ++ ['\n'] ++
        (List.ofFn (rowLine "   H = [".toList (fun x : ℤ => padLeft 4 (fmtG x)) h)).flatten) ++
      (" - Sorted eigen strains:".toList ++ '\n' :: (wl ++ '\n' :: ((distLabel dist).toList ++ '\n' ::
        ("    dist = ".toList ++ fmtG r.d ++ '\n' :: (" ".toList ++ '\n' :: rest))))))
      ((match h with
        | none => []
        | some h => List.ofFn fun j => List.ofFn fun k => ((h j k : ℝ), errG (h j k))) ++
        ((List.ofFn fun k : Fin N => (r.lams.getD k 0, errG (r.lams.getD k 0))) :: [(r.d, errG r.d)] :: ls)) := by
    cases h with
    | none => exact s4
    | some h =>
      have := says_skip (w := " - Hermite normal form:".toList) (by unfold OneLine; decide) (by decide +kernel)
        (says_lines (f := rowLine "   H = [".toList (fun x : ℤ => padLeft 4 (fmtG x)) h)
          (g := fun j => List.ofFn fun k => ((h j k : ℝ), errG (h j k)))
          (rowLine_says (g := fun x : ℤ => ((x : ℝ), errG x)) (fun x => line_fmtG_pad 4 x)
            (fun x => one_pad 4 (read_fmtG _).choose_spec.2.2.2.one) (a0 := "   H = ".toList) rfl
            (by decide +kernel) (by unfold OneLine; decide) h) s4)
      simpa [List.append_assoc] using this
  have s6 := says_lines (f := rowLine "   U = [".toList (fun x => padLeft 9 (fmtF 6 x)) r.u)
    (g := fun j => List.ofFn fun k => (r.u j k, errF 6 (r.u j k)))
    (rowLine_says (g := fun x => (x, errF 6 x)) (fun x => line_fmtF (by norm_num) 9 x)
      (fun x => one_pad 9 (read_fmtF 6 x).choose_spec.2.2.2.one) (a0 := "   U = ".toList) rfl
      (by decide +kernel) (by unfold OneLine; decide) r.u) s5
  have s7 := says_skip (w := " - Transformation stretch matrix:".toList) (by unfold OneLine; decide)
    (by decide +kernel) s6
  have s8 := says_lines (corLine_says r.cor) s7
  have s9 := says_skip (w := "----------------------".toList) (by unfold OneLine; decide) (by decide +kernel)
    (says_skip (w := " - Lattice correspondence:".toList) (by unfold OneLine; decide) (by decide +kernel) s8)
  have s10 := says_line (w := "Solution ".toList ++ fmtD (i + 1) ++ " out of ".toList ++ fmtD nsol ++ ":".toList)
    (es := [(((i + 1 : ℕ) : ℝ), 0), ((nsol : ℝ), 0)])
    (((((OneLine.append (by unfold OneLine; decide) (fmtD_allDig _).plain.one)).append
      (by unfold OneLine; decide)).append (fmtD_allDig _).plain.one).append (by unfold OneLine; decide))
    (by
      have h1 : LineSays (fmtD nsol ++ ':' :: []) ([((nsol : ℝ), 0)] ++ []) :=
        (line_fmtD nsol).sep (by decide) (by unfold LineSays; rw [numbersIn_nil]; exact .nil)
      have h2 : LineSays ("out of".toList ++ ' ' :: (fmtD nsol ++ ':' :: [])) ([((nsol : ℝ), 0)] ++ []) :=
        LineSays.skip (by decide +kernel) (by decide) h1
      have h3 := (line_fmtD (i + 1)).sep (s := ' ') (by decide) h2
      have h4 := LineSays.skip (a := "Solution".toList) (s := ' ') (by decide +kernel) (by decide) h3
      simpa [List.append_assoc] using h4)
    (by simp) s9
  unfold solText solutionSays
  rw [e1]
  simp only [List.append_assoc, List.cons_append, List.nil_append] at s10 ⊢
  exact s10

/-- The texts about all solutions. -/
theorem solsTextFrom_says (dist : String) (nsol : ℕ) {N : ℕ} (hN : N ≠ 0) :
    ∀ (sols : List (Report N × Option (Matrix (Fin N) (Fin N) ℤ))) (i : ℕ),
      Says (solsTextFrom dist nsol i sols) ((sols.zipIdx i).flatMap fun s =>
        solutionSays nsol s.2 s.1.1.cor s.1.1.u s.1.2 (fun k => s.1.1.lams.getD k 0) s.1.1.d)
  | [], _ => says_nil
  | s :: rest, i => by
    rw [List.zipIdx_cons, List.flatMap_cons]
    exact solText_says dist nsol hN i s.1 s.2 (solsTextFrom_says dist nsol hN rest (i + 1))

end Verif.Lemmas
