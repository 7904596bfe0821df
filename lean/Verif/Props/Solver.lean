import Verif.Model.Solver
import Verif.Props.LatCorRuns

/-!
# Property C86: the first solutions made by a `Solver`
-/

namespace Verif.Props

open Matrix Verif.Model Verif.Spec Verif.Lemmas

variable {N : ℕ}

/-! ### The initialisation keeps the best of all matrices drawn -/

/-- The initialisation, if it ends: the state is right for all acceptable trial matrices drawn until then, whether
they were offered to the list or not. -/
theorem initLoop_consumed {D : Type} [LinearOrder D] {GA GM : List (Matrix (Fin N) (Fin N) ℤ)}
    {dist : Matrix (Fin N) (Fin N) ℤ → D} {nsol : ℕ}
    (hsym : IsSymmetry (eqlatcor GA GM) dist (fun L => L.det ≠ 0)) (hn : 1 ≤ nsol)
    {volOk : Matrix (Fin N) (Fin N) ℤ → Prop} [DecidablePred volOk] (hvol : ∀ L, volOk L → L.det ≠ 0) :
    ∀ (samples : List (Matrix (Fin N) (Fin N) ℤ)) (k : ℕ) (seen : List (Matrix (Fin N) (Fin N) ℤ))
      (sols : List (Sol (Matrix (Fin N) (Fin N) ℤ) D)) (ext : Finset (Matrix (Fin N) (Fin N) ℤ))
      (dm : Option D),
      Inv (eqlatcor GA GM) dist (fun L => L.det ≠ 0) nsol seen sols →
      ExtInv (eqlatcor GA GM) (fun L => L.det ≠ 0) sols ext →
      sols.getLast?.map Sol.d = dm → nsol ≤ sols.length + k →
      initLoop (eqlatcor GA GM) (fun L => L.det ≠ 0) volOk nsol dist samples k (sols, ext, dm) = .ok none ∨
      ∃ consumed rest sols' ext' d, samples = consumed ++ rest ∧
        initLoop (eqlatcor GA GM) (fun L => L.det ≠ 0) volOk nsol dist samples k
          (sols, ext, dm) = .ok (some (sols', ext', some d)) ∧
        Good GA GM nsol dist (seen ++ consumed.filter (fun L => volOk L)) (sols', ext', d) := by
  have stop : ∀ (seen : List (Matrix (Fin N) (Fin N) ℤ)) (sols : List (Sol (Matrix (Fin N) (Fin N) ℤ) D))
      (ext : Finset (Matrix (Fin N) (Fin N) ℤ)) (dm : Option D),
      Inv (eqlatcor GA GM) dist (fun L => L.det ≠ 0) nsol seen sols →
      ExtInv (eqlatcor GA GM) (fun L => L.det ≠ 0) sols ext →
      sols.getLast?.map Sol.d = dm → nsol ≤ sols.length →
      ∃ d, dm = some d ∧ Good GA GM nsol dist seen (sols, ext, d) := by
    intro seen sols ext dm h he hl hk
    have hne : sols ≠ [] := by rintro rfl; simp at hk; omega
    rw [List.getLast?_eq_some_getLast hne] at hl
    exact ⟨_, hl.symm, h, he, hk, _, List.getLast?_eq_some_getLast hne, rfl⟩
  intro samples
  induction samples with
  | nil =>
    intro k seen sols ext dm h he hl hk
    cases k with
    | succ k => left; rfl
    | zero =>
      right
      obtain ⟨d, rfl, hg⟩ := stop seen sols ext dm h he hl hk
      exact ⟨[], [], sols, ext, d, rfl, rfl, by simpa using hg⟩
  | cons l samples ih =>
    intro k seen sols ext dm h he hl hk
    cases k with
    | zero =>
      right
      obtain ⟨d, rfl, hg⟩ := stop seen sols ext dm h he hl hk
      exact ⟨[], l :: samples, sols, ext, d, rfl, rfl, by simpa using hg⟩
    | succ k =>
      unfold initLoop
      split_ifs with hc
      · by_cases hv : volOk l
        · have hx : l ∈ ext := hc.resolve_right (not_not.2 hv)
          obtain ⟨s, hs, hls⟩ := he.sub l hx (hvol l hv)
          have hcls : (eqlatcor GA GM l, dist l) ∈ seenClasses (eqlatcor GA GM) dist (fun L => L.det ≠ 0) seen := by
            obtain ⟨a, b, -⟩ := h.sound s hs
            refine mem_seenClasses.2 ⟨s.l, a, b, ?_⟩
            rw [hsym.eq_of_mem hls, hsym.dist_eq hls]
          rcases ih (k + 1) (seen ++ [l]) sols ext dm (h.skip (.inr hcls)) he hl hk with
            h' | ⟨c, r, s', e', d, h1, h2, h3⟩
          · exact Or.inl h'
          · exact Or.inr ⟨l :: c, r, s', e', d, by rw [h1]; rfl, h2, by simpa [hv] using h3⟩
        · rcases ih (k + 1) seen sols ext dm h he hl hk with h' | ⟨c, r, s', e', d, h1, h2, h3⟩
          · exact Or.inl h'
          · exact Or.inr ⟨l :: c, r, s', e', d, by rw [h1]; rfl, h2, by simpa [hv] using h3⟩
      · rw [not_or, not_not] at hc
        obtain ⟨s1, e1, last, g1, g2, g3, g4, g5, g6, g7, -⟩ := addSol_spec hsym hn h he l
          (Or.inr (hvol l hc.2))
        rw [g1]
        simp only
        have hk' : nsol ≤ s1.length + k := by
          rcases g7 hc.1 (hvol l hc.2) with h' | h' <;> omega
        rcases ih k (seen ++ [l]) s1 e1 (some last.d) g2 g3 (by rw [g4]; rfl) hk' with
          h' | ⟨c, r, s', e', d, h1, h2, h3⟩
        · exact Or.inl h'
        · exact Or.inr ⟨l :: c, r, s', e', d, by rw [h1]; rfl, h2, by simpa [hc.2] using h3⟩

/-! ### The object after a history of calls -/

variable {t : Tol} {py : Py}
  {quartMin : (Fin N × Fin N → Fin N × Fin N → Fin N × Fin N → Fin N × Fin N → ℝ) → ℝ}

/-- `s` has the given arguments. -/
def HasArgs (s : Solver N) (brava : ℤ) (pa : PArg) (bravm : ℤ) (pm : PArg) (nsol : ℕ) (volTh : ℝ) : Prop :=
  s.brava = brava ∧ s.pa = pa ∧ s.bravm = bravm ∧ s.pm = pm ∧ s.nsol = nsol ∧ s.volTh = volTh

theorem init_keeps (s : Solver N) (shifts : List (Matrix (Fin N) (Fin N) ℤ)) :
    (s.initialize shifts).1 = s ∨ (s.initialize shifts).1 = { s with rmax := s.alpha } := by
  unfold Solver.initialize
  split
  · exact .inl rfl
  · dsimp only
    split
    · exact .inl rfl
    · split
      · exact .inl rfl
      · exact .inl rfl
      · exact .inr rfl

theorem load_eq {brava : ℤ} {pa : PArg} {bravm : ℤ} {pm : PArg} {nsol : ℕ} {volTh : ℝ}
    {EA CA EM CM : Matrix (Fin N) (Fin N) ℝ} (hA : Constructs py brava pa N EA CA)
    (hM : Constructs py bravm pm N EM CM) {s : Solver N} (hs : HasArgs s brava pa bravm pm nsol volTh) :
    s.loadInput t py quartMin = ((s.loadCore t quartMin EA EM).1, some (s.loadCore t quartMin EA EM).2) := by
  obtain ⟨L, hN, h1, h2, h3⟩ := hA
  obtain ⟨L', hN', h1', h2', h3'⟩ := hM
  obtain ⟨N', E', id', p', C'⟩ := L
  obtain ⟨N'', E'', id'', p'', C''⟩ := L'
  dsimp only at hN h2 h3 hN' h2' h3'
  subst hN
  subst hN'
  rw [castSq_rfl] at h2 h2'
  subst h2
  subst h2'
  obtain ⟨r1, r2, r3, r4, -, -⟩ := hs
  unfold Solver.loadInput
  rw [r1, r2, r3, r4]
  simp only [h1, h1', dite_true]
  rfl

/-- after `load_input` the attributes are those of the two lattices, whatever is called later -/
theorem after_loaded {brava : ℤ} {pa : PArg} {bravm : ℤ} {pm : PArg} {nsol : ℕ} {volTh : ℝ}
    {EA CA EM CM : Matrix (Fin N) (Fin N) ℝ} (hA : Constructs py brava pa N EA CA)
    (hM : Constructs py bravm pm N EM CM) {GA GM : List (Matrix (Fin N) (Fin N) ℤ)}
    (hGA : Lat.latticeGroup t ⟨N, EA⟩ = .ok GA) (hGM : Lat.latticeGroup t ⟨N, EM⟩ = .ok GM)
    (calls : List (Solver.Call N)) (s : Solver N) (hs : HasArgs s brava pa bravm pm nsol volTh) :
    HasArgs (Solver.after t py quartMin s calls) brava pa bravm pm nsol volTh ∧
    (.load ∈ calls ∨ (s.bases = some (EA, EM) ∧ s.groups = some (GA, GM) ∧
        s.alpha = some (quartMin (quartD EA EM⁻¹))) →
      (Solver.after t py quartMin s calls).bases = some (EA, EM) ∧
      (Solver.after t py quartMin s calls).groups = some (GA, GM) ∧
      (Solver.after t py quartMin s calls).alpha = some (quartMin (quartD EA EM⁻¹))) := by
  induction calls generalizing s with
  | nil => exact ⟨hs, by rintro (h | h); · simp at h
                         · exact h⟩
  | cons c calls ih =>
    cases c with
    | load =>
      simp only [Solver.after]
      rw [load_eq hA hM hs]
      have hc : s.loadCore t quartMin EA EM = ({ s with
          bases := some (EA, EM), alpha := some (quartMin (quartD EA EM⁻¹)), groups := some (GA, GM) }, .ok ()) := by
        simp only [Solver.loadCore, hGA, hGM]
      rw [hc]
      obtain ⟨a, b⟩ := ih { s with
        bases := some (EA, EM), alpha := some (quartMin (quartD EA EM⁻¹)), groups := some (GA, GM) } hs
      exact ⟨a, fun _ => b (.inr ⟨rfl, rfl, rfl⟩)⟩
    | init shifts =>
      simp only [Solver.after]
      rcases init_keeps s shifts with h | h <;> rw [h]
      · obtain ⟨a, b⟩ := ih s hs
        refine ⟨a, fun hl => b (hl.imp_left fun hm => ?_)⟩
        simpa using hm
      · obtain ⟨a, b⟩ := ih { s with rmax := s.alpha } hs
        refine ⟨a, fun hl => b (hl.imp_left fun hm => ?_)⟩
        simpa using hm

/-- no base is set as long as `load_input` has not been called -/
theorem after_unloaded (calls : List (Solver.Call N)) (s : Solver N) (hs : s.bases = none)
    (hc : .load ∉ calls) : (Solver.after t py quartMin s calls).bases = none := by
  induction calls generalizing s with
  | nil => exact hs
  | cons c calls ih =>
    have hc' : .load ∉ calls := fun h => hc (List.mem_cons_of_mem _ h)
    cases c with
    | load => exact absurd List.mem_cons_self hc
    | init shifts =>
      simp only [Solver.after]
      rcases init_keeps s shifts with h | h <;> rw [h] <;> exact ih _ hs hc'

theorem init_unloaded {s : Solver N} (hs : s.bases = none) (shifts : List (Matrix (Fin N) (Fin N) ℤ)) :
    (s.initialize shifts).2 = some (.error .attributeError) := by
  unfold Solver.initialize
  rw [hs]

theorem init_loaded {s : Solver N} {nsol : ℕ} {volTh : ℝ} {EA EM : Matrix (Fin N) (Fin N) ℝ}
    {GA GM : List (Matrix (Fin N) (Fin N) ℤ)} (h1 : s.bases = some (EA, EM)) (h2 : s.groups = some (GA, GM))
    (hn : s.nsol = nsol) (hv : s.volTh = volTh) (hv0 : 0 < volTh) (hv1 : volTh ≤ 1)
    (shifts : List (Matrix (Fin N) (Fin N) ℤ)) :
    (s.initialize shifts).2 =
      match initLoop (eqlatcor GA GM) (fun L => L.det ≠ 0) (fun L => L.det = 1) nsol (mismatch EA EM)
          (shifts.map (fun shift => startL0 EA EM + shift)) (max 20 (5 * nsol)) ([], ∅, none) with
      | .error e => some (.error e)
      | .ok none => none
      | .ok (some r) => some (.ok r) := by
  subst hn hv
  have hd : (fun L => cauchyDist L EA EM⁻¹) = mismatch EA EM := funext fun L => mismatch_eq L
  have hp : (fun L : Matrix (Fin N) (Fin N) ℤ => 1 - s.volTh < (L.det : ℝ) ∧ (L.det : ℝ) < 1 + s.volTh)
      = fun L => L.det = 1 := funext fun L => propext (volOk_iff hv0 hv1 L)
  unfold Solver.initialize
  simp only [h1, h2]
  rw [hd]
  have key : ∀ (p q : Matrix (Fin N) (Fin N) ℤ → Prop) (ip : DecidablePred p) (iq : DecidablePred q), p = q →
      ∀ samples k st, initLoop (eqlatcor GA GM) (fun L => L.det ≠ 0) p s.nsol (mismatch EA EM) samples k st =
        initLoop (eqlatcor GA GM) (fun L => L.det ≠ 0) q s.nsol (mismatch EA EM) samples k st := by
    rintro p q ip iq rfl samples k st
    congr!
  rw [key _ _ _ inferInstance hp]
  cases initLoop (eqlatcor GA GM) (fun L => L.det ≠ 0) (fun L => L.det = 1) s.nsol (mismatch EA EM)
    (shifts.map (fun shift => startL0 EA EM + shift)) (max 20 (5 * s.nsol)) ([], ∅, none) with
  | error e => rfl
  | ok r => cases r <;> rfl

theorem mismatch_class (hN : N = 2 ∨ N = 3) (t : Tol) {EA EM : Matrix (Fin N) (Fin N) ℝ} (hA : EA.det ≠ 0)
    (hM : EM.det ≠ 0) (hrA : Reliable t EA (candidates N)) (hrM : Reliable t EM (candidates N)) :
    ∃ GA GM, Lat.latticeGroup t ⟨N, EA⟩ = .ok GA ∧ Lat.latticeGroup t ⟨N, EM⟩ = .ok GM ∧
      IsMatGroup GA ∧ IsMatGroup GM ∧ (∀ M ∈ GA, IsLatticeSym EA M) ∧ (∀ M ∈ GM, IsLatticeSym EM M) ∧
      ∀ L X, Equivalent GA GM L X → mismatch EA EM X = mismatch EA EM L := by
  obtain ⟨o, ho, -, -⟩ := sound_exists (N := N) (by omega) [] 0
  obtain ⟨GA, GM, a, b, hS⟩ := call_setting hN t ho hA hM hrA hrM
  refine ⟨GA, GM, a, b, hS.groupA, hS.groupM, hS.symA, hS.symM, fun L X h => ?_⟩
  rw [← mismatch_eq, ← mismatch_eq]
  exact setting_class hS L X h

/-! ### C86 -/

/-- **C86**, proved part: for two lattices the constructor accepts, after any history of calls that contains
`load_input`, `initialize` goes on drawing or returns at least `nsol` solutions which are the best inequivalent
ones among all matrices of determinant one drawn until then (sorted, each with its distance), together with the
largest of the distances; and `update_sol`, called with any batches of candidates one after the other, keeps them
the best of everything seen.  No exception is raised.  The matrices drawn are the integer parts of `E_A⁻¹ E_M` plus
a random matrix.  Missing: the calls that draw for ever (`C86_square_fails`). -/
theorem C86_solutions_partial (t : Tol) (py : Py) (kw : LatCorKw)
    (quartMin : (Fin (readkw kw.dim 3) × Fin (readkw kw.dim 3) → Fin (readkw kw.dim 3) × Fin (readkw kw.dim 3) →
      Fin (readkw kw.dim 3) × Fin (readkw kw.dim 3) → Fin (readkw kw.dim 3) × Fin (readkw kw.dim 3) → ℝ) → ℝ)
    (brava bravm : ℤ) (pa pm : PArg) (EA CA EM CM : Matrix (Fin (readkw kw.dim 3)) (Fin (readkw kw.dim 3)) ℝ)
    (hA : Constructs py brava pa (readkw kw.dim 3) EA CA) (hM : Constructs py bravm pm (readkw kw.dim 3) EM CM)
    (hrA : Reliable t EA (candidates _)) (hrM : Reliable t EM (candidates _))
    (hn : 1 ≤ readkw kw.nsol 1) (hv : 0 < readkw kw.volTh 0.1) (hv1 : readkw kw.volTh 0.1 ≤ 1)
    (calls : List (Solver.Call (readkw kw.dim 3))) (hload : .load ∈ calls)
    (shifts : List (Matrix (Fin (readkw kw.dim 3)) (Fin (readkw kw.dim 3)) ℤ)) :
    ∃ GA GM, Lat.latticeGroup t ⟨_, EA⟩ = .ok GA ∧ Lat.latticeGroup t ⟨_, EM⟩ = .ok GM ∧
      IsMatGroup GA ∧ IsMatGroup GM ∧ (∀ M ∈ GA, IsLatticeSym EA M) ∧ (∀ M ∈ GM, IsLatticeSym EM M) ∧
      (((Solver.after t py quartMin (Solver.new brava pa bravm pm kw) calls).initialize shifts).2 = none ∨
      ∃ drawn later sols ext dmax, shifts = drawn ++ later ∧
        ((Solver.after t py quartMin (Solver.new brava pa bravm pm kw) calls).initialize shifts).2
          = some (.ok (sols, ext, some dmax)) ∧
        readkw kw.nsol 1 ≤ sols.length ∧ (∀ s ∈ sols, s.d ≤ dmax) ∧ (∃ s ∈ sols, s.d = dmax) ∧
        ∀ batches : List (List (Matrix (Fin (readkw kw.dim 3)) (Fin (readkw kw.dim 3)) ℤ)), ∃ st,
          batches.foldlM (fun st ls => ((Solver.after t py quartMin (Solver.new brava pa bravm pm kw)
            calls).updateSol ls st).map Prod.snd) (sols, ext, dmax) = .ok st ∧
          (∀ s ∈ st.1, s.d ≤ st.2.2) ∧ (∃ s ∈ st.1, s.d = st.2.2) ∧
          BestClasses GA GM (mismatch EA EM) (readkw kw.nsol 1)
            ((drawn.map fun shift => (Matrix.of fun i j => ⌊(EA⁻¹ * EM) i j⌋) + shift).filter (fun L => L.det = 1)
              ++ batches.flatten) (st.1.map fun s => (s.l, s.d))) := by
  obtain ⟨hN, dA, -⟩ := constructs_det hA
  obtain ⟨-, dM, -⟩ := constructs_det hM
  obtain ⟨GA, GM, hGA, hGM, gA, gM, sA, sM, hd⟩ := mismatch_class hN t dA dM hrA hrM
  refine ⟨GA, GM, hGA, hGM, gA, gM, sA, sM, ?_⟩
  obtain ⟨⟨-, -, -, -, a5, a6⟩, hl⟩ := after_loaded (quartMin := quartMin) hA hM hGA hGM calls
    (Solver.new brava pa bravm pm kw) ⟨rfl, rfl, rfl, rfl, rfl, rfl⟩
  obtain ⟨b1, b2, -⟩ := hl (.inl hload)
  set s := Solver.after t py quartMin (Solver.new brava pa bravm pm kw) calls
  rw [init_loaded (nsol := readkw kw.nsol 1) (volTh := readkw kw.volTh 0.1) b1 b2 a5 a6 hv hv1]
  have hsym := eqlatcor_isSymmetry gA gM hd
  rcases initLoop_consumed hsym hn (volOk := fun L => L.det = 1) (by intro L hL; rw [hL]; decide)
    (shifts.map (fun shift => startL0 EA EM + shift)) (max 20 (5 * readkw kw.nsol 1)) [] [] ∅ none Inv.nil
    ExtInv.nil rfl (by simp only [List.length_nil]; omega) with h | ⟨c, r, sols, ext, d, h1, h2, h3⟩
  · left; rw [h]
  · right
    obtain ⟨drawn, later, e1, e2, e3⟩ := List.map_eq_append_iff.1 h1
    have bnd : ∀ {seen : List (Matrix (Fin (readkw kw.dim 3)) (Fin (readkw kw.dim 3)) ℤ)}
        {st : SearchState (readkw kw.dim 3) ℝ},
        Good GA GM (readkw kw.nsol 1) (mismatch EA EM) seen st →
        (∀ s ∈ st.1, s.d ≤ st.2.2) ∧ (∃ s ∈ st.1, s.d = st.2.2) := by
      intro seen st hg
      obtain ⟨last, l1, l2⟩ := hg.last
      exact ⟨fun s hs => l2 ▸ le_last_of_sorted hg.inv.sorted l1 s hs, last, List.mem_of_getLast? l1, l2⟩
    refine ⟨drawn, later, sols, ext, d, e1, by rw [h2], h3.full, (bnd h3).1, (bnd h3).2, fun batches => ?_⟩
    have hup : ∀ ls st, (s.updateSol ls st) = Model.updateSol (eqlatcor GA GM) (fun L => L.det ≠ 0)
        (readkw kw.nsol 1) (mismatch EA EM) ls st.1 st.2.1 st.2.2 := by
      intro ls st
      have hd' : (fun L => cauchyDist L EA EM⁻¹) = mismatch EA EM := funext fun L => mismatch_eq L
      simp only [Solver.updateSol, b1, b2, a5, hd']
      rfl
    rw [List.nil_append, ← e2] at h3
    have hrun : ∀ (batches : List (List (Matrix (Fin (readkw kw.dim 3)) (Fin (readkw kw.dim 3)) ℤ)))
        (seen : List (Matrix (Fin (readkw kw.dim 3)) (Fin (readkw kw.dim 3)) ℤ))
        (st : SearchState (readkw kw.dim 3) ℝ), Good GA GM (readkw kw.nsol 1) (mismatch EA EM) seen st →
        ∃ st', batches.foldlM (fun st ls => (s.updateSol ls st).map Prod.snd) st = .ok st' ∧
          Good GA GM (readkw kw.nsol 1) (mismatch EA EM) (seen ++ batches.flatten) st' := by
      intro batches
      induction batches with
      | nil => exact fun seen st hg => ⟨st, rfl, by simpa using hg⟩
      | cons b bs ih =>
        intro seen st hg
        obtain ⟨st', g1, g2, -⟩ := good_update hsym hn hg b
        obtain ⟨st'', k1, k2⟩ := ih (seen ++ b) st' g2
        refine ⟨st'', ?_, by simpa using k2⟩
        rw [List.foldlM_cons, hup, g1]
        exact k1
    obtain ⟨st, g1, g2⟩ := hrun batches _ _ h3
    exact ⟨st, g1, (bnd g2).1, (bnd g2).2, bestClasses_of_inv gA gM hd (fun _ _ => Iff.rfl) g2.inv⟩

/-- **C86**, exactly when `initialize` ends: with a fair sequence of random matrices it does if and only if `nsol`
inequivalent trial matrices of determinant one are strictly better than a further one, or the trial matrices of
determinant one fall into at least `max(20, 5 nsol)` classes. -/
theorem C86_ends (t : Tol) (py : Py) (kw : LatCorKw)
    (quartMin : (Fin (readkw kw.dim 3) × Fin (readkw kw.dim 3) → Fin (readkw kw.dim 3) × Fin (readkw kw.dim 3) →
      Fin (readkw kw.dim 3) × Fin (readkw kw.dim 3) → Fin (readkw kw.dim 3) × Fin (readkw kw.dim 3) → ℝ) → ℝ)
    (brava bravm : ℤ) (pa pm : PArg) (EA CA EM CM : Matrix (Fin (readkw kw.dim 3)) (Fin (readkw kw.dim 3)) ℝ)
    (hA : Constructs py brava pa (readkw kw.dim 3) EA CA) (hM : Constructs py bravm pm (readkw kw.dim 3) EM CM)
    (hrA : Reliable t EA (candidates _)) (hrM : Reliable t EM (candidates _))
    (hn : 1 ≤ readkw kw.nsol 1) (hv : 0 < readkw kw.volTh 0.1) (hv1 : readkw kw.volTh 0.1 ≤ 1)
    (calls : List (Solver.Call (readkw kw.dim 3))) (hload : .load ∈ calls)
    (shift : ℕ → Matrix (Fin (readkw kw.dim 3)) (Fin (readkw kw.dim 3)) ℤ) (hf : FairDraws 0 shift) :
    ∃ GA GM, Lat.latticeGroup t ⟨_, EA⟩ = .ok GA ∧ Lat.latticeGroup t ⟨_, EM⟩ = .ok GM ∧
      ((∃ m, ((Solver.after t py quartMin (Solver.new brava pa bravm pm kw) calls).initialize
          ((List.range m).map shift)).2 ≠ none) ↔
        EnoughNearBy GA GM (mismatch EA EM) (Matrix.of fun i j => ⌊(EA⁻¹ * EM) i j⌋) (readkw kw.nsol 1) ∨
        ManyNearBy GA GM (Matrix.of fun i j => ⌊(EA⁻¹ * EM) i j⌋) (max 20 (5 * readkw kw.nsol 1))) := by
  obtain ⟨hN, dA, -⟩ := constructs_det hA
  obtain ⟨-, dM, -⟩ := constructs_det hM
  obtain ⟨GA, GM, hGA, hGM, gA, gM, sA, sM, hd⟩ := mismatch_class hN t dA dM hrA hrM
  refine ⟨GA, GM, hGA, hGM, ?_⟩
  obtain ⟨⟨-, -, -, -, a5, a6⟩, hl⟩ := after_loaded (quartMin := quartMin) hA hM hGA hGM calls
    (Solver.new brava pa bravm pm kw) ⟨rfl, rfl, rfl, rfl, rfl, rfl⟩
  obtain ⟨b1, b2, -⟩ := hl (.inl hload)
  have hfair : FairDraws (startL0 EA EM) (fun k => startL0 EA EM + shift k) := by
    refine ⟨fun k i j => ?_, fun L hL k => ?_⟩
    · have := hf.1 k i j
      simpa using this
    · obtain ⟨m, hm, he⟩ := hf.2 (L - startL0 EA EM) (fun i j => by simpa using hL i j) k
      exact ⟨m, hm, by simp [he]⟩
  change _ ↔ EnoughNearBy GA GM (mismatch EA EM) (startL0 EA EM) _ ∨ ManyNearBy GA GM (startL0 EA EM) _
  have e : ∀ m, ((List.range m).map shift).map (fun shift => startL0 EA EM + shift)
      = (List.range m).map fun k => startL0 EA EM + shift k := fun m => by rw [List.map_map]; rfl
  simp only [init_loaded (nsol := readkw kw.nsol 1) (volTh := readkw kw.volTh 0.1) b1 b2 a5 a6 hv hv1, e]
  constructor
  · rintro ⟨m, hm⟩
    by_contra hcon
    rw [not_or] at hcon
    refine hm ?_
    rw [init_hangs gA gM hd hn hcon.1 hcon.2 _ ?_ _ [] [] ∅ none Inv.nil ExtInv.nil (by simp) (by simp)]
    intro L hL
    obtain ⟨i, -, rfl⟩ := List.mem_map.1 hL
    exact hfair.1 i
  · intro hb
    obtain ⟨m, hm⟩ := init_ends gA gM hd hn (count := max 20 (5 * readkw kw.nsol 1)) hb hfair
      (max 20 (5 * readkw kw.nsol 1)) [] [] ∅ none 0 Inv.nil ExtInv.nil (by simp)
    refine ⟨m, ?_⟩
    have := hm m le_rfl
    rw [← List.range_eq_range'] at this
    split
    · simp
    · exact absurd ‹_› this
    · simp

/-- **C86**, the order of the calls: without `load_input`, `initialize` raises `AttributeError`. -/
theorem C86_order (t : Tol) (py : Py) (kw : LatCorKw)
    (quartMin : (Fin (readkw kw.dim 3) × Fin (readkw kw.dim 3) → Fin (readkw kw.dim 3) × Fin (readkw kw.dim 3) →
      Fin (readkw kw.dim 3) × Fin (readkw kw.dim 3) → Fin (readkw kw.dim 3) × Fin (readkw kw.dim 3) → ℝ) → ℝ)
    (brava bravm : ℤ) (pa pm : PArg) (calls : List (Solver.Call (readkw kw.dim 3))) (h : .load ∉ calls)
    (shifts : List (Matrix (Fin (readkw kw.dim 3)) (Fin (readkw kw.dim 3)) ℤ)) :
    ((Solver.after t py quartMin (Solver.new brava pa bravm pm kw) calls).initialize shifts).2
      = some (.error .attributeError) :=
  init_unloaded (after_unloaded calls _ rfl h) shifts

/-- **C86**, arguments that are not accepted: if one of the lattices is rejected, then after every history of calls
`load_input` raises the exception of the first one rejected, and `initialize` raises `AttributeError`. -/
theorem C86_rejected (t : Tol) (py : Py) (kw : LatCorKw)
    (quartMin : (Fin (readkw kw.dim 3) × Fin (readkw kw.dim 3) → Fin (readkw kw.dim 3) × Fin (readkw kw.dim 3) →
      Fin (readkw kw.dim 3) × Fin (readkw kw.dim 3) → Fin (readkw kw.dim 3) × Fin (readkw kw.dim 3) → ℝ) → ℝ)
    (brava bravm : ℤ) (pa pm : PArg) (e : Err)
    (he : BLat.new py brava pa (readkw kw.dim 3 : ℕ) = .error e ∨
      (∃ L, BLat.new py brava pa (readkw kw.dim 3 : ℕ) = .ok L) ∧
        BLat.new py bravm pm (readkw kw.dim 3 : ℕ) = .error e)
    (calls : List (Solver.Call (readkw kw.dim 3)))
    (shifts : List (Matrix (Fin (readkw kw.dim 3)) (Fin (readkw kw.dim 3)) ℤ)) :
    ((Solver.after t py quartMin (Solver.new brava pa bravm pm kw) calls).loadInput t py quartMin).2
      = some (.error e) ∧
    ((Solver.after t py quartMin (Solver.new brava pa bravm pm kw) calls).initialize shifts).2
      = some (.error .attributeError) := by
  have hload : ∀ s : Solver (readkw kw.dim 3), HasArgs s brava pa bravm pm (readkw kw.nsol 1) (readkw kw.volTh 0.1) →
      s.loadInput t py quartMin = (s, some (.error e)) := by
    rintro s ⟨h1, h2, h3, h4, -, -⟩
    unfold Solver.loadInput
    rw [h1, h2, h3, h4]
    rcases he with he | ⟨⟨L, hL⟩, he⟩
    · rw [he]
    · rw [hL]
      simp only [he]
  have key : ∀ (calls : List (Solver.Call (readkw kw.dim 3))) (s : Solver (readkw kw.dim 3)),
      HasArgs s brava pa bravm pm (readkw kw.nsol 1) (readkw kw.volTh 0.1) → s.bases = none →
      HasArgs (Solver.after t py quartMin s calls) brava pa bravm pm (readkw kw.nsol 1) (readkw kw.volTh 0.1) ∧
        (Solver.after t py quartMin s calls).bases = none := by
    intro calls
    induction calls with
    | nil => exact fun s h1 h2 => ⟨h1, h2⟩
    | cons c calls ih =>
      intro s h1 h2
      cases c with
      | load =>
        simp only [Solver.after]
        rw [hload s h1]
        exact ih s h1 h2
      | init sh =>
        simp only [Solver.after]
        rcases init_keeps s sh with h | h <;> rw [h]
        · exact ih s h1 h2
        · exact ih { s with rmax := s.alpha } h1 h2
  obtain ⟨a, b⟩ := key calls (Solver.new brava pa bravm pm kw) ⟨rfl, rfl, rfl, rfl, rfl, rfl⟩ rfl
  exact ⟨by rw [hload _ a], init_unloaded b shifts⟩

/-- **C86** fails under Python 3: the module cannot be imported. -/
theorem C86_python3_fails : importSolver .py3 = .error .importError := rfl

/-! ### The square lattice -/

set_option synthInstance.maxHeartbeats 400000
set_option synthInstance.maxSize 4000
set_option maxRecDepth 100000

theorem squareExt_few : FewNearBy squareExt squareExt (1 : Matrix (Fin 2) (Fin 2) ℤ) 4 := by
  refine ⟨squareReps, by decide, fun L hL h1 => ?_⟩
  have H : ∀ x ∈ ([-1, 0, 1] : List ℤ), ∀ y ∈ ([-1, 0, 1] : List ℤ), ∀ z ∈ ([-1, 0, 1] : List ℤ),
      ∀ w ∈ ([-1, 0, 1] : List ℤ), (1 + x) * (1 + w) - y * z = 1 →
        ∃ r ∈ squareReps, !![1 + x, y; z, 1 + w] ∈ eqlatcor squareExt squareExt r := by
    decide +kernel
  obtain ⟨x, hx, y, hy, z, hz, w, hw, rfl⟩ := nearBy_one L hL
  rw [Matrix.det_fin_two] at h1
  obtain ⟨r, hr, hm⟩ := H x hx y hy z hz w hw (by simpa using h1)
  exact ⟨r, hr, mem_eqlatcor.1 hm⟩

theorem square_drawing {s : Solver 2} (h1 : s.bases = some (1, 1)) (h2 : s.groups = some (squareExt, squareExt))
    (hn : s.nsol = 4) (hv : s.volTh = 0.1) (shifts : List (Matrix (Fin 2) (Fin 2) ℤ))
    (hs : ∀ s ∈ shifts, ∀ i j, |s i j| ≤ 1) : (s.initialize shifts).2 = none := by
  have hG := square_group_eq .exact tolOK_exact
  obtain ⟨GA, GM, hGA, hGM, gA, gM, sA, sM, hd⟩ := mismatch_class (.inl rfl) .exact
    (EA := (1 : Matrix (Fin 2) (Fin 2) ℝ)) (EM := 1) (by simp) (by simp) (.inl rfl) (.inl rfl)
  rw [hG] at hGA hGM
  cases hGA
  cases hGM
  rw [init_loaded h1 h2 hn hv (by norm_num) (by norm_num), startL0_one,
    few_hangs gA gM hd (nsol := 4) (by norm_num) squareExt_few (by norm_num)
    (shifts.map (fun shift => 1 + shift)) (by
      intro L hL i j
      obtain ⟨sh, hsh, rfl⟩ := List.mem_map.1 hL
      simpa using hs sh hsh i j)]

theorem square_done {s : Solver 2} (h1 : s.bases = some (1, 1)) (h2 : s.groups = some (squareExt, squareExt))
    (hn : s.nsol = 1) (hv : s.volTh = 0.1) :
    (s.initialize (squareSamples.map (fun L => L - 1))).2 ≠ none := by
  have e0 : (squareSamples.map (fun L => L - 1)).map (fun shift => 1 + shift) = squareSamples := by
    rw [List.map_map]
    conv_rhs => rw [← List.map_id squareSamples]
    exact List.map_congr_left fun L _ => by simp
  have e : (mismatch (1 : Matrix (Fin 2) (Fin 2) ℝ) 1) = fun L => (fun z : ℤ => (z : ℝ) / 1) (squareDist L) := by
    funext L
    rw [← mismatch_eq, inv_one]
    exact squareDist_eq L
  have hm := initLoop_map (strictMono_div 1 one_pos) (eqlatcor squareExt squareExt)
    (fun L => L.det ≠ 0) (fun L => L.det = 1) 1 squareDist squareSamples 20 [] ∅ none
  simp only [List.map_nil, Option.map_none, squareExt_init] at hm
  rw [init_loaded h1 h2 hn hv (by norm_num) (by norm_num), startL0_one, e0, e, show max 20 (5 * 1) = 20 from rfl, hm]
  simp

/-- **C86** fails: for four solutions of the square lattice onto itself `initialize` draws for ever, whatever is
drawn. -/
theorem C86_square_fails (quartMin : (Fin 2 × Fin 2 → Fin 2 × Fin 2 → Fin 2 × Fin 2 → Fin 2 × Fin 2 → ℝ) → ℝ)
    (shifts : List (Matrix (Fin 2) (Fin 2) ℤ)) (hs : ∀ s ∈ shifts, ∀ i j, |s i j| ≤ 1) :
    ((Solver.after .exact .py2 quartMin (Solver.new 1 (.num (.float [1])) 1 (.num (.float [1]))
      { dim := some 2, nsol := some 4 }) [.load]).initialize shifts).2 = none := by
  have hG := square_group_eq .exact tolOK_exact
  obtain ⟨⟨-, -, -, -, a5, a6⟩, hl⟩ := after_loaded (quartMin := quartMin) (square_constructs .py2)
    (square_constructs .py2) hG hG [.load] (Solver.new 1 (.num (.float [1])) 1 (.num (.float [1]))
      { dim := some 2, nsol := some 4 }) ⟨rfl, rfl, rfl, rfl, rfl, rfl⟩
  obtain ⟨b1, b2, -⟩ := hl (.inl (by simp))
  exact square_drawing b1 b2 a5 a6 shifts hs

/-- The hypotheses of `C86_solutions_partial` are met, and `initialize` ends, for one solution of the square lattice
onto itself. -/
example (quartMin : (Fin 2 × Fin 2 → Fin 2 × Fin 2 → Fin 2 × Fin 2 → Fin 2 × Fin 2 → ℝ) → ℝ) :
    Constructs .py2 1 (.num (.float [1])) 2 1 1 ∧ Reliable .exact (1 : Matrix (Fin 2) (Fin 2) ℝ) (candidates 2) ∧
    ∃ shifts : List (Matrix (Fin 2) (Fin 2) ℤ), (∀ s ∈ shifts, ∀ i j, |s i j| ≤ 1) ∧
      ((Solver.after .exact .py2 quartMin (Solver.new 1 (.num (.float [1])) 1 (.num (.float [1]))
        { dim := some 2 }) [.init [], .load, .load]).initialize shifts).2 ≠ none := by
  refine ⟨square_constructs .py2, .inl rfl, squareSamples.map (fun L => L - 1), by decide +kernel, ?_⟩
  have hG := square_group_eq .exact tolOK_exact
  obtain ⟨⟨-, -, -, -, a5, a6⟩, hl⟩ := after_loaded (quartMin := quartMin) (square_constructs .py2)
    (square_constructs .py2) hG hG [.init [], .load, .load] (Solver.new 1 (.num (.float [1])) 1 (.num (.float [1]))
      { dim := some 2 }) ⟨rfl, rfl, rfl, rfl, rfl, rfl⟩
  obtain ⟨b1, b2, -⟩ := hl (.inl (by simp))
  exact square_done b1 b2 a5 a6

/-- The hypothesis of `C86_rejected` is met by the Bravais type 15. -/
example : BLat.new .py2 15 (.num (.float [1])) (3 : ℕ) = .error .valueError := by
  norm_num [BLat.new, checkParam, Nums.vals]

end Verif.Props
