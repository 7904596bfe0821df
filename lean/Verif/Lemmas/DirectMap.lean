import Verif.Model.Direct
import Mathlib.Order.Monotone.Basic

/-!
# The direct search only compares distances

If all distances are replaced by their images under a strictly increasing map, the search does the
same.  Used to evaluate concrete runs with integer distances.
-/

namespace Verif.Lemmas

open Verif.Model

variable {D D' : Type} [LinearOrder D] [LinearOrder D'] {f : D → D'} {α : Type} [DecidableEq α]

def mapSol (f : D → D') (s : Sol α D) : Sol α D' := ⟨s.l, f s.d⟩

omit [DecidableEq α] [LinearOrder D] [LinearOrder D'] in
theorem pyGet?_map {σ τ : Type} (g : σ → τ) (l : List σ) (i : ℤ) :
    pyGet? (l.map g) i = (pyGet? l i).map g := by
  unfold pyGet?
  rw [List.length_map]
  split_ifs <;> simp

theorem searchsorted_map (hf : StrictMono f) (ds : List D) (x : D) :
    searchsorted (ds.map f) (f x) = searchsorted ds x := by
  unfold searchsorted
  rw [List.takeWhile_map, List.length_map]
  congr 2
  funext y
  simp [hf.lt_iff_lt]

omit [DecidableEq α] [LinearOrder D] [LinearOrder D'] in
theorem map_insertIdx' {σ τ : Type} (g : σ → τ) (l : List σ) (i : ℕ) (a : σ) :
    (l.insertIdx i a).map g = (l.map g).insertIdx i (g a) := by
  induction l generalizing i with
  | nil => cases i <;> simp
  | cons x l ih => cases i <;> simp [ih]

theorem popLoop_map (hf : StrictMono f) (eq : α → Finset α) (nsol : ℕ) :
    ∀ (fuel : ℕ) (sols : List (Sol α D)) (ext : Finset α),
      popLoop eq nsol fuel (sols.map (mapSol f)) ext
        = ((popLoop eq nsol fuel sols ext).1.map (mapSol f), (popLoop eq nsol fuel sols ext).2)
  | 0, sols, ext => rfl
  | fuel + 1, sols, ext => by
    unfold popLoop
    rw [pyGet?_map, pyGet?_map]
    rcases h1 : pyGet? sols (-1) with _ | last
    · rfl
    rcases h2 : pyGet? sols ((nsol : ℤ) - 1) with _ | ref
    · rfl
    simp only [Option.map_some]
    have e : ((mapSol f ref).d < (mapSol f last).d) ↔ ref.d < last.d := hf.lt_iff_lt
    by_cases h : ref.d < last.d
    · rw [if_pos h, if_pos (e.mpr h), ← List.map_dropLast]
      exact popLoop_map hf eq nsol fuel _ _
    · rw [if_neg h, if_neg (fun h' => h (e.mp h'))]

/-- the images of the results -/
def mapRes (f : D → D') : Except Err (List (Sol α D) × Finset α × D) →
    Except Err (List (Sol α D') × Finset α × D')
  | .error e => .error e
  | .ok (s, e, d) => .ok (s.map (mapSol f), e, f d)

theorem addSol_map (hf : StrictMono f) (eq : α → Finset α) (adm : α → Prop) [DecidablePred adm]
    (nsol : ℕ) (sol : Sol α D) (sols : List (Sol α D)) (ext : Finset α) :
    addSol eq adm nsol (mapSol f sol) (sols.map (mapSol f)) ext
      = mapRes f (addSol eq adm nsol sol sols ext) := by
  unfold addSol
  have e1 : (sols.map (mapSol f)).map Sol.d = (sols.map Sol.d).map f := by
    rw [List.map_map, List.map_map]; rfl
  simp only [e1]
  rw [show (mapSol f sol).l = sol.l from rfl, show (mapSol f sol).d = f sol.d from rfl,
    searchsorted_map hf]
  by_cases h : sol.l ∈ ext
  · simp only [if_pos h]
    rw [pyGet?_map]
    cases pyGet? sols (-1) <;> rfl
  · simp only [if_neg h]
    have e2 : (if adm sol.l then
          (sols.map (mapSol f)).insertIdx (searchsorted (sols.map Sol.d) sol.d) (mapSol f sol)
        else sols.map (mapSol f))
        = (if adm sol.l then sols.insertIdx (searchsorted (sols.map Sol.d) sol.d) sol else sols).map
          (mapSol f) := by
      split_ifs
      · rw [map_insertIdx']
      · rfl
    rw [e2, List.length_map]
    by_cases h3 : nsol < (if adm sol.l then sols.insertIdx (searchsorted (sols.map Sol.d) sol.d) sol
        else sols).length
    · simp only [if_pos h3]
      rw [popLoop_map hf]
      generalize popLoop (D := D) eq nsol _ _ _ = st
      rw [pyGet?_map]
      cases pyGet? st.1 (-1) <;> rfl
    · simp only [if_neg h3]
      generalize (if adm sol.l then sols.insertIdx (searchsorted (sols.map Sol.d) sol.d) sol
        else sols) = st
      rw [pyGet?_map]
      cases pyGet? st (-1) <;> rfl

theorem argmin_map (hf : StrictMono f) : ∀ ds : List D, argmin (ds.map f) = argmin ds
  | [] => rfl
  | [_] => rfl
  | d :: d' :: ds => by
    have ih := argmin_map hf (d' :: ds)
    simp only [List.map_cons] at ih ⊢
    unfold argmin
    rw [ih]
    have e : (f d' :: ds.map f).all (fun x => decide (f d ≤ x))
        = (d' :: ds).all (fun x => decide (d ≤ x)) := by
      rw [← List.map_cons, List.all_map]
      congr 1
      funext x
      simp [hf.le_iff_le]
    rw [e]

theorem map_eraseIdx' {σ τ : Type} (g : σ → τ) (l : List σ) (i : ℕ) :
    (l.eraseIdx i).map g = (l.map g).eraseIdx i := by
  induction l generalizing i with
  | nil => simp
  | cons x l ih => cases i <;> simp [ih]

theorem updateLoop_map (hf : StrictMono f) (eq : α → Finset α) (adm : α → Prop) [DecidablePred adm]
    (nsol : ℕ) : ∀ (fuel : ℕ) (ls : List α) (ds : List D) (sols : List (Sol α D)) (ext : Finset α)
      (dmax : D),
      updateLoop eq adm nsol fuel ls (ds.map f) (sols.map (mapSol f)) ext (f dmax)
        = mapRes f (updateLoop eq adm nsol fuel ls ds sols ext dmax)
  | 0, _, _, _, _, _ => rfl
  | fuel + 1, ls, ds, sols, ext, dmax => by
    unfold updateLoop
    rw [argmin_map hf, List.getElem?_map]
    rcases h1 : ds[argmin ds]? with _ | dmin
    · rfl
    rcases h2 : ls[argmin ds]? with _ | lmin
    · rfl
    simp only [Option.map_some, hf.le_iff_le]
    by_cases h : dmin ≤ dmax
    · rw [if_pos h, if_pos h,
        show (⟨lmin, f dmin⟩ : Sol α D') = mapSol f ⟨lmin, dmin⟩ from rfl, addSol_map hf]
      rcases addSol eq adm nsol ⟨lmin, dmin⟩ sols ext with e | ⟨s, e, d⟩
      · rfl
      · simp only [mapRes]
        rw [← map_eraseIdx']
        exact updateLoop_map hf eq adm nsol fuel _ _ _ _ _
    · rw [if_neg h, if_neg h]
      rfl

theorem updateSol_map (hf : StrictMono f) (eq : α → Finset α) (adm : α → Prop) [DecidablePred adm]
    (nsol : ℕ) (dist : α → D) (ls : List α) (sols : List (Sol α D)) (ext : Finset α) (dmax : D) :
    updateSol eq adm nsol (fun x => f (dist x)) ls (sols.map (mapSol f)) ext (f dmax)
      = match updateSol eq adm nsol dist ls sols ext dmax with
        | .error e => .error e
        | .ok (b, s, e, d) => .ok (b, s.map (mapSol f), e, f d) := by
  unfold updateSol
  rw [show ls.map (fun x => f (dist x)) = (ls.map dist).map f by rw [List.map_map]; rfl,
    updateLoop_map hf]
  rcases updateLoop eq adm nsol ls.length ls (ls.map dist) sols ext dmax with e | ⟨s, e, d⟩
  · rfl
  · simp only [mapRes, hf.lt_iff_lt]

variable {N : ℕ}

def mapState (f : D → D') (st : SearchState N D) : SearchState N D' :=
  (st.1.map (mapSol f), st.2.1, f st.2.2)

theorem sliceLoop_map (hf : StrictMono f) (GA GM : List (Matrix (Fin N) (Fin N) ℤ)) (nsol : ℕ)
    (dist : Matrix (Fin N) (Fin N) ℤ → D) (sliceSz : ℕ) :
    ∀ (fuel : ℕ) (g : List (List ℤ)) (st : SearchState N D),
      sliceLoop GA GM nsol (fun x => f (dist x)) sliceSz fuel g (mapState f st)
        = match sliceLoop GA GM nsol dist sliceSz fuel g st with
          | .error e => .error e
          | .ok (c, st') => .ok (c, mapState f st')
  | 0, _, _ => rfl
  | fuel + 1, g, (sols, ext, dmax) => by
    unfold mapState sliceLoop
    by_cases h : (g.take sliceSz).length > 0
    · rw [if_pos h, if_pos h, updateSol_map hf]
      rcases updateSol (eqlatcor GA GM) (fun L => L.det ≠ 0) nsol dist
          ((g.take sliceSz).map (toMat N)) sols ext dmax with e | ⟨b, s, e, d⟩
      · rfl
      · simp only
        cases b with
        | true =>
          simp only [if_true]
          cases g.drop sliceSz <;> rfl
        | false =>
          simp only [Bool.false_eq_true, if_false]
          exact sliceLoop_map hf GA GM nsol dist sliceSz fuel _ (s, e, d)
    · rw [if_neg h, if_neg h]

theorem searchLoop_map (hf : StrictMono f) (GA GM : List (Matrix (Fin N) (Fin N) ℤ)) (nsol : ℕ)
    (dist : Matrix (Fin N) (Fin N) ℤ → D) (sliceSz : ℕ) (rmax : D' → ℝ) :
    ∀ (fuel : ℕ) (c : List ℤ) (st : SearchState N D),
      searchLoop GA GM nsol (fun x => f (dist x)) sliceSz rmax fuel c (mapState f st)
        = match searchLoop GA GM nsol dist sliceSz (fun d => rmax (f d)) fuel c st with
          | .error e => .error e
          | .ok (r, trace) => .ok (r.map (mapState f), trace)
  | 0, _, _ => rfl
  | fuel + 1, c, st => by
    unfold searchLoop
    rw [show (mapState f st).2.2 = f st.2.2 from rfl]
    simp only
    rw [sliceLoop_map hf]
    rcases sliceLoop GA GM nsol dist sliceSz
        ((vecGen (N ^ 2) (rmax (f st.2.2)) (some c)).length + 1)
        (vecGen (N ^ 2) (rmax (f st.2.2)) (some c)) st with e | ⟨c', st'⟩
    · rfl
    · cases c' with
      | none => rfl
      | some c' =>
        simp only
        rw [searchLoop_map hf GA GM nsol dist sliceSz rmax fuel c' st']
        rcases searchLoop GA GM nsol dist sliceSz (fun d => rmax (f d)) fuel c' st' with e | ⟨r, t⟩ <;>
          rfl

theorem initLoop_map (hf : StrictMono f) (eq : α → Finset α) (adm volOk : α → Prop)
    [DecidablePred adm] [DecidablePred volOk] (nsol : ℕ) (dist : α → D) :
    ∀ (samples : List α) (k : ℕ) (sols : List (Sol α D)) (ext : Finset α) (dmax : Option D),
      initLoop eq adm volOk nsol (fun x => f (dist x)) samples k (sols.map (mapSol f), ext, dmax.map f)
        = match initLoop eq adm volOk nsol dist samples k (sols, ext, dmax) with
          | .error e => .error e
          | .ok none => .ok none
          | .ok (some (s, e, d)) => .ok (some (s.map (mapSol f), e, d.map f))
  | samples, 0, sols, ext, dmax => by cases samples <;> rfl
  | [], k + 1, sols, ext, dmax => rfl
  | l :: samples, k + 1, sols, ext, dmax => by
    unfold initLoop
    by_cases h : l ∈ ext ∨ ¬ volOk l
    · rw [if_pos h, if_pos h]
      exact initLoop_map hf eq adm volOk nsol dist samples (k + 1) sols ext dmax
    · rw [if_neg h, if_neg h,
        show (⟨l, f (dist l)⟩ : Sol α D') = mapSol f ⟨l, dist l⟩ from rfl, addSol_map hf]
      rcases addSol eq adm nsol ⟨l, dist l⟩ sols ext with e | ⟨s, e, d⟩
      · rfl
      · exact initLoop_map hf eq adm volOk nsol dist samples k s e (some d)

/-- the whole search -/
theorem directSearch_map (hf : StrictMono f) (GA GM : List (Matrix (Fin N) (Fin N) ℤ)) (nsol : ℕ)
    (dist : Matrix (Fin N) (Fin N) ℤ → D) (sliceSz : ℕ) (rmax : D' → ℝ)
    (volOk : Matrix (Fin N) (Fin N) ℤ → Prop) [DecidablePred volOk]
    (samples : List (Matrix (Fin N) (Fin N) ℤ)) (fuel : ℕ) :
    directSearch GA GM nsol (fun x => f (dist x)) sliceSz rmax volOk samples fuel
      = match directSearch GA GM nsol dist sliceSz (fun d => rmax (f d)) volOk samples fuel with
        | .error e => .error e
        | .ok (r, trace) => .ok (r.map (mapState f), trace) := by
  unfold directSearch
  have h := initLoop_map (f := f) hf (eqlatcor GA GM) (fun L => L.det ≠ 0) volOk nsol dist samples
    (20 * nsol) [] ∅ none
  simp only [List.map_nil, Option.map_none] at h
  rw [h]
  rcases initLoop (eqlatcor GA GM) (fun L => L.det ≠ 0) volOk nsol dist samples (20 * nsol)
    ([], ∅, none) with e | o
  · rfl
  · rcases o with _ | ⟨s, e, d⟩
    · rfl
    · rcases d with _ | d
      · rfl
      · exact searchLoop_map hf GA GM nsol dist sliceSz rmax fuel _ (s, e, d)

end Verif.Lemmas
