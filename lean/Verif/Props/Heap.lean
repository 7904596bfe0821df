/-
C65 : accessors that promise a copy cannot be used to change an object.
C71 : arrays that are shared, and what changing them does.
-/
import Verif.Lemmas.Heap

namespace Verif.Heap

variable {V : Type}

/-- C65. Take any history `pre`, any object built in it and any accessor of that object. After any
further history in which the client overwrites nothing but arrays that `base()`, `getU()`, `Ulist()`,
`Ui()`, `Uj()` or `matrices()` (of this or any other object) returned in it, the accessor shows what it
showed before. Everything else is allowed in between: further accessor calls, further objects, also
objects built from the arrays that were returned. -/
theorem C65_copies (c : Comp V) (pre hist : List (Call V)) {a : Call V} {o : ℕ}
    (ha : accessorOf a = some o) (ho : o < (run c State.init pre).objs.length)
    (ok : OnlyCopiesWritten c (run c State.init pre) [] hist) :
    shown c (run c (run c State.init pre) hist) a = shown c (run c State.init pre) a := by
  have w : WF (run c State.init pre) := wf_run c pre wf_init
  generalize run c State.init pre = s at *
  have hb := List.getElem?_eq_getElem ho
  obtain ⟨b', h', k, e⟩ := stable c hist w hb [] (by simp) (by simp) ok
  have w' := wf_run c hist w
  rw [shown_pick c ha h' (w'.2 _ (List.mem_of_getElem? h')),
    shown_pick c ha hb (w.2 _ (List.mem_of_getElem? hb)), k, e]

/-- C65, second half: what these accessors return is a new array, one that no object and no earlier
call knows. -/
theorem C65_fresh (c : Comp V) (pre : List (Call V)) {a : Call V} {r : Ref}
    (ha : CopyAccessor a) (h : (step c (run c State.init pre) a).2 = .arr r) :
    r.item = none ∧
    (∀ b ∈ (step c (run c State.init pre) a).1.objs, ∀ q ∈ fields b, q.addr ≠ r.addr) ∧
    (run c State.init pre).next ≤ r.addr := by
  have w : WF (run c State.init pre) := wf_run c pre wf_init
  generalize run c State.init pre = s at *
  have hm : r.addr ∈ handed a (step c s a).2 := by simp [handed, ha, h]
  have e := (handed_fresh c s a _ hm).1
  refine ⟨?_, ?_, e.ge⟩
  · cases a <;> simp only [CopyAccessor] at ha <;> simp only [step] at h
    all_goals
      rename_i o
      rcases hb : s.objs[o]? with _ | b
      · simp [hb] at h
      · rcases b with _ | _ | _ | ⟨_ | U, l, u⟩ | _ | _ <;>
          simp [hb, copyOf, alloc] at h <;> simp [← h]
  · rw [copy_objs c s a ha]
    intro b hb q hq
    have := w.1 b hb q hq
    omega

/-- Matrices are integers here, the variants of `[u]` are `[u, -u]`, the Laue group of `[e]` is `[e, 1]`. -/
def demo : Comp ℤ where
  laue e := e ++ [1]
  variants u _ := .ok (u ++ u.map (- ·))
  prim p := p
  conv p := p.map (2 * ·)

/-- `A = np.array(7); G = MatrixGroup(A); M = Martensite(A, G).setU(A); T = TwinSystem(M);
P = T.getTwinpairs()[0]; L = Lattice(A)`: objects 0, 1, 2 (made by setU), 3, 4, 5. -/
def demoPre : List (Call ℤ) :=
  [.array [7], .group ⟨0, none⟩, .mart ⟨0, none⟩ 0, .setU 1 ⟨0, none⟩, .twins 2, .pairOf 3 0 1,
   .lattice ⟨0, none⟩]

-- the hypotheses of C65_copies hold for a history that overwrites four returned arrays, builds a
-- lattice from one of them, and overwrites it again; and the accessors have something to show
example : OnlyCopiesWritten demo (run demo State.init demoPre) []
    [.getU 2, .write ⟨3, none⟩ [0], .base 5, .write ⟨4, none⟩ [0], .Ui 4, .lattice ⟨5, none⟩,
     .write ⟨5, none⟩ [0], .matrices 0, .write ⟨6, none⟩ []] := by
  simp [OnlyCopiesWritten, run, demoPre, step, State.init, alloc, push, copyOf, handed,
    CopyAccessor, variantsOf, demo]

example : (shown demo (run demo State.init demoPre) (.Ulist 3)).toOption = some [7, -7] ∧
    (shown demo (run demo State.init demoPre) (.Uj 4)).toOption = some [-7] ∧
    (shown demo (run demo State.init demoPre) (.laueGroup 5)).toOption = some [7, 1] := by
  decide +kernel

/-- C71 fails for `getvariants()`: overwriting what `M.getvariants()` returned changes what it returns
later, and also what a twin system and a twin pair built from `M` return. -/
theorem C71_getvariants_fails :
    ∃ (c : Comp ℤ) (s : State ℤ) (o t p : ℕ) (r : Ref) (v : List ℤ),
      s = run c State.init demoPre ∧
      (step c s (.getvariants o)).2 = .arr r ∧
      (∀ a : Call ℤ, a = .getvariants o ∨ a = .Ulist t ∨ a = .Ui p →
        shown c (run c s [.getvariants o, .write r v]) a ≠ shown c s a) := by
  refine ⟨demo, _, 2, 3, 4, ⟨2, none⟩, [0, 0], rfl, by decide +kernel, ?_⟩
  rintro a (rfl | rfl | rfl) h <;> revert h <;> decide +kernel

/-- C71 fails for `getvariant(n)`, which returns a view. -/
theorem C71_getvariant_fails :
    ∃ (c : Comp ℤ) (s : State ℤ) (o : ℕ) (r : Ref) (v : List ℤ),
      s = run c State.init demoPre ∧
      (step c s (.getvariant o 1)).2 = .arr r ∧
      shown c (run c s [.getvariant o 1, .write r v]) (.getvariants o) ≠
        shown c s (.getvariants o) := by
  refine ⟨demo, _, 2, ⟨2, some 0⟩, [0], rfl, by decide +kernel, ?_⟩
  decide +kernel

/-- C71 fails for `lat_param()` and `conventional_trans()`. -/
theorem C71_lat_param_fails :
    ∃ (c : Comp ℤ) (s : State ℤ) (r r' : Ref),
      s = run c State.init [.array [7], .bravais ⟨0, none⟩] ∧
      (step c s (.latParam 0)).2 = .arr r ∧ (step c s (.convTrans 0)).2 = .arr r' ∧
      shown c (run c s [.latParam 0, .write r [0]]) (.latParam 0) ≠ shown c s (.latParam 0) ∧
      shown c (run c s [.convTrans 0, .write r' [0]]) (.convTrans 0) ≠ shown c s (.convTrans 0) := by
  refine ⟨demo, _, ⟨0, none⟩, ⟨2, none⟩, rfl, ?_⟩
  decide +kernel

/-- C71 fails for constructor arguments: `Lattice(A)`, `MatrixGroup(A)`, `Martensite(A)` and
`TwinPair(A, A)` keep `A`, and overwriting `A` changes what `base()`, `matrices()`, `getU()` and `Ui()`
return. -/
theorem C71_argument_fails :
    ∃ (c : Comp ℤ) (s : State ℤ) (A : Ref),
      s = run c State.init [.array [7], .lattice A, .group A, .mart A 1, .pair A A] ∧
      ∀ a : Call ℤ, a = .base 0 ∨ a = .matrices 1 ∨ a = .getU 2 ∨ a = .Ui 3 →
        shown c (run c s [.write A [0]]) a ≠ shown c s a := by
  refine ⟨demo, _, ⟨0, none⟩, rfl, ?_⟩
  rintro a (rfl | rfl | rfl | rfl) h <;> revert h <;> decide +kernel

/-- C71 fails through a second object: `M.setLaue(G)` is a new object, but both share `U`. The array
is the one `Martensite(A)` was built from. After the first object has computed its variants the two
even disagree about them. -/
theorem C71_stale_fails :
    ∃ (c : Comp ℤ) (s : State ℤ) (A : Ref),
      s = run c State.init [.array [7], .group A, .array [3], .mart ⟨1, none⟩ 0, .getvariants 1,
        .setLaue 1 0, .write ⟨1, none⟩ [5]] ∧
      shown c s (.getU 1) = shown c s (.getU 2) ∧
      shown c s (.getvariants 1) ≠ shown c s (.getvariants 2) := by
  refine ⟨demo, _, ⟨0, none⟩, rfl, ?_⟩
  decide +kernel

/-- C71, the part that holds: `Lattice([[...]])` and `TwinSystem(A)` copy. Whatever the client does
later to any array that existed before the object (`A` among them), or to arrays copying accessors
return, the answers of the object stay. -/
theorem C71_copying_constructors_partial (c : Comp V) (pre hist : List (Call V)) {a k : Call V} {o : ℕ}
    (hk : (∃ v, k = .latticeList v) ∨ ∃ r, k = .twinsOf r)
    (hn : (step c (run c State.init pre) k).2 = .obj o)
    (ha : accessorOf a = some o)
    (ok : OnlyCopiesWritten c (step c (run c State.init pre) k).1
      (List.range (run c State.init pre).next) hist) :
    shown c (run c (step c (run c State.init pre) k).1 hist) a =
      shown c (step c (run c State.init pre) k).1 a := by
  have w : WF (run c State.init pre) := wf_run c pre wf_init
  generalize run c State.init pre = s at *
  have w₁ : WF (step c s k).1 := wf_step c w k
  have key : ∃ b, (step c s k).1.objs[o]? = some b ∧ (∀ r ∈ fields b, r.addr = s.next) ∧
      s.next < (step c s k).1.next := by
    rcases hk with ⟨v, rfl⟩ | ⟨r, rfl⟩
    · simp only [step, push, alloc, Res.obj.injEq] at hn ⊢
      subst hn
      exact ⟨.lattice ⟨s.next, none⟩ none, by simp, by simp [fields], by simp⟩
    · simp only [step] at hn ⊢
      split_ifs at hn ⊢ with h
      · simp only [push, alloc, Res.obj.injEq] at hn ⊢
        subst hn
        exact ⟨.twins ⟨s.next, none⟩, by simp, by simp [fields], by simp⟩
  obtain ⟨b, hb, hf, hlt⟩ := key
  obtain ⟨b', h', k', e⟩ := stable c hist w₁ hb (List.range s.next)
    (fun x hx => (List.mem_range.1 hx).trans hlt)
    (fun r hr hx => by have := hf r hr; have := List.mem_range.1 hx; omega) ok
  have w' := wf_run c hist w₁
  rw [shown_pick c ha h' (w'.2 _ (List.mem_of_getElem? h')),
    shown_pick c ha hb (w₁.2 _ (List.mem_of_getElem? hb)), k', e]

/-- C71, the part that holds: `M.setU(A)` copies `A`. Whatever the client does later to `A`, the answers
of the new object stay (unless `A` is also the array the Laue group of `M` was built from). -/
theorem C71_setU_partial (c : Comp V) (pre hist : List (Call V)) {a : Call V} {m o : ℕ} {A : Ref}
    (hn : (step c (run c State.init pre) (.setU m A)).2 = .obj o)
    (hl : ∀ U l u, (run c State.init pre).objs[m]? = some (.mart U l u) → l.addr ≠ A.addr)
    (ha : accessorOf a = some o)
    (ok : OnlyCopiesWritten c (step c (run c State.init pre) (.setU m A)).1 [A.addr] hist) :
    shown c (run c (step c (run c State.init pre) (.setU m A)).1 hist) a =
      shown c (step c (run c State.init pre) (.setU m A)).1 a := by
  have w : WF (run c State.init pre) := wf_run c pre wf_init
  generalize run c State.init pre = s at *
  have w₁ : WF (step c s (.setU m A)).1 := wf_step c w _
  have key : ∃ b, (step c s (.setU m A)).1.objs[o]? = some b ∧
      (∀ r ∈ fields b, r.addr ≠ A.addr) ∧ A.addr < (step c s (.setU m A)).1.next := by
    simp only [step] at hn ⊢
    split_ifs at hn ⊢ with h
    · rcases hb : s.objs[m]? with _ | b
      · simp [hb] at hn
      · rcases b with _ | _ | _ | ⟨U, l, u⟩ | _ | _ <;> simp [hb, push, alloc] at hn ⊢
        subst hn
        refine ⟨.mart (some ⟨s.next, none⟩) l none, by simp, ?_, by omega⟩
        simp only [fields, Option.toList_some, Option.toList_none, List.cons_append, List.nil_append,
          List.mem_cons, List.not_mem_nil, or_false]
        rintro r (rfl | rfl)
        · simp; omega
        · exact hl _ _ _ hb
  obtain ⟨b, hb, hf, hlt⟩ := key
  obtain ⟨b', h', k', e⟩ := stable c hist w₁ hb [A.addr]
    (by simpa using hlt) (fun r hr hx => hf r hr (by simpa using hx)) ok
  have w' := wf_run c hist w₁
  rw [shown_pick c ha h' (w'.2 _ (List.mem_of_getElem? h')),
    shown_pick c ha hb (w₁.2 _ (List.mem_of_getElem? hb)), k', e]

-- `M.setU(A)`, then `A` is overwritten
example : (step demo (run demo State.init [.array [1], .group ⟨0, none⟩, .array [7],
      .mart ⟨1, none⟩ 0]) (.setU 1 ⟨1, none⟩)).2 = .obj 2 ∧
    OnlyCopiesWritten demo (step demo (run demo State.init [.array [1], .group ⟨0, none⟩, .array [7],
      .mart ⟨1, none⟩ 0]) (.setU 1 ⟨1, none⟩)).1 [1] [.write ⟨1, none⟩ [0], .getvariants 2] := by
  constructor
  · decide +kernel
  · simp [OnlyCopiesWritten]

-- `TwinSystem(A)`, then `A` is overwritten
example : (step demo (run demo State.init [.array [7, -7]]) (.twinsOf ⟨0, none⟩)).2 = .obj 0 ∧
    OnlyCopiesWritten demo (step demo (run demo State.init [.array [7, -7]]) (.twinsOf ⟨0, none⟩)).1
      (List.range 1) [.write ⟨0, none⟩ [0], .pairOf 0 0 1, .Ulist 0] := by
  constructor
  · decide +kernel
  · simp [OnlyCopiesWritten]

end Verif.Heap
