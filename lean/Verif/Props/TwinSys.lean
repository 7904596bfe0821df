import Verif.Props.TwinSolve

/-!
# C59: twin systems

The answers of a `TwinSystem` after an arbitrary sequence of calls.
-/

namespace Verif.Props

open Matrix Verif.Model Verif.Spec Verif.Lemmas

local notation "Mat3" => Matrix (Fin 3) (Fin 3) ℝ

/-- `TwinPair(Ui, Uj).istwinnable()` is true for the variants with the indices `i` and `j`. -/
def TwinnableAt (eig : Mat3 → EigRes) (us : List Mat3) (i j : ℕ) : Prop :=
  ∃ A B p, us[i]? = some A ∧ us[j]? = some B ∧ TwinPair.new eig A B true = .ok p ∧ p.isTwinnable = true

/-- Lexicographic order on index pairs. -/
def LexLt (x y : ℕ × ℕ) : Prop := x.1 < y.1 ∨ x.1 = y.1 ∧ x.2 < y.2

theorem mem_indexPairs {N i j : ℕ} : (i, j) ∈ indexPairs N ↔ i < j ∧ j < N := by
  unfold indexPairs
  simp only [List.mem_flatMap, List.mem_range, List.mem_map, Prod.mk.injEq, List.mem_range'_1]
  constructor
  · rintro ⟨a, ha, b, hb, rfl, rfl⟩; omega
  · rintro ⟨h1, h2⟩; exact ⟨i, by omega, j, by omega, rfl, rfl⟩

theorem indexPairs_sorted (N : ℕ) : (indexPairs N).Pairwise LexLt := by
  unfold indexPairs
  rw [List.pairwise_flatMap]
  constructor
  · intro i _
    rw [List.pairwise_map]
    exact (List.pairwise_lt_range' (s := i + 1) (n := N - (i + 1))).imp fun h => .inr ⟨rfl, h⟩
  · refine List.pairwise_lt_range.imp ?_
    intro a b hab x hx y hy
    simp only [List.mem_map] at hx hy
    obtain ⟨_, _, rfl⟩ := hx
    obtain ⟨_, _, rfl⟩ := hy
    exact .inl hab

/-- The pair object of two indices. -/
noncomputable def pairAt (eig : Mat3 → EigRes) (us : List Mat3) (x : ℕ × ℕ) : TwinPair :=
  ⟨us.getD x.1 0, us.getD x.2 0,
    sortEig eig (((us.getD x.1 0)⁻¹ * us.getD x.2 0) * (us.getD x.2 0 * (us.getD x.1 0)⁻¹))⟩

theorem new_at (eig : Mat3 → EigRes) {us : List Mat3} (hus : ∀ U ∈ us, U.det ≠ 0) {x : ℕ × ℕ}
    (h : x.1 < us.length) : TwinPair.new eig (us.getD x.1 0) (us.getD x.2 0) true = .ok (pairAt eig us x) := by
  unfold TwinPair.new
  rw [if_neg (by simp), if_neg]
  · rfl
  · rw [List.getD_eq_getElem _ _ h]
    exact hus _ (List.getElem_mem h)

theorem fillTable_eq (eig : Mat3 → EigRes) {us : List Mat3} (hus : ∀ U ∈ us, U.det ≠ 0)
    (l tt : List (ℕ × ℕ)) (tp : List PairObj) (h : ∀ x ∈ l, x.1 < us.length) :
    fillTable eig us l tt tp = (tt ++ l.filter (fun x => (pairAt eig us x).isTwinnable),
      tp ++ (l.filter (fun x => (pairAt eig us x).isTwinnable)).map (fun x => ⟨pairAt eig us x, none⟩), none) := by
  induction l generalizing tt tp with
  | nil => simp [fillTable]
  | cons x l ih =>
    obtain ⟨i, j⟩ := x
    have hx := new_at eig hus (h (i, j) (by simp))
    have hr : ∀ x ∈ l, x.1 < us.length := fun x hx => h x (List.mem_cons_of_mem _ hx)
    unfold fillTable
    simp only at hx
    rw [hx]
    simp only
    by_cases hb : (pairAt eig us (i, j)).isTwinnable = true
    · rw [if_pos hb, ih _ _ hr]
      simp [hb]
    · rw [if_neg hb, ih _ _ hr]
      simp [hb]

/-- The table that every call of `TwinTable()` returns. -/
noncomputable def theTable (eig : Mat3 → EigRes) (us : List Mat3) : List (ℕ × ℕ) :=
  (indexPairs us.length).filter (fun x => (pairAt eig us x).isTwinnable)

theorem fillTable_all (eig : Mat3 → EigRes) {us : List Mat3} (hus : ∀ U ∈ us, U.det ≠ 0) :
    fillTable eig us (indexPairs us.length) [] [] =
      (theTable eig us, (theTable eig us).map (fun x => ⟨pairAt eig us x, none⟩), none) := by
  rw [fillTable_eq eig hus]
  · rfl
  · rintro ⟨i, j⟩ hx
    have := mem_indexPairs.1 hx
    simp only
    omega

/-- The state of a twin system whose answers have been computed: `ok` says which values the field
`__conventional` of a pair may have. -/
structure Filled (eig : Mat3 → EigRes) (us : List Mat3) (ok : TwinPair → Option Bool → Prop)
    (s : TwinSys) : Prop where
  table : s.table = some (theTable eig us)
  pairs : ∃ tp, s.pairs = some tp ∧ tp.map PairObj.p = (theTable eig us).map (pairAt eig us) ∧
    ∀ o ∈ tp, ok o.p o.conv

/-- Reachable states. -/
structure SysInv (eig : Mat3 → EigRes) (us : List Mat3) (laue : Option (List Mat3))
    (ok : TwinPair → Option Bool → Prop) (s : TwinSys) : Prop where
  us_eq : s.us = us
  laue_eq : s.laue = laue
  state : (s.table = none ∧ s.pairs = none) ∨ Filled eig us ok s

/-- After any call of `TwinTable()` the answers have been computed. -/
theorem table_spec {eig : Mat3 → EigRes} {us : List Mat3} (hus : ∀ U ∈ us, U.det ≠ 0) {laue : Option (List Mat3)}
    {ok : TwinPair → Option Bool → Prop} (hok : ∀ p, ok p none) {s : TwinSys} (h : SysInv eig us laue ok s) :
    ∃ s', s.twinTable eig = (s', .ok (theTable eig us)) ∧ SysInv eig us laue ok s' ∧ Filled eig us ok s' := by
  rcases h.state with ⟨h1, h2⟩ | hF
  · have e := fillTable_all eig hus
    refine ⟨⟨s.us, s.laue, some (theTable eig us), some ((theTable eig us).map (fun x => ⟨pairAt eig us x, none⟩))⟩,
      ?_, ?_⟩
    · unfold TwinSys.twinTable
      rw [h1, h.us_eq, e]
    · have hF : Filled eig us ok ⟨s.us, s.laue, some (theTable eig us),
          some ((theTable eig us).map (fun x => ⟨pairAt eig us x, none⟩))⟩ := by
        refine ⟨rfl, _, rfl, by rw [List.map_map]; rfl, ?_⟩
        intro o ho
        obtain ⟨x, _, rfl⟩ := List.mem_map.1 ho
        exact hok _
      exact ⟨⟨h.us_eq, h.laue_eq, .inr hF⟩, hF⟩
  · refine ⟨s, ?_, h, hF⟩
    unfold TwinSys.twinTable
    rw [hF.table]

theorem pairs_spec {eig : Mat3 → EigRes} {us : List Mat3} (hus : ∀ U ∈ us, U.det ≠ 0) {laue : Option (List Mat3)}
    {ok : TwinPair → Option Bool → Prop} (hok : ∀ p, ok p none) {s : TwinSys} (h : SysInv eig us laue ok s) :
    ∃ s' tp, s.getPairs eig = (s', .ok tp) ∧ SysInv eig us laue ok s' ∧ s'.table = some (theTable eig us) ∧
      s'.pairs = some tp ∧ tp.map PairObj.p = (theTable eig us).map (pairAt eig us) ∧
      ∀ o ∈ tp, ok o.p o.conv := by
  rcases h.state with ⟨h1, h2⟩ | hF
  · obtain ⟨s', e, hi, hF⟩ := table_spec hus hok h
    obtain ⟨tp, p1, p2, p3⟩ := hF.pairs
    refine ⟨s', tp, ?_, hi, hF.table, p1, p2, p3⟩
    unfold TwinSys.getPairs
    simp only [h2, e, p1]
  · obtain ⟨tp, p1, p2, p3⟩ := hF.pairs
    refine ⟨s, tp, ?_, h, hF.table, p1, p2, p3⟩
    unfold TwinSys.getPairs
    rw [p1]

/-- The values of `__conventional` that do not depend on the history: unset, or the answer for the group `G`. -/
def ConvOK (G : Option (List Mat3)) (p : TwinPair) (c : Option Bool) : Prop :=
  c = none ∨ ∃ L, G = some L ∧ c = some (p.related L)

theorem isConventional_pair (o : PairObj) (G : Option (List Mat3)) : (o.isConventional G).1.p = o.p := by
  unfold PairObj.isConventional
  split
  · rfl
  · split_ifs <;> rfl

theorem convLoop_pairs (G : List Mat3) (k : ℕ) (tp : List PairObj) :
    (convLoop G k tp).1.map PairObj.p = tp.map PairObj.p := by
  induction tp generalizing k with
  | nil => rfl
  | cons o os ih => simp [convLoop, isConventional_pair, ih]

theorem convLoop_ok (G : List Mat3) (k : ℕ) (tp : List PairObj)
    (h : ∀ o ∈ tp, ConvOK (some G) o.p o.conv) :
    ∀ o ∈ (convLoop G k tp).1, ConvOK (some G) o.p o.conv := by
  induction tp generalizing k with
  | nil => simp [convLoop]
  | cons o os ih =>
    intro x hx
    simp only [convLoop, List.mem_cons] at hx
    rcases hx with rfl | hx
    · unfold PairObj.isConventional
      split
      · exact h o (by simp)
      · split_ifs
        · exact h o (by simp)
        · exact .inr ⟨G, rfl, rfl⟩
    · exact ih (k + 1) (fun o ho => h o (List.mem_cons_of_mem _ ho)) x hx

/-- The positions, counted from `k`, of the elements on which `f` is true. -/
def positions {α : Type} (f : α → Bool) : ℕ → List α → List ℕ
  | _, [] => []
  | k, x :: xs => if f x then k :: positions f (k + 1) xs else positions f (k + 1) xs

theorem mem_positions {α : Type} (f : α → Bool) (k : ℕ) (l : List α) (n : ℕ) :
    n ∈ positions f k l ↔ ∃ i x, l[i]? = some x ∧ f x = true ∧ n = k + i := by
  induction l generalizing k with
  | nil => simp [positions]
  | cons y ys ih =>
    have : (∃ i x, (y :: ys)[i]? = some x ∧ f x = true ∧ n = k + i) ↔
        (f y = true ∧ n = k) ∨ ∃ i x, ys[i]? = some x ∧ f x = true ∧ n = k + 1 + i := by
      constructor
      · rintro ⟨i, x, h1, h2, h3⟩
        cases i with
        | zero => left; simp at h1; subst h1; exact ⟨h2, h3⟩
        | succ i => right; exact ⟨i, x, by simpa using h1, h2, by omega⟩
      · rintro (⟨h1, h2⟩ | ⟨i, x, h1, h2, h3⟩)
        · exact ⟨0, y, by simp, h1, by omega⟩
        · exact ⟨i + 1, x, by simpa using h1, h2, by omega⟩
    rw [this, ← ih (k + 1)]
    show n ∈ (if f y then k :: positions f (k + 1) ys else positions f (k + 1) ys) ↔ _
    split_ifs with h
    · simp only [List.mem_cons, h, true_and]
    · simp only [h, Bool.false_eq_true, false_and, false_or]

theorem positions_sorted {α : Type} (f : α → Bool) (k : ℕ) (l : List α) :
    (positions f k l).Pairwise (· < ·) ∧ ∀ n ∈ positions f k l, k ≤ n := by
  induction l generalizing k with
  | nil => simp [positions]
  | cons y ys ih =>
    obtain ⟨h1, h2⟩ := ih (k + 1)
    unfold positions
    split_ifs with h
    · refine ⟨List.pairwise_cons.2 ⟨fun n hn => by have := h2 n hn; omega, h1⟩, ?_⟩
      intro n hn
      rcases List.mem_cons.1 hn with rfl | hn
      · exact le_rfl
      · have := h2 n hn; omega
    · exact ⟨h1, fun n hn => by have := h2 n hn; omega⟩

theorem convLoop_indices (G : List Mat3) (k : ℕ) (tp : List PairObj)
    (h : ∀ o ∈ tp, ConvOK (some G) o.p o.conv) (ht : ∀ o ∈ tp, o.p.isTwinnable = true) :
    (convLoop G k tp).2 = positions (fun p => p.related G) k (tp.map PairObj.p) := by
  induction tp generalizing k with
  | nil => rfl
  | cons o os ih =>
    have e : (o.isConventional (some G)).2 = o.p.related G := by
      unfold PairObj.isConventional
      rcases h o (by simp) with hc | ⟨L, hL, hc⟩
      · rw [hc]
        simp only
        rw [if_neg (by rw [ht o (by simp)]; simp)]
        rfl
      · rw [hc]
        cases hL
        rfl
    simp only [convLoop, List.map_cons, positions, e,
      ih (k + 1) (fun o ho => h o (List.mem_cons_of_mem _ ho)) (fun o ho => ht o (List.mem_cons_of_mem _ ho))]

theorem indicesOf_congr (f : TwinPair → Except Err Bool) (k : ℕ) (tp tp' : List PairObj)
    (h : tp.map PairObj.p = tp'.map PairObj.p) : indicesOf f k tp = indicesOf f k tp' := by
  induction tp generalizing k tp' with
  | nil =>
    cases tp' with
    | nil => rfl
    | cons _ _ => simp at h
  | cons o os ih =>
    cases tp' with
    | nil => simp at h
    | cons o' os' =>
      simp only [List.map_cons, List.cons.injEq] at h
      unfold indicesOf
      rw [h.1, ih (k + 1) os' h.2]

theorem indicesOf_ok (f : TwinPair → Except Err Bool) (k : ℕ) (tp : List PairObj) (l : List ℕ)
    (h : indicesOf f k tp = .ok l) :
    (∀ o ∈ tp, ∃ b, f o.p = .ok b) ∧
      l = positions (fun p => match f p with | .ok b => b | .error _ => false) k (tp.map PairObj.p) := by
  induction tp generalizing k l with
  | nil => simp only [indicesOf, Except.ok.injEq] at h; simp [← h, positions]
  | cons o os ih =>
    unfold indicesOf at h
    cases hf : f o.p with
    | error e => rw [hf] at h; simp at h
    | ok b =>
      rw [hf] at h
      simp only at h
      cases hi : indicesOf f (k + 1) os with
      | error e => rw [hi] at h; simp at h
      | ok l' =>
        rw [hi] at h
        simp only [Except.ok.injEq] at h
        obtain ⟨h1, h2⟩ := ih (k + 1) l' hi
        refine ⟨?_, ?_⟩
        · intro x hx
          rcases List.mem_cons.1 hx with rfl | hx
          · exact ⟨b, hf⟩
          · exact h1 x hx
        · rw [← h, h2, List.map_cons, positions, hf]

/-- Whether a call asks a pair whether it is conventional with respect to another group than the system's. -/
def Foreign (laue : Option (List Mat3)) : TwinOp → Prop
  | .pairConventional _ G => ∀ L, laue = some L → convGroup G ≠ L
  | _ => False

theorem twinnable_of_mem {eig : Mat3 → EigRes} {us : List Mat3} {tp : List PairObj}
    (h : tp.map PairObj.p = (theTable eig us).map (pairAt eig us)) : ∀ o ∈ tp, o.p.isTwinnable = true := by
  intro o ho
  have : o.p ∈ tp.map PairObj.p := List.mem_map_of_mem ho
  rw [h] at this
  obtain ⟨x, hx, hxo⟩ := List.mem_map.1 this
  rw [← hxo]
  exact (List.mem_filter.1 hx).2

/-- One call keeps the invariant. -/
theorem step_inv {eig : Mat3 → EigRes} {us : List Mat3} (hus : ∀ U ∈ us, U.det ≠ 0) {laue : Option (List Mat3)}
    {ok : TwinPair → Option Bool → Prop} (hok : ∀ p, ok p none)
    (hl : ∀ L, laue = some L → ∀ o : PairObj, ok o.p o.conv → ok o.p (o.isConventional (some L)).1.conv)
    (op : TwinOp)
    (hop : ∀ k G, op = .pairConventional k G → ∀ o : PairObj, ok o.p o.conv → ok o.p (o.isConventional G).1.conv)
    {s : TwinSys} (h : SysInv eig us laue ok s) : SysInv eig us laue ok (s.step eig op).1 := by
  obtain ⟨s1, e1, i1, _⟩ := table_spec hus hok h
  obtain ⟨s2, tp, e2, i2, t2, p2, m2, k2⟩ := pairs_spec hus hok h
  cases op with
  | table => simp only [TwinSys.step, e1, wrap]; exact i1
  | pairs => simp only [TwinSys.step, e2, wrap]; exact i2
  | conventional =>
    simp only [TwinSys.step, TwinSys.getConventional, e2]
    have hlo : ∀ L k, laue = some L → ∀ tp : List PairObj, (∀ o ∈ tp, ok o.p o.conv) →
        ∀ o ∈ (convLoop L k tp).1, ok o.p o.conv := by
      intro L k hL tp
      induction tp generalizing k with
      | nil => simp [convLoop]
      | cons o os ih =>
        intro hos x hx
        simp only [convLoop, List.mem_cons] at hx
        rcases hx with rfl | hx
        · rw [isConventional_pair]; exact hl L hL o (hos o (by simp))
        · exact ih (k + 1) (fun o ho => hos o (List.mem_cons_of_mem _ ho)) x hx
    cases tp with
    | nil => exact i2
    | cons o os =>
      cases hs : s2.laue with
      | none => exact i2
      | some L =>
        refine ⟨i2.us_eq, i2.laue_eq ▸ hs.symm, .inr ⟨t2, _, rfl, ?_, ?_⟩⟩
        · rw [convLoop_pairs, m2]
        · exact hlo L 0 (i2.laue_eq ▸ hs) _ k2
  | compound =>
    simp only [TwinSys.step, TwinSys.getCompound, e2]
    cases indicesOf TwinPair.isCompound 0 tp <;> exact i2
  | typeI =>
    simp only [TwinSys.step, TwinSys.getTypeI, e2]
    cases indicesOf TwinPair.isTypeI 0 tp <;> exact i2
  | pairConventional k G =>
    simp only [TwinSys.step, e2]
    cases hk : tp[k]? with
    | none => exact i2
    | some o =>
      have ho : o ∈ tp := List.mem_of_getElem? hk
      refine ⟨i2.us_eq, i2.laue_eq, .inr ⟨t2, _, rfl, ?_, ?_⟩⟩
      · rw [List.map_set, isConventional_pair, ← m2]
        apply List.ext_getElem?
        intro i
        rw [List.getElem?_set]
        split_ifs with h1 h2
        · subst h1; rw [List.getElem?_map, hk]; rfl
        · subst h1; rw [List.getElem?_eq_none (by omega)]
        · rfl
      · intro x hx
        rcases List.mem_or_eq_of_mem_set hx with hx | rfl
        · exact k2 x hx
        · rw [isConventional_pair]; exact hop k G rfl o (k2 o ho)

/-- What every call answers. -/
noncomputable def answer (eig : Mat3 → EigRes) (us : List Mat3) (laue : Option (List Mat3)) :
    TwinOp → Except Err TwinVal
  | .table => .ok (.table (theTable eig us))
  | .pairs => .ok (.pairs ((theTable eig us).map fun x => (us.getD x.1 0, us.getD x.2 0)))
  | .conventional =>
    match theTable eig us, laue with
    | [], _ => .ok (.indices [])
    | _ :: _, none => .error .attributeError
    | l, some L => .ok (.indices (positions (fun p => p.related L) 0 (l.map (pairAt eig us))))
  | .compound => (indicesOf TwinPair.isCompound 0 ((theTable eig us).map fun x => ⟨pairAt eig us x, none⟩)).map .indices
  | .typeI => (indicesOf TwinPair.isTypeI 0 ((theTable eig us).map fun x => ⟨pairAt eig us x, none⟩)).map .indices
  | .pairConventional k G =>
    match (theTable eig us)[k]? with
    | none => .error .indexError
    | some x => .ok (.bool ((pairAt eig us x).related (convGroup G)))

theorem wrap_snd {α : Type} (f : α → TwinVal) (s : TwinSys) (r : Except Err α) : (wrap f (s, r)).2 = r.map f := by
  cases r <;> rfl

theorem step_plain {eig : Mat3 → EigRes} {us : List Mat3} (hus : ∀ U ∈ us, U.det ≠ 0) {laue : Option (List Mat3)}
    {ok : TwinPair → Option Bool → Prop} (hok : ∀ p, ok p none) {s : TwinSys} (h : SysInv eig us laue ok s)
    {op : TwinOp} (ho : op = .table ∨ op = .pairs ∨ op = .compound ∨ op = .typeI) :
    (s.step eig op).2 = answer eig us laue op := by
  obtain ⟨s1, e1, i1, _⟩ := table_spec hus hok h
  obtain ⟨s2, tp, e2, i2, t2, p2, m2, k2⟩ := pairs_spec hus hok h
  have hm : tp.map PairObj.p = ((theTable eig us).map fun x => (⟨pairAt eig us x, none⟩ : PairObj)).map PairObj.p := by
    rw [m2, List.map_map]; rfl
  rcases ho with rfl | rfl | rfl | rfl
  · simp only [TwinSys.step, e1, wrap_snd]; rfl
  · simp only [TwinSys.step, e2, wrap_snd, answer, Except.map]
    congr 2
    have := congrArg (List.map fun p : TwinPair => (p.Ui, p.Uj)) m2
    simpa [List.map_map, Function.comp_def, pairAt] using this
  · simp only [TwinSys.step, TwinSys.getCompound, e2, wrap_snd, answer, indicesOf_congr _ 0 _ _ hm]
  · simp only [TwinSys.step, TwinSys.getTypeI, e2, wrap_snd, answer, indicesOf_congr _ 0 _ _ hm]

theorem step_answer {eig : Mat3 → EigRes} {us : List Mat3} (hus : ∀ U ∈ us, U.det ≠ 0) {laue : Option (List Mat3)}
    {s : TwinSys} (h : SysInv eig us laue (ConvOK laue) s) {op : TwinOp} (ho : ¬ Foreign laue op) :
    (s.step eig op).2 = answer eig us laue op := by
  have hok : ∀ p, ConvOK laue p none := fun p => .inl rfl
  obtain ⟨s2, tp, e2, i2, t2, p2, m2, k2⟩ := pairs_spec hus hok h
  have htw := twinnable_of_mem m2
  cases op with
  | table => exact step_plain hus hok h (.inl rfl)
  | pairs => exact step_plain hus hok h (.inr (.inl rfl))
  | compound => exact step_plain hus hok h (.inr (.inr (.inl rfl)))
  | typeI => exact step_plain hus hok h (.inr (.inr (.inr rfl)))
  | conventional =>
    simp only [TwinSys.step, TwinSys.getConventional, e2, answer]
    have hlen : tp.length = (theTable eig us).length := by simpa using congrArg List.length m2
    cases tp with
    | nil =>
      have : theTable eig us = [] := List.eq_nil_of_length_eq_zero hlen.symm
      simp only [this]
      rfl
    | cons o os =>
      cases ht : theTable eig us with
      | nil => rw [ht] at hlen; simp at hlen
      | cons x xs =>
        rw [← ht, ← i2.laue_eq]
        cases hs : s2.laue with
        | none => rw [ht]; rfl
        | some L =>
          have hL : laue = some L := i2.laue_eq ▸ hs
          simp only [wrap_snd]
          rw [convLoop_indices L 0 _ (by rw [← hL]; exact k2) htw, m2, ht]
          rfl
  | pairConventional k G =>
    simp only [TwinSys.step, e2, answer]
    have hk : (tp[k]?).map PairObj.p = ((theTable eig us)[k]?).map (pairAt eig us) := by
      rw [← List.getElem?_map, ← List.getElem?_map, m2]
    have hL : ∃ L, laue = some L ∧ convGroup G = L := by
      unfold Foreign at ho
      push Not at ho
      exact ho
    obtain ⟨L, hL, hG⟩ := hL
    cases ht : (theTable eig us)[k]? with
    | none =>
      rw [ht] at hk
      simp only [Option.map_none, Option.map_eq_none_iff] at hk
      simp only [hk]
    | some x =>
      rw [ht] at hk
      simp only [Option.map_some, Option.map_eq_some_iff] at hk
      obtain ⟨o, ho1, ho2⟩ := hk
      have hmem : o ∈ tp := List.mem_of_getElem? ho1
      simp only [ho1]
      rw [← ho2]
      unfold PairObj.isConventional
      rcases k2 o hmem with hc | ⟨L', hL', hc⟩
      · rw [hc]
        simp only
        rw [if_neg (by rw [htw o hmem]; simp)]
      · rw [hc, hG]
        rw [hL] at hL'
        cases hL'
        rfl

theorem new_inv (eig : Mat3 → EigRes) (us : List Mat3) (arg : Option (Option (List Mat3)))
    (ok : TwinPair → Option Bool → Prop) :
    SysInv eig us (TwinSys.new us arg).laue ok (TwinSys.new us arg) := by
  refine ⟨?_, rfl, .inl ⟨?_, ?_⟩⟩ <;> cases arg <;> rfl

theorem after_inv {eig : Mat3 → EigRes} {us : List Mat3} (hus : ∀ U ∈ us, U.det ≠ 0) {laue : Option (List Mat3)}
    {ok : TwinPair → Option Bool → Prop} (hok : ∀ p, ok p none)
    (hl : ∀ L, laue = some L → ∀ o : PairObj, ok o.p o.conv → ok o.p (o.isConventional (some L)).1.conv)
    (ops : List TwinOp)
    (hop : ∀ k G, .pairConventional k G ∈ ops → ∀ o : PairObj, ok o.p o.conv → ok o.p (o.isConventional G).1.conv)
    {s : TwinSys} (h : SysInv eig us laue ok s) : SysInv eig us laue ok (s.after eig ops) := by
  induction ops generalizing s with
  | nil => exact h
  | cons op ops ih =>
    refine ih (fun k G hG => hop k G (List.mem_cons_of_mem _ hG)) ?_
    exact step_inv hus hok hl op (fun k G e => hop k G (by rw [← e]; simp)) h

theorem convOK_step {laue : Option (List Mat3)} {L : List Mat3} (hL : laue = some L) {G : Option (List Mat3)}
    (hG : convGroup G = L) (o : PairObj) (h : ConvOK laue o.p o.conv) :
    ConvOK laue o.p (o.isConventional G).1.conv := by
  unfold PairObj.isConventional
  split
  · exact h
  · split_ifs
    · exact h
    · exact .inr ⟨L, hL, by simp only [hG]⟩

theorem answer_spec (eig : Mat3 → EigRes) {us : List Mat3} (hus : ∀ U ∈ us, U.det ≠ 0) :
    (theTable eig us).Pairwise LexLt ∧
    ∀ i j, (i, j) ∈ theTable eig us ↔ i < j ∧ j < us.length ∧ TwinnableAt eig us i j := by
  refine ⟨(indexPairs_sorted _).filter _, fun i j => ?_⟩
  unfold theTable
  rw [List.mem_filter, mem_indexPairs]
  constructor
  · rintro ⟨⟨h1, h2⟩, h3⟩
    have hi : i < us.length := by omega
    refine ⟨h1, h2, us[i], us[j], pairAt eig us (i, j), by simp [hi], by simp [h2], ?_, h3⟩
    have := new_at eig hus (x := (i, j)) hi
    simp only [List.getD_eq_getElem _ _ hi, List.getD_eq_getElem _ _ h2] at this
    exact this
  · rintro ⟨h1, h2, A, B, p, hA, hB, hp, ht⟩
    have hi : i < us.length := by omega
    refine ⟨⟨h1, h2⟩, ?_⟩
    have := new_at eig hus (x := (i, j)) hi
    simp only [List.getD_eq_getElem?_getD, hA, hB, Option.getD_some] at this
    rw [hp] at this
    cases this
    exact ht

/-- **C59**, the table: after any sequence of calls, on a system with invertible stretches, `TwinTable()` lists
exactly the index pairs of twinnable variants, in lexicographic order, and `getTwinpairs()` holds the pairs of
stretches in the same order. -/
theorem C59_table (eig : Mat3 → EigRes) (us : List Mat3) (hus : ∀ U ∈ us, U.det ≠ 0)
    (arg : Option (Option (List Mat3))) (ops : List TwinOp) :
    ∃ (tt : List (ℕ × ℕ)) (ps : List (Mat3 × Mat3)), (((TwinSys.new us arg).after eig ops).step eig .table).2 = .ok (.table tt) ∧
      (((TwinSys.new us arg).after eig ops).step eig .pairs).2 = .ok (.pairs ps) ∧
      tt.Pairwise LexLt ∧ (∀ i j, (i, j) ∈ tt ↔ i < j ∧ j < us.length ∧ TwinnableAt eig us i j) ∧
      ps.length = tt.length ∧
      ∀ k i j : ℕ, tt[k]? = some (i, j) → ∃ A B, us[i]? = some A ∧ us[j]? = some B ∧ ps[k]? = some (A, B) := by
  have hI := after_inv hus (ok := fun _ _ => True) (fun _ => trivial) (fun _ _ _ _ => trivial) ops
    (fun _ _ _ _ _ => trivial) (new_inv eig us arg _)
  have h1 := step_plain hus (fun _ => trivial) hI (op := .table) (.inl rfl)
  have h2 := step_plain hus (fun _ => trivial) hI (op := .pairs) (.inr (.inl rfl))
  obtain ⟨h3, h4⟩ := answer_spec eig hus
  refine ⟨_, _, h1, h2, h3, h4, by simp, ?_⟩
  intro k i j hk
  obtain ⟨a, b, _⟩ := (h4 i j).1 (List.mem_of_getElem? hk)
  have hi : i < us.length := by omega
  refine ⟨us[i], us[j], by simp [hi], by simp [b], ?_⟩
  rw [List.getElem?_map, hk]
  simp [hi, b]

/-- **C59** (partial), order: the answers of `TwinTable()`, `getTwinpairs()`, `getCompound()` and `getTypeI()` do not
depend on the calls made before. -/
theorem C59_order (eig : Mat3 → EigRes) (us : List Mat3) (hus : ∀ U ∈ us, U.det ≠ 0)
    (arg : Option (Option (List Mat3))) (ops : List TwinOp) (op : TwinOp)
    (ho : op = .table ∨ op = .pairs ∨ op = .compound ∨ op = .typeI) :
    (((TwinSys.new us arg).after eig ops).step eig op).2 = ((TwinSys.new us arg).step eig op).2 := by
  have hI := after_inv hus (ok := fun _ _ => True) (fun _ => trivial) (fun _ _ _ _ => trivial) ops
    (fun _ _ _ _ _ => trivial) (new_inv eig us arg _)
  rw [step_plain hus (fun _ => trivial) hI ho,
    step_plain hus (fun _ => trivial) (new_inv eig us arg fun _ _ => True) ho]

/-- **C59** (partial), order, for all calls: if `isconventional` is only called with the group of the system, no answer
depends on the calls made before.  Missing: calls with other groups (`C59_conventional_fails`). -/
theorem C59_order_partial (eig : Mat3 → EigRes) (us : List Mat3) (hus : ∀ U ∈ us, U.det ≠ 0)
    (arg : Option (Option (List Mat3))) (ops : List TwinOp) (op : TwinOp)
    (ho : ∀ o ∈ op :: ops, ¬ Foreign (TwinSys.new us arg).laue o) :
    (((TwinSys.new us arg).after eig ops).step eig op).2 = ((TwinSys.new us arg).step eig op).2 := by
  have hI := after_inv hus (laue := (TwinSys.new us arg).laue) (ok := ConvOK (TwinSys.new us arg).laue)
    (fun _ => .inl rfl) (fun L hL o h => convOK_step hL rfl o h) ops
    (by
      intro k G hG o h
      have := ho _ (List.mem_cons_of_mem _ hG)
      unfold Foreign at this
      push Not at this
      obtain ⟨L, hL, hG⟩ := this
      exact convOK_step hL hG o h) (new_inv eig us arg _)
  rw [step_answer hus hI (ho op (by simp)), step_answer hus (new_inv eig us arg _) (ho op (by simp))]

/-- **C59**, classification: after any calls, if `getCompound()` and `getTypeI()` return lists, both are increasing and every
position of the table is in exactly one of them, namely in the first iff `iscompound()` is true of its pair. -/
theorem C59_classes (eig : Mat3 → EigRes) (us : List Mat3) (hus : ∀ U ∈ us, U.det ≠ 0)
    (arg : Option (Option (List Mat3))) (ops ops' : List TwinOp) (tt : List (ℕ × ℕ)) (c i : List ℕ)
    (ht : (((TwinSys.new us arg).after eig ops).step eig .table).2 = .ok (.table tt))
    (hc : (((TwinSys.new us arg).after eig ops).step eig .compound).2 = .ok (.indices c))
    (hi : (((TwinSys.new us arg).after eig ops').step eig .typeI).2 = .ok (.indices i)) :
    c.Pairwise (· < ·) ∧ i.Pairwise (· < ·) ∧ (∀ k, k ∈ c ↔ k < tt.length ∧ k ∉ i) ∧
      (∀ k, k ∈ i ↔ k < tt.length ∧ k ∉ c) ∧
      ∀ k x y A B p, tt[k]? = some (x, y) → us[x]? = some A → us[y]? = some B →
        TwinPair.new eig A B true = .ok p → (k ∈ c ↔ p.isCompound = .ok true) := by
  have hI := fun ops => after_inv hus (ok := fun _ _ => True) (fun _ => trivial) (fun _ _ _ _ => trivial) ops
    (fun _ _ _ _ _ => trivial) (new_inv eig us arg _)
  rw [step_plain hus (fun _ => trivial) (hI ops) (.inl rfl)] at ht
  rw [step_plain hus (fun _ => trivial) (hI ops) (.inr (.inr (.inl rfl)))] at hc
  rw [step_plain hus (fun _ => trivial) (hI ops') (.inr (.inr (.inr rfl)))] at hi
  simp only [answer, Except.ok.injEq, TwinVal.table.injEq] at ht
  simp only [answer, ht] at hc hi
  set L : List PairObj := tt.map fun x => ⟨pairAt eig us x, none⟩ with hL
  have hmap : ∀ (r : Except Err (List ℕ)) (l : List ℕ), r.map TwinVal.indices = .ok (.indices l) → r = .ok l := by
    intro r l h
    cases r with
    | error e => simp [Except.map] at h
    | ok x => simp only [Except.map, Except.ok.injEq, TwinVal.indices.injEq] at h; rw [h]
  obtain ⟨okc, rfl⟩ := indicesOf_ok _ _ _ _ (hmap _ _ hc)
  obtain ⟨oki, rfl⟩ := indicesOf_ok _ _ _ _ (hmap _ _ hi)
  have hLp : L.map PairObj.p = tt.map (pairAt eig us) := by rw [hL, List.map_map]; rfl
  have hmemc : ∀ k, k ∈ positions (fun p : TwinPair => match p.isCompound with | .ok b => b | .error _ => false) 0
      (L.map PairObj.p) ↔ ∃ x, tt[k]? = some x ∧ (pairAt eig us x).isCompound = .ok true := by
    intro k
    rw [mem_positions, hLp]
    constructor
    · rintro ⟨a, p, h1, h2, h3⟩
      rw [List.getElem?_map, Option.map_eq_some_iff] at h1
      obtain ⟨x, hx, rfl⟩ := h1
      refine ⟨x, by rw [h3, zero_add]; exact hx, ?_⟩
      revert h2
      cases (pairAt eig us x).isCompound with
      | error e => simp
      | ok b => simp
    · rintro ⟨x, hx, h⟩
      exact ⟨k, pairAt eig us x, by rw [List.getElem?_map, hx]; rfl, by rw [h], by omega⟩
  have hmemi : ∀ k, k ∈ positions (fun p : TwinPair => match p.isTypeI with | .ok b => b | .error _ => false) 0
      (L.map PairObj.p) ↔ ∃ x, tt[k]? = some x ∧ (pairAt eig us x).isCompound = .ok false := by
    intro k
    rw [mem_positions, hLp]
    constructor
    · rintro ⟨a, p, h1, h2, h3⟩
      rw [List.getElem?_map, Option.map_eq_some_iff] at h1
      obtain ⟨x, hx, rfl⟩ := h1
      refine ⟨x, by rw [h3, zero_add]; exact hx, ?_⟩
      revert h2
      unfold TwinPair.isTypeI
      cases (pairAt eig us x).isCompound with
      | error e => simp
      | ok b => cases b <;> simp
    · rintro ⟨x, hx, h⟩
      exact ⟨k, pairAt eig us x, by rw [List.getElem?_map, hx]; rfl, by unfold TwinPair.isTypeI; rw [h]; rfl, by omega⟩
  have hdef : ∀ k, k < tt.length → ∃ x b, tt[k]? = some x ∧ (pairAt eig us x).isCompound = .ok b := by
    intro k hk
    obtain ⟨b, hb⟩ := okc ⟨pairAt eig us tt[k], none⟩ (List.mem_map.2 ⟨tt[k], List.getElem_mem hk, rfl⟩)
    exact ⟨tt[k], b, by simp [hk], hb⟩
  have hlt : ∀ k x, tt[k]? = some x → k < tt.length := fun k x h => (List.getElem?_eq_some_iff.1 h).1
  refine ⟨(positions_sorted _ _ _).1, (positions_sorted _ _ _).1, ?_, ?_, ?_⟩
  · intro k
    rw [hmemc, hmemi]
    constructor
    · rintro ⟨x, hx, h⟩
      refine ⟨hlt k x hx, ?_⟩
      rintro ⟨y, hy, h'⟩
      rw [hx] at hy; cases hy; rw [h] at h'; simp at h'
    · rintro ⟨hk, hn⟩
      obtain ⟨x, b, hx, h⟩ := hdef k hk
      cases b with
      | true => exact ⟨x, hx, h⟩
      | false => exact absurd ⟨x, hx, h⟩ hn
  · intro k
    rw [hmemc, hmemi]
    constructor
    · rintro ⟨x, hx, h⟩
      refine ⟨hlt k x hx, ?_⟩
      rintro ⟨y, hy, h'⟩
      rw [hx] at hy; cases hy; rw [h] at h'; simp at h'
    · rintro ⟨hk, hn⟩
      obtain ⟨x, b, hx, h⟩ := hdef k hk
      cases b with
      | false => exact ⟨x, hx, h⟩
      | true => exact absurd ⟨x, hx, h⟩ hn
  · intro k x y A B p hk hA hB hp
    rw [hmemc]
    have hx : x < us.length := (List.getElem?_eq_some_iff.1 hA).1
    have := new_at eig hus (x := (x, y)) hx
    simp only [List.getD_eq_getElem?_getD, hA, hB, Option.getD_some] at this
    rw [hp] at this
    cases this
    constructor
    · rintro ⟨z, hz, h⟩; rw [hk] at hz; cases hz; exact h
    · intro h; exact ⟨_, hk, h⟩

/-! ### examples -/

theorem ortho_twinnable (eig : Mat3 → EigRes) (heig : ∀ A, Aᵀ = A → EigOK (eig A).vals (eig A).vecs A) :
    (TwinPair.mk orthoA orthoB (sortEig eig (orthoA⁻¹ * orthoB * (orthoB * orthoA⁻¹)))).isTwinnable = true := by
  have hl : SortedEigenvalues (orthoA⁻¹ * orthoB * (orthoB * orthoA⁻¹))
      ![(1 / (1995 / 1000)) ^ 2, (9975 / 10000 / 1) ^ 2, (1995 / 1000 / (9975 / 10000)) ^ 2] := by
    have := relMetric_diagonal (a := 1995 / 1000) (b := 1) (c := 9975 / 10000) (a' := 1)
      (b' := 9975 / 10000) (c' := 1995 / 1000) (by norm_num) (by norm_num) (by norm_num)
    rw [relMetric] at this
    rw [orthoA, orthoB, this]
    exact sorted_diagonal (mono_three (by norm_num) (by norm_num))
  obtain ⟨p, hp, h1, _⟩ := C54_istwinnable_partial eig heig orthoA orthoB orthoA_spd orthoB_spd false _ hl
  rw [new_ok eig orthoA_spd orthoB_spd] at hp
  cases hp
  refine h1.2 ⟨⟨0, 0, ?_⟩, ?_⟩
  · simp only [orthoA, orthoB, diagonal_apply_eq]
    rw [le_abs]
    left
    norm_num
  · show |((9975 : ℝ) / 10000 / 1) ^ 2 - 1| < 5 / 10 ^ 3
    rw [abs_lt]
    norm_num

theorem ortho_det : ∀ U ∈ [orthoA, orthoB], U.det ≠ 0 := by
  intro U hU
  simp only [List.mem_cons, List.not_mem_nil, or_false] at hU
  rcases hU with rfl | rfl
  · exact (spd_det_pos orthoA_spd).ne'
  · exact (spd_det_pos orthoB_spd).ne'

theorem ortho_table (eig : Mat3 → EigRes) (heig : ∀ A, Aᵀ = A → EigOK (eig A).vals (eig A).vecs A) :
    theTable eig [orthoA, orthoB] = [(0, 1)] := by
  have h : (pairAt eig [orthoA, orthoB] (0, 1)).isTwinnable = true := ortho_twinnable eig heig
  have e : indexPairs [orthoA, orthoB].length = [(0, 1)] := by decide
  unfold theTable
  rw [e]
  simp [h]

theorem ortho_close {R : Matrix (Fin 3) (Fin 3) ℤ}
    (h : maxClose (toR R * orthoA * (toR R)ᵀ) orthoB) :
    R * !![19950, 0, 0; 0, 10000, 0; 0, 0, 9975] * Rᵀ = !![10000, 0, 0; 0, 9975, 0; 0, 0, 19950] := by
  have eA : orthoA = (1 / 10000 : ℝ) • toR !![19950, 0, 0; 0, 10000, 0; 0, 0, 9975] := by
    rw [orthoA, diagonal_lit]
    ext i j
    fin_cases i <;> fin_cases j <;> simp [toR] <;> norm_num
  have eB : orthoB = (1 / 10000 : ℝ) • toR !![10000, 0, 0; 0, 9975, 0; 0, 0, 19950] := by
    rw [orthoB, diagonal_lit]
    ext i j
    fin_cases i <;> fin_cases j <;> simp [toR] <;> norm_num
  rw [eA, eB, Matrix.mul_smul, Matrix.smul_mul, ← toR_transpose, ← toR_mul, ← toR_mul] at h
  ext i j
  have h1 := h i j
  simp only [toR, Matrix.map_apply, Matrix.smul_apply, smul_eq_mul, small] at h1
  rw [← mul_sub, abs_mul, abs_of_pos (by norm_num : (0 : ℝ) < 1 / 10000)] at h1
  set x := (R * (!![19950, 0, 0; 0, 10000, 0; 0, 0, 9975] : Matrix (Fin 3) (Fin 3) ℤ) * Rᵀ) i j
  set y := (!![10000, 0, 0; 0, 9975, 0; 0, 0, 19950] : Matrix (Fin 3) (Fin 3) ℤ) i j
  have h2 : |((x - y : ℤ) : ℝ)| < 1 := by
    push_cast
    by_contra hc
    push Not at hc
    norm_num at h1
    linarith
  have h3 : |x - y| < 1 := by exact_mod_cast h2
  rw [Int.abs_lt_one_iff] at h3
  omega

-- two variants: the table is not empty
example (eig : Mat3 → EigRes) (heig : ∀ A, Aᵀ = A → EigOK (eig A).vals (eig A).vecs A) (ops : List TwinOp) :
    (((TwinSys.new [orthoA, orthoB] none).after eig ops).step eig .table).2 = .ok (.table [(0, 1)]) := by
  rw [C59_order eig _ ortho_det none ops .table (.inl rfl),
    step_plain ortho_det (fun _ => trivial) (new_inv eig _ none fun _ _ => True) (.inl rfl), answer,
    ortho_table eig heig]

/-- **C59**, the cache of `isconventional`: for a system of two variants related by a threefold rotation
`getConventional()` returns `[0]`; but after a call of `isconventional()` without argument on the pair, which
only looks at the twofold rotations and stores its answer, `getConventional()` returns an empty list. -/
theorem C59_conventional_fails (eig : Mat3 → EigRes)
    (heig : ∀ A, Aᵀ = A → EigOK (eig A).vals (eig A).vecs A) :
    ∃ us : List Mat3, (∀ U ∈ us, IsSPD U) ∧
      ((TwinSys.new us none).step eig .conventional).2 = .ok (.indices [0]) ∧
      (((TwinSys.new us none).after eig [.pairConventional 0 none]).step eig .conventional).2 =
        .ok (.indices []) := by
  classical
  have ht := ortho_table eig heig
  have hf := fillTable_all eig ortho_det
  rw [ht] at hf
  have htw : (pairAt eig [orthoA, orthoB] (0, 1)).isTwinnable = true := ortho_twinnable eig heig
  have hyes : (pairAt eig [orthoA, orthoB] (0, 1)).related cubicR = true := by
    unfold TwinPair.related
    rw [List.any_eq_true]
    refine ⟨toR !![0, 1, 0; 0, 0, 1; 1, 0, 0], List.mem_map_of_mem (by unfold cubicLaue; decide +kernel), ?_⟩
    rw [decide_eq_true_iff]
    have : toR !![0, 1, 0; 0, 0, 1; 1, 0, 0] * orthoA * (toR !![0, 1, 0; 0, 0, 1; 1, 0, 0])ᵀ = orthoB := by
      rw [orthoA, orthoB, diagonal_lit, diagonal_lit]
      ext i j
      fin_cases i <;> fin_cases j <;> simp [toR, Matrix.mul_apply, Fin.sum_univ_three]
    intro i j
    show |(toR !![0, 1, 0; 0, 0, 1; 1, 0, 0] * orthoA * (toR !![0, 1, 0; 0, 0, 1; 1, 0, 0])ᵀ) i j - orthoB i j| < small
    rw [this, sub_self, abs_zero]
    exact small_pos
  have hno : (pairAt eig [orthoA, orthoB] (0, 1)).related (convGroup none) = false := by
    unfold TwinPair.related convGroup
    rw [Bool.eq_false_iff]
    intro h
    rw [List.any_eq_true] at h
    obtain ⟨Q, hQ, hc⟩ := h
    rw [decide_eq_true_iff] at hc
    rw [cubicR, ← List.map_take, ← List.map_drop] at hQ
    obtain ⟨R, hR, rfl⟩ := List.mem_map.1 hQ
    have hall : ∀ R ∈ (cubicLaue.take 10).drop 1,
        R * !![19950, 0, 0; 0, 10000, 0; 0, 0, 9975] * Rᵀ ≠ !![10000, 0, 0; 0, 9975, 0; 0, 0, 19950] := by
      unfold cubicLaue; decide +kernel
    exact hall R hR (ortho_close hc)
  refine ⟨[orthoA, orthoB], ?_, ?_, ?_⟩
  · intro U hU
    simp only [List.mem_cons, List.not_mem_nil, or_false] at hU
    rcases hU with rfl | rfl
    · exact orthoA_spd
    · exact orthoB_spd
  · rw [step_answer ortho_det (new_inv eig _ none _) (by simp [Foreign])]
    simp only [answer, ht, TwinSys.new, List.map_cons, List.map_nil, positions, hyes, if_true]
  · simp only [TwinSys.after, List.foldl_cons, List.foldl_nil, TwinSys.step, TwinSys.getPairs, TwinSys.new,
      TwinSys.twinTable, hf, List.map_cons, List.map_nil, List.getElem?_cons_zero, PairObj.isConventional, htw,
      hno, TwinSys.getConventional, List.set_cons_zero, convLoop, wrap]
    simp

/-- **C59**, a singular stretch: the first call of `TwinTable()` raises, the second returns a table. -/
theorem C59_singular_fails (eig : Mat3 → EigRes) :
    ∃ us : List Mat3, ((TwinSys.new us none).step eig .table).2 = .error .linAlgError ∧
      ∃ tt, (((TwinSys.new us none).after eig [.table]).step eig .table).2 = .ok (.table tt) := by
  have hn : TwinPair.new eig 0 1 true = .error .linAlgError := by
    unfold TwinPair.new
    rw [if_neg (by simp), if_pos (by simp)]
  have hf : fillTable eig [0, 1] (indexPairs 2) [] [] = ([], [], some .linAlgError) := by
    have e : indexPairs 2 = [(0, 1)] := by decide
    rw [e, fillTable]
    simp only [List.getD_cons_zero, List.getD_cons_succ, hn]
  refine ⟨[0, 1], ?_, [], ?_⟩
  · simp only [TwinSys.step, TwinSys.twinTable, TwinSys.new, List.length_cons, List.length_nil, zero_add,
      Nat.reduceAdd, hf, wrap]
  · simp only [TwinSys.after, List.foldl_cons, List.foldl_nil, TwinSys.step, TwinSys.twinTable, TwinSys.new,
      List.length_cons, List.length_nil, zero_add, Nat.reduceAdd, hf, wrap]

end Verif.Props
