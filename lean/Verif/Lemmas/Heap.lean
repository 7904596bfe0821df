import Verif.Spec.Heap
import Mathlib.Tactic

namespace Verif.Heap

variable {V : Type}

/-- The references an object holds. -/
def fields : Obj → List Ref
  | .lattice E l => E :: l.toList
  | .bravais E p C => [E, p, C]
  | .group m => [m]
  | .mart U l u => U.toList ++ l :: u.toList
  | .twins u => [u]
  | .pair r r' => [r, r']

/-- Everything the accessors of an object can show. -/
def obs (c : Comp V) (h : Mem V) : Obj → List (Except Err (List V))
  | .lattice E none => [.ok (read h E), .ok (c.laue (read h E))]
  | .lattice E (some l) => [.ok (read h E), .ok (read h l)]
  | .bravais E p C => [.ok (read h E), .ok (read h p), .ok (read h C)]
  | .group m => [.ok (read h m)]
  | .mart none l (some u) => [.error .attributeError, .ok (read h l), .ok (read h u)]
  | .mart none l none => [.error .attributeError, .ok (read h l), .error .attributeError]
  | .mart (some U) l none => [.ok (read h U), .ok (read h l), c.variants (read h U) (read h l)]
  | .mart (some U) l (some u) => [.ok (read h U), .ok (read h l), .ok (read h u)]
  | .twins u => [.ok (read h u)]
  | .pair r r' => [.ok (read h r), .ok (read h r')]

/-- Which class an object is of. -/
def kind : Obj → ℕ
  | .lattice .. => 0
  | .bravais .. => 1
  | .group .. => 2
  | .mart .. => 3
  | .twins .. => 4
  | .pair .. => 5

/-- The variants of a Martensite object are a whole array, not a view. -/
def Whole : Obj → Prop
  | .mart _ _ (some r) => r.item = none
  | _ => True

def WF (s : State V) : Prop :=
  (∀ b ∈ s.objs, ∀ r ∈ fields b, r.addr < s.next) ∧ ∀ b ∈ s.objs, Whole b

theorem read_congr {h h' : Mem V} {r : Ref} (e : h' r.addr = h r.addr) : read h' r = read h r := by
  unfold read; rw [e]

theorem obs_congr (c : Comp V) {h h' : Mem V} {b : Obj}
    (e : ∀ r ∈ fields b, h' r.addr = h r.addr) : obs c h' b = obs c h b := by
  have hr : ∀ r ∈ fields b, read h' r = read h r := fun r hr => read_congr (e r hr)
  rcases b with ⟨E, _ | l⟩ | ⟨E, p, C⟩ | m | ⟨_ | U, l, _ | u⟩ | u | ⟨r, r'⟩ <;>
    simp [obs, fields] at hr ⊢ <;> simp [hr]

/-- `s'` comes from `s` without touching any buffer of `s`. -/
structure Grows (c : Comp V) (s s' : State V) : Prop where
  next : s.next ≤ s'.next
  mem : ∀ a < s.next, s'.mem a = s.mem a
  objs : ∀ (o : ℕ) (b : Obj), s.objs[o]? = some b → ∃ b' : Obj, s'.objs[o]? = some b' ∧ kind b' = kind b ∧
    (∀ r ∈ fields b', r ∈ fields b ∨ (s.next ≤ r.addr ∧ r.addr < s'.next)) ∧
    obs c s'.mem b' = obs c s.mem b
  wf : WF s'

theorem wf_get {s : State V} (w : WF s) {o : ℕ} {b : Obj} (h : s.objs[o]? = some b) :
    ∀ r ∈ fields b, r.addr < s.next :=
  w.1 b (List.mem_of_getElem? h)

theorem Grows.refl (c : Comp V) {s : State V} (w : WF s) : Grows c s s :=
  ⟨le_refl _, fun _ _ => rfl, fun _ b h => ⟨b, h, rfl, fun _ hr => Or.inl hr, rfl⟩, w⟩

theorem Grows.trans {c : Comp V} {s s₁ s₂ : State V} (g : Grows c s s₁) (g' : Grows c s₁ s₂) :
    Grows c s s₂ := by
  refine ⟨g.next.trans g'.next, fun a ha => ?_, fun o b h => ?_, g'.wf⟩
  · rw [g'.mem a (lt_of_lt_of_le ha g.next), g.mem a ha]
  · obtain ⟨b₁, h₁, k₁, f₁, o₁⟩ := g.objs o b h
    obtain ⟨b₂, h₂, k₂, f₂, o₂⟩ := g'.objs o b₁ h₁
    refine ⟨b₂, h₂, k₂.trans k₁, fun r hr => ?_, o₂.trans o₁⟩
    rcases f₂ r hr with h | h
    · rcases f₁ r h with h | h
      · exact Or.inl h
      · exact Or.inr ⟨h.1, lt_of_lt_of_le h.2 g'.next⟩
    · exact Or.inr ⟨g.next.trans h.1, h.2⟩

theorem grows_alloc (c : Comp V) {s : State V} (w : WF s) (v : List V) :
    Grows c s (alloc s v).1 := by
  refine ⟨Nat.le_succ _, fun a ha => ?_, fun o b h => ?_, fun b hb r hr => ?_, w.2⟩
  · simp [alloc, Function.update_of_ne (ne_of_lt ha)]
  · refine ⟨b, h, rfl, fun r hr => Or.inl hr, obs_congr c fun r hr => ?_⟩
    have := wf_get w h r hr
    simp [alloc, Function.update_of_ne (ne_of_lt this)]
  · exact Nat.lt_succ_of_lt (w.1 b hb r hr)

theorem grows_push (c : Comp V) {s : State V} (w : WF s) (b : Obj)
    (hb : ∀ r ∈ fields b, r.addr < s.next) (hw : Whole b := by trivial) :
    Grows c s (push s b).1 := by
  refine ⟨le_refl _, fun a ha => rfl, fun o b' h => ?_, fun b' hb' r hr => ?_, fun b' hb' => ?_⟩
  · refine ⟨b', ?_, rfl, fun r hr => Or.inl hr, rfl⟩
    have : o < s.objs.length := by
      by_contra hc
      rw [List.getElem?_eq_none (by omega)] at h
      cases h
    simp only [push]
    rw [List.getElem?_append_left this, h]
  · simp only [push, List.mem_append, List.mem_singleton] at hb'
    rcases hb' with h | rfl
    · exact w.1 b' h r hr
    · exact hb r hr
  · simp only [push, List.mem_append, List.mem_singleton] at hb'
    rcases hb' with h | rfl
    · exact w.2 b' h
    · exact hw

/-- Storing a lazily computed result. -/
theorem grows_set (c : Comp V) {s : State V} (w : WF s) {o : ℕ} {b b' : Obj}
    (h : s.objs[o]? = some b) (hk : kind b' = kind b) (v : List V)
    (hf : ∀ r ∈ fields b', r ∈ fields b ∨ r = (alloc s v).2)
    (ho : obs c (alloc s v).1.mem b' = obs c (alloc s v).1.mem b) (hw : Whole b') :
    Grows c s { (alloc s v).1 with objs := (alloc s v).1.objs.set o b' } := by
  have g := grows_alloc c w v
  refine ⟨g.next, g.mem, fun p q hq => ?_, fun q hq r hr => ?_, fun q hq => ?_⟩
  · obtain ⟨q', h₁, k₁, f₁, o₁⟩ := g.objs p q hq
    by_cases e : p = o
    · subst e
      have : q = b := by rw [h] at hq; exact (Option.some.inj hq).symm
      subst this
      have hq' : q' = q := by
        have : (alloc s v).1.objs[p]? = some q := hq
        rw [this] at h₁; exact (Option.some.inj h₁).symm
      subst hq'
      refine ⟨b', ?_, hk, fun r hr => ?_, ho.trans o₁⟩
      · simp only [List.getElem?_set]
        have : p < (alloc s v).1.objs.length := by
          by_contra hc
          rw [List.getElem?_eq_none (by omega)] at h₁
          cases h₁
        simp [this]
      · rcases hf r hr with h | rfl
        · exact Or.inl h
        · exact Or.inr ⟨le_refl _, Nat.lt_succ_self _⟩
    · refine ⟨q', ?_, k₁, f₁, o₁⟩
      simp only [List.getElem?_set]
      rw [if_neg (fun h => e h.symm)]
      exact h₁
  · have := List.mem_or_eq_of_mem_set hq
    rcases this with h' | rfl
    · exact g.wf.1 q h' r hr
    · rcases hf r hr with h' | rfl
      · exact lt_of_lt_of_le (wf_get w h r h') g.next
      · exact Nat.lt_succ_self _
  · rcases List.mem_or_eq_of_mem_set hq with h' | rfl
    · exact g.wf.2 q h'
    · exact hw

theorem read_alloc (s : State V) (v : List V) : read (alloc s v).1.mem (alloc s v).2 = v := by
  simp [read, alloc]

theorem grows_variants (c : Comp V) {s : State V} (w : WF s) (o : ℕ) :
    Grows c s (variantsOf c s o).1 ∧
    ∀ r, (variantsOf c s o).2 = .ok r → r.addr < (variantsOf c s o).1.next ∧
      ∃ U l, (variantsOf c s o).1.objs[o]? = some (.mart U l (some r)) := by
  unfold variantsOf
  rcases hb : s.objs[o]? with _ | b
  · exact ⟨Grows.refl c w, fun r hr => by cases hr⟩
  · have wb := wf_get w hb
    have T : ∀ e : Err, Grows c s s ∧ ∀ r, (Except.error e : Except Err Ref) = .ok r →
        r.addr < s.next ∧ ∃ U l, s.objs[o]? = some (.mart U l (some r)) :=
      fun e => ⟨Grows.refl c w, fun r hr => by cases hr⟩
    rcases b with _ | _ | _ | ⟨_ | U, l, _ | u⟩ | _ | _ <;>
      first
        | exact T .attributeError
        | skip
    · refine ⟨Grows.refl c w, fun r hr => ?_⟩
      simp only [Except.ok.injEq] at hr
      subst hr
      exact ⟨wb u (by simp [fields]), _, _, hb⟩
    · simp only
      rcases hv : c.variants (read s.mem U) (read s.mem l) with e | L
      · exact ⟨Grows.refl c w, fun r hr => by cases hr⟩
      · have hU := wb U (by simp [fields])
        have hl := wb l (by simp [fields])
        constructor
        · refine grows_set (b' := .mart (some U) l (some (alloc s L).2)) c w hb rfl L (fun r hr => ?_) ?_ rfl
          · simp [fields] at hr ⊢
            tauto
          · have e : ∀ r : Ref, r.addr < s.next →
                read (alloc s L).1.mem r = read s.mem r := fun r hr =>
              read_congr (by simp [alloc, Function.update_of_ne (ne_of_lt hr)])
            simp only [obs, e U hU, e l hl, hv, read_alloc]
        · intro r hr
          simp only [Except.ok.injEq] at hr
          subst hr
          refine ⟨Nat.lt_succ_self _, some U, l, ?_⟩
          have : o < s.objs.length := by
            by_contra hc
            rw [List.getElem?_eq_none (by omega)] at hb
            cases hb
          simp [alloc, this]
    · refine ⟨Grows.refl c w, fun r hr => ?_⟩
      simp only [Except.ok.injEq] at hr
      subst hr
      exact ⟨wb u (by simp [fields]), _, _, hb⟩

theorem grows_copy (c : Comp V) {s : State V} (w : WF s) (r : Ref) :
    Grows c s (copyOf s r).1 := grows_alloc c w _

/-- Every call except an assignment leaves the existing buffers alone. -/
theorem grows_step (c : Comp V) {s : State V} (w : WF s) (a : Call V)
    (ha : ∀ r v, a ≠ .write r v) : Grows c s (step c s a).1 := by
  have R := Grows.refl c w
  cases a with
  | array v => exact grows_alloc c w v
  | lattice r =>
    simp only [step]; split_ifs with h
    · exact grows_push c w _ (by simpa [fields] using h)
    · exact R
  | latticeList v =>
    have g := grows_alloc c w [v]
    exact g.trans (grows_push c g.wf _ (by simp [fields, alloc]))
  | bravais p =>
    simp only [step]; split_ifs with h
    · have g := grows_alloc c w (c.prim (read s.mem p))
      have g' := grows_alloc c g.wf (c.conv (read s.mem p))
      refine (g.trans g').trans (grows_push c g'.wf _ ?_)
      simp [fields, alloc]; omega
    · exact R
  | group r =>
    simp only [step]; split_ifs with h
    · exact grows_push c w _ (by simpa [fields] using h)
    · exact R
  | mart r g =>
    simp only [step]; split_ifs with h
    · rcases hb : s.objs[g]? with _ | b
      · exact R
      · have wb := wf_get w hb
        cases b <;> try exact R
        refine grows_push c w _ ?_
        simp [fields] at wb ⊢; omega
    · exact R
  | setU o r =>
    simp only [step]; split_ifs with h
    · rcases hb : s.objs[o]? with _ | b
      · exact R
      · have wb := wf_get w hb
        cases b <;> try exact R
        have g := grows_alloc c w (read s.mem r)
        refine g.trans (grows_push c g.wf _ ?_)
        simp [fields, alloc] at wb ⊢
        have := wb _ (Or.inr (Or.inl rfl))
        omega
    · exact R
  | setLaue o g =>
    simp only [step]
    rcases hb : s.objs[o]? with _ | b
    · exact R
    rcases hb' : s.objs[g]? with _ | b'
    · cases b <;> exact R
    · have wb := wf_get w hb
      have wb' := wf_get w hb'
      cases b <;> try exact R
      cases b' <;> try exact R
      refine grows_push c w _ ?_
      simp only [fields, List.mem_append, List.mem_cons, List.mem_singleton, Option.toList_none,
        List.not_mem_nil, or_false] at wb wb' ⊢
      rintro r (hr | rfl)
      · exact wb r (Or.inl hr)
      · exact wb' _ rfl
  | twins o =>
    simp only [step]
    have ⟨g, f⟩ := grows_variants c w o
    rcases hv : variantsOf c s o with ⟨s', e | r⟩
    · rw [hv] at g; exact g
    · rw [hv] at g f
      exact g.trans (grows_push c g.wf _ (by simpa [fields] using (f r rfl).1))
  | twinsOf r =>
    simp only [step]; split_ifs with h
    · have g := grows_alloc c w (read s.mem r)
      exact g.trans (grows_push c g.wf _ (by simp [fields, alloc]))
    · exact R
  | pairOf o i j =>
    simp only [step]
    rcases hb : s.objs[o]? with _ | b
    · exact R
    · have wb := wf_get w hb
      cases b <;> try exact R
      refine grows_push c w _ ?_
      simpa [fields] using wb
  | pair r r' =>
    simp only [step]; split_ifs with h
    · exact grows_push c w _ (by simpa [fields] using h)
    · exact R
  | base o =>
    simp only [step]
    rcases hb : s.objs[o]? with _ | b
    · exact R
    · cases b <;> first | exact R | exact grows_copy c w _
  | laueGroup o =>
    simp only [step]
    rcases hb : s.objs[o]? with _ | b
    · exact R
    · have wb := wf_get w hb
      rcases b with ⟨E, _ | l⟩ | _ | _ | _ | _ | _ <;> try exact R
      · simp only
        have hE := wb E (by simp [fields])
        have g : Grows c s { (alloc s (c.laue (read s.mem E))).1 with
            objs := (alloc s (c.laue (read s.mem E))).1.objs.set o
              (.lattice E (some (alloc s (c.laue (read s.mem E))).2)) } := by
          refine grows_set (b' := .lattice E (some (alloc s (c.laue (read s.mem E))).2)) c w hb rfl _
            (fun r hr => ?_) ?_ trivial
          · simpa [fields] using hr
          · have e : read (alloc s (c.laue (read s.mem E))).1.mem E = read s.mem E :=
              read_congr (by simp [alloc, Function.update_of_ne (ne_of_lt hE)])
            simp only [obs, e, read_alloc]
        exact g.trans (grows_push c g.wf _ (by simp [fields, alloc]))
      · exact grows_push c w _ (by simpa [fields] using wb l (by simp [fields]))
  | matrices o =>
    simp only [step]
    rcases hb : s.objs[o]? with _ | b
    · exact R
    · cases b <;> first | exact R | exact grows_copy c w _
  | getU o =>
    simp only [step]
    rcases hb : s.objs[o]? with _ | b
    · exact R
    · rcases b with _ | _ | _ | ⟨_ | U, l, u⟩ | _ | _ <;> first | exact R | exact grows_copy c w _
  | getvariants o =>
    simp only [step]
    have ⟨g, f⟩ := grows_variants c w o
    rcases hv : variantsOf c s o with ⟨s', e | r⟩ <;> rw [hv] at g <;> exact g
  | getvariant o n =>
    simp only [step]
    have ⟨g, f⟩ := grows_variants c w o
    rcases hv : variantsOf c s o with ⟨s', e | r⟩ <;> rw [hv] at g <;> exact g
  | Ulist o =>
    simp only [step]
    rcases hb : s.objs[o]? with _ | b
    · exact R
    · cases b <;> first | exact R | exact grows_copy c w _
  | Ui o =>
    simp only [step]
    rcases hb : s.objs[o]? with _ | b
    · exact R
    · cases b <;> first | exact R | exact grows_copy c w _
  | Uj o =>
    simp only [step]
    rcases hb : s.objs[o]? with _ | b
    · exact R
    · cases b <;> first | exact R | exact grows_copy c w _
  | latParam o =>
    simp only [step]
    rcases hb : s.objs[o]? with _ | b
    · exact R
    · cases b <;> exact R
  | convTrans o =>
    simp only [step]
    rcases hb : s.objs[o]? with _ | b
    · exact R
    · cases b <;> exact R
  | write r v => exact absurd rfl (ha r v)

theorem wf_step (c : Comp V) {s : State V} (w : WF s) (a : Call V) : WF (step c s a).1 := by
  by_cases ha : ∃ r v, a = .write r v
  · obtain ⟨r, v, rfl⟩ := ha
    exact w
  · exact (grows_step c w a (fun r v h => ha ⟨r, v, h⟩)).wf

theorem wf_run (c : Comp V) (l : List (Call V)) : ∀ {s : State V}, WF s → WF (run c s l) := by
  induction l with
  | nil => exact fun w => w
  | cons a l ih => exact fun w => ih (wf_step c w a)

theorem wf_init : WF (State.init : State V) := by
  constructor <;> intro b hb <;> simp [State.init] at hb

/-- Every array a copying accessor returns is new. -/
theorem handed_fresh (c : Comp V) (s : State V) (a : Call V) :
    ∀ x ∈ handed a (step c s a).2, x = s.next ∧ s.next < (step c s a).1.next := by
  intro x hx
  unfold handed at hx
  split_ifs at hx with h
  · cases a <;> simp only [CopyAccessor] at h <;> simp only [step] at hx ⊢
    all_goals
      rename_i o
      rcases hb : s.objs[o]? with _ | b
      · simp [hb] at hx
      · rcases b with _ | _ | _ | ⟨_ | U, l, u⟩ | _ | _ <;>
          simp [hb, copyOf, alloc] at hx ⊢ <;> exact hx
  · simp at hx

/-- Which entry of `obs` an accessor shows. -/
def pick (a : Call V) (k : ℕ) (l : List (Except Err (List V))) : Except Err (List V) :=
  match a, k with
  | .base _, 0 | .base _, 1 | .matrices _, 2 | .getU _, 3 | .Ulist _, 4 | .Ui _, 5 =>
    l[0]?.getD (.error .typeError)
  | .laueGroup _, 0 | .latParam _, 1 | .Uj _, 5 => l[1]?.getD (.error .typeError)
  | .convTrans _, 1 | .getvariants _, 3 => l[2]?.getD (.error .typeError)
  | .getvariant _ n, 3 =>
    match l[2]?.getD (.error .typeError) with
    | .ok L => .ok (L[n - 1]?).toList
    | .error e => .error e
  | _, _ => .error .attributeError

theorem read_item (h : Mem V) (a i : ℕ) : read h ⟨a, some i⟩ = ((h a)[i]?).toList := rfl

/-- What the accessors of an object show is in `obs`. -/
theorem shown_pick (c : Comp V) {s : State V} {a : Call V} {o : ℕ}
    (ha : accessorOf a = some o) {b : Obj} (h : s.objs[o]? = some b)
    (hw : Whole b) :
    shown c s a = pick a (kind b) (obs c s.mem b) := by
  have hlt : o < s.objs.length := by
    by_contra hc
    rw [List.getElem?_eq_none (by omega)] at h
    cases h
  cases a <;> simp only [accessorOf, Option.some.injEq, reduceCtorEq] at ha
  all_goals subst ha
  case getvariant n =>
    rcases b with _ | _ | _ | ⟨_ | U, l, _ | u⟩ | _ | _ <;>
      simp only [shown, step, variantsOf, h, kind, pick, obs]
    · rfl
    · have : u.item = none := hw
      simp [read, this]
    · rcases hv : c.variants (read s.mem U) (read s.mem l) with e | L
      · simp
      · simp [read, alloc]
    · have : u.item = none := hw
      simp [read, this]
  case getvariants =>
    rcases b with _ | _ | _ | ⟨_ | U, l, _ | u⟩ | _ | _ <;>
      simp only [shown, step, variantsOf, h, kind, pick, obs]
    · rfl
    · rfl
    · rcases hv : c.variants (read s.mem U) (read s.mem l) with e | L
      · simp
      · simp [read, alloc]
    · rfl
  case laueGroup =>
    rcases b with ⟨E, _ | l⟩ | _ | _ | ⟨_ | U, l, _ | u⟩ | _ | _ <;>
      simp [shown, step, h, kind, pick, obs, push, alloc, read]
  all_goals
    rcases b with ⟨E, _ | l⟩ | _ | _ | ⟨_ | U, l, _ | u⟩ | _ | _ <;>
      simp [shown, step, h, kind, pick, obs, copyOf, alloc, read]

/-- A copying accessor changes no object. -/
theorem copy_objs (c : Comp V) (s : State V) (a : Call V) (h : CopyAccessor a) :
    (step c s a).1.objs = s.objs := by
  cases a <;> simp only [CopyAccessor] at h <;> simp only [step]
  all_goals
    rename_i o
    rcases hb : s.objs[o]? with _ | b
    · rfl
    · rcases b with _ | _ | _ | ⟨_ | U, l, u⟩ | _ | _ <;> rfl

/-- An object whose buffers are not among `H` keeps all its answers, as long as only `H` and later
copies are written. -/
theorem stable (c : Comp V) (l : List (Call V)) : ∀ {s : State V} (_ : WF s) {o : ℕ} {b : Obj}
    (_ : s.objs[o]? = some b) (H : List ℕ) (_ : ∀ x ∈ H, x < s.next)
    (_ : ∀ r ∈ fields b, r.addr ∉ H) (_ : OnlyCopiesWritten c s H l),
    ∃ b', (run c s l).objs[o]? = some b' ∧ kind b' = kind b ∧
      obs c (run c s l).mem b' = obs c s.mem b := by
  induction l with
  | nil => intro s w o b h H hH hd ok; exact ⟨b, h, rfl, rfl⟩
  | cons a l ih =>
    intro s w o b h H hH hd ok
    obtain ⟨ok₁, ok₂⟩ := ok
    by_cases ha : ∃ r v, a = .write r v
    · obtain ⟨r, v, rfl⟩ := ha
      simp only at ok₁
      have hh : handed (Call.write r v) (step c s (.write r v)).2 = [] := by
        simp [handed, CopyAccessor]
      rw [hh, List.append_nil] at ok₂
      obtain ⟨b', h₁, k₁, o₁⟩ := ih (s := (step c s (.write r v)).1) w h H hH hd ok₂
      refine ⟨b', h₁, k₁, o₁.trans (obs_congr c fun q hq => ?_)⟩
      have : q.addr ≠ r.addr := fun e => hd q hq (e ▸ ok₁)
      simp [step, write, Function.update_of_ne this]
    · have g := grows_step c w a (fun r v e => ha ⟨r, v, e⟩)
      have hf := handed_fresh c s a
      obtain ⟨b₁, h₁, k₁, f₁, o₁⟩ := g.objs o b h
      obtain ⟨b', h₂, k₂, o₂⟩ := ih g.wf h₁ (H ++ handed a (step c s a).2)
        (by
          intro x hx
          rcases List.mem_append.1 hx with hx | hx
          · exact lt_of_lt_of_le (hH x hx) g.next
          · obtain ⟨e, e'⟩ := hf x hx
            omega)
        (by
          intro r hr hx
          rcases f₁ r hr with hr' | ⟨hr', hr''⟩
          · rcases List.mem_append.1 hx with hx | hx
            · exact hd r hr' hx
            · have := wf_get w h r hr'
              have := (hf _ hx).1
              omega
          · rcases List.mem_append.1 hx with hx | hx
            · have := hH _ hx
              omega
            · have hc : CopyAccessor a := by
                by_contra hc
                simp [handed, hc] at hx
              rw [copy_objs c s a hc, h] at h₁
              obtain rfl := Option.some.inj h₁
              have := wf_get w h r hr
              omega)
        ok₂
      exact ⟨b', h₂, k₂.trans k₁, o₂.trans o₁⟩

end Verif.Heap
