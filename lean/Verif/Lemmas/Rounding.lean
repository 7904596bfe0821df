import Verif.Lemmas.Direct

/-!
# The direct search with inexact distances

The computed distance `dist` need not be the same for equivalent correspondences.  All that is used is a
bound `up` for it that is.
-/

namespace Verif.Lemmas

open Matrix Verif.Model Verif.Spec

section generic

variable {α D : Type} [DecidableEq α] [LinearOrder D]

/-- `eq` are the classes of an equivalence relation that respects `adm` and the bound `up` of `dist`. -/
structure Bounds (eq : α → Finset α) (dist up : α → D) (adm : α → Prop) : Prop where
  self_mem : ∀ c, c ∈ eq c
  eq_of_mem : ∀ {c x}, x ∈ eq c → eq x = eq c
  up_eq : ∀ {c x}, x ∈ eq c → up x = up c
  adm_iff : ∀ {c x}, x ∈ eq c → (adm x ↔ adm c)
  le_up : ∀ c, dist c ≤ up c

/-- What the list `sols` says about the candidates `seen`. -/
structure RInv (eq : α → Finset α) (dist up : α → D) (adm : α → Prop) (n : ℕ)
    (seen : List α) (sols : List (Sol α D)) : Prop where
  sorted : sols.Pairwise (fun a b => a.d ≤ b.d)
  diff : sols.Pairwise (fun a b => eq a.l ≠ eq b.l)
  short : truncN Sol.d n sols = sols
  sound : ∀ s ∈ sols, s.l ∈ seen ∧ adm s.l ∧ s.d = dist s.l
  kept : ∀ c ∈ seen, adm c → (∃ s ∈ sols, c ∈ eq s.l) ∨ (n ≤ sols.length ∧ ∀ s ∈ sols, s.d < up c)

variable {eq : α → Finset α} {dist up : α → D} {adm : α → Prop} [DecidablePred adm] {n : ℕ}

omit [DecidableEq α] [DecidablePred adm] in
theorem RInv.nil : RInv eq dist up adm n [] ([] : List (Sol α D)) :=
  ⟨by simp, by simp, by simp [truncN], by simp, by simp⟩

omit [DecidableEq α] in
theorem truncN_idem (hn : 1 ≤ n) (l : List (Sol α D)) (hl : l.Pairwise (fun a b => a.d ≤ b.d)) :
    truncN Sol.d n (truncN Sol.d n l) = truncN Sol.d n l := by
  by_cases h : n < l.length
  · have h' : n - 1 < l.length := by omega
    have e : truncN Sol.d n l = l.filter (fun x => decide (x.d ≤ (l[n - 1]).d)) := by
      unfold truncN
      rw [if_pos h, List.getElem?_eq_getElem h']
    set m := truncN Sol.d n l with hm
    have hlen : n ≤ m.length := truncN_length Sol.d hn l hl h.le
    have hms : m.Pairwise (fun a b => a.d ≤ b.d) := hl.sublist (truncN_sublist Sol.d n l)
    unfold truncN
    split_ifs with h1
    · have h2 : n - 1 < m.length := by omega
      rw [List.getElem?_eq_getElem h2]
      simp only
      rw [List.filter_eq_self]
      intro x hx
      simp only [decide_eq_true_eq]
      -- the `n`-th entry of the truncated list is at least that of the list
      have hsub := truncN_sublist Sol.d n l
      rw [← hm] at hsub
      have hxl : x.d ≤ (l[n - 1]).d := by
        rw [e] at hx
        simpa using (List.mem_filter.mp hx).2
      refine hxl.trans ?_
      obtain ⟨f, hf⟩ := List.sublist_iff_exists_orderEmbedding_getElem?_eq.mp hsub
      have h3 := hf (n - 1)
      rw [List.getElem?_eq_getElem h2] at h3
      have h4 : f (n - 1) < l.length := by
        by_contra hge
        rw [List.getElem?_eq_none (not_lt.mp hge)] at h3
        simp at h3
      rw [List.getElem?_eq_getElem h4, Option.some.injEq] at h3
      rw [h3]
      have h5 : n - 1 ≤ f (n - 1) := f.strictMono.le_apply
      rcases h5.eq_or_lt with h6 | h6
      · simp only [← h6]; exact le_rfl
      · exact List.pairwise_iff_getElem.mp hl _ _ h' h4 h6
    · rfl
  · have e : truncN Sol.d n l = l := by unfold truncN; rw [if_neg h]
    rw [e, e]

omit [DecidableEq α] in
theorem truncN_dropped (hn : 1 ≤ n) {l : List (Sol α D)} (hl : l.Pairwise (fun a b => a.d ≤ b.d))
    {s : Sol α D} (hs : s ∈ l) (hns : s ∉ truncN Sol.d n l) :
    n ≤ (truncN Sol.d n l).length ∧ ∀ t ∈ truncN Sol.d n l, t.d < s.d := by
  by_cases h : n < l.length
  · have h' : n - 1 < l.length := by omega
    refine ⟨truncN_length Sol.d hn l hl h.le, ?_⟩
    have e : truncN Sol.d n l = l.filter (fun x => decide (x.d ≤ (l[n - 1]).d)) := by
      unfold truncN
      rw [if_pos h, List.getElem?_eq_getElem h']
    rw [e] at hns ⊢
    intro t ht
    have h1 : t.d ≤ (l[n - 1]).d := by simpa using (List.mem_filter.mp ht).2
    have h2 : (l[n - 1]).d < s.d := by
      by_contra hle
      exact hns (List.mem_filter.mpr ⟨hs, by simpa using not_lt.mp hle⟩)
    exact lt_of_le_of_lt h1 h2
  · have e : truncN Sol.d n l = l := by unfold truncN; rw [if_neg h]
    rw [e] at hns
    exact absurd hs hns

/-- If all of `n` entries are below `x`, all entries are after another one has been put in and the list has
been cut. -/
theorem insert_below (hn : 1 ≤ n) {sols : List (Sol α D)} (c : Sol α D)
    (hs : sols.Pairwise (fun a b => a.d ≤ b.d)) (hlen : n ≤ sols.length) {x : D} (hx : ∀ s ∈ sols, s.d < x) :
    ∀ t ∈ truncN Sol.d n (insertLeft Sol.d c sols), t.d < x := by
  set l := insertLeft Sol.d c sols with hl
  have hperm : l.Perm (c :: sols) := insertLeft_perm _ _ _
  have hll : l.length = sols.length + 1 := insertLeft_length _ _ _
  have hsorted : l.Pairwise (fun a b => a.d ≤ b.d) := insertLeft_sorted _ _ _ hs
  have h : n < l.length := by omega
  have h' : n - 1 < l.length := by omega
  intro t ht
  unfold truncN at ht
  rw [if_pos h, List.getElem?_eq_getElem h'] at ht
  have h1 : t.d ≤ (l[n - 1]).d := by simpa using (List.mem_filter.mp ht).2
  refine lt_of_le_of_lt h1 ?_
  by_contra hge
  rw [not_lt] at hge
  have hcount : l.countP (fun s => decide (x ≤ s.d)) ≤ 1 := by
    rw [hperm.countP_eq, List.countP_cons]
    have : sols.countP (fun s => decide (x ≤ s.d)) = 0 := by
      rw [List.countP_eq_zero]
      intro s hs'
      simpa using hx s hs'
    rw [this]
    split_ifs <;> omega
  have hdrop : (l.drop (n - 1)).countP (fun s => decide (x ≤ s.d)) = (l.drop (n - 1)).length := by
    rw [List.countP_eq_length]
    intro s hs'
    simp only [decide_eq_true_eq]
    refine hge.trans ?_
    obtain ⟨k, hk, rfl⟩ := List.mem_iff_getElem.mp hs'
    rw [List.getElem_drop]
    rw [List.length_drop] at hk
    rcases Nat.eq_zero_or_pos k with rfl | hk0
    · exact le_rfl
    · exact List.pairwise_iff_getElem.mp hsorted _ _ h' (by omega) (by omega)
  have hle := (List.drop_sublist (n - 1) l).countP_le (p := fun s => decide (x ≤ s.d))
  rw [hdrop, List.length_drop] at hle
  omega

omit [DecidablePred adm] in
/-- a candidate that is known already, is not admissible, or is worse than `n` entries -/
theorem RInv.skip {seen : List α} {sols : List (Sol α D)} (h : RInv eq dist up adm n seen sols) {c : α}
    (hc : adm c → (∃ s ∈ sols, c ∈ eq s.l) ∨ (n ≤ sols.length ∧ ∀ s ∈ sols, s.d < up c)) :
    RInv eq dist up adm n (seen ++ [c]) sols := by
  refine ⟨h.sorted, h.diff, h.short, fun s hs => ?_, fun c' hc' ha => ?_⟩
  · obtain ⟨h1, h2⟩ := h.sound s hs
    exact ⟨List.mem_append_left _ h1, h2⟩
  · rcases List.mem_append.mp hc' with h' | h'
    · exact h.kept c' h' ha
    · rw [List.mem_singleton] at h'
      subst h'
      exact hc ha

theorem RInv.congr {seen seen' : List α} {sols : List (Sol α D)} (h : RInv eq dist up adm n seen sols)
    (hs : ∀ x, x ∈ seen ↔ x ∈ seen') : RInv eq dist up adm n seen' sols :=
  ⟨h.sorted, h.diff, h.short, fun s hs' => ⟨(hs _).mp (h.sound s hs').1, (h.sound s hs').2⟩,
    fun c hc => h.kept c ((hs _).mpr hc)⟩

theorem RInv.worse_list {seen : List α} {sols : List (Sol α D)} (h : RInv eq dist up adm n seen sols)
    (cs : List α) (hc : n ≤ sols.length) (hd : ∀ c ∈ cs, ∀ s ∈ sols, s.d < up c) :
    RInv eq dist up adm n (seen ++ cs) sols := by
  induction cs generalizing seen with
  | nil => simpa using h
  | cons c cs ih =>
    have := ih (h.skip (c := c) fun _ => Or.inr ⟨hc, hd c (by simp)⟩) (fun c' hc' => hd c' (by simp [hc']))
    simpa using this

theorem addSol_rspec (hb : Bounds eq dist up adm) (hn : 1 ≤ n) {seen : List α}
    {sols : List (Sol α D)} {ext : Finset α} (h : RInv eq dist up adm n seen sols)
    (he : ExtInv eq adm sols ext) (c : α) (hne : sols ≠ [] ∨ adm c) :
    ∃ sols' ext' last, addSol eq adm n ⟨c, dist c⟩ sols ext = .ok (sols', ext', last.d) ∧
      RInv eq dist up adm n (seen ++ [c]) sols' ∧ ExtInv eq adm sols' ext' ∧
      sols'.getLast? = some last ∧ (n ≤ sols.length → n ≤ sols'.length) ∧
      (c ∉ ext → adm c → sols.length + 1 ≤ sols'.length ∨ n ≤ sols'.length) ∧
      (∀ s ∈ sols', s ∈ sols ∨ s.d = dist c) := by
  have fin : ∀ (l : List (Sol α D)) (e : Finset α) (hl : l ≠ []), (match pyGet? l (-1) with
        | none => Except.error Err.indexError
        | some s => Except.ok (l, e, s.d) : Except Err _) = .ok (l, e, (l.getLast hl).d) ∧
        l.getLast? = some (l.getLast hl) := by
    intro l e hl
    rw [pyGet?_neg_one, List.getLast?_eq_some_getLast hl]
    exact ⟨rfl, rfl⟩
  unfold addSol
  by_cases hc : c ∈ ext
  · simp only [hc, if_true]
    have hne' : sols ≠ [] := by
      rcases hne with h' | h'
      · exact h'
      · rintro rfl
        obtain ⟨s, hs, -⟩ := he.sub c hc h'
        simp at hs
    obtain ⟨h1, h2⟩ := fin sols ext hne'
    exact ⟨_, _, _, h1, h.skip (fun ha => Or.inl (he.sub c hc ha)), he, h2, fun h => h,
      fun h' => absurd trivial h', fun s hs => Or.inl hs⟩
  · simp only [hc, if_false]
    by_cases ha : adm c
    · simp only [ha, if_true]
      have hins := insertIdx_searchsorted sols (⟨c, dist c⟩ : Sol α D)
      simp only at hins
      rw [hins]
      set l := insertLeft Sol.d (⟨c, dist c⟩ : Sol α D) sols with hl
      have hnew : ∀ s ∈ sols, eq s.l ≠ eq c := by
        intro s hs he'
        apply hc
        exact he.sup s hs c (by rw [he']; exact hb.self_mem c)
      have hperm : l.Perm (⟨c, dist c⟩ :: sols) := insertLeft_perm _ _ _
      have hlen : l.length = sols.length + 1 := insertLeft_length _ _ _
      have hsorted : l.Pairwise (fun a b => a.d ≤ b.d) := insertLeft_sorted _ _ _ h.sorted
      have hdiff : l.Pairwise (fun a b => eq a.l ≠ eq b.l) := by
        refine (hperm.pairwise_iff (fun {a b} hab => Ne.symm hab)).mpr ?_
        exact List.pairwise_cons.mpr ⟨fun s hs => (hnew s hs).symm, h.diff⟩
      have hsound : ∀ u ∈ l, u.l ∈ seen ++ [c] ∧ adm u.l ∧ u.d = dist u.l := by
        intro u hu
        rcases List.mem_cons.mp (hperm.mem_iff.mp hu) with rfl | h'
        · exact ⟨by simp, ha, rfl⟩
        · exact ⟨List.mem_append_left _ (h.sound u h').1, (h.sound u h').2⟩
      have hsub := truncN_sublist Sol.d n l
      have hlen1 : n ≤ sols.length → n ≤ (truncN Sol.d n l).length := fun h' =>
        truncN_length Sol.d hn l hsorted (by omega)
      have hlen2 : sols.length + 1 ≤ (truncN Sol.d n l).length ∨ n ≤ (truncN Sol.d n l).length := by
        by_cases h' : n ≤ l.length
        · exact Or.inr (truncN_length Sol.d hn l hsorted h')
        · left
          unfold truncN
          rw [if_neg (by omega)]
          omega
      have hnil : truncN Sol.d n l ≠ [] := by
        intro h0
        rw [h0] at hlen2
        simp at hlen2
        omega
      -- a class of `l` is kept or worse than what is kept
      have hin : ∀ c' : α, (∃ s ∈ l, c' ∈ eq s.l) → (∃ s ∈ truncN Sol.d n l, c' ∈ eq s.l) ∨
          (n ≤ (truncN Sol.d n l).length ∧ ∀ s ∈ truncN Sol.d n l, s.d < up c') := by
        rintro c' ⟨s, hs, hcs⟩
        by_cases hk : s ∈ truncN Sol.d n l
        · exact Or.inl ⟨s, hk, hcs⟩
        · obtain ⟨g1, g2⟩ := truncN_dropped hn hsorted hs hk
          refine Or.inr ⟨g1, fun t ht => lt_of_lt_of_le (g2 t ht) ?_⟩
          rw [(hsound s hs).2.2, hb.up_eq hcs]
          exact hb.le_up _
      have hinv : RInv eq dist up adm n (seen ++ [c]) (truncN Sol.d n l) := by
        refine ⟨hsorted.sublist hsub, hdiff.sublist hsub, truncN_idem hn l hsorted,
          fun s hs => hsound s (hsub.subset hs), fun c' hc' ha' => ?_⟩
        rcases List.mem_append.mp hc' with h' | h'
        · rcases h.kept c' h' ha' with ⟨s, hs, hcs⟩ | ⟨k1, k2⟩
          · exact hin c' ⟨s, hperm.mem_iff.mpr (by simp [hs]), hcs⟩
          · exact Or.inr ⟨hlen1 k1, insert_below hn _ h.sorted k1 k2⟩
        · rw [List.mem_singleton] at h'
          subst h'
          exact hin c' ⟨⟨c', dist c'⟩, hperm.mem_iff.mpr (by simp), hb.self_mem _⟩
      have hext : ∀ (e : Finset α), (∀ x, x ∈ e ↔ x ∈ ext ∪ eq c ∧
          ∀ s ∈ l, s ∉ truncN Sol.d n l → x ∉ eq s.l) →
          ExtInv eq adm (truncN Sol.d n l) e := by
        intro e hE
        refine ⟨?_, ?_⟩
        · intro s hs x hx
          rw [hE, Finset.mem_union]
          have hs' := hsub.subset hs
          refine ⟨?_, ?_⟩
          · rcases List.mem_cons.mp (hperm.mem_iff.mp hs') with rfl | h'
            · exact Or.inr hx
            · exact Or.inl (he.sup s h' x hx)
          · intro t ht hnt hxt
            have heq : eq s.l = eq t.l := by
              rw [← hb.eq_of_mem hx, hb.eq_of_mem hxt]
            have hst : s ≠ t := by rintro rfl; exact hnt hs
            haveI : Std.Symm (fun a b : Sol α D => eq a.l ≠ eq b.l) := ⟨fun _ _ h => h.symm⟩
            exact hdiff.forall hs' ht hst heq
        · intro x hx hax
          rw [hE, Finset.mem_union] at hx
          obtain ⟨hx, hnot⟩ := hx
          have : ∃ s ∈ l, x ∈ eq s.l := by
            rcases hx with hx | hx
            · obtain ⟨s, hs, h'⟩ := he.sub x hx hax
              exact ⟨s, hperm.mem_iff.mpr (by simp [hs]), h'⟩
            · exact ⟨⟨c, dist c⟩, hperm.mem_iff.mpr (by simp), hx⟩
          obtain ⟨s, hs, h'⟩ := this
          refine ⟨s, ?_, h'⟩
          by_contra hnt
          exact hnot s hs hnt h'
      have hmem : ∀ s ∈ truncN Sol.d n l, s ∈ sols ∨ s.d = dist c := by
        intro s hs
        rcases List.mem_cons.mp (hperm.mem_iff.mp (hsub.subset hs)) with rfl | h'
        · exact Or.inr rfl
        · exact Or.inl h'
      by_cases hlt : n < l.length
      · simp only [hlt, if_true]
        obtain ⟨p1, p2⟩ := popLoop_truncN eq hn l (ext ∪ eq c) hlt hsorted
        rw [p1]
        obtain ⟨g1, g2⟩ := fin (truncN Sol.d n l) (popLoop eq n l.length l (ext ∪ eq c)).2 hnil
        exact ⟨_, _, _, g1, hinv, hext _ p2, g2, hlen1, fun _ _ => hlen2, hmem⟩
      · simp only [hlt, if_false]
        have e : truncN Sol.d n l = l := by unfold truncN; rw [if_neg hlt]
        rw [e] at hnil hinv hlen1 hlen2 hmem
        obtain ⟨g1, g2⟩ := fin l (ext ∪ eq c) hnil
        refine ⟨_, _, _, g1, hinv, ?_, g2, hlen1, fun _ _ => hlen2, hmem⟩
        have := hext (ext ∪ eq c) (fun x => by
          rw [e]; exact ⟨fun h => ⟨h, fun s hs hns => absurd hs hns⟩, fun h => h.1⟩)
        rw [e] at this
        exact this
    · simp only [ha, if_false]
      have hne' : sols ≠ [] := hne.resolve_right ha
      have htr := h.short
      have hst : ∃ e, (if n < sols.length then popLoop eq n sols.length sols (ext ∪ eq c)
          else (sols, ext ∪ eq c)) = (sols, e) ∧ ∀ x, x ∈ e ↔ x ∈ ext ∪ eq c := by
        split_ifs with hlt
        · obtain ⟨p1, p2⟩ := popLoop_truncN eq hn sols (ext ∪ eq c) hlt h.sorted
          rw [htr] at p1 p2
          refine ⟨(popLoop eq n sols.length sols (ext ∪ eq c)).2, Prod.ext p1 rfl, ?_⟩
          intro x
          rw [p2]
          exact ⟨fun h => h.1, fun h => ⟨h, fun s hs hns => absurd hs hns⟩⟩
        · exact ⟨_, rfl, fun x => Iff.rfl⟩
      obtain ⟨e, hst1, hst2⟩ := hst
      rw [hst1]
      obtain ⟨h1, h3⟩ := fin sols e hne'
      refine ⟨_, _, _, h1, h.skip (fun h' => absurd h' ha), ⟨?_, ?_⟩, h3, fun h => h,
        fun _ h' => h'.elim, fun s hs => Or.inl hs⟩
      · intro s hs x hx
        rw [hst2, Finset.mem_union]
        exact Or.inl (he.sup s hs x hx)
      · intro x hx hax
        rw [hst2, Finset.mem_union] at hx
        rcases hx with hx | hx
        · exact he.sub x hx hax
        · exact absurd ((hb.adm_iff hx).mp hax) ha

theorem updateLoop_rspec (hb : Bounds eq dist up adm) (hn : 1 ≤ n) :
    ∀ (fuel : ℕ) (ls : List α) (seen : List α) (sols : List (Sol α D)) (ext : Finset α)
      (last : Sol α D), ls.length ≤ fuel → RInv eq dist up adm n seen sols →
      ExtInv eq adm sols ext → n ≤ sols.length → sols.getLast? = some last →
      ∃ sols' ext' last', updateLoop eq adm n fuel ls (ls.map dist) sols ext last.d
          = .ok (sols', ext', last'.d) ∧
        RInv eq dist up adm n (seen ++ ls) sols' ∧ ExtInv eq adm sols' ext' ∧ n ≤ sols'.length ∧
        sols'.getLast? = some last' ∧ last'.d ≤ last.d := by
  intro fuel
  induction fuel with
  | zero =>
    intro ls seen sols ext last hf h he hl hlast
    have : ls = [] := List.length_eq_zero_iff.mp (by omega)
    subst this
    exact ⟨sols, ext, last, rfl, by simpa using h, he, hl, hlast, le_rfl⟩
  | succ fuel ih =>
    intro ls seen sols ext last hf h he hl hlast
    unfold updateLoop
    by_cases hls : ls = []
    · subst hls
      exact ⟨sols, ext, last, by simp, by simpa using h, he, hl, hlast, le_rfl⟩
    · obtain ⟨dmin, hd1, hd2⟩ := argmin_spec (ls.map dist) (by simpa using hls)
      set k := argmin (ls.map dist) with hk
      have hklt : k < ls.length := by
        by_contra hge
        rw [List.getElem?_eq_none (by simpa using hge)] at hd1
        simp at hd1
      have hlk : ls[k]? = some ls[k] := List.getElem?_eq_getElem hklt
      have hdk : dmin = dist ls[k] := by
        rw [List.getElem?_map, hlk] at hd1
        simpa using hd1.symm
      rw [hd1, hlk]
      simp only
      have hmem : ∀ x, x ∈ (seen ++ [ls[k]]) ++ ls.eraseIdx k ↔ x ∈ seen ++ ls := by
        intro x
        have hp : (ls[k] :: ls.eraseIdx k).Perm ls := List.getElem_cons_eraseIdx_perm hklt
        rw [List.append_assoc, List.singleton_append, List.mem_append, List.mem_append,
          hp.mem_iff]
      split_ifs with hle
      · have hne : sols ≠ [] := by rintro rfl; simp at hlast
        obtain ⟨sols1, ext1, last1, h1, h2, h3, h4, h5, -, h6⟩ := addSol_rspec hb hn h he ls[k]
          (Or.inl hne)
        rw [hdk, h1]
        simp only
        have hlast1 : last1.d ≤ last.d := by
          have hm : last1 ∈ sols1 := List.mem_of_getLast? h4
          rcases h6 last1 hm with h' | h'
          · exact le_last_of_sorted h.sorted hlast last1 h'
          · rw [h', ← hdk]; exact hle
        rw [List.eraseIdx_map]
        obtain ⟨sols2, ext2, last2, g1, g2, g3, g4, g5, g6⟩ := ih (ls.eraseIdx k) _ sols1 ext1 last1
          (by rw [List.length_eraseIdx_of_lt hklt]; omega) h2 h3 (h5 hl) h4
        exact ⟨sols2, ext2, last2, g1, g2.congr hmem, g3, g4, g5, g6.trans hlast1⟩
      · refine ⟨sols, ext, last, rfl, ?_, he, hl, hlast, le_rfl⟩
        apply h.worse_list ls hl
        intro c hc s hs
        refine lt_of_le_of_lt (le_last_of_sorted h.sorted hlast s hs) ?_
        exact (lt_of_lt_of_le (not_le.mp hle) (hd2 _ (List.mem_map_of_mem hc))).trans_le (hb.le_up c)

end generic

/-! ### The search -/

section search

variable {D : Type} [LinearOrder D] {N : ℕ}
variable {GA GM : List (Matrix (Fin N) (Fin N) ℤ)} {nsol : ℕ} {dist up : Matrix (Fin N) (Fin N) ℤ → D}

theorem eqlatcor_bounds (hA : IsMatGroup GA) (hM : IsMatGroup GM)
    (hu : ∀ L X, Equivalent GA GM L X → up X = up L) (hle : ∀ L, dist L ≤ up L) :
    Bounds (eqlatcor GA GM) dist up (fun L => L.det ≠ 0) := by
  have h := eqlatcor_isSymmetry (dist := up) hA hM hu
  exact ⟨h.self_mem, h.eq_of_mem, h.dist_eq, h.adm_iff, hle⟩

/-- A state in which the list is filled and fits the candidates `seen`. -/
structure RGood (GA GM : List (Matrix (Fin N) (Fin N) ℤ)) (nsol : ℕ)
    (dist up : Matrix (Fin N) (Fin N) ℤ → D) (seen : List (Matrix (Fin N) (Fin N) ℤ))
    (st : SearchState N D) : Prop where
  inv : RInv (eqlatcor GA GM) dist up (fun L => L.det ≠ 0) nsol seen st.1
  ext : ExtInv (eqlatcor GA GM) (fun L => L.det ≠ 0) st.1 st.2.1
  full : nsol ≤ st.1.length
  last : ∃ s, st.1.getLast? = some s ∧ s.d = st.2.2

theorem rgood_update (hb : Bounds (eqlatcor GA GM) dist up (fun L => L.det ≠ 0)) (hn : 1 ≤ nsol)
    {seen : List (Matrix (Fin N) (Fin N) ℤ)} {st : SearchState N D} (h : RGood GA GM nsol dist up seen st)
    (ls : List (Matrix (Fin N) (Fin N) ℤ)) :
    ∃ st', updateSol (eqlatcor GA GM) (fun L => L.det ≠ 0) nsol dist ls st.1 st.2.1 st.2.2
        = .ok (decide (st'.2.2 < st.2.2), st') ∧ RGood GA GM nsol dist up (seen ++ ls) st' ∧
      st'.2.2 ≤ st.2.2 := by
  obtain ⟨s, h1, h2⟩ := h.last
  obtain ⟨sols', ext', last', g1, g2, g3, g4, g5, g6⟩ := updateLoop_rspec hb hn ls.length ls seen st.1 st.2.1 s
    le_rfl h.inv h.ext h.full h1
  rw [h2] at g1 g6
  refine ⟨(sols', ext', last'.d), ?_, ⟨g2, g3, g4, ⟨last', g5, rfl⟩⟩, g6⟩
  unfold updateSol
  rw [g1]

theorem sliceLoop_rspec (hb : Bounds (eqlatcor GA GM) dist up (fun L => L.det ≠ 0)) (hn : 1 ≤ nsol)
    {sz : ℕ} (hsz : 1 ≤ sz) : ∀ (fuel : ℕ) (g : List (List ℤ))
      (seen : List (Matrix (Fin N) (Fin N) ℤ)) (st : SearchState N D), g.length < fuel →
      RGood GA GM nsol dist up seen st →
      (sliceLoop GA GM nsol dist sz fuel g st = .error .stopIteration) ∨
      (∃ st', sliceLoop GA GM nsol dist sz fuel g st = .ok (none, st') ∧
        RGood GA GM nsol dist up (seen ++ g.map (toMat N)) st' ∧ st'.2.2 = st.2.2) ∨
      (∃ cp st' pre post, sliceLoop GA GM nsol dist sz fuel g st = .ok (some cp, st') ∧
        g = pre ++ cp :: post ∧ RGood GA GM nsol dist up (seen ++ pre.map (toMat N)) st' ∧
        st'.2.2 < st.2.2) := by
  intro fuel
  induction fuel with
  | zero => intro g seen st h; omega
  | succ fuel ih =>
    intro g seen st hf h
    obtain ⟨sols, ext, dmax⟩ := st
    unfold sliceLoop
    split_ifs with hl
    · obtain ⟨st', h1, h2, h3⟩ := rgood_update hb hn h ((g.take sz).map (toMat N))
      simp only at h1 h3
      rw [h1]
      simp only
      split_ifs with hu
      · rw [decide_eq_true_eq] at hu
        cases hd : g.drop sz with
        | nil => left; rfl
        | cons cp post =>
          right; right
          exact ⟨cp, st', g.take sz, post, rfl, by rw [← hd, List.take_append_drop], h2, hu⟩
      · have hu' : st'.2.2 = dmax := by
          rw [decide_eq_true_eq, not_lt] at hu
          exact le_antisymm h3 hu
        have hlt : (g.drop sz).length < fuel := by
          rw [List.length_take] at hl
          rw [List.length_drop]
          omega
        rcases ih (g.drop sz) _ st' hlt h2 with h' | ⟨st2, h4, h5, h6⟩ | ⟨cp, st2, pre, post, h4, h5, h6, h7⟩
        · left; exact h'
        · right; left
          refine ⟨st2, h4, ?_, by rw [h6, hu']⟩
          rw [List.append_assoc, ← List.map_append, List.take_append_drop] at h5
          exact h5
        · right; right
          refine ⟨cp, st2, g.take sz ++ pre, post, h4, ?_, ?_, by rw [hu'] at h7; exact h7⟩
          · rw [List.append_assoc, ← h5, List.take_append_drop]
          · rw [List.map_append, ← List.append_assoc]
            exact h6
    · right; left
      have hg : g = [] := by
        rw [List.length_take] at hl
        exact List.length_eq_zero_iff.mp (by omega)
      subst hg
      exact ⟨_, rfl, by simpa using h, rfl⟩

theorem initLoop_rspec (hb : Bounds (eqlatcor GA GM) dist up (fun L => L.det ≠ 0)) (hn : 1 ≤ nsol)
    {volOk : Matrix (Fin N) (Fin N) ℤ → Prop} [DecidablePred volOk] (hvol : ∀ L, volOk L → L.det ≠ 0) :
    ∀ (samples : List (Matrix (Fin N) (Fin N) ℤ)) (k : ℕ) (seen : List (Matrix (Fin N) (Fin N) ℤ))
      (sols : List (Sol (Matrix (Fin N) (Fin N) ℤ) D)) (ext : Finset (Matrix (Fin N) (Fin N) ℤ))
      (dm : Option D),
      RInv (eqlatcor GA GM) dist up (fun L => L.det ≠ 0) nsol seen sols →
      ExtInv (eqlatcor GA GM) (fun L => L.det ≠ 0) sols ext →
      sols.getLast?.map Sol.d = dm → nsol ≤ sols.length + k →
      initLoop (eqlatcor GA GM) (fun L => L.det ≠ 0) volOk nsol dist samples k (sols, ext, dm) = .ok none ∨
      ∃ acc sols' ext' d, initLoop (eqlatcor GA GM) (fun L => L.det ≠ 0) volOk nsol dist samples k
          (sols, ext, dm) = .ok (some (sols', ext', some d)) ∧
        (∀ L ∈ acc, L ∈ samples ∧ volOk L) ∧ RGood GA GM nsol dist up (seen ++ acc) (sols', ext', d) := by
  intro samples
  induction samples with
  | nil =>
    intro k seen sols ext dm h he hl hk
    cases k with
    | succ k => left; rfl
    | zero =>
      right
      have hne : sols ≠ [] := by rintro rfl; simp at hk; omega
      rw [List.getLast?_eq_some_getLast hne] at hl
      refine ⟨[], sols, ext, (sols.getLast hne).d, by rw [← hl]; rfl, by simp, ?_⟩
      exact ⟨by simpa using h, he, by simpa using hk, ⟨_, List.getLast?_eq_some_getLast hne, rfl⟩⟩
  | cons l samples ih =>
    intro k seen sols ext dm h he hl hk
    cases k with
    | zero =>
      right
      have hne : sols ≠ [] := by rintro rfl; simp at hk; omega
      rw [List.getLast?_eq_some_getLast hne] at hl
      refine ⟨[], sols, ext, (sols.getLast hne).d, by rw [← hl]; rfl, by simp, ?_⟩
      exact ⟨by simpa using h, he, by simpa using hk, ⟨_, List.getLast?_eq_some_getLast hne, rfl⟩⟩
    | succ k =>
      unfold initLoop
      split_ifs with hc
      · rcases ih (k + 1) seen sols ext dm h he hl hk with h' | ⟨acc, s', e', d, h1, h2, h3⟩
        · exact Or.inl h'
        · exact Or.inr ⟨acc, s', e', d, h1, fun L hL => ⟨by simp [(h2 L hL).1], (h2 L hL).2⟩, h3⟩
      · rw [not_or, not_not] at hc
        obtain ⟨s1, e1, last, g1, g2, g3, g4, g5, g7, -⟩ := addSol_rspec hb hn h he l
          (Or.inr (hvol l hc.2))
        rw [g1]
        simp only
        have hk' : nsol ≤ s1.length + k := by
          rcases g7 hc.1 (hvol l hc.2) with h' | h' <;> omega
        rcases ih k (seen ++ [l]) s1 e1 (some last.d) g2 g3 (by rw [g4]; rfl) hk' with
          h' | ⟨acc, s', e', d, h1, h2, h3⟩
        · exact Or.inl h'
        · refine Or.inr ⟨l :: acc, s', e', d, h1, ?_, by simpa using h3⟩
          intro L hL
          rcases List.mem_cons.mp hL with rfl | hL
          · exact ⟨by simp, hc.2⟩
          · exact ⟨by simp [(h2 L hL).1], (h2 L hL).2⟩

/-- All matrices with bound at most `x` whose coordinates come before `cp` have been examined (up to sign). -/
def RCoveredBefore (up : Matrix (Fin N) (Fin N) ℤ → D) (seen : List (Matrix (Fin N) (Fin N) ℤ)) (x : D)
    (cp : List ℤ) : Prop :=
  ∀ L : Matrix (Fin N) (Fin N) ℤ, up L ≤ x → before (flat L) cp → Covered N seen (flat L)

theorem flat_neg (L : Matrix (Fin N) (Fin N) ℤ) : flat (-L) = (flat L).map (fun x => -x) := by
  unfold flat
  rw [List.map_ofFn]
  rfl

/-- One pass of the generator from a checkpoint. -/
theorem rcovered_step {seen : List (Matrix (Fin N) (Fin N) ℤ)} {R : ℝ} {x : D} {cp : List ℤ}
    (hneg : ∀ L : Matrix (Fin N) (Fin N) ℤ, up (-L) = up L)
    (hrad : ∀ L : Matrix (Fin N) (Fin N) ℤ, up L ≤ x → 0 ≤ R ∧ (sumsq (flat L) : ℝ) ≤ R ^ 2)
    (hN : 1 ≤ N) (hcp : cp.length = N ^ 2) (hgood : GoodStart cp.tail)
    (hb : RCoveredBefore up seen x cp)
    (pre post : List (List ℤ)) (hg : vecGen (N ^ 2) R (some cp) = pre ++ post)
    (L : Matrix (Fin N) (Fin N) ℤ) (hx : up L ≤ x)
    (hpost : ∀ y ∈ post, before (flat L) y) : Covered N (seen ++ pre.map (toMat N)) (flat L) := by
  obtain ⟨hR, hn⟩ := hrad L hx
  obtain ⟨m, hm⟩ := sq_eq_succ hN
  rw [hm, vecGen_eq] at hg
  have hmono : ∀ x ∈ seen, x ∈ seen ++ pre.map (toMat N) := fun x hx => by simp [hx]
  by_cases hbef : before (flat L) cp
  · exact (hb L hx hbef).mono hmono
  · have hin : ∀ u, u ∈ vecGen0 (m + 1) R (some cp) → (∀ x ∈ post, before u x) →
        Covered N (seen ++ pre.map (toMat N)) u := by
      intro u hu hup
      rw [hg, List.mem_append] at hu
      rcases hu with hu | hu
      · left
        exact List.mem_append_right _ (List.mem_map_of_mem hu)
      · exact absurd (hup u hu) (before_irrefl u)
    have hfl := flat_length L
    have hfn := flat_neg L
    have hbn : up (-L) ≤ x := by rw [hneg]; exact hx
    have hbL := hb (-L) hbn
    have hnn := (hrad (-L) hbn).2
    rw [hm] at hfl hcp
    rw [hfn] at hbL hnn
    generalize flat L = v at *
    cases cp with
    | nil => simp at hcp
    | cons f xs =>
      cases v with
      | nil => simp at hfl
      | cons g w =>
        have hxl : xs.length = m := by simpa using hcp
        have hwl : w.length = m := by simpa using hfl
        rcases resume_complete_sym m R f g xs w hxl hR hwl hn hbef hgood with h | ⟨hf, hgf, hw⟩
        · exact hin _ h hpost
        · -- the mirror image `(f, -w)`
          rw [← covered_neg]
          rw [List.map_cons] at hbL hnn ⊢
          have e : -g = f := by omega
          rw [e] at hbL hnn ⊢
          by_cases hb2 : before (f :: w.map (fun x => -x)) (f :: xs)
          · exact (hbL hb2).mono hmono
          · rcases resume_complete_sym m R f f xs (w.map (fun x => -x)) hxl hR (by simpa using hwl) hnn
              hb2 hgood with h | ⟨_, h, _⟩
            · refine hin _ h ?_
              intro x hx
              refine before_trans ?_ (hpost x hx)
              left
              rw [hgf]
              exact rank_pos_neg hf
            · omega

/-- The outer loop: the final state fits the candidates examined, and all candidates whose bound is at most the
final threshold have been examined. -/
theorem searchLoop_rspec (hb : Bounds (eqlatcor GA GM) dist up (fun L => L.det ≠ 0)) (hn : 1 ≤ nsol)
    {sz : ℕ} (hsz : 1 ≤ sz) (hN : 1 ≤ N) {rmax : D → ℝ}
    (hneg : ∀ L : Matrix (Fin N) (Fin N) ℤ, up (-L) = up L)
    (hrad : ∀ (L : Matrix (Fin N) (Fin N) ℤ) (x : D), up L ≤ x →
      0 ≤ rmax x ∧ (sumsq (flat L) : ℝ) ≤ rmax x ^ 2) :
    ∀ (fuel : ℕ) (cp : List ℤ) (seen : List (Matrix (Fin N) (Fin N) ℤ)) (st : SearchState N D),
      RGood GA GM nsol dist up seen st → cp.length = N ^ 2 →
      searchLoop GA GM nsol dist sz rmax fuel cp st = .error .stopIteration ∨
      ∃ r trace, searchLoop GA GM nsol dist sz rmax fuel cp st = .ok (r, trace) ∧
        ∀ st', r = some st' → ∃ more, RGood GA GM nsol dist up (seen ++ more) st' ∧ st'.2.2 ≤ st.2.2 ∧
          ((∀ c ∈ trace, GoodStart c.tail) → RCoveredBefore up seen st'.2.2 cp →
            ∀ L : Matrix (Fin N) (Fin N) ℤ, up L ≤ st'.2.2 → Covered N (seen ++ more) (flat L)) := by
  intro fuel
  induction fuel with
  | zero =>
    intro cp seen st _ _
    right
    exact ⟨none, [], rfl, by simp⟩
  | succ fuel ih =>
    intro cp seen st h hcp
    unfold searchLoop
    simp only
    set g := vecGen (N ^ 2) (rmax st.2.2) (some cp) with hg
    rcases sliceLoop_rspec hb hn hsz (g.length + 1) g seen st (by omega) h with
      h1 | ⟨st1, h1, h2, h3⟩ | ⟨cp', st1, pre, post, h1, h2, h3, h4⟩
    · left; rw [h1]
    · right
      rw [h1]
      refine ⟨some st1, [cp], rfl, ?_⟩
      rintro st' ⟨⟩
      refine ⟨g.map (toMat N), h2, h3.le, ?_⟩
      intro ht hbe L hL
      rw [h3] at hL hbe
      exact rcovered_step hneg (fun L hL => hrad L _ hL) hN hcp (ht cp (by simp)) hbe g [] (by simp [hg]) L hL
        (by simp)
    · rw [h1]
      simp only
      have hcp' : cp'.length = N ^ 2 := by
        apply vecGen_length hN (rmax st.2.2) hcp
        rw [← hg, h2]
        simp
      rcases ih cp' _ st1 h3 hcp' with h5 | ⟨r, trace, h5, h6⟩
      · left; rw [h5]
      · right
        rw [h5]
        refine ⟨r, cp :: trace, rfl, ?_⟩
        intro st' hst'
        obtain ⟨more, k1, k2, k3⟩ := h6 st' hst'
        refine ⟨pre.map (toMat N) ++ more, by rw [← List.append_assoc]; exact k1, k2.trans h4.le, ?_⟩
        intro ht hbe L hL
        rw [← List.append_assoc]
        apply k3 (fun c hc => ht c (by simp [hc])) _ L hL
        intro K hK hbK
        refine rcovered_step (x := st'.2.2) hneg (fun L hL => hrad L _ (hL.trans (k2.trans h4.le))) hN hcp
          (ht cp (by simp)) hbe pre (cp' :: post) (by rw [← hg, h2]) K hK ?_
        refine pairwise_split (pre := pre) ?_ hbK
        rw [← h2, hg]
        exact vecGen_pairwise hN _ _

theorem rgood_dmax {seen : List (Matrix (Fin N) (Fin N) ℤ)} {st : SearchState N D}
    (h : RGood GA GM nsol dist up seen st) : ∃ L, dist L = st.2.2 := by
  obtain ⟨s, h1, h2⟩ := h.last
  exact ⟨s.l, by rw [← h2, (h.inv.sound s (List.mem_of_getLast? h1)).2.2]⟩

/-- Enough fuel: the threshold decreases strictly within a finite set. -/
theorem searchLoop_rfuel (hb : Bounds (eqlatcor GA GM) dist up (fun L => L.det ≠ 0)) (hn : 1 ≤ nsol)
    {sz : ℕ} (hsz : 1 ≤ sz) (rmax : D → ℝ) (F : Finset D) (d0 : D)
    (hF : ∀ L, dist L ≤ d0 → dist L ∈ F) :
    ∀ (fuel : ℕ) (cp : List ℤ) (seen : List (Matrix (Fin N) (Fin N) ℤ)) (st : SearchState N D),
      RGood GA GM nsol dist up seen st → st.2.2 ≤ d0 → (F.filter (fun x => x < st.2.2)).card < fuel →
      ∀ trace, searchLoop GA GM nsol dist sz rmax fuel cp st ≠ .ok (none, trace) := by
  intro fuel
  induction fuel with
  | zero => intro cp seen st _ _ h; omega
  | succ fuel ih =>
    intro cp seen st h h0 hc trace
    unfold searchLoop
    simp only
    set g := vecGen (N ^ 2) (rmax st.2.2) (some cp) with hg
    rcases sliceLoop_rspec hb hn hsz (g.length + 1) g seen st (by omega) h with
      h1 | ⟨st1, h1, h2, h3⟩ | ⟨cp', st1, pre, post, h1, h2, h3, h4⟩
    · rw [h1]; simp
    · rw [h1]; simp
    · rw [h1]
      simp only
      have hlt : (F.filter (fun x => x < st1.2.2)).card < fuel := by
        refine lt_of_lt_of_le (Finset.card_lt_card ?_) (Nat.lt_succ_iff.mp hc)
        rw [Finset.ssubset_iff_of_subset]
        · obtain ⟨L, hL⟩ := rgood_dmax h3
          refine ⟨st1.2.2, ?_, by simp⟩
          rw [Finset.mem_filter]
          refine ⟨?_, h4⟩
          rw [← hL]
          exact hF L (by rw [hL]; exact h4.le.trans h0)
        · intro x hx
          rw [Finset.mem_filter] at hx ⊢
          exact ⟨hx.1, hx.2.trans h4⟩
      have := ih cp' _ st1 h3 (h4.le.trans h0) hlt
      cases hs : searchLoop GA GM nsol dist sz rmax fuel cp' st1 with
      | error e => simp
      | ok p =>
        obtain ⟨r, tr⟩ := p
        simp only [ne_eq, Except.ok.injEq, Prod.mk.injEq, not_and]
        intro hr
        exact absurd (by rw [hs, hr]) (this tr)

end search

end Verif.Lemmas
