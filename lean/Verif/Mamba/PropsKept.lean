import Verif.Mamba.Anc

/-! # C135: a locked state stays in the cache -/
namespace Verif.Mamba
open Verif.PyRadix hiding St Step Reach Op Supplied

/-- A call that locks only a node that has a state. -/
def LocksState (s : St) (op : Op) : Prop := ∀ x, op = .lock x → s.c.mv x ≠ none

/-- Histories in which only nodes with a state are locked. -/
inductive LReach (P : Nat) : List Op → St → Prop where
  | init : LReach P [] ⟨.empty, []⟩
  | step {ops s op s'} : LReach P ops s → LocksState s op → Step P s op s' → LReach P (op :: ops) s'

theorem LReach.reach {P : Nat} {ops : List Op} {s : St} (h : LReach P ops s) : Reach P ops s := by
  induction h with
  | init => exact .init
  | step _ _ hs ih => exact .step ih hs

/-- Such histories from a state on, in which the lock on `x` is held all the time. -/
inductive Holding (P : Nat) (x : Nat) : St → St → Prop where
  | refl (s) : x ∈ s.held → Holding P x s s
  | step {s t op u} : Holding P x s t → LocksState t op → Step P t op u → x ∈ u.held → Holding P x s u

/-- The states' lock counts cover the locks that are held. -/
def Covered (s : St) : Prop := ∀ i, (s.held.count i : Int) ≤ s.c.ml i

/-- The slot `y` is in the state of `x` or of a node above it, and that state is locked. -/
def Kept (s : St) (x y : Nat) : Prop :=
  ∃ z, Anc z x s.c.cache.tree ∧ y ∈ (s.c.mv z).getD [] ∧ (z = x ∨ (s.held.count z : Int) < s.c.ml z)

theorem split_ml_eq (c : MC) (sp : Option (Nat × Nat × Nat)) : (c.split sp).ml = match sp with | none => c.ml | some (a, new, _) => Function.update c.ml new (c.ml a) := by
  unfold MC.split
  cases sp with
  | none => rfl
  | some p => rfl

theorem covered_split {s : St} (h : Covered s) {c : MC} {sp : Option (Nat × Nat × Nat)} (hml : c.ml = (s.c.split sp).ml)
    (hnew : ∀ a new n, sp = some (a, new, n) → new ∉ s.held) (hpos : ∀ i, 0 ≤ s.c.ml i) : Covered { s with c := c } := by
  intro i
  show (s.held.count i : Int) ≤ c.ml i
  rw [hml, split_ml_eq]
  cases sp with
  | none => exact h i
  | some p =>
    obtain ⟨a, new, n⟩ := p
    simp only
    by_cases he : i = new
    · subst he
      rw [Function.update_self, List.count_eq_zero.2 (hnew a i n rfl)]
      exact hpos a
    · rw [Function.update_of_ne he]; exact h i

/-- The state slots after a split. -/
theorem kept_split {s : St} {c : MC} {f' : Forest} {sp : Option (Nat × Nat × Nat)} (hml : c.ml = (s.c.split sp).ml)
    (hmv : ∀ i ∈ ids s.c.cache.tree ++ sp.toList.map (·.2.1), ((s.c.split sp).mv i).getD [] ⊆ (c.mv i).getD [])
    (ht : c.cache.tree = f') (hf : AncOk s.c.cache.tree sp f')
    (hnew : ∀ a new n, sp = some (a, new, n) → new ∉ ids s.c.cache.tree ∧ new ∉ s.held) (hcov : Covered s) {x y : Nat} (hx : x ∈ s.held)
    (hk : Kept s x y) : Kept { s with c := c } x y := by
  obtain ⟨z, h1, h2, h3⟩ := hk
  have hzin := (anc_mem h1).1
  have hzl : z = x ∨ (s.held.count z : Int) < s.c.ml z := h3
  have hlt : 0 < s.c.ml z := by
    rcases h3 with rfl | h3
    · have := hcov z
      have : 0 < s.held.count z := List.count_pos_iff.2 hx
      omega
    · have : (0 : Int) ≤ s.held.count z := Int.natCast_nonneg _
      omega
  have hstay : ∀ a new n, sp = some (a, new, n) → c.ml z = s.c.ml z := by
    intro a new n hs
    rw [hml, split_ml_eq, hs]
    simp only
    exact Function.update_of_ne (fun he : z = new => (hnew a new n hs).1 (he ▸ hzin)) _ _
  cases sp with
  | none =>
    refine ⟨z, by show Anc z x c.cache.tree; rw [ht]; exact hf.keep _ _ h1, hmv z (List.mem_append_left _ hzin) h2, ?_⟩
    show z = x ∨ (s.held.count z : Int) < c.ml z
    rw [hml]; exact h3
  | some p =>
    obtain ⟨a, new, n⟩ := p
    have hz := hstay a new n rfl
    obtain ⟨hn1, hn2⟩ := hnew a new n rfl
    by_cases hza : z = a
    · subst hza
      cases hm : s.c.mv z with
      | none => rw [hm] at h2; simp at h2
      | some m =>
        rw [hm] at h2
        have e : (s.c.split (some (z, new, n))).mv = Function.update (Function.update s.c.mv new (some (m.take n))) z (some (m.drop n)) := by
          simp only [MC.split, hm]
        rw [e] at hmv
        have hne : new ≠ z := fun he => hn1 (he ▸ hzin)
        have h2' : y ∈ m.take n ++ m.drop n := by rw [List.take_append_drop]; exact h2
        rcases List.mem_append.1 h2' with h | h
        · refine ⟨new, by show Anc new x c.cache.tree; rw [ht]; exact hf.split _ _ _ _ rfl h1, hmv new (List.mem_append_right _ (by simp)) ?_, .inr ?_⟩
          · rw [Function.update_of_ne hne, Function.update_self]; exact h
          · show (s.held.count new : Int) < c.ml new
            rw [hml, split_ml_eq]
            simp only
            rw [Function.update_self, List.count_eq_zero.2 hn2]
            exact hlt
        · refine ⟨z, by show Anc z x c.cache.tree; rw [ht]; exact hf.keep _ _ h1, hmv z (List.mem_append_left _ hzin) ?_, ?_⟩
          · rw [Function.update_self]; exact h
          · show z = x ∨ (s.held.count z : Int) < c.ml z
            rw [hz]; exact h3
    · refine ⟨z, by show Anc z x c.cache.tree; rw [ht]; exact hf.keep _ _ h1, hmv z (List.mem_append_left _ hzin) ?_, ?_⟩
      · rw [split_mv_other s.c hza (fun he : z = new => hn1 (he ▸ hzin))]; exact h2
      · show z = x ∨ (s.held.count z : Int) < c.ml z
        rw [hz]; exact h3

/-- A slot is kept by an eviction. -/
theorem kept_phase1 {target : Nat} {s s' : EvM} (hp : Phase1 target s s') {h : List Nat} {x y : Nat} (hx : x ∈ h) : EvGood s → LockOk h s.c.cache.tree →
    Kept ⟨s.c, h⟩ x y → LockOk h s'.c.cache.tree ∧ Kept ⟨s'.c, h⟩ x y := by
  induction hp with
  | enough | none => intro _ h2 h3; exact ⟨h2, h3⟩
  | @pop s s' q _ hq _ ih =>
    intro g hl hk
    have hfree := find_leaf hq
    obtain ⟨n, hn, h0, hleaf⟩ := leafFree_iff.1 hfree
    obtain ⟨hm, hid⟩ := info_some hn
    have hcut := cut_leaf g.nodup hm hleaf
    have htree : (evictLeaf s q).c.cache.tree = remove q s.c.cache.tree := by simp only [evictLeaf, hn]
    have hmv : (evictLeaf s q).c.mv = Function.update s.c.mv q none := by simp only [evictLeaf, hn]
    have hml : (evictLeaf s q).c.ml = s.c.ml := by simp only [evictLeaf, hn]
    have hqh : q ∉ h := by rw [← hid]; exact lock_info hl hm h0
    obtain ⟨z, h1, h2, h3⟩ := hk
    have hzq : z ≠ q := by
      intro he
      obtain ⟨n', hn', e1, e2⟩ := anc_lock hx hl h1
      have : n' = n := info_unique g.nodup hn' hm (by rw [e1, hid, he])
      rw [this] at e2; omega
    have hxq : x ≠ q := fun he => hqh (he ▸ hx)
    refine ih (evGood_leaf g hfree) ?_ ⟨z, ?_, ?_, ?_⟩
    · rw [htree, ← hid]; exact hcut.lock h (hid ▸ hqh) hl
    · show Anc z x (evictLeaf s q).c.cache.tree
      rw [htree]
      exact anc_remove g.nodup hm hleaf hid hzq hxq h1
    · show y ∈ ((evictLeaf s q).c.mv z).getD []
      rw [hmv, Function.update_of_ne hzq]; exact h2
    · show z = x ∨ (h.count z : Int) < (evictLeaf s q).c.ml z
      rw [hml]; exact h3

theorem kept_phase2 {target : Nat} {s s' : EvM} (hp : Phase2 target s s') {h : List Nat} {x y : Nat} (hx : x ∈ h) : Covered ⟨s.c, h⟩ →
    Kept ⟨s.c, h⟩ x y → Kept ⟨s'.c, h⟩ x y := by
  induction hp with
  | enough | none => intro _ h3; exact h3
  | skip _ _ _ _ _ ih => exact ih
  | @pop s s' q m _ hq hm _ ih =>
    intro hc hk
    refine ih hc ?_
    obtain ⟨z, h1, h2, h3⟩ := hk
    have h0 := find_leaf hq
    have hzq : z ≠ q := by
      rintro rfl
      have h0 : s.c.ml z = 0 := by simpa using h0
      have h3' : z = x ∨ (h.count z : Int) < s.c.ml z := h3
      rcases h3' with rfl | h3
      · have h4 : (h.count z : Int) ≤ s.c.ml z := hc z
        have : 0 < h.count z := List.count_pos_iff.2 hx
        omega
      · have : (0 : Int) ≤ h.count z := Int.natCast_nonneg _
        omega
    refine ⟨z, h1, ?_, h3⟩
    show y ∈ (Function.update s.c.mv q none z).getD []
    rw [Function.update_of_ne hzq]; exact h2

theorem phase2_ml {target : Nat} {s s' : EvM} (hp : Phase2 target s s') : s'.c.ml = s.c.ml := by
  induction hp with
  | enough | none => rfl
  | skip _ _ _ _ _ ih => exact ih
  | pop x m _ _ _ _ ih => rw [ih]; rfl

theorem store_mv_sub {c : MC} {r : MIns} {mval : Option Slots} {i : Nat} (h : ∀ j n, r.leaf = some (j, n) → j ≠ i) :
    (c.mv i).getD [] ⊆ ((c.store r mval).mv i).getD [] := by
  unfold MC.store
  cases hl : r.leaf with
  | some p =>
    obtain ⟨j, n⟩ := p
    cases mval with
    | none => exact List.Subset.refl _
    | some m => simp only; rw [Function.update_of_ne (h j n hl).symm]; exact List.Subset.refl _
  | none =>
    cases mval with
    | none => exact List.Subset.refl _
    | some m =>
      cases hm : c.mv r.last with
      | some q => exact List.Subset.refl _
      | none =>
        simp only
        by_cases he : i = r.last
        · rw [he, hm]; simp
        · rw [Function.update_of_ne he]; exact List.Subset.refl _

/-- One call keeps the cover, and every kept slot of a lock that is held before and after. -/
theorem step_kept {P : Nat} (hP : 0 < P) {ops : List Op} {s s' : St} {op : Op} (h : Reach P ops s) (hc : Covered s) (hl : LocksState s op)
    (hs : Step P s op s') : Covered s' ∧ ∀ x y, x ∈ s.held → x ∈ s'.held → Kept s x y → Kept s' x y := by
  have hi := mInv_reach hP h
  cases hs with
  | matchPrefix e key =>
    have ok := mwalk_ok (P := P) (e := e) (fresh := s.c.cache.fresh) s.c.cache.tree (align P key)
    have an := anc_mwalk (P := P) (e := e) (fresh := s.c.cache.fresh) s.c.cache.tree (align P key) hi.inv.nodup
    have htree : (s.c.matchPrefix P e key).2.cache.tree = (mwalk P e s.c.cache.fresh s.c.cache.tree (align P key)).tree := by
      unfold MC.matchPrefix
      simp only [split_cache]
    have hmv : (s.c.matchPrefix P e key).2.mv = (s.c.split (mwalk P e s.c.cache.fresh s.c.cache.tree (align P key)).split).mv := by
      unfold MC.matchPrefix
      simp only [MC.split]
      split <;> rfl
    have hml : (s.c.matchPrefix P e key).2.ml = (s.c.split (mwalk P e s.c.cache.fresh s.c.cache.tree (align P key)).split).ml := by
      unfold MC.matchPrefix
      simp only [MC.split]
      split <;> rfl
    have hnew : ∀ a new n, (mwalk P e s.c.cache.fresh s.c.cache.tree (align P key)).split = some (a, new, n) → new ∉ ids s.c.cache.tree ∧ new ∉ s.held := by
      intro a new n hs
      have e1 := (ok.split a new n hs).1
      have hnt : new ∉ ids s.c.cache.tree := fun hm => by have hlt : new < s.c.cache.fresh := hi.inv.lt _ hm; omega
      exact ⟨hnt, fun hm => hnt (hi.inv.held _ hm)⟩
    exact ⟨covered_split hc hml (fun a new n hs => (hnew a new n hs).2) hi.ml,
      fun x y hx _ hk => kept_split hml (fun i _ => by rw [hmv]; exact List.Subset.refl _) htree an hnew hc hx hk⟩
  | insert e key val mval hlen hd =>
    by_cases hne : key = []
    · have e0 : (s.c.insert P e key val mval).2 = s.c := by unfold MC.insert; rw [if_pos hne]
      rw [e0]
      exact ⟨hc, fun _ _ _ _ hk => hk⟩
    · have ok := minsRoot_ok (P := P) (e := e) (fresh := s.c.cache.fresh) s.c.cache.tree key val
      have an := anc_minsRoot (P := P) (e := e) (fresh := s.c.cache.fresh) s.c.cache.tree key val hi.inv.nodup
      obtain ⟨r, hr⟩ : ∃ r, r = minsRoot P e s.c.cache.fresh s.c.cache.tree key val := ⟨_, rfl⟩
      obtain ⟨c1, hc1⟩ : ∃ c1, c1 = { s.c with cache := { s.c.cache with tree := r.tree, fresh := r.fresh, evictable := s.c.cache.evictable + r.dEvict } }.split r.split := ⟨_, rfl⟩
      have hins : (s.c.insert P e key val mval).2 = c1.store r mval := by
        unfold MC.insert
        rw [if_neg hne, hc1, hr]
      simp only [← hr] at ok an
      have hmv1 : c1.mv = (s.c.split r.split).mv := by rw [hc1, split_mv_cache]
      have hml1 : c1.ml = (s.c.split r.split).ml := by
        rw [hc1, split_ml_eq, split_ml_eq]
      have hml : (c1.store r mval).ml = (s.c.split r.split).ml := by rw [store_ml, hml1]
      have htree : (c1.store r mval).cache.tree = r.tree := by rw [store_cache, hc1, split_cache]
      have hnew : ∀ a new n, r.split = some (a, new, n) → new ∉ ids s.c.cache.tree ∧ new ∉ s.held := by
        intro a new n hs
        have e1 := (ok.split a new n hs).1
        have hnt : new ∉ ids s.c.cache.tree := fun hm => by have hlt : new < s.c.cache.fresh := hi.inv.lt _ hm; omega
        exact ⟨hnt, fun hm => hnt (hi.inv.held _ hm)⟩
      rw [hins]
      refine ⟨covered_split hc hml (fun a new n hs => (hnew a new n hs).2) hi.ml, fun x y hx _ hk => kept_split hml (fun i hin => ?_) htree an hnew hc hx hk⟩
      rw [← hmv1]
      refine store_mv_sub fun j n hj he => ?_
      subst he
      have hle := ok.leaf j n hj
      rcases List.mem_append.1 hin with hm | hm
      · have hlt : j < s.c.cache.fresh := hi.inv.lt _ hm; omega
      · simp only [List.mem_map, Option.mem_toList] at hm
        obtain ⟨⟨a, new, m⟩, hs, rfl⟩ := hm
        have := (ok.split a new m hs).1
        rw [hs] at hle
        simp at hle
        omega
  | lock q hq =>
    have hm := hl q rfl
    have hml : (s.c.lock q).ml = Function.update s.c.ml q (s.c.ml q + 1) := by rw [lock_ml, if_neg hm]
    have hmv : (s.c.lock q).mv = s.c.mv := (lockState_rest s.c q).2.2
    refine ⟨fun i => ?_, fun x y hx _ hk => ?_⟩
    · show ((q :: s.held).count i : Int) ≤ (s.c.lock q).ml i
      rw [hml, List.count_cons, Function.update_apply]
      have := hc i
      by_cases he : i = q
      · subst he; simp; omega
      · rw [if_neg he, if_neg (by simpa using fun h => he h.symm)]; simpa using this
    · obtain ⟨z, h1, h2, h3⟩ := hk
      refine ⟨z, anc_addLock.2 h1, by show y ∈ ((s.c.lock q).mv z).getD []; rw [hmv]; exact h2, ?_⟩
      rcases h3 with h3 | h3
      · exact .inl h3
      · refine .inr ?_
        show ((q :: s.held).count z : Int) < (s.c.lock q).ml z
        rw [hml, List.count_cons, Function.update_apply]
        by_cases he : z = q
        · subst he; simp; omega
        · rw [if_neg he, if_neg (by simpa using fun h => he h.symm)]; simpa using h3
  | unlock q hq =>
    have hpos : 0 < s.held.count q := List.count_pos_iff.2 hq
    have hml : (s.c.unlock q).ml = Function.update s.c.ml q (s.c.ml q - 1) := by
      rw [unlock_ml, if_pos (by have := hc q; omega)]
    have hmv : (s.c.unlock q).mv = s.c.mv := (unlockState_rest s.c q).2.2
    have hcnt : ∀ i, ((s.held.erase q).count i : Int) = s.held.count i - if i = q then 1 else 0 := by
      intro i
      rw [List.count_erase]
      by_cases he : i = q
      · subst he; simp; omega
      · rw [if_neg he, if_neg (by simpa using fun h => he h.symm)]; simp
    refine ⟨fun i => ?_, fun x y hx _ hk => ?_⟩
    · show ((s.held.erase q).count i : Int) ≤ (s.c.unlock q).ml i
      rw [hml, hcnt, Function.update_apply]
      have := hc i
      by_cases he : i = q
      · subst he; simp; omega
      · simp only [if_neg he]; omega
    · obtain ⟨z, h1, h2, h3⟩ := hk
      refine ⟨z, anc_addLock.2 h1, by show y ∈ ((s.c.unlock q).mv z).getD []; rw [hmv]; exact h2, ?_⟩
      rcases h3 with h3 | h3
      · exact .inl h3
      · refine .inr ?_
        show ((s.held.erase q).count z : Int) < (s.c.unlock q).ml z
        rw [hml, hcnt, Function.update_apply]
        by_cases he : z = q
        · subst he; simp; omega
        · simp only [if_neg he]; omega
  | evict target mtarget r he =>
    obtain ⟨m, h1, h2⟩ := he
    have hml : r.c.ml = s.c.ml := by rw [phase2_ml h2, (phase1_ml h1).1]
    refine ⟨fun i => by show (s.held.count i : Int) ≤ r.c.ml i; rw [hml]; exact hc i, fun x y hx _ hk => ?_⟩
    have g := hi.good [] [] 0 0
    obtain ⟨-, k1⟩ := kept_phase1 h1 hx g hi.inv.lock hk
    exact kept_phase2 h2 hx (fun i => by show (s.held.count i : Int) ≤ m.c.ml i; rw [(phase1_ml h1).1]; exact hc i) k1

theorem covered_reach {P : Nat} (hP : 0 < P) {ops : List Op} {s : St} (h : LReach P ops s) : Covered s := by
  induction h with
  | init => intro i; exact Int.le_refl 0
  | step h0 hl hs ih => exact (step_kept hP h0.reach ih hl hs).1

theorem kept_states {s : St} {x y : Nat} (h : Kept s x y) : y ∈ states s.c := by
  obtain ⟨z, h1, h2, -⟩ := h
  exact List.mem_flatMap.2 ⟨z, (anc_mem h1).1, h2⟩

/-- C135: while a lock on a node is held, the state slots the node had when it was locked stay in the cache, whatever is called. Missing:
histories in which a node is locked while it has no state, for which it fails (`C135_lock_violated`). -/
theorem C135_kept_partial {P : Nat} (hP : 0 < P) {ops : List Op} {s : St} (h : LReach P ops s) {x : Nat} (hx : x ∈ s.held) {m : Slots}
    (hm : s.c.mv x = some m) {u : St} (hu : Holding P x s u) : ∀ y ∈ m, y ∈ states u.c := by
  intro y hy
  suffices hh : (∃ o, LReach P o u) ∧ x ∈ u.held ∧ Kept u x y from kept_states hh.2.2
  induction hu with
  | refl => exact ⟨⟨_, h⟩, hx, x, anc_self ((mInv_reach hP h.reach).inv.held _ hx), by rw [hm]; exact hy, .inl rfl⟩
  | step hu hl hs hxu ih =>
    obtain ⟨⟨o, ho⟩, h1, h2⟩ := ih
    exact ⟨⟨_, .step ho hl hs⟩, hxu, (step_kept hP ho.reach (covered_reach hP ho) hl hs).2 x y h1 hxu h2⟩

/-- … so no eviction returns one of them to the pool (the state slots in the cache being distinct). -/
theorem C135_not_freed_partial {P : Nat} (hP : 0 < P) {ops : List Op} {s : St} (h : LReach P ops s) {x : Nat} (hx : x ∈ s.held) {m : Slots}
    (hm : s.c.mv x = some m) {u : St} (hu : Holding P x s u) (hn : (states u.c).Nodup) {target mtarget : Nat} {r : EvM}
    (he : u.c.Evict target mtarget r) : ∀ y ∈ m, y ∉ r.mfreed := by
  intro y hy hf
  have hxu : x ∈ u.held := by cases hu <;> assumption
  have hu2 : Holding P x s { u with c := r.c } := .step hu (fun _ h => by cases h) (.evict target mtarget r he) hxu
  have h1 := C135_kept_partial hP h hx hm hu2 y hy
  have hr : ∃ o, Reach P o u := by
    clear hn he hxu hu2 h1
    induction hu with
    | refl => exact ⟨_, h.reach⟩
    | step _ _ hs _ ih => obtain ⟨o, ho⟩ := ih; exact ⟨_, .step ho hs⟩
  obtain ⟨o, ho⟩ := hr
  have hp := (C135_evict hP ho he).nodup_iff.1 hn
  exact (List.nodup_append.1 hp).2.2 y hf y h1 rfl

end Verif.Mamba
