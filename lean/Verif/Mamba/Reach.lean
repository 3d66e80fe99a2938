import Verif.Mamba.Inv
import Verif.PyRadix.Props

/-! Invariants along histories, and the simulation by `RadixCache`. -/
namespace Verif.Mamba
open Verif.PyRadix hiding St Step Reach Op

/-- The call of `RadixCache` that corresponds to a call. -/
def Op.erase : Op → PyRadix.Op
  | .matchPrefix e key => .matchPrefix 0 e key
  | .insert e key val _ => .insert 0 e key val
  | .lock x => .lock x
  | .unlock x => .unlock x
  | .evict t _ => .evict t

/-! ### Eviction -/

structure EvGood (s : EvM) : Prop where
  nodup : (ids s.c.cache.tree).Nodup
  time : NoTime s.c.cache.tree
  lists : ∃ lf lm, Lists (isTree s.c) s.c lf lm

theorem evGood_leaf {s : EvM} (h : EvGood s) {x : Nat} (hx : leafFree s.c.cache.tree x = true) : EvGood (evictLeaf s x) := by
  obtain ⟨lf, lm, hl⟩ := h.lists
  obtain ⟨h1, h2, -⟩ := lists_leaf h.nodup hl hx
  refine ⟨(List.nodup_cons.1 (h2.nodup_iff.1 h.nodup)).2, ?_, _, _, h1⟩
  obtain ⟨n, hn, -⟩ := leafFree_iff.1 hx
  simp only [evictLeaf, hn]
  exact noTime_remove h.time

theorem evGood_phase1 {target : Nat} {s s' : EvM} (hp : Phase1 target s s') (h : EvGood s) : EvGood s' := by
  induction hp with
  | enough | none => exact h
  | pop x _ hx _ ih => exact ih (evGood_leaf h (find_leaf hx))

theorem evGood_state {s : EvM} (h : EvGood s) {x : Nat} {m : Slots} (hx : s.c.mv x = some m) : EvGood (evictState s x m) := by
  obtain ⟨lf, lm, hl⟩ := h.lists
  exact ⟨h.nodup, h.time, _, _, lists_state hl hx⟩

theorem evGood_phase2 {target : Nat} {s s' : EvM} (hp : Phase2 target s s') (h : EvGood s) : EvGood s' := by
  induction hp with
  | enough | none => exact h
  | skip _ _ _ _ _ ih => exact ih h
  | pop x m _ _ hm _ ih => exact ih (evGood_state h hm)

/-- If the search finds nothing there is no unlocked leaf. -/
theorem no_leaf {s : EvM} (h : EvGood s) (hn : s.c.flru.Lru (leafFree s.c.cache.tree) none) : ∀ x ∈ ids s.c.cache.tree, leafFree s.c.cache.tree x = false := by
  obtain ⟨lf, lm, hl⟩ := h.lists
  have := (rep_lru hl.full).1 hn
  have h2 := List.find?_eq_none.1 this.symm
  intro x hx
  have := h2 x (List.mem_reverse.2 ((hl.fmem x).2 hx))
  simpa using this

/-- The second loop never meets a node without state. -/
theorem no_skip {s : EvM} (h : EvGood s) {ok : Nat → Bool} {x : Nat} (hx : s.c.mlru.Lru ok (some x)) : s.c.mv x ≠ none := by
  obtain ⟨lf, lm, hl⟩ := h.lists
  have := ((rep_lru hl.mam).1 hx).symm
  exact (hl.mmem x).1 (List.mem_reverse.1 (List.mem_of_find?_eq_some this))

theorem phase1_total (target : Nat) : ∀ (k : Nat) (s : EvM), EvGood s → (ids s.c.cache.tree).length = k → ∃ s', Phase1 target s s' := by
  intro k
  induction k with
  | zero =>
    intro s h hk
    by_cases hc : target ≤ s.full
    · exact ⟨s, .enough s hc⟩
    · refine ⟨s, .none s (by omega) ?_⟩
      obtain ⟨lf, lm, hl⟩ := h.lists
      rw [rep_lru hl.full]
      symm
      rw [List.find?_eq_none]
      intro x hx
      have := (hl.fmem x).1 (List.mem_reverse.1 hx)
      have h0 : ids s.c.cache.tree = [] := List.eq_nil_of_length_eq_zero hk
      unfold isTree at this
      rw [h0] at this
      cases this
  | succ k ih =>
    intro s h hk
    by_cases hc : target ≤ s.full
    · exact ⟨s, .enough s hc⟩
    · obtain ⟨lf, lm, hl⟩ := h.lists
      cases hf : lf.reverse.find? (leafFree s.c.cache.tree) with
      | none => exact ⟨s, .none s (by omega) ((rep_lru hl.full).2 hf.symm)⟩
      | some x =>
        have hx := (rep_lru hl.full).2 hf.symm
        obtain ⟨-, h2, -⟩ := lists_leaf h.nodup hl (find_leaf hx)
        have hlen := h2.length_eq
        obtain ⟨s', hs⟩ := ih (evictLeaf s x) (evGood_leaf h (find_leaf hx)) (by simp at hlen; omega)
        exact ⟨s', .pop x (by omega) hx hs⟩

theorem phase2_total (target : Nat) : ∀ (k : Nat) (s : EvM), EvGood s → ∀ lf lm, Lists (isTree s.c) s.c lf lm → lm.length = k → ∃ s', Phase2 target s s' := by
  intro k
  induction k with
  | zero =>
    intro s h lf lm hl hk
    by_cases hc : target ≤ s.mamba
    · exact ⟨s, .enough s hc⟩
    · refine ⟨s, .none s (by omega) ?_⟩
      rw [rep_lru hl.mam, List.eq_nil_of_length_eq_zero hk]
      rfl
  | succ k ih =>
    intro s h lf lm hl hk
    by_cases hc : target ≤ s.mamba
    · exact ⟨s, .enough s hc⟩
    · cases hf : lm.reverse.find? (fun i => s.c.ml i == 0) with
      | none => exact ⟨s, .none s (by omega) ((rep_lru hl.mam).2 hf.symm)⟩
      | some x =>
        have hx := (rep_lru hl.mam).2 hf.symm
        have hin : x ∈ lm := List.mem_reverse.1 (List.mem_of_find?_eq_some hf)
        cases hm : s.c.mv x with
        | none => exact absurd hm (no_skip h hx)
        | some m =>
          obtain ⟨s', hs⟩ := ih (evictState s x m) (evGood_state h hm) lf (lm.erase x) (lists_state hl hm) (by
            rw [List.length_erase_of_mem hin]; omega)
          exact ⟨s', .pop x m (by omega) hx hm hs⟩

/-! ### Every reachable state -/

structure MInv (P : Nat) (s : St) : Prop where
  inv : Inv P ⟨s.c.cache, s.held⟩
  time : NoTime s.c.cache.tree
  lists : ∃ lf lm, Lists (isTree s.c) s.c lf lm
  ml : ∀ i, 0 ≤ s.c.ml i

theorem MInv.good {P : Nat} {s : St} (h : MInv P s) (fr mf a b) : EvGood ⟨s.c, fr, mf, a, b⟩ := ⟨h.inv.nodup, h.time, h.lists⟩

theorem phase1_ml {target : Nat} {s s' : EvM} (hp : Phase1 target s s') : s'.c.ml = s.c.ml ∧ s'.c.mPr = s.c.mPr := by
  induction hp with
  | enough | none => exact ⟨rfl, rfl⟩
  | pop x _ _ _ ih =>
    rw [ih.1, ih.2]
    unfold evictLeaf
    split <;> exact ⟨rfl, rfl⟩

/-- `evict` does to the tree what an eviction of `RadixCache` may do. -/
theorem evict_sim {P : Nat} {s : St} (h : MInv P s) {target mtarget : Nat} {r : EvM} (he : s.c.Evict target mtarget r) :
    PyRadix.Evict target s.c.cache r.freed r.c.cache := by
  obtain ⟨m, h1, h2⟩ := he
  obtain ⟨c1, c2, c3, -, -⟩ := phase2_cache h2
  rw [c1, c2]
  unfold PyRadix.Evict
  by_cases h0 : target = 0
  · rw [if_pos h0]
    subst h0
    cases h1 with
    | enough => exact ⟨rfl, rfl⟩
    | none => exact ⟨rfl, rfl⟩
    | pop x hc => exact absurd hc (by simp)
  · rw [if_neg h0]
    have hs : SimEv P s.held s.c.cache ⟨s.c, [], [], 0, 0⟩ ⟨s.c.cache, (evictableLeaves s.c.cache.tree).map fun n => (n.time, n.id), [], 0⟩ := by
      refine ⟨evInv_init h.inv, rfl, rfl, rfl, fun p hp => ?_, h.time⟩
      simp only [List.mem_map] at hp
      obtain ⟨n, hn, rfl⟩ := hp
      exact h.time n (List.mem_of_mem_filter hn)
    obtain ⟨es', hr, hs'⟩ := sim_phase1 h1 (fun t ht hn => no_leaf (evGood_phase1 ht (h.good _ _ _ _)) hn) hs
    exact ⟨es', hr, hs'.freed.symm, hs'.cache.symm⟩

/-- The lists after a match. -/
theorem lists_match {P : Nat} {c : MC} {e : Ext} {key : Key} {lf lm} (hl : Lists (isTree c) c lf lm) (hlt : ∀ i ∈ ids c.cache.tree, i < c.cache.fresh)
    (hn : (ids (mwalk P e c.cache.fresh c.cache.tree (align P key)).tree).Nodup) :
    let w := mwalk P e c.cache.fresh c.cache.tree (align P key)
    let up := w.hits.reverse.map (·.1)
    let c' := (c.matchPrefix P e key).2
    Lists (isTree c') c' (up ++ (w.split.toList.map (·.2.1) ++ lf).filter (fun i => decide (i ∉ up)))
      (up.filter (fun i => decide (c'.mv i ≠ none)) ++ (splitM c.mv lm w.split).filter (fun i => decide (i ∉ up))) := by
  intro w up c'
  have ok : WalkOk c.cache.tree c.cache.fresh w.split none w.tree w.fresh := mwalk_ok c.cache.tree (align P key)
  have h1 : Lists (isTree c) { c with cache := { c.cache with tree := w.tree, fresh := w.fresh } } lf lm := ⟨hl.full, hl.fmem, hl.mam, hl.mmem, hl.sub⟩
  have h2 := lists_split h1 w.split (fun a new n hs => by
    obtain ⟨e1, e2⟩ := ok.split a new n hs
    exact ⟨e2, fun hi => by have := hlt _ hi; omega⟩)
  have hids : ∀ i, i ∈ ids w.tree ↔ (i ∈ w.split.toList.map (·.2.1) ∨ isTree c i) := by
    intro i
    rw [ok.ids.mem_iff]
    simp [isTree]
  have hit : (w.hits.map (·.1)).Sublist (ids w.tree) := mwalk_hits c.cache.tree (align P key)
  have h3 := lists_touch h2 (up := up) (by
    show (w.hits.reverse.map (·.1)).Nodup
    rw [List.map_reverse, List.nodup_reverse]
    exact hn.sublist hit) (fun i hi => by
    rw [← hids]
    refine hit.subset ?_
    have : i ∈ w.hits.reverse.map (·.1) := hi
    rwa [List.map_reverse, List.mem_reverse] at this)
  refine h3.congr fun i => ?_
  rw [← hids]
  show i ∈ ids (c.matchPrefix P e key).2.cache.tree ↔ _
  have : (c.matchPrefix P e key).2.cache.tree = w.tree := by
    unfold MC.matchPrefix
    simp only [split_cache]
    rfl
  rw [this]

/-- The lists after an insertion. -/
theorem lists_insert {P : Nat} {c : MC} {e : Ext} {key : Key} {val : Slots} {mval : Option Slots} {lf lm} (hl : Lists (isTree c) c lf lm)
    (hlt : ∀ i ∈ ids c.cache.tree, i < c.cache.fresh) (hk : key ≠ []) :
    let r := minsRoot P e c.cache.fresh c.cache.tree key val
    let c1 := { c with cache := { c.cache with tree := r.tree, fresh := r.fresh, evictable := c.cache.evictable + r.dEvict } }.split r.split
    let c' := (c.insert P e key val mval).2
    Lists (isTree c') c' (r.leaf.toList.map (·.1) ++ (r.split.toList.map (·.2.1) ++ lf)) (storeM c1 (splitM c.mv lm r.split) r mval) := by
  intro r c1 c'
  have ok : WalkOk c.cache.tree c.cache.fresh r.split r.leaf r.tree r.fresh := minsRoot_ok c.cache.tree key val
  have hlast : LastOk r := minsRoot_last c.cache.tree key val
  have h1 : Lists (isTree c) { c with cache := { c.cache with tree := r.tree, fresh := r.fresh, evictable := c.cache.evictable + r.dEvict } } lf lm :=
    ⟨hl.full, hl.fmem, hl.mam, hl.mmem, hl.sub⟩
  have h2 := lists_split h1 r.split (fun a new n hs => by
    obtain ⟨e1, e2⟩ := ok.split a new n hs
    exact ⟨e2, fun hi => by have := hlt _ hi; omega⟩)
  have h3 := lists_store h2 r mval (fun i n hi => by
    have hle := ok.leaf i n hi
    rintro (hm | hm)
    · simp only [List.mem_map, Option.mem_toList] at hm
      obtain ⟨⟨a, new, m⟩, hs, rfl⟩ := hm
      have := (ok.split a new m hs).1
      rw [hs] at hle
      simp at hle
      omega
    · have := hlt _ hm; omega) (fun hn => by
    obtain ⟨m, hm, e1, -⟩ := hlast.node hn
    have := ok.ids.mem_iff.1 (mem_ids_of hm)
    rw [hn, e1] at this
    simpa [isTree] using this)
  have hc : (c.insert P e key val mval).2 = c1.store r mval := by unfold MC.insert; rw [if_neg hk]
  show Lists (isTree (c.insert P e key val mval).2) (c.insert P e key val mval).2 _ _
  rw [hc]
  refine h3.congr fun i => ?_
  have : (c1.store r mval).cache.tree = r.tree := by rw [store_cache, split_cache]
  show i ∈ ids (c1.store r mval).cache.tree ↔ _
  rw [this, ok.ids.mem_iff]
  simp only [List.mem_append, isTree]
  tauto

theorem split_ml {c : MC} {sp : Option (Nat × Nat × Nat)} (h : ∀ i, 0 ≤ c.ml i) : ∀ i, 0 ≤ (c.split sp).ml i := by
  intro i
  cases sp with
  | none => exact h i
  | some p =>
    obtain ⟨a, new, n⟩ := p
    show 0 ≤ Function.update c.ml new (c.ml a) i
    rw [Function.update_apply]
    split
    · exact h a
    · exact h i

theorem store_ml (c : MC) (r : MIns) (m : Option Slots) : (c.store r m).ml = c.ml := by
  unfold MC.store
  split
  · split <;> rfl
  · split <;> rfl

theorem lockState_rest (s : MC) (x : Nat) : (s.lockState x).flru = s.flru ∧ (s.lockState x).mlru = s.mlru ∧ (s.lockState x).mv = s.mv := by
  unfold MC.lockState
  split
  · exact ⟨rfl, rfl, rfl⟩
  · split <;> exact ⟨rfl, rfl, rfl⟩

theorem unlockState_rest (s : MC) (x : Nat) : (s.unlockState x).flru = s.flru ∧ (s.unlockState x).mlru = s.mlru ∧ (s.unlockState x).mv = s.mv := by
  unfold MC.unlockState
  split
  · split <;> exact ⟨rfl, rfl, rfl⟩
  · exact ⟨rfl, rfl, rfl⟩

theorem lock_ml (s : MC) (x : Nat) : (s.lock x).ml = if s.mv x = none then s.ml else Function.update s.ml x (s.ml x + 1) := by
  show (s.lockState x).ml = _
  unfold MC.lockState
  cases hm : s.mv x with
  | none => simp
  | some m => simp only [reduceCtorEq, if_false]; split <;> rfl

theorem unlock_ml (s : MC) (x : Nat) : (s.unlock x).ml = if 0 < s.ml x then Function.update s.ml x (s.ml x - 1) else s.ml := by
  show (s.unlockState x).ml = _
  unfold MC.unlockState
  split
  · split <;> rfl
  · rfl

theorem lists_lock {c : MC} {lf lm} (h : Lists (isTree c) c lf lm) (x : Nat) : Lists (isTree (c.lock x)) (c.lock x) lf lm := by
  obtain ⟨e1, e2, e3⟩ := lockState_rest c x
  have hm : (c.lock x).mv = c.mv := e3
  have ht : ∀ i, isTree (c.lock x) i ↔ isTree c i := fun i => by
    show i ∈ ids (addLock x 1 c.cache.tree) ↔ _
    rw [ids_addLock]; rfl
  exact ⟨by show Rep (c.lockState x).flru lf; rw [e1]; exact h.full, fun i => (h.fmem i).trans (ht i).symm,
    by show Rep (c.lockState x).mlru lm; rw [e2]; exact h.mam, fun i => by rw [hm]; exact h.mmem i, fun i hi => (ht i).2 (h.sub i (by rw [← hm]; exact hi))⟩

theorem lists_unlock {c : MC} {lf lm} (h : Lists (isTree c) c lf lm) (x : Nat) : Lists (isTree (c.unlock x)) (c.unlock x) lf lm := by
  obtain ⟨e1, e2, e3⟩ := unlockState_rest c x
  have hm : (c.unlock x).mv = c.mv := e3
  have ht : ∀ i, isTree (c.unlock x) i ↔ isTree c i := fun i => by
    show i ∈ ids (addLock x (-1) c.cache.tree) ↔ _
    rw [ids_addLock]; rfl
  exact ⟨by show Rep (c.unlockState x).flru lf; rw [e1]; exact h.full, fun i => (h.fmem i).trans (ht i).symm,
    by show Rep (c.unlockState x).mlru lm; rw [e2]; exact h.mam, fun i => by rw [hm]; exact h.mmem i, fun i hi => (ht i).2 (h.sub i (by rw [← hm]; exact hi))⟩

/-- A call is a call of `RadixCache` on the tree. -/
theorem step_sim {P : Nat} {s s' : St} {op : Op} (h : MInv P s) (hs : Step P s op s') :
    PyRadix.Step P ⟨s.c.cache, s.held⟩ op.erase ⟨s'.c.cache, s'.held⟩ := by
  cases hs with
  | matchPrefix e key =>
    have := PyRadix.Step.matchPrefix (P := P) (s := ⟨s.c.cache, s.held⟩) 0 e key
    rw [match_eq] at this
    exact this
  | insert e key val mval hl hd =>
    have := PyRadix.Step.insert (P := P) (s := ⟨s.c.cache, s.held⟩) 0 e key val hl hd
    rw [insert_eq P s.c e key val mval] at this
    exact this
  | lock x hx => exact .lock x hx
  | unlock x hx => exact .unlock x hx
  | evict target mtarget r he => exact .evict target r.freed r.c.cache (evict_sim h he)

theorem match_nodup {P : Nat} (hP : 0 < P) {s : St} (h : MInv P s) (e : Ext) (key : Key) :
    (ids (mwalk P e s.c.cache.fresh s.c.cache.tree (align P key)).tree).Nodup := by
  have hi := (inv_step hP h.inv (step_sim h (Step.matchPrefix e key))).nodup
  have : (s.c.matchPrefix P e key).2.cache.tree = (mwalk P e s.c.cache.fresh s.c.cache.tree (align P key)).tree := by
    unfold MC.matchPrefix
    simp only [split_cache]
  rw [← this]
  exact hi

theorem mInv_step {P : Nat} (hP : 0 < P) {s s' : St} {op : Op} (h : MInv P s) (hs : Step P s op s') : MInv P s' := by
  have hi := inv_step hP h.inv (step_sim h hs)
  obtain ⟨lf, lm, hl⟩ := h.lists
  cases hs with
  | matchPrefix e key =>
    refine ⟨hi, ?_, ⟨_, _, lists_match hl h.inv.lt (match_nodup hP h e key)⟩, ?_⟩
    · have : (s.c.matchPrefix P e key).2.cache.tree = (mwalk P e s.c.cache.fresh s.c.cache.tree (align P key)).tree := by
        unfold MC.matchPrefix
        simp only [split_cache]
      show NoTime (s.c.matchPrefix P e key).2.cache.tree
      rw [this]; exact noTime_mwalk h.time
    · exact split_ml h.ml
  | insert e key val mval hlen hd =>
    by_cases hk : key = []
    · have e0 : (s.c.insert P e key val mval).2 = s.c := by unfold MC.insert; rw [if_pos hk]
      simp only [e0] at hi ⊢
      exact h
    · refine ⟨hi, ?_, ⟨_, _, lists_insert hl h.inv.lt hk⟩, ?_⟩
      · have : (s.c.insert P e key val mval).2.cache.tree = (minsRoot P e s.c.cache.fresh s.c.cache.tree key val).tree := by
          unfold MC.insert
          rw [if_neg hk]
          simp only [store_cache, split_cache]
        show NoTime (s.c.insert P e key val mval).2.cache.tree
        rw [this]; exact noTime_minsRoot h.time
      · show ∀ i, 0 ≤ (s.c.insert P e key val mval).2.ml i
        unfold MC.insert
        rw [if_neg hk]
        simp only [store_ml]
        exact split_ml h.ml
  | lock x hx =>
    refine ⟨hi, noTime_addLock h.time, ⟨_, _, lists_lock hl x⟩, fun i => ?_⟩
    show 0 ≤ (s.c.lock x).ml i
    rw [lock_ml]
    split
    · exact h.ml i
    · rw [Function.update_apply]
      split
      · have := h.ml x; omega
      · exact h.ml i
  | unlock x hx =>
    refine ⟨hi, noTime_addLock h.time, ⟨_, _, lists_unlock hl x⟩, fun i => ?_⟩
    show 0 ≤ (s.c.unlock x).ml i
    rw [unlock_ml]
    split
    · rw [Function.update_apply]
      split
      · omega
      · exact h.ml i
    · exact h.ml i
  | evict target mtarget r he =>
    obtain ⟨m, h1, h2⟩ := he
    have g := evGood_phase2 h2 (evGood_phase1 h1 (h.good _ _ _ _))
    refine ⟨hi, g.time, g.lists, fun i => ?_⟩
    rw [(phase2_cache h2).2.2.2.2, (phase1_ml h1).1]
    exact h.ml i

theorem mInv_init (P : Nat) : MInv P ⟨.empty, []⟩ :=
  ⟨inv_init P, noTime_nil, ⟨[], [], rep_empty, by simp [isTree, MC.empty, Cache.empty, ids], rep_empty, by simp [MC.empty], by simp [MC.empty]⟩,
    fun _ => le_refl _⟩

theorem mInv_reach {P : Nat} (hP : 0 < P) {ops : List Op} {s : St} (h : Reach P ops s) : MInv P s := by
  induction h with
  | init => exact mInv_init P
  | step _ hs ih => exact mInv_step hP ih hs

/-- Every history is a history of `RadixCache` on the tree. -/
theorem reach_sim {P : Nat} (hP : 0 < P) {ops : List Op} {s : St} (h : Reach P ops s) :
    PyRadix.Reach P (ops.map Op.erase) ⟨s.c.cache, s.held⟩ := by
  induction h with
  | init => exact .init
  | step hr hs ih => exact .step ih (step_sim (mInv_reach hP hr) hs)

end Verif.Mamba
