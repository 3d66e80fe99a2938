import Verif.Mamba.Sim

/-! What holds in every state of `MambaRadixCache`. -/
namespace Verif.Mamba
open Verif.PyRadix hiding St Step Reach Op Inv inv_reach

/-! ### What the walks do to the nodes -/

theorem mwalk_hits {P : Nat} {e : Ext} {fresh : Nat} : ∀ (f : Forest) (key : Key),
    ((mwalk P e fresh f key).hits.map (·.1)).Sublist (ids (mwalk P e fresh f key).tree)
  | .nil, _ => by simp [mwalk]
  | .node i k x v l t kids rest, key => by
    unfold mwalk
    split
    · simp
    · split
      · split
        · simp [ids]
        · simp only [List.map_cons, ids]
          exact ((mwalk_hits kids _).trans (List.sublist_append_left _ _)).cons_cons _
      · simp only [ids]
        exact ((mwalk_hits rest _).trans (List.sublist_append_right _ _)).trans (List.sublist_cons_self _ _)

/-- The new nodes of a walk. -/
structure WalkOk (f : Forest) (fresh : Nat) (sp : Option (Nat × Nat × Nat)) (lf : Option (Nat × Nat)) (f' : Forest) (fresh' : Nat) : Prop where
  ids : (ids f').Perm ((lf.toList.map (·.1)) ++ (sp.toList.map (·.2.1)) ++ ids f)
  split : ∀ c new n, sp = some (c, new, n) → new = fresh ∧ c ∈ Verif.PyRadix.ids f
  leaf : ∀ i n, lf = some (i, n) → i = fresh + sp.toList.length
  fresh : fresh' = fresh + sp.toList.length + lf.toList.length

theorem WalkOk.kids {kids kids' : Forest} {a b : Nat} {sp lf} (h : WalkOk kids a sp lf kids' b) (i k x v l t t' rest) :
    WalkOk (.node i k x v l t kids rest) a sp lf (.node i k x v l t' kids' rest) b := by
  refine ⟨?_, fun c new n hs => ?_, h.leaf, h.fresh⟩
  · simp only [Verif.PyRadix.ids]
    refine ((h.ids.append_right _).cons i).trans ?_
    rw [List.append_assoc]
    exact List.perm_middle.symm
  · obtain ⟨h1, h2⟩ := h.split c new n hs
    exact ⟨h1, by simp [Verif.PyRadix.ids, h2]⟩

theorem WalkOk.rest {rest rest' : Forest} {a b : Nat} {sp lf} (h : WalkOk rest a sp lf rest' b) (i k x v l t kids) :
    WalkOk (.node i k x v l t kids rest) a sp lf (.node i k x v l t kids rest') b := by
  refine ⟨?_, fun c new n hs => ?_, h.leaf, h.fresh⟩
  · simp only [Verif.PyRadix.ids]
    refine ((h.ids.append_left (Verif.PyRadix.ids kids)).cons i).trans ?_
    refine List.Perm.trans (List.Perm.cons i ?_) List.perm_middle.symm
    rw [← List.append_assoc, ← List.append_assoc (_ ++ _) (Verif.PyRadix.ids kids)]
    exact List.perm_append_comm.append_right _
  · obtain ⟨h1, h2⟩ := h.split c new n hs
    exact ⟨h1, by simp [Verif.PyRadix.ids, h2]⟩

theorem WalkOk.same (i k x v l t t' kids rest fresh) :
    WalkOk (.node i k x v l t kids rest) fresh none none (.node i k x v l t' kids rest) fresh :=
  ⟨by simp [Verif.PyRadix.ids], by simp, by simp, by simp⟩

theorem ids_addLeaf (i k e v t) : ∀ f : Forest, (ids (addLeaf i k e v t f)).Perm (i :: ids f)
  | .nil => by simp [addLeaf, ids]
  | .node j k' x v' l t' kids rest => by
    simp only [addLeaf, ids]
    refine (((ids_addLeaf i k e v t rest).append_left _).cons j).trans ?_
    exact (List.Perm.cons j List.perm_middle).trans (List.Perm.swap _ _ _)

theorem WalkOk.addLeaf (f : Forest) (fresh k e v t m) : WalkOk f fresh none (some (fresh, m)) (addLeaf fresh k e v t f) (fresh + 1) :=
  ⟨by simpa using ids_addLeaf fresh k e v t f, by simp, by simp, by simp⟩

theorem mwalk_ok {P : Nat} {e : Ext} {fresh : Nat} : ∀ (f : Forest) (key : Key),
    WalkOk f fresh (mwalk P e fresh f key).split none (mwalk P e fresh f key).tree (mwalk P e fresh f key).fresh
  | .nil, _ => ⟨by simp [mwalk], by simp [mwalk], by simp, by simp [mwalk]⟩
  | .node i k x v l t kids rest, key => by
    unfold mwalk
    split
    · exact WalkOk.same ..
    · split
      · split
        · exact ⟨by simp [ids], by simp [ids], by simp, by simp⟩
        · exact (mwalk_ok kids _).kids ..
      · exact (mwalk_ok rest _).rest ..

theorem minsWalk_ok {P : Nat} {e : Ext} {fresh : Nat} : ∀ (f : Forest) (key : Key) (val : Slots) {r : MIns},
    minsWalk P e fresh f key val = some r → WalkOk f fresh r.split r.leaf r.tree r.fresh
  | .nil, _, _, _, h => by cases h
  | .node i k x v l t kids rest, key, val, r, h => by
    unfold minsWalk at h
    simp only at h
    split at h
    · split at h
      · split at h
        · cases h; exact ⟨by simp [ids], by simp [ids], by simp, by simp⟩
        · cases h
          refine ⟨?_, by simp [ids], by simp, by simp⟩
          simp only [ids, addLeaf, Option.toList, List.map_cons, List.map_nil, List.cons_append, List.nil_append, List.append_nil]
          refine List.Perm.trans ?_ (List.Perm.swap _ _ _)
          refine List.Perm.cons _ ?_
          rw [List.append_assoc]
          refine List.Perm.trans ?_ (List.Perm.swap _ _ _)
          exact List.Perm.cons _ List.perm_middle
      · split at h
        · cases h; exact WalkOk.same ..
        · split at h
          · rename_i q hq; cases h; exact (minsWalk_ok kids _ _ hq).kids ..
          · cases h; exact (WalkOk.addLeaf kids fresh _ e _ 0 _).kids ..
    · split at h
      · rename_i q hq; cases h; exact (minsWalk_ok rest _ _ hq).rest ..
      · cases h

theorem minsRoot_ok {P : Nat} {e : Ext} {fresh : Nat} (f : Forest) (key : Key) (val : Slots) :
    WalkOk f fresh (minsRoot P e fresh f key val).split (minsRoot P e fresh f key val).leaf (minsRoot P e fresh f key val).tree
      (minsRoot P e fresh f key val).fresh := by
  unfold minsRoot
  split
  · rename_i r hr; exact minsWalk_ok _ _ _ hr
  · exact WalkOk.addLeaf ..

/-- The last node of an insertion: the new leaf, or a node of the tree, with the length of its value. -/
structure LastOk (r : MIns) : Prop where
  leaf : ∀ i n, r.leaf = some (i, n) → r.last = i
  node : r.leaf = none → ∃ m ∈ infos r.tree, m.id = r.last ∧ m.val.length = r.vlen
  path : ∀ i ∈ r.path, i ∈ ids r.tree

theorem minsWalk_last {P : Nat} {e : Ext} {fresh : Nat} : ∀ (f : Forest) (key : Key) (val : Slots) {r : MIns},
    minsWalk P e fresh f key val = some r → LastOk r
  | .nil, _, _, _, h => by cases h
  | .node i k x v l t kids rest, key, val, r, h => by
    unfold minsWalk at h
    simp only at h
    split at h
    · split at h
      · split at h
        · cases h; exact ⟨by simp, fun _ => ⟨_, List.mem_cons_self, rfl, rfl⟩, by simp [ids]⟩
        · cases h; exact ⟨by simp, by simp, by simp [ids]⟩
      · split at h
        · cases h; exact ⟨by simp, fun _ => ⟨_, List.mem_cons_self, rfl, rfl⟩, by simp [ids]⟩
        · split at h
          · rename_i q hq
            cases h
            have hl := minsWalk_last kids _ _ hq
            refine ⟨hl.leaf, fun hn => ?_, fun j hj => ?_⟩
            · obtain ⟨m, hm, h1⟩ := hl.node hn
              exact ⟨m, by simp [infos, hm], h1⟩
            · rcases List.mem_cons.1 hj with rfl | hj
              · simp [ids]
              · simp [ids, hl.path j hj]
          · cases h; exact ⟨by simp, by simp, by simp [ids]⟩
    · split at h
      · rename_i q hq
        cases h
        have hl := minsWalk_last rest _ _ hq
        refine ⟨hl.leaf, fun hn => ?_, fun j hj => ?_⟩
        · obtain ⟨m, hm, h1⟩ := hl.node hn
          exact ⟨m, by simp [infos, hm], h1⟩
        · simp [ids, hl.path j hj]
      · cases h

theorem minsRoot_last {P : Nat} {e : Ext} {fresh : Nat} (f : Forest) (key : Key) (val : Slots) : LastOk (minsRoot P e fresh f key val) := by
  unfold minsRoot
  split
  · rename_i r hr; exact minsWalk_last _ _ _ hr
  · exact ⟨by simp, by simp, by simp⟩

/-! ### The lists -/

/-- The list objects hold the nodes `lf` and `lm`, most recently used first: the nodes `I`, and those of them with a state. -/
structure Lists (I : Nat → Prop) (c : MC) (lf lm : List Nat) : Prop where
  full : Rep c.flru lf
  fmem : ∀ i, i ∈ lf ↔ I i
  mam : Rep c.mlru lm
  mmem : ∀ i, i ∈ lm ↔ c.mv i ≠ none
  sub : ∀ i, c.mv i ≠ none → I i

def isTree (c : MC) : Nat → Prop := fun i => i ∈ ids c.cache.tree

theorem Lists.congr {I J : Nat → Prop} {c : MC} {lf lm} (h : Lists I c lf lm) (he : ∀ i, J i ↔ I i) : Lists J c lf lm :=
  ⟨h.full, fun i => (h.fmem i).trans (he i).symm, h.mam, h.mmem, fun i hi => (he i).2 (h.sub i hi)⟩

/-- The list of states after a split. -/
def splitM (mv : Nat → Option Slots) (lm : List Nat) : Option (Nat × Nat × Nat) → List Nat
  | none => lm
  | some (c, new, _) => if mv c = none then lm else new :: lm

theorem lists_split {I : Nat → Prop} {c : MC} {lf lm} (h : Lists I c lf lm) (sp : Option (Nat × Nat × Nat))
    (hs : ∀ a new n, sp = some (a, new, n) → I a ∧ ¬ I new) :
    Lists (fun i => i ∈ sp.toList.map (·.2.1) ∨ I i) (c.split sp) (sp.toList.map (·.2.1) ++ lf) (splitM c.mv lm sp) := by
  cases sp with
  | none => exact ⟨h.full, fun i => by simp [h.fmem], h.mam, h.mmem, fun i hi => .inr (h.sub i hi)⟩
  | some p =>
    obtain ⟨a, new, n⟩ := p
    obtain ⟨ha, hn⟩ := hs a new n rfl
    have hnf : new ∉ lf := fun hm => hn ((h.fmem new).1 hm)
    have hnm : new ∉ lm := fun hm => hn (h.sub _ ((h.mmem new).1 hm))
    have hne : new ≠ a := fun he => hn (he ▸ ha)
    have hI : ∀ i, i ∈ (some (a, new, n)).toList.map (·.2.1) ∨ I i ↔ i = new ∨ I i := by intro i; simp
    refine ⟨rep_insert h.full hnf, fun i => ?_, ?_, ?_, ?_⟩
    · rw [hI]; simp [h.fmem]
    · unfold MC.split splitM
      simp only
      cases hm : c.mv a with
      | none => simpa using h.mam
      | some m => simpa using rep_insert h.mam hnm
    · intro i
      unfold MC.split splitM
      simp only
      cases hm : c.mv a with
      | none => simpa using h.mmem i
      | some m =>
        simp only [reduceCtorEq, if_false, List.mem_cons]
        rw [Function.update_apply]
        split
        · rename_i he; subst he; simp [h.mmem, hm]
        · rw [Function.update_apply]
          split
          · rename_i he; simp [he]
          · rename_i he; simp [he, h.mmem]
    · intro i hi
      rw [hI]
      unfold MC.split at hi
      simp only at hi
      cases hm : c.mv a with
      | none => rw [hm] at hi; exact .inr (h.sub i hi)
      | some m =>
        rw [hm] at hi
        simp only at hi
        by_cases h1 : i = a
        · exact .inr (h1 ▸ ha)
        · rw [Function.update_of_ne h1] at hi
          by_cases h2 : i = new
          · exact .inl h2
          · rw [Function.update_of_ne h2] at hi; exact .inr (h.sub i hi)

/-- The list of states after the end of an insertion. -/
def storeM (c : MC) (lm : List Nat) (r : MIns) (mval : Option Slots) : List Nat :=
  if mval = none then lm
  else match r.leaf with
    | some (i, _) => i :: lm
    | none => if c.mv r.last = none then r.last :: lm else lm

theorem lists_store {I : Nat → Prop} {c : MC} {lf lm} (h : Lists I c lf lm) (r : MIns) (mval : Option Slots)
    (hl : ∀ i n, r.leaf = some (i, n) → ¬ I i) (hn : r.leaf = none → I r.last) :
    Lists (fun i => i ∈ r.leaf.toList.map (·.1) ∨ I i) (c.store r mval) (r.leaf.toList.map (·.1) ++ lf) (storeM c lm r mval) := by
  unfold MC.store storeM
  cases hlf : r.leaf with
  | some p =>
    obtain ⟨i, n⟩ := p
    have hi := hl i n hlf
    have hif : i ∉ lf := fun hm => hi ((h.fmem i).1 hm)
    have him : i ∉ lm := fun hm => hi (h.sub _ ((h.mmem i).1 hm))
    have hI : ∀ j, j ∈ (some (i, n)).toList.map (·.1) ∨ I j ↔ j = i ∨ I j := by intro j; simp
    cases mval with
    | none =>
      refine ⟨rep_insert h.full hif, fun j => ?_, h.mam, h.mmem, fun j hj => ?_⟩
      · rw [hI]; simp [h.fmem]
      · rw [hI]; exact .inr (h.sub j hj)
    | some m =>
      refine ⟨rep_insert h.full hif, fun j => ?_, rep_insert h.mam him, fun j => ?_, fun j hj => ?_⟩
      · rw [hI]; simp [h.fmem]
      · simp only [reduceCtorEq, if_false, List.mem_cons]
        rw [Function.update_apply]
        split
        · rename_i he; simp [he]
        · rename_i he; simp [he, h.mmem]
      · rw [hI]
        by_cases he : j = i
        · exact .inl he
        · simp only at hj; rw [Function.update_of_ne he] at hj; exact .inr (h.sub j hj)
  | none =>
    have hc : Lists (fun i => i ∈ (none : Option (Nat × Nat)).toList.map (·.1) ∨ I i) c ((none : Option (Nat × Nat)).toList.map (·.1) ++ lf) lm := by
      simpa using h
    cases mval with
    | none => simpa using h
    | some m =>
      cases hm : c.mv r.last with
      | some q => simpa [hm] using h
      | none =>
        have hx : r.last ∉ lm := fun hx => (h.mmem _).1 hx hm
        refine ⟨by simpa using h.full, fun j => by simp [h.fmem], by simpa [hm] using rep_insert h.mam hx, fun j => ?_, fun j hj => ?_⟩
        · simp only [hm, reduceCtorEq, if_false, if_true, List.mem_cons]
          rw [Function.update_apply]
          split
          · rename_i he; simp [he]
          · rename_i he; simp [he, h.mmem]
        · right
          by_cases he : j = r.last
          · exact he ▸ hn hlf
          · simp only at hj; rw [Function.update_of_ne he] at hj; exact h.sub j hj

/-- Touching the nodes of a path, deepest first. -/
theorem lists_touch {I : Nat → Prop} {c : MC} {lf lm} (h : Lists I c lf lm) {up : List Nat} (hn : up.Nodup) (hI : ∀ i ∈ up, I i) :
    Lists I { c with flru := c.flru.touch (fun _ => false) up .head, mlru := c.mlru.touch (fun i => c.mv i == none) up .head }
      (up ++ lf.filter (fun i => decide (i ∉ up))) (up.filter (fun i => decide (c.mv i ≠ none)) ++ lm.filter (fun i => decide (i ∉ up))) := by
  have t1 := rep_touch (skip := fun _ => false) (done := []) (rest := lf) (L := c.flru) h.full hn (by simp)
  have t2 := rep_touch (skip := fun i => c.mv i == none) (done := []) (rest := lm) (L := c.mlru) h.mam hn (by simp)
  simp only [List.nil_append, endC] at t1 t2
  have e1 : up.filter (fun i => decide (i ∈ lf) && !false) = up := by
    rw [List.filter_eq_self]
    intro i hi
    simp [(h.fmem i).2 (hI i hi)]
  have e2 : up.filter (fun i => decide (i ∈ lm) && !(c.mv i == none)) = up.filter (fun i => decide (c.mv i ≠ none)) := by
    refine List.filter_congr fun i hi => ?_
    by_cases hm : c.mv i = none
    · simp [hm]
    · have := (h.mmem i).2 hm
      cases hq : c.mv i with
      | none => exact absurd hq hm
      | some q => simp [this]
  have e3 : lf.filter (fun i => !(decide (i ∈ up) && !false)) = lf.filter (fun i => decide (i ∉ up)) := by
    refine List.filter_congr fun i hi => ?_
    by_cases hm : i ∈ up <;> simp [hm]
  have e4 : lm.filter (fun i => !(decide (i ∈ up) && !(c.mv i == none))) = lm.filter (fun i => decide (i ∉ up)) := by
    refine List.filter_congr fun i hi => ?_
    have := (h.mmem i).1 hi
    cases hq : c.mv i with
    | none => exact absurd hq this
    | some q => by_cases hm : i ∈ up <;> simp [hm]
  rw [e1, e3] at t1
  rw [e2, e4] at t2
  refine ⟨t1, fun i => ?_, t2, fun i => ?_, h.sub⟩
  · simp only [List.mem_append, List.mem_filter, decide_eq_true_eq, h.fmem]
    constructor
    · rintro (hi | ⟨hi, -⟩)
      · exact hI i hi
      · exact hi
    · intro hi
      by_cases hu : i ∈ up
      · exact .inl hu
      · exact .inr ⟨hi, hu⟩
  · simp only [List.mem_append, List.mem_filter, decide_eq_true_eq, h.mmem]
    tauto

/-- One round of the first eviction loop. -/
theorem lists_leaf {s : EvM} {lf lm} (hnd : (ids s.c.cache.tree).Nodup) (h : Lists (isTree s.c) s.c lf lm) {x : Nat}
    (hx : leafFree s.c.cache.tree x = true) :
    Lists (isTree (evictLeaf s x).c) (evictLeaf s x).c (lf.erase x) (if s.c.mv x = none then lm else lm.erase x) ∧
    (ids s.c.cache.tree).Perm (x :: ids (evictLeaf s x).c.cache.tree) ∧ x ∈ lf := by
  obtain ⟨n, hn, h0, hl⟩ := leafFree_iff.1 hx
  obtain ⟨hm, rfl⟩ := info_some hn
  have hcut := cut_leaf hnd hm hl
  have hin : n.id ∈ lf := (h.fmem _).2 (mem_ids_of hm)
  have hc1 : s.c.flru.cache n.id = true := (h.full.mem _).2 hin
  have htree : (evictLeaf s n.id).c.cache.tree = remove n.id s.c.cache.tree := by simp only [evictLeaf, hn]
  have hids := hcut.ids
  rw [← htree] at hids
  have hnd' := hids.nodup_iff.1 hnd
  obtain ⟨hxn, -⟩ := List.nodup_cons.1 hnd'
  have hmv : (evictLeaf s n.id).c.mv = Function.update s.c.mv n.id none := by simp only [evictLeaf, hn]
  have hfl : (evictLeaf s n.id).c.flru = s.c.flru.remove n.id := by simp only [evictLeaf, hn, if_pos hc1]
  have hml : (evictLeaf s n.id).c.mlru = if s.c.mv n.id ≠ none ∧ s.c.mlru.cache n.id then s.c.mlru.remove n.id else s.c.mlru := by
    simp only [evictLeaf, hn]
  have key : ∀ i, i ∈ ids (evictLeaf s n.id).c.cache.tree ↔ i ≠ n.id ∧ i ∈ ids s.c.cache.tree := by
    intro i
    rw [hids.mem_iff, List.mem_cons]
    constructor
    · intro hi; exact ⟨fun he => hxn (he ▸ hi), .inr hi⟩
    · rintro ⟨h1, h2 | h2⟩
      · exact absurd h2 h1
      · exact h2
  refine ⟨⟨by rw [hfl]; exact rep_remove h.full hin, fun i => ?_, ?_, fun i => ?_, fun i hi => ?_⟩, hids, hin⟩
  · rw [h.full.nodup.mem_erase_iff, h.fmem]; exact (key i).symm
  · rw [hml]
    by_cases hq : s.c.mv n.id = none
    · rw [if_neg (by simp [hq]), if_pos hq]; exact h.mam
    · have hmm := (h.mmem _).2 hq
      rw [if_pos ⟨hq, (h.mam.mem _).2 hmm⟩, if_neg hq]
      exact rep_remove h.mam hmm
  · rw [hmv, Function.update_apply]
    by_cases hq : s.c.mv n.id = none
    · rw [if_pos hq]
      split
      · rename_i he; subst he; simp [h.mmem, hq]
      · exact h.mmem i
    · rw [if_neg hq, h.mam.nodup.mem_erase_iff, h.mmem]
      split
      · rename_i he; simp [he]
      · rename_i he; simp [he]
  · rw [hmv] at hi
    by_cases he : i = n.id
    · rw [he, Function.update_self] at hi; exact absurd rfl hi
    · rw [Function.update_of_ne he] at hi
      exact (key i).2 ⟨he, h.sub i hi⟩

/-- One round of the second eviction loop. -/
theorem lists_state {s : EvM} {lf lm} (h : Lists (isTree s.c) s.c lf lm) {x : Nat} {m : Slots} (hx : s.c.mv x = some m) :
    Lists (isTree (evictState s x m).c) (evictState s x m).c lf (lm.erase x) := by
  have hin : x ∈ lm := (h.mmem _).2 (by rw [hx]; simp)
  refine ⟨h.full, h.fmem, rep_remove h.mam hin, fun i => ?_, fun i hi => ?_⟩
  · rw [h.mam.nodup.mem_erase_iff, h.mmem]
    show _ ↔ Function.update s.c.mv x none i ≠ none
    rw [Function.update_apply]
    split
    · rename_i he; simp [he]
    · rename_i he; simp [he]
  · have hi' : Function.update s.c.mv x none i ≠ none := hi
    by_cases he : i = x
    · rw [he, Function.update_self] at hi'; exact absurd rfl hi'
    · rw [Function.update_of_ne he] at hi'
      exact h.sub i hi'

end Verif.Mamba
