import Verif.Mamba.PropsLru

/-! # C135: the SSM states held by the cache -/
namespace Verif.Mamba
open Verif.PyRadix hiding St Step Reach Op Supplied

/-- The state slots held by the nodes of the list. -/
def held (mv : Nat → Option Slots) (l : List Nat) : Slots := l.flatMap fun i => (mv i).getD []

/-- All state slots in the cache. -/
def states (c : MC) : Slots := held c.mv (ids c.cache.tree)

theorem held_perm {mv : Nat → Option Slots} {l l' : List Nat} (h : l.Perm l') : (held mv l).Perm (held mv l') := h.flatMap_right _

theorem held_congr {mv mv' : Nat → Option Slots} {l : List Nat} (h : ∀ i ∈ l, mv i = mv' i) : held mv l = held mv' l := by
  induction l with
  | nil => rfl
  | cons i l ih =>
    unfold held at ih ⊢
    rw [List.flatMap_cons, List.flatMap_cons, h i List.mem_cons_self, ih fun j hj => h j (List.mem_cons_of_mem _ hj)]

theorem held_cons {mv : Nat → Option Slots} {i : Nat} {l : List Nat} : held mv (i :: l) = (mv i).getD [] ++ held mv l := rfl

/-- Splitting a node splits its state slots. -/
theorem held_split {c : MC} {l : List Nat} (hn : l.Nodup) (sp : Option (Nat × Nat × Nat)) (hs : ∀ a new n, sp = some (a, new, n) → a ∈ l ∧ new ∉ l)
    (h0 : ∀ i, i ∉ l → c.mv i = none) :
    (held (c.split sp).mv (sp.toList.map (·.2.1) ++ l)).Perm (held c.mv l) := by
  cases sp with
  | none => simp [MC.split]
  | some p =>
    obtain ⟨a, new, n⟩ := p
    obtain ⟨ha, hnew⟩ := hs a new n rfl
    have hne : new ≠ a := fun he => hnew (he ▸ ha)
    simp only [Option.toList, List.map_cons, List.map_nil, List.singleton_append]
    cases hm : c.mv a with
    | none =>
      have : (c.split (some (a, new, n))).mv = c.mv := by simp only [MC.split, hm]
      rw [this, held_cons, h0 new hnew]
      simp
    | some m =>
      have e : (c.split (some (a, new, n))).mv = Function.update (Function.update c.mv new (some (m.take n))) a (some (m.drop n)) := by
        simp only [MC.split, hm]
      have hp := List.perm_cons_erase ha
      have hp2 : (new :: l).Perm (new :: a :: l.erase a) := hp.cons new
      refine (held_perm hp2).trans (List.Perm.trans ?_ (held_perm hp).symm)
      rw [held_cons, held_cons, held_cons, hm, e, Function.update_self, Function.update_of_ne hne, Function.update_self]
      have : held (Function.update (Function.update c.mv new (some (m.take n))) a (some (m.drop n))) (l.erase a) = held c.mv (l.erase a) := by
        refine held_congr fun i hi => ?_
        have h1 : i ≠ a := fun he => ((hn.mem_erase_iff).1 hi).1 he
        have h2 : i ≠ new := fun he => hnew (he ▸ List.mem_of_mem_erase hi)
        rw [Function.update_of_ne h1, Function.update_of_ne h2]
      rw [this]
      simp only [Option.getD_some]
      rw [← List.append_assoc, List.take_append_drop]

theorem MInv.none {P : Nat} {s : St} (h : MInv P s) : ∀ i, i ∉ ids s.c.cache.tree → s.c.mv i = .none := by
  intro i hi
  obtain ⟨lf, lm, hl⟩ := h.lists
  by_contra hm
  exact hi (hl.sub i hm)

/-- C135: `match_prefix` neither loses nor copies a state slot. -/
theorem C135_match {P : Nat} (hP : 0 < P) {ops : List Op} {s : St} (h : Reach P ops s) (e : Ext) (key : Key) :
    (states (s.c.matchPrefix P e key).2).Perm (states s.c) := by
  have hi := mInv_reach hP h
  have ok := mwalk_ok (P := P) (e := e) (fresh := s.c.cache.fresh) s.c.cache.tree (align P key)
  have htree : (s.c.matchPrefix P e key).2.cache.tree = (mwalk P e s.c.cache.fresh s.c.cache.tree (align P key)).tree := by
    unfold MC.matchPrefix
    simp only [split_cache]
  have hmv : (s.c.matchPrefix P e key).2.mv = (s.c.split (mwalk P e s.c.cache.fresh s.c.cache.tree (align P key)).split).mv := by
    unfold MC.matchPrefix
    simp only [MC.split]
    split <;> rfl
  unfold states
  rw [htree, hmv]
  have hp := ok.ids
  simp only [Option.toList, List.map_nil, List.nil_append] at hp
  refine (held_perm hp).trans ?_
  exact held_split hi.inv.nodup _ (fun a new n hs => by
    obtain ⟨e1, e2⟩ := ok.split a new n hs
    exact ⟨e2, fun hm => by have hlt : new < s.c.cache.fresh := hi.inv.lt _ hm; omega⟩) hi.none

/-- Whether an insertion stores the state it is given: it creates a leaf, or its last node has none. -/
def Stores (P : Nat) (s : MC) (e : Ext) (key : Key) (val : Slots) : Prop :=
  (s.insert P e key val none).1.1 ≠ key.length ∨ ∃ y, (s.insert P e key val none).1.2.1 = some y ∧ (s.insert P e key val none).2.mv y = none

theorem split_mv_other (c : MC) {a new n i : Nat} (h1 : i ≠ a) (h2 : i ≠ new) : (c.split (some (a, new, n))).mv i = c.mv i := by
  unfold MC.split
  simp only
  cases c.mv a with
  | none => rfl
  | some m => simp only; rw [Function.update_of_ne h1, Function.update_of_ne h2]

theorem store_mv_leaf {c : MC} {r : MIns} {i n : Nat} (h : r.leaf = some (i, n)) (mval : Option Slots) :
    (c.store r mval).mv = if mval = none then c.mv else Function.update c.mv i mval := by
  unfold MC.store
  rw [h]
  cases mval with
  | none => rfl
  | some m => rfl

theorem split_mv_cache {c : MC} {ca : Cache} (sp : Option (Nat × Nat × Nat)) : ({ c with cache := ca }.split sp).mv = (c.split sp).mv := by
  unfold MC.split
  split <;> rfl

/-- The walk of an insertion stops with a leaf exactly if not the whole key was there. -/
theorem minsWalk_leaf {P : Nat} (hP : 0 < P) {e : Ext} {fresh : Nat} : ∀ {f : Forest}, WF P f → ∀ {key : Key} {val : Slots} {r : MIns}, P ∣ key.length →
    minsWalk P e fresh f key val = some r → (r.leaf = none ↔ r.plen = key.length)
  | .nil, _, _, _, _, _, h => by cases h
  | .node i k x v l t kids rest, ⟨h1, h2, h3, h4, h5, h6⟩, key, val, r, hk, h => by
    unfold minsWalk at h
    simp only at h
    have km := kmatch_spec hP h2 hk
    have hle := km.leb
    split at h
    · split at h
      · split at h
        · rename_i c; cases h
          have := congrArg List.length c
          simp at this ⊢; omega
        · rename_i c; cases h
          have : (key.drop (kmatch P k key)).length ≠ 0 := fun h0 => c (List.eq_nil_of_length_eq_zero h0)
          simp at this ⊢; omega
      · split at h
        · rename_i c; cases h
          have := congrArg List.length c
          simp at this ⊢; omega
        · rename_i c
          have hc : (key.drop (kmatch P k key)).length ≠ 0 := fun h0 => c (List.eq_nil_of_length_eq_zero h0)
          split at h
          · rename_i q hq
            cases h
            have ih := minsWalk_leaf hP h5 (by rw [List.length_drop]; exact Nat.dvd_sub hk km.dvd) hq
            rw [List.length_drop] at ih
            simp only
            rw [ih]; omega
          · cases h
            simp at hc ⊢; omega
    · split at h
      · rename_i q hq
        cases h
        have := minsWalk_leaf hP h6 hk hq
        exact this
      · cases h

theorem minsRoot_leaf {P : Nat} (hP : 0 < P) {e : Ext} {fresh : Nat} {f : Forest} (hw : WF P f) {key : Key} {val : Slots} (hk : P ∣ key.length)
    (hne : key ≠ []) : (minsRoot P e fresh f key val).leaf = none ↔ (minsRoot P e fresh f key val).plen = key.length := by
  unfold minsRoot
  split
  · rename_i r hr; exact minsWalk_leaf hP hw hk hr
  · have := List.length_pos_of_ne_nil hne
    simp; omega

/-- C135: `insert` with a state either takes over its slots and keeps all others, or keeps what it has and leaves the slots to the caller;
`insert` without a state keeps what it has. -/
theorem C135_insert {P : Nat} (hP : 0 < P) {ops : List Op} {s : St} (h : Reach P ops s) (e : Ext) (key : Key) (val : Slots) (mval : Option Slots)
    (hne : key ≠ []) (hd : P ∣ key.length) :
    (Stores P s.c e key val → (states (s.c.insert P e key val mval).2).Perm (mval.getD [] ++ states s.c)) ∧
    (¬ Stores P s.c e key val → (states (s.c.insert P e key val mval).2).Perm (states s.c)) := by
  have hi := mInv_reach hP h
  have ok := minsRoot_ok (P := P) (e := e) (fresh := s.c.cache.fresh) s.c.cache.tree key val
  have hlast := minsRoot_last (P := P) (e := e) (fresh := s.c.cache.fresh) s.c.cache.tree key val
  have hleaf := minsRoot_leaf hP (e := e) (fresh := s.c.cache.fresh) (val := val) hi.inv.wf hd hne
  obtain ⟨r, hr⟩ : ∃ r, r = minsRoot P e s.c.cache.fresh s.c.cache.tree key val := ⟨_, rfl⟩
  obtain ⟨c1, hc1⟩ : ∃ c1, c1 = { s.c with cache := { s.c.cache with tree := r.tree, fresh := r.fresh, evictable := s.c.cache.evictable + r.dEvict } }.split r.split := ⟨_, rfl⟩
  have hins : ∀ mval, s.c.insert P e key val mval = ((r.plen, some r.last, r.path.any fun i => c1.mv i != none), c1.store r mval) := by
    intro mval
    unfold MC.insert
    rw [if_neg hne, hc1, hr]
  simp only [← hr] at ok hlast hleaf
  have hmv1 : c1.mv = (s.c.split r.split).mv := by rw [hc1, split_mv_cache]
  have htree : ∀ mval, (c1.store r mval).cache.tree = r.tree := fun mval => by rw [store_cache, hc1, split_cache]
  have hsp : ∀ a new n, r.split = some (a, new, n) → a ∈ ids s.c.cache.tree ∧ new ∉ ids s.c.cache.tree := fun a new n hs => by
    obtain ⟨e1, e2⟩ := ok.split a new n hs
    exact ⟨e2, fun hm => by have hlt : new < s.c.cache.fresh := hi.inv.lt _ hm; omega⟩
  have hbase : (held c1.mv (r.split.toList.map (·.2.1) ++ ids s.c.cache.tree)).Perm (states s.c) := by
    rw [hmv1]; exact held_split hi.inv.nodup _ hsp hi.none
  -- the new leaf is not among the other nodes
  have hnl : ∀ i n, r.leaf = some (i, n) → i ∉ r.split.toList.map (·.2.1) ++ ids s.c.cache.tree := by
    intro i n hl hm
    have hle := ok.leaf i n hl
    rcases List.mem_append.1 hm with hm | hm
    · simp only [List.mem_map, Option.mem_toList] at hm
      obtain ⟨⟨a, new, m⟩, hs, rfl⟩ := hm
      have := (ok.split a new m hs).1
      rw [hs] at hle
      simp at hle
      omega
    · have hlt : i < s.c.cache.fresh := hi.inv.lt _ hm; omega
  have hc1none : ∀ i n, r.leaf = some (i, n) → c1.mv i = none := by
    intro i n hl
    have hn := hnl i n hl
    rw [List.mem_append, not_or] at hn
    have hsi := hi.none i hn.2
    rw [hmv1]
    cases hs : r.split with
    | none => exact hsi
    | some p =>
      obtain ⟨a, new, m⟩ := p
      have hia : i ≠ a := fun he => hn.2 (he ▸ (hsp a new m hs).1)
      have hin : i ≠ new := fun he => hn.1 (by rw [hs]; simp [he])
      rw [split_mv_other s.c hia hin]; exact hsi
  have hStores : Stores P s.c e key val ↔ r.plen ≠ key.length ∨ c1.mv r.last = none := by
    unfold Stores
    rw [hins]
    simp only [Option.some.injEq, exists_eq_left']
    have hm : (c1.store r none).mv = c1.mv := by unfold MC.store; split <;> rfl
    rw [hm]
  rw [hStores, hins mval]
  simp only [states, htree]
  have hperm := held_perm (mv := (c1.store r mval).mv) ok.ids
  cases hlf : r.leaf with
  | some p =>
    obtain ⟨i, n⟩ := p
    have hpl : r.plen ≠ key.length := fun he => by rw [hleaf.2 he] at hlf; cases hlf
    have hn := hnl i n hlf
    have hother : held (c1.store r mval).mv (r.split.toList.map (·.2.1) ++ ids s.c.cache.tree) = held c1.mv (r.split.toList.map (·.2.1) ++ ids s.c.cache.tree) := by
      refine held_congr fun j hj => ?_
      rw [store_mv_leaf hlf]
      split
      · rfl
      · refine Function.update_of_ne (fun he => hn ?_) _ _
        exact he ▸ hj
    have hi' : ((c1.store r mval).mv i).getD [] = mval.getD [] := by
      rw [store_mv_leaf hlf]
      split
      · rename_i h0; rw [hc1none i n hlf, h0]
      · rw [Function.update_self]
    refine ⟨fun _ => ?_, fun hh => absurd (.inl hpl) hh⟩
    refine hperm.trans ?_
    rw [hlf]
    rw [show (some (i, n)).toList.map (·.1) ++ r.split.toList.map (·.2.1) ++ ids s.c.cache.tree =
      i :: (r.split.toList.map (·.2.1) ++ ids s.c.cache.tree) from rfl, held_cons, hi']
    refine List.Perm.append_left _ ?_
    rw [hother]
    exact hbase
  | none =>
    have hpl : r.plen = key.length := hleaf.1 hlf
    have hlm : r.last ∈ r.split.toList.map (·.2.1) ++ ids s.c.cache.tree := by
      obtain ⟨m, hm, e1, -⟩ := hlast.node hlf
      have := ok.ids.mem_iff.1 (mem_ids_of hm)
      rw [hlf, e1] at this
      simpa using this
    have hnd : (r.split.toList.map (·.2.1) ++ ids s.c.cache.tree).Nodup := by
      cases hs : r.split with
      | none => simpa using hi.inv.nodup
      | some p =>
        obtain ⟨a, new, m⟩ := p
        simpa using ⟨(hsp a new m hs).2, hi.inv.nodup⟩
    rw [hlf, show (none : Option (Nat × Nat)).toList.map (·.1) ++ r.split.toList.map (·.2.1) ++ ids s.c.cache.tree =
      r.split.toList.map (·.2.1) ++ ids s.c.cache.tree from rfl] at hperm
    constructor
    · rintro (hh | hh)
      · exact absurd hpl hh
      · refine hperm.trans ?_
        cases mval with
        | none =>
          have : (c1.store r none).mv = c1.mv := by unfold MC.store; rw [hlf]
          rw [this]; exact hbase
        | some m =>
          have hmv : (c1.store r (some m)).mv = Function.update c1.mv r.last (some m) := by
            unfold MC.store; rw [hlf]; simp only [hh]
          rw [hmv]
          have hpe := List.perm_cons_erase hlm
          refine (held_perm hpe).trans (List.Perm.trans ?_ ((hbase.symm.trans (held_perm hpe)).symm.append_left _))
          rw [held_cons, held_cons, hh, Function.update_self]
          simp only [Option.getD_some, Option.getD_none, List.nil_append]
          refine List.Perm.append_left _ (List.Perm.of_eq (held_congr fun j hj => ?_))
          exact Function.update_of_ne ((hnd.mem_erase_iff).1 hj).1 _ _
    · intro hh
      have hsome : c1.mv r.last ≠ none := fun h0 => hh (.inr h0)
      refine hperm.trans ?_
      have : (c1.store r mval).mv = c1.mv := by
        unfold MC.store
        rw [hlf]
        cases mval with
        | none => rfl
        | some m =>
          cases hm : c1.mv r.last with
          | none => exact absurd hm hsome
          | some q => simp only [hm]
      rw [this]
      exact hbase

/-- C135: locking and unlocking keep the states. -/
theorem C135_lock {s : MC} (x : Nat) : states (s.lock x) = states s ∧ states (s.unlock x) = states s := by
  unfold states
  constructor
  · show held (s.lockState x).mv (ids (addLock x 1 s.cache.tree)) = _
    rw [ids_addLock, (lockState_rest s x).2.2]
  · show held (s.unlockState x).mv (ids (addLock x (-1) s.cache.tree)) = _
    rw [ids_addLock, (unlockState_rest s x).2.2]

theorem phase1_states {target : Nat} {s s' : EvM} (hp : Phase1 target s s') : EvGood s →
    (s.mfreed ++ states s.c).Perm (s'.mfreed ++ states s'.c) := by
  induction hp with
  | enough | none => intro _; exact .refl _
  | @pop s s' x _ hx _ ih =>
    intro h
    refine List.Perm.trans ?_ (ih (evGood_leaf h (find_leaf hx)))
    obtain ⟨lf, lm, hl⟩ := h.lists
    obtain ⟨-, h2, -⟩ := lists_leaf h.nodup hl (find_leaf hx)
    obtain ⟨n, hn, -, -⟩ := leafFree_iff.1 (find_leaf hx)
    have hmf : (evictLeaf s x).mfreed = s.mfreed ++ (s.c.mv x).getD [] := by simp only [evictLeaf, hn]
    have hmv : (evictLeaf s x).c.mv = Function.update s.c.mv x none := by simp only [evictLeaf, hn]
    have hxn := (List.nodup_cons.1 (h2.nodup_iff.1 h.nodup)).1
    rw [hmf, List.append_assoc]
    refine List.Perm.append_left _ ?_
    unfold states
    refine (held_perm h2).trans ?_
    rw [held_cons, hmv]
    refine List.Perm.append_left _ (List.Perm.of_eq (held_congr fun j hj => ?_))
    refine (Function.update_of_ne (fun he => hxn ?_) _ _).symm
    have hj' := hj
    rw [show j = x from he] at hj'
    exact hj'

theorem phase2_states {target : Nat} {s s' : EvM} (hp : Phase2 target s s') : EvGood s →
    (s.mfreed ++ states s.c).Perm (s'.mfreed ++ states s'.c) := by
  induction hp with
  | enough | none => intro _; exact .refl _
  | skip _ _ _ _ _ ih => exact ih
  | @pop s s' x m _ hx hm _ ih =>
    intro h
    refine List.Perm.trans ?_ (ih (evGood_state h hm))
    obtain ⟨lf, lm, hl⟩ := h.lists
    have hin : x ∈ ids s.c.cache.tree := hl.sub x (by rw [hm]; simp)
    show (s.mfreed ++ states s.c).Perm (s.mfreed ++ m ++ held (Function.update s.c.mv x none) (ids s.c.cache.tree))
    rw [List.append_assoc]
    refine List.Perm.append_left _ ?_
    unfold states
    have hpe := List.perm_cons_erase hin
    refine (held_perm hpe).trans (List.Perm.trans ?_ ((held_perm hpe).symm.append_left _))
    rw [held_cons, held_cons, hm, Function.update_self]
    simp only [Option.getD_some, Option.getD_none, List.nil_append]
    refine List.Perm.append_left _ (List.Perm.of_eq (held_congr fun j hj => ?_))
    exact (Function.update_of_ne ((h.nodup.mem_erase_iff).1 hj).1 _ _).symm

/-- C135: what `evict` returns to the state pool is what disappears from the cache, each slot once. -/
theorem C135_evict {P : Nat} (hP : 0 < P) {ops : List Op} {s : St} (h : Reach P ops s) {target mtarget : Nat} {r : EvM}
    (he : s.c.Evict target mtarget r) : (states s.c).Perm (r.mfreed ++ states r.c) := by
  obtain ⟨m, h1, h2⟩ := he
  have g := (mInv_reach hP h).good [] [] 0 0
  have := (phase1_states h1 g).trans (phase2_states h2 (evGood_phase1 h1 g))
  simpa using this

/-! ### Whole histories -/

/-- Histories with the state slots the cache took over and those it gave back to the pool. -/
inductive Flow (P : Nat) : St → Slots → Slots → Prop where
  | init : Flow P ⟨.empty, []⟩ [] []
  | matchPrefix {s took gave} (e key) : Flow P s took gave → Flow P { s with c := (s.c.matchPrefix P e key).2 } took gave
  | insert {s took gave} (e key val mval) : Flow P s took gave → val.length = key.length → P ∣ key.length → key ≠ [] → Stores P s.c e key val →
      Flow P { s with c := (s.c.insert P e key val mval).2 } (mval.getD [] ++ took) gave
  | insertNot {s took gave} (e key val mval) : Flow P s took gave → val.length = key.length → P ∣ key.length → ¬ (key ≠ [] ∧ Stores P s.c e key val) →
      Flow P { s with c := (s.c.insert P e key val mval).2 } took gave
  | lock {s took gave} (x) : Flow P s took gave → x ∈ ids s.c.cache.tree → Flow P { c := s.c.lock x, held := x :: s.held } took gave
  | unlock {s took gave} (x) : Flow P s took gave → x ∈ s.held → Flow P { c := s.c.unlock x, held := s.held.erase x } took gave
  | evict {s took gave} (target mtarget r) : Flow P s took gave → s.c.Evict target mtarget r → Flow P { s with c := r.c } took (r.mfreed ++ gave)

theorem Flow.reach {P : Nat} {s : St} {took gave : Slots} (h : Flow P s took gave) : ∃ ops, Reach P ops s := by
  induction h with
  | init => exact ⟨[], .init⟩
  | matchPrefix e key _ ih => obtain ⟨o, ho⟩ := ih; exact ⟨_, .step ho (.matchPrefix e key)⟩
  | insert e key val mval _ a b _ _ ih => obtain ⟨o, ho⟩ := ih; exact ⟨_, .step ho (.insert e key val mval a b)⟩
  | insertNot e key val mval _ a b _ ih => obtain ⟨o, ho⟩ := ih; exact ⟨_, .step ho (.insert e key val mval a b)⟩
  | lock x _ hx ih => obtain ⟨o, ho⟩ := ih; exact ⟨_, .step ho (.lock x hx)⟩
  | unlock x _ hx ih => obtain ⟨o, ho⟩ := ih; exact ⟨_, .step ho (.unlock x hx)⟩
  | evict t m r _ he ih => obtain ⟨o, ho⟩ := ih; exact ⟨_, .step ho (.evict t m r he)⟩

/-- C135: over every history the state slots taken over are those given back and those still in the cache: none is lost and none is
given back twice. -/
theorem C135_conserved {P : Nat} (hP : 0 < P) {s : St} {took gave : Slots} (h : Flow P s took gave) : took.Perm (gave ++ states s.c) := by
  induction h with
  | init => exact .refl _
  | matchPrefix e key hf ih =>
    obtain ⟨o, ho⟩ := hf.reach
    exact ih.trans ((C135_match hP ho e key).symm.append_left _)
  | insert e key val mval hf a b hne hs ih =>
    obtain ⟨o, ho⟩ := hf.reach
    refine (ih.append_left _).trans ?_
    refine List.Perm.trans ?_ (((C135_insert hP ho e key val mval hne b).1 hs).symm.append_left _)
    rw [← List.append_assoc, ← List.append_assoc]
    exact List.perm_append_comm.append_right _
  | insertNot e key val mval hf a b hs ih =>
    obtain ⟨o, ho⟩ := hf.reach
    by_cases hne : key = []
    · have e0 : ∀ s' : St, (s'.c.insert P e key val mval).2 = s'.c := by intro s'; unfold MC.insert; rw [if_pos hne]
      simp only [e0]; exact ih
    · exact ih.trans (((C135_insert hP ho e key val mval hne b).2 fun hh => hs ⟨hne, hh⟩).symm.append_left _)
  | lock x _ _ ih => simp only [(C135_lock x).1]; exact ih
  | unlock x _ _ ih => simp only [(C135_lock x).2]; exact ih
  | evict t m r hf he ih =>
    obtain ⟨o, ho⟩ := hf.reach
    refine ih.trans (((C135_evict hP ho he).append_left _).trans ?_)
    rw [← List.append_assoc]
    exact List.perm_append_comm.append_right _

end Verif.Mamba
