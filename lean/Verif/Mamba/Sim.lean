import Verif.Mamba.Model
import Verif.PyRadix.Inv

/-! The tree of `MambaRadixCache` behaves like the one of `RadixCache` with all time stamps equal. -/
namespace Verif.Mamba
open Verif.PyRadix hiding St Step Reach Op

/-! ### Walks -/

theorem mwalk_eq {P : Nat} {e : Ext} {fresh : Nat} : ∀ (f : Forest) (key : Key),
    (matchWalk P e 0 fresh f key).vals = (mwalk P e fresh f key).hits.map (·.2) ∧
    (matchWalk P e 0 fresh f key).last = ((mwalk P e fresh f key).hits.map (·.1)).getLast? ∧
    (matchWalk P e 0 fresh f key).tree = (mwalk P e fresh f key).tree ∧
    (matchWalk P e 0 fresh f key).fresh = (mwalk P e fresh f key).fresh
  | .nil, key => ⟨rfl, rfl, rfl, rfl⟩
  | .node i k x v l t kids rest, key => by
    unfold matchWalk mwalk
    by_cases h0 : key = []
    · rw [if_pos h0, if_pos h0]; exact ⟨rfl, rfl, rfl, rfl⟩
    · rw [if_neg h0, if_neg h0]
      by_cases h1 : x = e ∧ k.take P = key.take P
      · rw [if_pos h1, if_pos h1]
        by_cases h2 : kmatch P k key < k.length
        · rw [if_pos h2, if_pos h2]; exact ⟨rfl, rfl, rfl, rfl⟩
        · rw [if_neg h2, if_neg h2]
          obtain ⟨a, b, c, d⟩ := mwalk_eq (P := P) (e := e) (fresh := fresh) kids (key.drop (kmatch P k key))
          simp only
          rw [a, b, c, d]
          refine ⟨by simp, ?_, rfl, rfl⟩
          cases hh : (mwalk P e fresh kids (key.drop (kmatch P k key))).hits with
          | nil => rfl
          | cons y ys => simp [List.getLast?_cons]
      · rw [if_neg h1, if_neg h1]
        obtain ⟨a, b, c, d⟩ := mwalk_eq (P := P) (e := e) (fresh := fresh) rest key
        simp only
        rw [a, b, c, d]
        exact ⟨rfl, rfl, rfl, rfl⟩

/-- The insertion of this cache and the one of `RadixCache` do the same. -/
structure SameIns (r : MIns) (q : Ins) : Prop where
  plen : q.plen = r.plen
  last : q.last = r.last
  tree : q.tree = r.tree
  fresh : q.fresh = r.fresh
  dEvict : q.dEvict = r.dEvict

theorem minsWalk_eq {P : Nat} {e : Ext} {fresh : Nat} : ∀ (f : Forest) (key : Key) (val : Slots),
    (minsWalk P e fresh f key val = none ∧ insWalk P e 0 fresh f key val = none) ∨
    ∃ r q, minsWalk P e fresh f key val = some r ∧ insWalk P e 0 fresh f key val = some q ∧ SameIns r q
  | .nil, key, val => .inl ⟨rfl, rfl⟩
  | .node i k x v l t kids rest, key, val => by
    unfold minsWalk insWalk
    by_cases h1 : x = e ∧ k.take P = key.take P
    · rw [if_pos h1, if_pos h1]
      simp only
      by_cases h2 : kmatch P k key < k.length
      · rw [if_pos h2, if_pos h2]
        by_cases h3 : key.drop (kmatch P k key) = []
        · rw [if_pos h3, if_pos h3]; exact .inr ⟨_, _, rfl, rfl, rfl, rfl, rfl, rfl, rfl⟩
        · rw [if_neg h3, if_neg h3]; exact .inr ⟨_, _, rfl, rfl, rfl, rfl, rfl, rfl, rfl⟩
      · rw [if_neg h2, if_neg h2]
        by_cases h3 : key.drop (kmatch P k key) = []
        · rw [if_pos h3, if_pos h3]; exact .inr ⟨_, _, rfl, rfl, rfl, rfl, rfl, rfl, rfl⟩
        · rw [if_neg h3, if_neg h3]
          rcases minsWalk_eq (P := P) (e := e) (fresh := fresh) kids (key.drop (kmatch P k key)) (val.drop (kmatch P k key)) with
            ⟨a, b⟩ | ⟨r, q, a, b, s⟩
          · rw [a, b]; exact .inr ⟨_, _, rfl, rfl, rfl, rfl, rfl, rfl, rfl⟩
          · rw [a, b]
            refine .inr ⟨_, _, rfl, rfl, ?_, s.last, ?_, s.fresh, s.dEvict⟩
            · simp only [s.plen]
            · simp only [s.tree]
    · rw [if_neg h1, if_neg h1]
      rcases minsWalk_eq (P := P) (e := e) (fresh := fresh) rest key val with ⟨a, b⟩ | ⟨r, q, a, b, s⟩
      · rw [a, b]; exact .inl ⟨rfl, rfl⟩
      · rw [a, b]
        refine .inr ⟨_, _, rfl, rfl, s.plen, s.last, ?_, s.fresh, s.dEvict⟩
        simp only [s.tree]

theorem minsRoot_eq {P : Nat} {e : Ext} {fresh : Nat} (f : Forest) (key : Key) (val : Slots) :
    SameIns (minsRoot P e fresh f key val) (insRoot P e 0 fresh f key val) := by
  unfold minsRoot insRoot
  rcases minsWalk_eq (P := P) (e := e) (fresh := fresh) f key val with ⟨a, b⟩ | ⟨r, q, a, b, s⟩
  · rw [a, b]; exact ⟨rfl, rfl, rfl, rfl, rfl⟩
  · rw [a, b]; exact s

theorem split_cache (s : MC) (o : Option (Nat × Nat × Nat)) : (s.split o).cache = s.cache := by
  unfold MC.split
  split <;> rfl

theorem store_cache (s : MC) (r : MIns) (m : Option Slots) : (s.store r m).cache = s.cache := by
  unfold MC.store
  split
  · split <;> rfl
  · split <;> rfl

/-- `match_prefix` does to tree and counters what it does in `RadixCache`, with the same answer. -/
theorem match_eq (P : Nat) (s : MC) (e : Ext) (key : Key) :
    matchPrefix P 0 s.cache e key = (((s.matchPrefix P e key).1.1, (s.matchPrefix P e key).1.2.1), (s.matchPrefix P e key).2.cache) := by
  obtain ⟨a, b, c, d⟩ := mwalk_eq (P := P) (e := e) (fresh := s.cache.fresh) s.cache.tree (align P key)
  unfold matchPrefix MC.matchPrefix
  simp only [split_cache]
  rw [a, b, c, d]

theorem insert_eq (P : Nat) (s : MC) (e : Ext) (key : Key) (val : Slots) (mval : Option Slots) :
    Verif.PyRadix.insert P 0 s.cache e key val = (((s.insert P e key val mval).1.1, (s.insert P e key val mval).1.2.1), (s.insert P e key val mval).2.cache) := by
  unfold Verif.PyRadix.insert MC.insert
  by_cases h0 : key = []
  · rw [if_pos h0, if_pos h0]
  · rw [if_neg h0, if_neg h0]
    have h := minsRoot_eq (P := P) (e := e) (fresh := s.cache.fresh) s.cache.tree key val
    simp only [store_cache, split_cache]
    rw [h.plen, h.last, h.tree, h.fresh, h.dEvict]

theorem lock_cache (s : MC) (x : Nat) : (s.lock x).cache = incLock s.cache x := rfl
theorem unlock_cache (s : MC) (x : Nat) : (s.unlock x).cache = decLock s.cache x := rfl

/-! ### Time stamps -/

/-- All time stamps are 0. -/
def NoTime (f : Forest) : Prop := ∀ n ∈ infos f, n.time = 0

theorem noTime_node {i k x v l t kids rest} : NoTime (.node i k x v l t kids rest) ↔ t = 0 ∧ NoTime kids ∧ NoTime rest := by
  unfold NoTime
  simp only [infos, List.mem_cons, List.mem_append]
  constructor
  · intro h
    exact ⟨h _ (.inl rfl), fun n hn => h n (.inr (.inl hn)), fun n hn => h n (.inr (.inr hn))⟩
  · rintro ⟨a, b, c⟩ n (rfl | hn | hn)
    · exact a
    · exact b n hn
    · exact c n hn

theorem noTime_nil : NoTime .nil := by intro n hn; simp [infos] at hn

theorem noTime_addLeaf {i k e v} : ∀ {f : Forest}, NoTime f → NoTime (addLeaf i k e v 0 f)
  | .nil, _ => noTime_node.2 ⟨rfl, noTime_nil, noTime_nil⟩
  | .node .., h => by
    obtain ⟨a, b, c⟩ := noTime_node.1 h
    exact noTime_node.2 ⟨a, b, noTime_addLeaf c⟩

theorem noTime_mwalk {P : Nat} {e : Ext} {fresh : Nat} : ∀ {f : Forest} {key : Key}, NoTime f → NoTime (mwalk P e fresh f key).tree
  | .nil, _, h => h
  | .node i k x v l t kids rest, key, h => by
    obtain ⟨a, b, c⟩ := noTime_node.1 h
    unfold mwalk
    split
    · exact h
    · split
      · split
        · exact noTime_node.2 ⟨rfl, noTime_node.2 ⟨rfl, b, noTime_nil⟩, c⟩
        · exact noTime_node.2 ⟨rfl, noTime_mwalk b, c⟩
      · exact noTime_node.2 ⟨a, b, noTime_mwalk c⟩

theorem noTime_minsWalk {P : Nat} {e : Ext} {fresh : Nat} : ∀ {f : Forest} {key : Key} {val : Slots}, NoTime f →
    ∀ {r : MIns}, minsWalk P e fresh f key val = some r → NoTime r.tree
  | .nil, _, _, _, r, hr => by cases hr
  | .node i k x v l t kids rest, key, val, h, r, hr => by
    obtain ⟨a, b, c⟩ := noTime_node.1 h
    unfold minsWalk at hr
    simp only at hr
    split at hr
    · split at hr
      · split at hr
        · cases hr; exact noTime_node.2 ⟨rfl, noTime_node.2 ⟨rfl, b, noTime_nil⟩, c⟩
        · cases hr; exact noTime_node.2 ⟨rfl, noTime_addLeaf (noTime_node.2 ⟨rfl, b, noTime_nil⟩), c⟩
      · split at hr
        · cases hr; exact noTime_node.2 ⟨rfl, b, c⟩
        · split at hr
          · rename_i q hq; cases hr; exact noTime_node.2 ⟨rfl, noTime_minsWalk b hq, c⟩
          · cases hr; exact noTime_node.2 ⟨rfl, noTime_addLeaf b, c⟩
    · split at hr
      · rename_i q hq; cases hr; exact noTime_node.2 ⟨a, b, noTime_minsWalk c hq⟩
      · cases hr

theorem noTime_minsRoot {P : Nat} {e : Ext} {fresh : Nat} {f : Forest} {key : Key} {val : Slots} (h : NoTime f) :
    NoTime (minsRoot P e fresh f key val).tree := by
  unfold minsRoot
  split
  · rename_i r hr; exact noTime_minsWalk h hr
  · exact noTime_addLeaf h

theorem noTime_addLock {x : Nat} {d : Int} : ∀ {f : Forest}, NoTime f → NoTime (addLock x d f)
  | .nil, h => h
  | .node i k e v l t kids rest, h => by
    obtain ⟨a, b, c⟩ := noTime_node.1 h
    unfold addLock
    split
    · exact noTime_node.2 ⟨a, noTime_addLock b, c⟩
    · exact noTime_node.2 ⟨a, b, noTime_addLock c⟩

theorem noTime_remove {x : Nat} : ∀ {f : Forest}, NoTime f → NoTime (remove x f)
  | .nil, h => h
  | .node i k e v l t kids rest, h => by
    obtain ⟨a, b, c⟩ := noTime_node.1 h
    unfold remove
    split
    · exact c
    · split
      · exact noTime_node.2 ⟨a, noTime_remove b, c⟩
      · exact noTime_node.2 ⟨a, b, noTime_remove c⟩

/-! ### Eviction -/

theorem leafFree_iff {f : Forest} {x : Nat} : leafFree f x = true ↔ ∃ n, info f x = some n ∧ n.lock = 0 ∧ n.leaf = true := by
  unfold leafFree
  cases h : info f x with
  | none => simp
  | some n => simp

theorem info_notMem {f : Forest} {x : Nat} (h : info f x = none) : x ∉ ids f := by
  intro hx
  obtain ⟨n, hn, rfl⟩ := mem_ids_iff.1 hx
  unfold info at h
  rw [List.find?_eq_none] at h
  exact h n hn (by simp)

/-- Popping entries that are no longer in the tree changes nothing. -/
theorem run_stale {target : Nat} {s : EvSt} (hc : s.count < target) (hs : ∀ p ∈ s.heap, p.1 = 0 ∧ info s.cache.tree p.2 = none) :
    EvictRun target s { s with heap := [] } := by
  obtain ⟨c, heap, fr, k⟩ := s
  induction heap with
  | nil => exact .empty _ rfl
  | cons p heap ih =>
    obtain ⟨h0, h1⟩ := hs p List.mem_cons_self
    obtain ⟨t, x⟩ := p
    simp only at h0 h1
    subst h0
    refine .pop 0 x hc List.mem_cons_self (fun y hy => Nat.zero_le _) ?_
    simp only [evictPop, h1, List.erase_cons_head]
    exact ih hc (fun q hq => hs q (List.mem_cons_of_mem _ hq))

structure SimEv (P : Nat) (held : List Nat) (c0 : Cache) (s : EvM) (es : EvSt) : Prop where
  ev : EvInv P held c0 es
  cache : es.cache = s.c.cache
  freed : es.freed = s.freed
  count : es.count = s.full
  heap : ∀ p ∈ es.heap, p.1 = 0
  time : NoTime s.c.cache.tree

theorem leafFree_id {f : Forest} {x : Nat} {n : Info} (h : info f x = some n) : n.id = x := (info_some h).2

/-- A found node is an unlocked leaf. -/
theorem find_leaf {L : LRU} {ok : Nat → Bool} {x : Nat} (h : L.Lru ok (some x)) : ok x = true := by
  obtain ⟨c, -, hf⟩ := h
  generalize hr : some x = r at hf
  induction hf with
  | head => cases hr
  | hit h => cases hr; exact h
  | next _ _ _ ih => exact ih hr

theorem sim_pop {P : Nat} {held : List Nat} {c0 : Cache} {s : EvM} {es : EvSt} (h : SimEv P held c0 s es) {x : Nat}
    (hx : leafFree s.c.cache.tree x = true) :
    (0, x) ∈ es.heap ∧ SimEv P held c0 (evictLeaf s x) (evictPop es x (es.heap.erase (0, x))) := by
  obtain ⟨n, hn, h0, hl⟩ := leafFree_iff.1 hx
  obtain ⟨hm, rfl⟩ := info_some hn
  have hin : (0, n.id) ∈ es.heap := by
    have := h.ev.all n (by rw [h.cache]; exact hm) hl h0
    rwa [h.time n hm] at this
  refine ⟨hin, ?_⟩
  have ev' := evInv_pop h.ev hin
  have hes : info es.cache.tree n.id = some n := by rw [h.cache]; exact hn
  have hnl : ¬ n.lock > 0 := by omega
  have e1 : (evictPop es n.id (es.heap.erase (0, n.id))).cache =
      { es.cache with tree := remove n.id es.cache.tree, evictable := es.cache.evictable - (n.key.length : Int) } := by
    simp only [evictPop, hes, if_neg hnl]
  refine ⟨ev', ?_, ?_, ?_, ?_, ?_⟩
  · rw [e1, h.cache]; simp only [evictLeaf, hn]
  · simp only [evictPop, hes, if_neg hnl, evictLeaf, hn]; rw [h.freed]
  · simp only [evictPop, hes, if_neg hnl, evictLeaf, hn]; rw [h.count]
  · intro p hp
    simp only [evictPop, hes, if_neg hnl] at hp
    have sub : ∀ p ∈ es.heap.erase (0, n.id), p.1 = 0 := fun p hp => h.heap p (List.mem_of_mem_erase hp)
    split at hp
    · exact sub p hp
    · split at hp
      · exact sub p hp
      · split at hp
        · rename_i q hq _
          rcases List.mem_append.1 hp with hp | hp
          · exact sub p hp
          · rw [List.mem_singleton] at hp
            subst hp
            refine noTime_remove ?_ q (info_some hq).1
            rw [h.cache]; exact h.time
        · exact sub p hp
  · simp only [evictLeaf, hn]; exact noTime_remove h.time

/-- The first loop is an eviction of `RadixCache`. -/
theorem sim_phase1 {P : Nat} {held : List Nat} {c0 : Cache} {target : Nat} {s s' : EvM} (hp : Phase1 target s s')
    (live : ∀ t : EvM, Phase1 target s t → t.c.flru.Lru (leafFree t.c.cache.tree) none → ∀ x ∈ ids t.c.cache.tree, leafFree t.c.cache.tree x = false) :
    ∀ {es : EvSt}, SimEv P held c0 s es → ∃ es', EvictRun target es es' ∧ SimEv P held c0 s' es' := by
  induction hp with
  | enough s he => intro es h; exact ⟨es, .enough _ (by rw [h.count]; exact he), h⟩
  | none s hc hn =>
    intro es h
    have hl := live s (.none s hc hn) hn
    refine ⟨_, run_stale (by rw [h.count]; exact hc) (fun p hp => ⟨h.heap p hp, ?_⟩), ?_⟩
    · cases hi : info es.cache.tree p.2 with
      | none => rfl
      | some n =>
        obtain ⟨hm, hid⟩ := info_some hi
        obtain ⟨a, b⟩ := h.ev.leafy p hp n hm hid
        have hmem : p.2 ∈ ids s.c.cache.tree := by rw [← h.cache, ← hid]; exact mem_ids_of hm
        have := hl _ hmem
        rw [leafFree_iff.2 ⟨n, by rw [← h.cache]; exact hi, b, a⟩] at this
        cases this
    · refine ⟨?_, h.cache, h.freed, h.count, fun p hp => (by cases hp), h.time⟩
      refine { h.ev with leafy := fun p hp => (by cases hp), all := fun m hm a b => ?_ }
      exfalso
      have hmem : m.id ∈ ids s.c.cache.tree := by rw [← h.cache]; exact mem_ids_of hm
      have := hl _ hmem
      rw [leafFree_iff.2 ⟨m, by rw [← h.cache]; exact info_of_mem h.ev.inv.nodup hm, b, a⟩] at this
      cases this
  | pop x hc hx _ ih =>
    intro es h
    obtain ⟨hin, h'⟩ := sim_pop h (find_leaf hx)
    obtain ⟨es', r, h2⟩ := ih (fun t ht => live t (.pop x hc hx ht)) h'
    exact ⟨es', .pop 0 x (by rw [h.count]; exact hc) hin (fun y hy => Nat.zero_le _) r, h2⟩

theorem phase2_cache {target : Nat} {s s' : EvM} (h : Phase2 target s s') : s'.c.cache = s.c.cache ∧ s'.freed = s.freed ∧ s'.full = s.full ∧
    s'.c.flru = s.c.flru ∧ s'.c.ml = s.c.ml := by
  induction h with
  | enough | none => exact ⟨rfl, rfl, rfl, rfl, rfl⟩
  | skip _ _ _ _ _ ih => exact ih
  | pop _ _ _ _ _ _ ih => exact ih

end Verif.Mamba
