import Verif.PyRadix.Locks
namespace Verif.PyRadix

structure Inv (P : Nat) (s : St) : Prop where
  wf : WF P s.cache.tree
  nodup : (ids s.cache.tree).Nodup
  lt : ∀ i ∈ ids s.cache.tree, i < s.cache.fresh
  held : ∀ h ∈ s.held, h ∈ ids s.cache.tree
  lock : LockOk s.held s.cache.tree
  prot : s.cache.prot = lockedSize s.cache.tree
  evictable : s.cache.evictable ≤ unlockedSize s.cache.tree

theorem align_dvd (P : Nat) (key : Key) : P ∣ (align P key).length := by
  rw [align, List.length_take, Nat.min_eq_left (Nat.div_mul_le_self _ _)]
  exact Nat.dvd_mul_left _ _

theorem grow_nodup {f f' : Forest} {a b : Nat} {s d} (g : Grow f f' a b s d) (hn : (ids f).Nodup) (hl : ∀ i ∈ ids f, i < a) : (ids f').Nodup := by
  rw [g.ids.nodup_iff, List.nodup_append]
  refine ⟨hn, List.nodup_range', ?_⟩
  rintro x hx y hy rfl
  have := hl x hx
  rw [List.mem_range'_1] at hy
  omega

theorem grow_lt {f f' : Forest} {a b : Nat} {s d} (g : Grow f f' a b s d) (hl : ∀ i ∈ ids f, i < a) : ∀ i ∈ ids f', i < b := by
  intro i hi
  have hle := g.le
  rw [g.ids.mem_iff, List.mem_append, List.mem_range'_1] at hi
  rcases hi with hi | hi
  · have := hl i hi; omega
  · omega

theorem Inv.grow {P : Nat} {s : St} (h : Inv P s) {f' : Forest} {b : Nat} {a : Slots} {d ev : Int} (g : Grow s.cache.tree f' s.cache.fresh b a d)
    (hw : WF P f') (hd : ev ≤ unlockedSize s.cache.tree + d) : Inv P ⟨⟨f', b, ev, s.cache.prot⟩, s.held⟩ := by
  have hlt : ∀ x ∈ s.held, x < s.cache.fresh := fun x hx => h.lt x (h.held x hx)
  refine ⟨hw, grow_nodup g h.nodup h.lt, grow_lt g h.lt, ?_, g.lock _ hlt h.lock, ?_, ?_⟩
  · intro x hx
    exact (g.mem (hlt x hx)).2 (h.held x hx)
  · show s.cache.prot = _
    rw [g.locked]; exact h.prot
  · show ev ≤ _
    rw [g.unlocked]; exact hd

theorem leafLoss_nonneg (kids : Forest) (l : Int) (k : Key) : 0 ≤ leafLoss kids l k := by
  rw [leafLoss]; split
  · exact Int.natCast_nonneg _
  · exact le_refl _

theorem insWalk_lost {P : Nat} {e : Ext} {now fresh : Nat} : ∀ {f : Forest} {key : Key} {val : Slots} {r : Ins},
    insWalk P e now fresh f key val = some r → 0 ≤ r.lost := by
  intro f
  induction f with
  | nil => intro key val r h; simp [insWalk] at h
  | node i k x v l t kids rest ihk ihr =>
    intro key val r h
    rw [insWalk] at h
    by_cases c2 : x = e ∧ k.take P = key.take P
    · rw [if_pos c2] at h
      simp only [] at h
      by_cases c3 : kmatch P k key < k.length
      · rw [if_pos c3] at h
        by_cases c4 : key.drop (kmatch P k key) = []
        · rw [if_pos c4] at h; obtain rfl := Option.some.inj h; exact le_refl _
        · rw [if_neg c4] at h; obtain rfl := Option.some.inj h; exact le_refl _
      · rw [if_neg c3] at h
        by_cases c4 : key.drop (kmatch P k key) = []
        · rw [if_pos c4] at h; obtain rfl := Option.some.inj h; exact le_refl _
        · rw [if_neg c4] at h
          cases hi : insWalk P e now fresh kids (key.drop (kmatch P k key)) (val.drop (kmatch P k key)) with
          | none => rw [hi] at h; obtain rfl := Option.some.inj h; exact leafLoss_nonneg _ _ _
          | some r1 => rw [hi] at h; obtain rfl := Option.some.inj h; have := ihk hi; exact this
    · rw [if_neg c2] at h
      cases hi : insWalk P e now fresh rest key val with
      | none => rw [hi] at h; cases h
      | some r1 => rw [hi] at h; obtain rfl := Option.some.inj h; have := ihr hi; exact this

theorem insRoot_lost {P : Nat} {e : Ext} {now fresh : Nat} {f : Forest} {key : Key} {val : Slots} : 0 ≤ (insRoot P e now fresh f key val).lost := by
  rw [insRoot]
  cases hi : insWalk P e now fresh f key val with
  | none => exact le_refl _
  | some r => exact insWalk_lost hi

/-! ### Eviction -/

structure EvInv (P : Nat) (held : List Nat) (c0 : Cache) (s : EvSt) : Prop where
  inv : Inv P ⟨s.cache, held⟩
  leafy : ∀ p ∈ s.heap, ∀ m ∈ infos s.cache.tree, m.id = p.2 → m.leaf = true ∧ m.lock = 0
  all : ∀ m ∈ infos s.cache.tree, m.leaf = true → m.lock = 0 → (m.time, m.id) ∈ s.heap
  slots : (slots c0.tree).Perm (s.freed ++ slots s.cache.tree)
  cached : ∀ e k v, Cached P s.cache.tree e k v → Cached P c0.tree e k v
  path : ∀ h ∈ held, ∀ e k v, PathTo h c0.tree e k v → PathTo h s.cache.tree e k v
  count : s.count = s.freed.length
  size : unlockedSize c0.tree - c0.evictable = unlockedSize s.cache.tree - s.cache.evictable
  locked : lockedSize s.cache.tree = lockedSize c0.tree
  fresh : s.cache.fresh = c0.fresh ∧ s.cache.prot = c0.prot

theorem wf_info {P : Nat} : ∀ {f : Forest}, WF P f → ∀ {n : Info}, n ∈ infos f → n.val.length = n.key.length := by
  intro f
  induction f with
  | nil => intro _ n hn; simp [infos] at hn
  | node i k e v l t kids rest ihk ihr =>
    rintro ⟨h1, h2, h3, h4, h5, h6⟩ n hn
    rw [infos, List.mem_cons, List.mem_append] at hn
    rcases hn with rfl | hn | hn
    · exact h3
    · exact ihk h5 hn
    · exact ihr h6 hn

theorem evInv_pop {P : Nat} {held : List Nat} {c0 : Cache} {s : EvSt} (h : EvInv P held c0 s) {t x : Nat} (hm : (t, x) ∈ s.heap) :
    EvInv P held c0 (evictPop s x (s.heap.erase (t, x))) := by
  have sub : ∀ p ∈ s.heap.erase (t, x), p ∈ s.heap := fun p hp => List.mem_of_mem_erase hp
  rw [evictPop]
  cases hi : info s.cache.tree x with
  | none =>
    have hx : x ∉ ids s.cache.tree := by
      intro hx
      obtain ⟨n, hn, rfl⟩ := mem_ids_iff.1 hx
      rw [info_of_mem h.inv.nodup hn] at hi
      cases hi
    refine ⟨h.inv, fun p hp => h.leafy p (sub p hp), ?_, h.slots, h.cached, h.path, h.count, h.size, h.locked, h.fresh⟩
    intro m hm' a b
    have := h.all m hm' a b
    refine (List.mem_erase_of_ne ?_).2 this
    intro hh
    have : m.id = x := congrArg Prod.snd hh
    exact hx (this ▸ mem_ids_of hm')
  | some n =>
    obtain ⟨hn, rfl⟩ := info_some hi
    obtain ⟨hl, h0⟩ := h.leafy _ hm n hn rfl
    have hnl : ¬ (n.lock > 0) := by omega
    simp only [if_neg hnl]
    have c := cut_leaf h.inv.nodup hn hl
    have hnh : n.id ∉ held := lock_info h.inv.lock hn h0
    have hnd : (n.id :: ids (remove n.id s.cache.tree)).Nodup := (c.ids.nodup_iff).1 h.inv.nodup
    have hnd' := (List.nodup_cons.1 hnd)
    have hinv : Inv P ⟨{ s.cache with tree := remove n.id s.cache.tree, evictable := s.cache.evictable - (n.key.length : Int) }, held⟩ := by
      refine ⟨wf_remove h.inv.wf, hnd'.2, ?_, ?_, c.lock held hnh h.inv.lock, ?_, ?_⟩
      · intro i hi'
        exact h.inv.lt i (c.ids.mem_iff.2 (List.mem_cons_of_mem _ hi'))
      · intro y hy
        have := c.ids.mem_iff.1 (h.inv.held y hy)
        rcases List.mem_cons.1 this with rfl | h2
        · exact absurd hy hnh
        · exact h2
      · have := c.locked
        rw [if_neg (show ¬ (n.lock ≠ 0) by simpa using h0)] at this
        show s.cache.prot = _
        rw [h.inv.prot, this]; ring
      · have := c.unlocked
        rw [if_pos h0] at this
        have h2 := h.inv.evictable
        show s.cache.evictable - _ ≤ unlockedSize (remove n.id s.cache.tree)
        have h3 : s.cache.evictable ≤ unlockedSize s.cache.tree := h2
        rw [this] at h3
        linarith
    refine ⟨hinv, ?_, ?_, ?_, ?_, ?_, ?_, ?_, ?_, h.fresh⟩
    · -- the heap holds unlocked leaves
      have old : ∀ p ∈ s.heap.erase (t, n.id), ∀ m ∈ infos (remove n.id s.cache.tree), m.id = p.2 → m.leaf = true ∧ m.lock = 0 := by
        intro p hp m hm' he
        obtain ⟨m', hm2, a1, a2, _, a4⟩ := c.infos m hm'
        obtain ⟨b1, b2⟩ := h.leafy p (sub p hp) m' hm2 (a1.trans he)
        rcases a4 with a4 | a4
        · exact ⟨by rw [← a4]; exact b1, by rw [← a2]; exact b2⟩
        · exact ⟨a4.1, by rw [← a2]; exact b2⟩
      intro p hp m hm' he
      simp only [] at hp hm'
      cases hpar : parent n.id none s.cache.tree with
      | none => rw [hpar] at hp; exact old p hp m hm' he
      | some y =>
        rw [hpar] at hp
        simp only [] at hp
        cases hq : info (remove n.id s.cache.tree) y with
        | none => rw [hq] at hp; exact old p hp m hm' he
        | some q =>
          rw [hq] at hp
          simp only [] at hp
          by_cases hc : (q.leaf && q.lock == 0) = true
          · rw [if_pos hc, List.mem_append, List.mem_singleton] at hp
            rcases hp with hp | rfl
            · exact old p hp m hm' he
            · obtain ⟨q1, q2⟩ := info_some hq
              have : m = q := info_unique hnd'.2 hm' q1 (he.trans q2.symm)
              subst this
              simpa using hc
          · rw [if_neg hc] at hp; exact old p hp m hm' he
    · -- all unlocked leaves are in the heap
      intro m hm' ml mz
      simp only [] at hm' ⊢
      obtain ⟨m', hm2, a1, a2, a3, a4⟩ := c.infos m hm'
      have hmn : m.id ≠ n.id := by
        intro q
        have h9 := mem_ids_of hm'
        rw [q] at h9
        exact hnd'.1 h9
      have keep : m'.leaf = true → (m.time, m.id) ∈ s.heap.erase (t, n.id) := by
        intro hl'
        have := h.all m' hm2 hl' (a2.trans mz)
        rw [a1, a3] at this
        refine (List.mem_erase_of_ne ?_).2 this
        intro hh
        exact hmn (congrArg Prod.snd hh)
      cases hpar : parent n.id none s.cache.tree with
      | none =>
        rcases a4 with a4 | ⟨_, a5⟩
        · exact keep (a4.trans ml)
        · rw [a5 none] at hpar; cases hpar
      | some y =>
        simp only []
        have keep2 : m'.leaf = m.leaf → (m.time, m.id) ∈ (match info (remove n.id s.cache.tree) y with
            | none => s.heap.erase (t, n.id)
            | some q => if q.leaf && q.lock == 0 then s.heap.erase (t, n.id) ++ [(q.time, y)] else s.heap.erase (t, n.id)) := by
          intro a4
          have := keep (a4.trans ml)
          cases info (remove n.id s.cache.tree) y with
          | none => exact this
          | some q =>
            simp only []
            split
            · exact List.mem_append_left _ this
            · exact this
        rcases a4 with a4 | ⟨_, a5⟩
        · exact keep2 a4
        · have := a5 none
          rw [hpar] at this
          obtain rfl := Option.some.inj this
          rw [info_of_mem hnd'.2 hm']
          simp [ml, mz]
    · show (slots c0.tree).Perm ((s.freed ++ n.val) ++ slots (remove n.id s.cache.tree))
      refine h.slots.trans ?_
      rw [List.append_assoc]
      exact c.slots.append_left _
    · intro e k v hc
      exact h.cached e k v (cached_remove hc)
    · intro y hy e k v hp
      refine c.path y e k v ?_ (h.path y hy e k v hp)
      rintro rfl; exact hnh hy
    · show s.count + n.val.length = (s.freed ++ n.val).length
      rw [List.length_append, h.count]
    · show _ = unlockedSize (remove n.id s.cache.tree) - (s.cache.evictable - (n.key.length : Int))
      have := c.unlocked
      rw [if_pos h0] at this
      rw [h.size, this]; ring
    · have := c.locked
      rw [if_neg (show ¬ (n.lock ≠ 0) by simpa using h0)] at this
      show lockedSize (remove n.id s.cache.tree) = _
      rw [← h.locked, this]; ring

theorem evInv_run {P : Nat} {held : List Nat} {c0 : Cache} {target : Nat} {s s' : EvSt} (h : EvictRun target s s') (hi : EvInv P held c0 s) :
    EvInv P held c0 s' ∧ (target ≤ s'.count ∨ s'.heap = []) := by
  induction h with
  | enough s h => exact ⟨hi, .inl h⟩
  | empty s h => exact ⟨hi, .inr h⟩
  | pop t x _ hm _ _ ih => exact ih (evInv_pop hi hm)

theorem evInv_init {P : Nat} {s : St} (h : Inv P s) :
    EvInv P s.held s.cache ⟨s.cache, (evictableLeaves s.cache.tree).map fun n => (n.time, n.id), [], 0⟩ := by
  refine ⟨h, ?_, ?_, by simp, fun _ _ _ hc => hc, fun _ _ _ _ _ hp => hp, rfl, rfl, rfl, rfl, rfl⟩
  · intro p hp m hm he
    simp only [List.mem_map] at hp
    obtain ⟨n, hn, rfl⟩ := hp
    rw [evictableLeaves, List.mem_filter] at hn
    have : m = n := info_unique h.nodup hm hn.1 he
    subst this
    simpa using hn.2
  · intro m hm a b
    simp only [List.mem_map]
    refine ⟨m, ?_, rfl⟩
    rw [evictableLeaves, List.mem_filter]
    exact ⟨hm, by simp [a, b]⟩

/-- Everything `evict` guarantees. -/
structure EvictOk (P : Nat) (held : List Nat) (target : Nat) (c : Cache) (freed : Slots) (c' : Cache) : Prop where
  inv : Inv P ⟨c', held⟩
  slots : (slots c.tree).Perm (freed ++ slots c'.tree)
  cached : ∀ e k v, Cached P c'.tree e k v → Cached P c.tree e k v
  path : ∀ h ∈ held, ∀ e k v, PathTo h c.tree e k v → PathTo h c'.tree e k v
  enough : target ≤ freed.length ∨ ∀ n ∈ infos c'.tree, n.lock ≠ 0
  size : unlockedSize c.tree - c.evictable = unlockedSize c'.tree - c'.evictable

theorem evict_ok {P : Nat} {s : St} (h : Inv P s) {target : Nat} {freed : Slots} {c' : Cache} (he : Evict target s.cache freed c') :
    EvictOk P s.held target s.cache freed c' := by
  rw [Evict] at he
  by_cases h0 : target = 0
  · rw [if_pos h0] at he
    obtain ⟨rfl, rfl⟩ := he
    exact ⟨h, by simp, fun _ _ _ hc => hc, fun _ _ _ _ _ hp => hp, .inl (by omega), rfl⟩
  · rw [if_neg h0] at he
    obtain ⟨s', hr, rfl, rfl⟩ := he
    obtain ⟨i, hd⟩ := evInv_run hr (evInv_init h)
    refine ⟨i.inv, i.slots, i.cached, i.path, ?_, i.size⟩
    rcases hd with hd | hd
    · exact .inl (by rw [← i.count]; exact hd)
    · refine .inr fun n hn hz => ?_
      obtain ⟨m, hm, a, b⟩ := unlocked_leaf i.inv.lock ⟨n, hn, hz⟩
      have := i.all m hm b a
      rw [hd] at this
      cases this

/-! ### Every reachable state -/

theorem inv_init (P : Nat) : Inv P ⟨.empty, []⟩ :=
  ⟨True.intro, List.nodup_nil, by simp [Cache.empty, ids], by simp, True.intro, rfl, le_refl _⟩

theorem inv_match {P : Nat} (hP : 0 < P) {s : St} (h : Inv P s) (now e key) : Inv P { s with cache := (matchPrefix P now s.cache e key).2 } := by
  have g := grow_match hP (e := e) (now := now) (fresh := s.cache.fresh) h.wf (align_dvd P key)
  exact h.grow g (wf_match hP h.wf (align_dvd P key)) (by have := h.evictable; omega)

theorem inv_insert {P : Nat} (hP : 0 < P) {s : St} (h : Inv P s) {now e key val} (hl : val.length = key.length) (hd : P ∣ key.length) :
    Inv P { s with cache := (insert P now s.cache e key val).2 } := by
  rw [insert]
  by_cases hk : key = []
  · rw [if_pos hk]; exact h
  · rw [if_neg hk]
    have g := insRoot_grow hP (e := e) (now := now) (fresh := s.cache.fresh) h.wf hd hl
    obtain ⟨s0, ok⟩ := insRoot_ok hP (e := e) (now := now) (fresh := s.cache.fresh) h.wf hk hd hl
    have h1 := h.evictable
    have h2 := insRoot_lost (P := P) (e := e) (now := now) (fresh := s.cache.fresh) (f := s.cache.tree) (key := key) (val := val)
    exact h.grow g ok.wf (by omega)

theorem inv_lock {P : Nat} {s : St} (h : Inv P s) {x : Nat} (hx : x ∈ ids s.cache.tree) :
    Inv P { cache := incLock s.cache x, held := x :: s.held } := by
  obtain ⟨a, b⟩ := sizes_inc (x := x) h.lock
  refine ⟨wf_addLock.2 h.wf, by rw [incLock, ids_addLock]; exact h.nodup, by rw [incLock, ids_addLock]; exact h.lt, ?_, lockOk_inc h.nodup h.lock, ?_, ?_⟩
  · intro y hy
    rw [incLock, ids_addLock]
    rcases List.mem_cons.1 hy with rfl | hy
    · exact hx
    · exact h.held y hy
  · show s.cache.prot + _ = lockedSize (addLock x 1 s.cache.tree)
    rw [b, h.prot]
  · show s.cache.evictable - _ ≤ unlockedSize (addLock x 1 s.cache.tree)
    rw [a]; have := h.evictable; omega

theorem inv_unlock {P : Nat} {s : St} (h : Inv P s) {x : Nat} (hx : x ∈ s.held) :
    Inv P { cache := decLock s.cache x, held := s.held.erase x } := by
  have hl : LockOk (x :: s.held.erase x) s.cache.tree := lockOk_perm (List.perm_cons_erase hx) h.lock
  obtain ⟨a, b⟩ := sizes_dec hl
  refine ⟨wf_addLock.2 h.wf, by rw [decLock, ids_addLock]; exact h.nodup, by rw [decLock, ids_addLock]; exact h.lt, ?_, lockOk_dec h.nodup hl, ?_, ?_⟩
  · intro y hy
    rw [decLock, ids_addLock]
    exact h.held y (List.mem_of_mem_erase hy)
  · show s.cache.prot - _ = lockedSize (addLock x (-1) s.cache.tree)
    rw [b, h.prot]
  · show s.cache.evictable + _ ≤ unlockedSize (addLock x (-1) s.cache.tree)
    rw [a]; have := h.evictable; omega

theorem inv_step {P : Nat} (hP : 0 < P) {s s' : St} {op : Op} (h : Inv P s) (hs : Step P s op s') : Inv P s' := by
  cases hs with
  | matchPrefix now e key => exact inv_match hP h now e key
  | insert now e key val hl hd => exact inv_insert hP h hl hd
  | lock x hx => exact inv_lock h hx
  | unlock x hx => exact inv_unlock h hx
  | evict target freed c' he => exact (evict_ok h he).inv

theorem inv_reach {P : Nat} (hP : 0 < P) {ops : List Op} {s : St} (h : Reach P ops s) : Inv P s := by
  induction h with
  | init => exact inv_init P
  | step _ hs ih => exact inv_step hP ih hs

end Verif.PyRadix
