import Verif.PyRadix.Inv
namespace Verif.PyRadix

/-! # C36: prefix matching and insertion -/

/-- The history contains an insertion in namespace `e` whose first `n + 1` tokens are those of `key` and which supplied
the slot `x` for the token at position `n`. -/
def Supplied (ops : List Op) (e : Ext) (key : Key) (n : Nat) (x : Nat) : Prop :=
  ∃ now key' val, Op.insert now e key' val ∈ ops ∧ key'.take (n + 1) = key.take (n + 1) ∧ val[n]? = some x

/-- `last_node` of a match leads back to what was matched. -/
theorem match_last {P : Nat} (hP : 0 < P) {e : Ext} {now fresh : Nat} : ∀ {f : Forest}, WF P f → ∀ {key : Key}, P ∣ key.length →
    (∀ y, (matchWalk P e now fresh f key).last = some y → PathTo y (matchWalk P e now fresh f key).tree e
      (key.take (matchWalk P e now fresh f key).vals.flatten.length) (matchWalk P e now fresh f key).vals.flatten) ∧
    ((matchWalk P e now fresh f key).last = none → (matchWalk P e now fresh f key).vals = []) := by
  intro f
  induction f with
  | nil => intro _ key _; exact ⟨fun y h => (by cases h), fun _ => rfl⟩
  | node i k x v l t kids rest ihk ihr =>
    intro hw key hk
    obtain ⟨h1, h2, h3, h4, h5, h6⟩ := hw
    rw [matchWalk]
    by_cases c1 : key = []
    · rw [if_pos c1]; exact ⟨fun y h => (by cases h), fun _ => rfl⟩
    · rw [if_neg c1]
      by_cases c2 : x = e ∧ k.take P = key.take P
      · rw [if_pos c2]
        have km := kmatch_spec hP h2 hk
        by_cases c3 : kmatch P k key < k.length
        · rw [if_pos c3]
          refine ⟨fun y h => ?_, fun h => (by cases h)⟩
          obtain rfl := Option.some.inj h
          have lv : (v.take (kmatch P k key)).length = kmatch P k key := by rw [List.length_take]; omega
          simp only [List.flatten_cons, List.flatten_nil, List.append_nil, lv]
          exact .inr ⟨c2.1, .inl ⟨rfl, km.eq.symm, rfl⟩⟩
        · rw [if_neg c3]
          have hm : kmatch P k key = k.length := by have := km.lea; omega
          obtain ⟨i1, i2⟩ := ihk h5 (key := key.drop (kmatch P k key)) (by rw [List.length_drop]; exact Nat.dvd_sub hk km.dvd)
          refine ⟨fun y h => ?_, fun h => (by cases h)⟩
          simp only [List.flatten_cons, List.length_append, h3] at h ⊢
          have hkt : key.take k.length = k := by
            have := km.eq
            rw [hm, List.take_length] at this
            exact this.symm
          rw [List.take_add, hkt, ← hm]
          cases hl : (matchWalk P e now fresh kids (key.drop (kmatch P k key))).last with
          | none =>
            rw [hl] at h
            obtain rfl : i = y := Option.some.inj h
            have := i2 hl
            rw [this]
            simp only [List.flatten_nil, List.length_nil, List.take_zero, List.append_nil]
            exact .inr ⟨c2.1, .inl ⟨rfl, rfl, rfl⟩⟩
          | some z =>
            rw [hl] at h
            obtain rfl : z = y := Option.some.inj h
            exact pathTo_node c2.1 (i1 z hl)
      · rw [if_neg c2]
        obtain ⟨i1, i2⟩ := ihr h6 hk
        exact ⟨fun y h => .inl (i1 y h), i2⟩

theorem align_take {P : Nat} {key : Key} {n : Nat} (h : n ≤ (align P key).length) : (align P key).take n = key.take n := by
  rw [align, List.length_take] at h
  rw [align, List.take_take, Nat.min_eq_left (by omega)]

theorem align_len {P : Nat} {key : Key} {n : Nat} (hP : 0 < P) (hn : n ≤ key.length) (hd : P ∣ n) : n ≤ (align P key).length := by
  rw [align, List.length_take, Nat.min_eq_left (Nat.div_mul_le_self _ _)]
  obtain ⟨q, rfl⟩ := hd
  rw [Nat.mul_comm]
  exact Nat.mul_le_mul_right _ ((Nat.le_div_iff_mul_le hP).2 (by rw [Nat.mul_comm]; exact hn))

/-- C36: in every state, `match_prefix` returns the slots of the longest whole-page prefix of the key that is cached in
its namespace, changes nothing that is cached, and the returned node is the end of that prefix. -/
theorem C36_match {P : Nat} (hP : 0 < P) {ops : List Op} {s : St} (h : Reach P ops s) (now : Nat) (e : Ext) (key : Key) {sl : Slots}
    {last : Option Nat} {c' : Cache} (hm : matchPrefix P now s.cache e key = ((sl, last), c')) :
    sl.length ≤ key.length ∧ P ∣ sl.length ∧ Cached P s.cache.tree e (key.take sl.length) sl ∧
    (∀ n s2, n ≤ key.length → Cached P s.cache.tree e (key.take n) s2 → n ≤ sl.length) ∧
    (∀ e' k' s', Cached P c'.tree e' k' s' ↔ Cached P s.cache.tree e' k' s') ∧
    (∀ y, last = some y → PathTo y c'.tree e (key.take sl.length) sl) ∧ (last = none → sl = []) := by
  have hi := inv_reach hP h
  have hd := align_dvd P key
  obtain ⟨m1, m2, m3⟩ := match_longest hP (e := e) (now := now) (fresh := s.cache.fresh) hi.wf hd rfl
  obtain ⟨l1, l2⟩ := match_last hP (e := e) (now := now) (fresh := s.cache.fresh) hi.wf hd
  rw [matchPrefix] at hm
  simp only [Prod.mk.injEq] at hm
  obtain ⟨⟨rfl, rfl⟩, rfl⟩ := hm
  have hle : (align P key).length ≤ key.length := by rw [align, List.length_take]; omega
  rw [align_take m1] at m2
  have hc := cached_len hi.wf m2
  refine ⟨by omega, ?_, m2, ?_, cached_match hP hi.wf hd, ?_, ?_⟩
  · have := hc.1
    rwa [List.length_take, Nat.min_eq_left (by omega)] at this
  · intro n s2 hn h2
    have hd2 := (cached_len hi.wf h2).1
    rw [List.length_take, Nat.min_eq_left hn] at hd2
    have hn' := align_len hP hn hd2
    exact m3 n s2 hn' (by rw [align_take hn']; exact h2)
  · intro y hy
    have := l1 y hy
    rw [align_take m1] at this
    exact this
  · intro hn
    have := l2 hn
    rw [this]; rfl

/-- C36: `insert` of a key of whole pages reports the length of the longest prefix that was cached; afterwards cached is
what was cached before and the whole-page prefixes of the key, with the old slots for the reported prefix and the
caller's slots for the rest; the returned node is the end of the key. -/
theorem C36_insert {P : Nat} (hP : 0 < P) {ops : List Op} {s : St} (h : Reach P ops s) (now : Nat) (e : Ext) (key : Key) (val : Slots)
    (hne : key ≠ []) (hl : val.length = key.length) (hd : P ∣ key.length) {n : Nat} {last : Option Nat} {c' : Cache}
    (hi : insert P now s.cache e key val = ((n, last), c')) :
    n ≤ key.length ∧ (∀ m s2, m ≤ key.length → Cached P s.cache.tree e (key.take m) s2 → m ≤ n) ∧
    ∃ old, Cached P s.cache.tree e (key.take n) old ∧ old.length = n ∧
      (∀ e' k' s', Cached P c'.tree e' k' s' ↔ Cached P s.cache.tree e' k' s' ∨
        (e' = e ∧ ∃ m, m ≤ key.length ∧ P ∣ m ∧ k' = key.take m ∧ s' = (old ++ val.drop n).take m)) ∧
      (∃ y, last = some y ∧ PathTo y c'.tree e key (old ++ val.drop n)) ∧
      (slots c'.tree).Perm (slots s.cache.tree ++ val.drop n) := by
  have inv := inv_reach hP h
  rw [insert, if_neg hne] at hi
  simp only [Prod.mk.injEq] at hi
  obtain ⟨⟨rfl, rfl⟩, rfl⟩ := hi
  obtain ⟨old, ok⟩ := insRoot_ok hP (e := e) (now := now) (fresh := s.cache.fresh) inv.wf hne hd hl
  have g := insRoot_grow hP (e := e) (now := now) (fresh := s.cache.fresh) inv.wf hd hl
  exact ⟨ok.le, ok.max, old, ok.old, ok.len, ok.new, ⟨_, rfl, ok.last⟩, g.slots⟩

theorem step_cached {P : Nat} (hP : 0 < P) {ops : List Op} {s s' : St} {op : Op} (h : Reach P ops s) (hs : Step P s op s') {e : Ext} {key : Key}
    {sl : Slots} (hc : Cached P s'.cache.tree e key sl) : Cached P s.cache.tree e key sl ∨
      ∃ now key' val old n m, op = .insert now e key' val ∧ n ≤ key'.length ∧ val.length = key'.length ∧ Cached P s.cache.tree e (key'.take n) old ∧
        old.length = n ∧ m ≤ key'.length ∧ key = key'.take m ∧ sl = (old ++ val.drop n).take m := by
  have inv := inv_reach hP h
  cases hs with
  | matchPrefix now e' key' => exact .inl ((cached_match hP inv.wf (align_dvd P key') _ _ _).1 hc)
  | insert now e' key' val hl hd =>
    by_cases hk : key' = []
    · simp only [insert, if_pos hk] at hc; exact .inl hc
    · rcases hr : insert P now s.cache e' key' val with ⟨⟨n, last⟩, c'⟩
      obtain ⟨h1, _, old, h3, h4, h5, _, _⟩ := C36_insert hP h now e' key' val hk hl hd hr
      simp only [hr] at hc
      rcases (h5 _ _ _).1 hc with hc | ⟨rfl, m, hm, _, rfl, rfl⟩
      · exact .inl hc
      · exact .inr ⟨now, key', val, old, n, m, rfl, h1, hl, h3, h4, hm, rfl, rfl⟩
  | lock x hx => exact .inl (cached_addLock.1 hc)
  | unlock x hx => exact .inl (cached_addLock.1 hc)
  | evict target freed c' he => exact .inl ((evict_ok inv he).cached _ _ _ hc)

/-- C36: a slot that is cached for a position of a token sequence was supplied by an insertion, in the same namespace,
of a sequence that agrees up to and including this position: no request is served the KV of other tokens. -/
theorem C36_origin {P : Nat} (hP : 0 < P) {ops : List Op} {s : St} (h : Reach P ops s) : ∀ {e : Ext} {key : Key} {sl : Slots},
    Cached P s.cache.tree e key sl → ∀ (n x : Nat), sl[n]? = some x → Supplied ops e key n x := by
  induction h with
  | init => rintro e key sl ⟨_, rfl⟩ n x h; simp at h
  | @step ops s op s' hr hs ih =>
    intro e key sl hc n x hx
    rcases step_cached hP hr hs hc with hc | ⟨now, key', val, old, j, m, rfl, hj, hv, hold, hjl, hm, rfl, rfl⟩
    · obtain ⟨now, key', val, a, b, c⟩ := ih hc n x hx
      exact ⟨now, key', val, List.mem_cons_of_mem _ a, b, c⟩
    · rw [List.getElem?_take] at hx
      split at hx
      · rename_i hnm
        by_cases hno : n < j
        · rw [List.getElem?_append_left (by omega)] at hx
          obtain ⟨now2, key2, val2, a, b, c⟩ := ih hold n x hx
          refine ⟨now2, key2, val2, List.mem_cons_of_mem _ a, ?_, c⟩
          rw [b, List.take_take, List.take_take, Nat.min_eq_left (by omega), Nat.min_eq_left (by omega)]
        · rw [List.getElem?_append_right (by omega), List.getElem?_drop] at hx
          refine ⟨now, key', val, List.mem_cons_self, ?_, ?_⟩
          · rw [List.take_take, Nat.min_eq_left (by omega)]
          · rw [← hx]; congr 1; omega
      · cases hx

/-- C36, end to end: every slot returned by `match_prefix` was supplied for the same tokens. -/
theorem C36_match_origin {P : Nat} (hP : 0 < P) {ops : List Op} {s : St} (h : Reach P ops s) (now : Nat) (e : Ext) (key : Key) {sl : Slots}
    {last : Option Nat} {c' : Cache} (hm : matchPrefix P now s.cache e key = ((sl, last), c')) (n x : Nat) (hx : sl[n]? = some x) :
    Supplied ops e key n x := by
  obtain ⟨h1, _, h3, _⟩ := C36_match hP h now e key hm
  obtain ⟨now2, key2, val2, a, b, c⟩ := C36_origin hP h h3 n x hx
  refine ⟨now2, key2, val2, a, ?_, c⟩
  have : n < sl.length := (List.getElem?_eq_some_iff.1 hx).1
  rw [b, List.take_take, Nat.min_eq_left (by omega)]

/-! # C37: locks and eviction -/

/-- C37: the prefix ending at a locked node stays cached with its slots, whatever is called. -/
theorem C37_locked_survive {P : Nat} (hP : 0 < P) {ops : List Op} {s s' : St} {op : Op} (h : Reach P ops s) (hs : Step P s op s') {x : Nat}
    (hx : x ∈ s.held) {e : Ext} {key : Key} {sl : Slots} (hp : PathTo x s.cache.tree e key sl) :
    PathTo x s'.cache.tree e key sl ∧ Cached P s'.cache.tree e key sl := by
  have inv := inv_reach hP h
  have inv' := inv_step hP inv hs
  have key1 : PathTo x s'.cache.tree e key sl := by
    cases hs with
    | matchPrefix now e' key' => exact (grow_match hP inv.wf (align_dvd P key')).path _ _ _ _ hp
    | insert now e' key' val hl hd =>
      by_cases hk : key' = []
      · simp only [insert, if_pos hk]; exact hp
      · simp only [insert, if_neg hk]
        exact (insRoot_grow hP inv.wf hd hl).path _ _ _ _ hp
    | lock y hy => exact pathTo_addLock.2 hp
    | unlock y hy => exact pathTo_addLock.2 hp
    | evict target freed c' he => exact (evict_ok inv he).path x hx _ _ _ hp
  exact ⟨key1, pathTo_cached inv'.wf key1⟩

/-- C37: `evict` frees the slots of what it removes, each once, and keeps the rest; it frees at least what was asked for,
or everything that is not locked. -/
theorem C37_evict {P : Nat} (hP : 0 < P) {ops : List Op} {s : St} (h : Reach P ops s) {target : Nat} {freed : Slots} {c' : Cache}
    (he : Evict target s.cache freed c') :
    (slots s.cache.tree).Perm (freed ++ slots c'.tree) ∧ (∀ e key sl, Cached P c'.tree e key sl → Cached P s.cache.tree e key sl) ∧
    (target ≤ freed.length ∨ unlockedSize c'.tree = 0) := by
  have ok := evict_ok (inv_reach hP h) he
  refine ⟨ok.slots, ok.cached, ok.enough.imp_right ?_⟩
  intro hn
  clear ok he
  revert hn
  generalize c'.tree = f
  induction f with
  | nil => intro _; rfl
  | node i k x v l t kids rest ihk ihr =>
    intro hn
    have h0 : l ≠ 0 := hn ⟨i, k, v, l, t, decide (kids = .nil)⟩ (by rw [infos]; exact List.mem_cons_self)
    rw [unlockedSize, if_neg h0, ihk (fun n hh => hn n (by rw [infos, List.mem_cons, List.mem_append]; exact .inr (.inl hh))),
      ihr (fun n hh => hn n (by rw [infos, List.mem_cons, List.mem_append]; exact .inr (.inr hh)))]
    rfl

theorem pathTo_slots {y : Nat} : ∀ {f : Forest} {e key s}, PathTo y f e key s → ∀ x ∈ s, x ∈ slots f
  | .nil, _, _, _, h => h.elim
  | .node i k e v l t kids rest, _, _, _, h => by
    intro x hx
    rw [slots, List.mem_append, List.mem_append]
    rcases h with h | ⟨_, ⟨_, _, rfl⟩ | ⟨_, s', _, rfl, h⟩⟩
    · exact .inr (.inr (pathTo_slots h x hx))
    · exact .inl hx
    · rcases List.mem_append.1 hx with hx | hx
      · exact .inl hx
      · exact .inr (.inl (pathTo_slots h x hx))

/-- C37: eviction frees no slot of a locked prefix (the slots in the cache being distinct, as those of an allocator are). -/
theorem C37_evict_locked {P : Nat} (hP : 0 < P) {ops : List Op} {s : St} (h : Reach P ops s) {target : Nat} {freed : Slots} {c' : Cache}
    (he : Evict target s.cache freed c') (hn : (slots s.cache.tree).Nodup) {x : Nat} (hx : x ∈ s.held) {e : Ext} {key : Key} {sl : Slots}
    (hp : PathTo x s.cache.tree e key sl) : ∀ y ∈ sl, y ∉ freed := by
  have ok := evict_ok (inv_reach hP h) he
  intro y hy hf
  have h1 := pathTo_slots (ok.path x hx _ _ _ hp) y hy
  have h2 := (ok.slots.nodup_iff).1 hn
  rw [List.nodup_append] at h2
  exact h2.2.2 y hf y h1 rfl

/-- C37: a node is locked exactly while a lock below it is held, and the protected size counts the locked tokens. -/
theorem C37_protected {P : Nat} (hP : 0 < P) {ops : List Op} {s : St} (h : Reach P ops s) :
    LockOk s.held s.cache.tree ∧ s.cache.prot = lockedSize s.cache.tree :=
  ⟨(inv_reach hP h).lock, (inv_reach hP h).prot⟩

theorem total_split : ∀ {P : Nat} {f : Forest}, WF P f → (totalSize f : Int) = lockedSize f + unlockedSize f := by
  intro P f
  induction f with
  | nil => intro _; rfl
  | node i k x v l t kids rest ihk ihr =>
    rintro ⟨h1, h2, h3, h4, h5, h6⟩
    rw [totalSize, lockedSize, unlockedSize]
    push_cast
    rw [ihk h5, ihr h6, h3]
    by_cases hz : l = 0
    · rw [if_neg (by simpa using hz), if_pos hz]; ring
    · rw [if_pos hz, if_neg hz]; ring

/-- C37, sizes: the reported evictable size never exceeds what can be evicted, and evictable and protected size together
never exceed the total. Missing: equality, which fails (`C37_sizes_violated`). -/
theorem C37_sizes_partial {P : Nat} (hP : 0 < P) {ops : List Op} {s : St} (h : Reach P ops s) :
    s.cache.evictable ≤ unlockedSize s.cache.tree ∧ s.cache.evictable + s.cache.prot ≤ totalSize s.cache.tree := by
  have inv := inv_reach hP h
  refine ⟨inv.evictable, ?_⟩
  rw [total_split inv.wf, inv.prot]
  have := inv.evictable
  omega

/-! ### Exact sizes -/

/-- The key continues a cached sequence that ends at an unlocked leaf. -/
def ExtendsLeaf (f : Forest) (e : Ext) (key : Key) : Prop :=
  ∃ n ∈ infos f, n.leaf = true ∧ n.lock = 0 ∧ ∃ k sl, PathTo n.id f e k sl ∧ k <+: key ∧ k ≠ key

theorem insWalk_extends {P : Nat} (hP : 0 < P) {e : Ext} {now fresh : Nat} : ∀ {f : Forest}, WF P f → ∀ {key : Key} {val : Slots}, P ∣ key.length →
    ∀ {r : Ins}, insWalk P e now fresh f key val = some r → r.lost ≠ 0 → ExtendsLeaf f e key := by
  intro f
  induction f with
  | nil => intro _ key val _ r h; simp [insWalk] at h
  | node i k x v l t kids rest ihk ihr =>
    intro hw key val hk r h hr
    obtain ⟨h1, h2, h3, h4, h5, h6⟩ := hw
    rw [insWalk] at h
    by_cases c2 : x = e ∧ k.take P = key.take P
    · rw [if_pos c2] at h
      have km := kmatch_spec hP h2 hk
      simp only [] at h
      by_cases c3 : kmatch P k key < k.length
      · rw [if_pos c3] at h
        by_cases c4 : key.drop (kmatch P k key) = []
        · rw [if_pos c4] at h; obtain rfl := Option.some.inj h; exact absurd rfl hr
        · rw [if_neg c4] at h; obtain rfl := Option.some.inj h; exact absurd rfl hr
      · have hm : kmatch P k key = k.length := by have := km.lea; omega
        have ekey : key = k ++ key.drop (kmatch P k key) := by
          have e1 := km.eq
          rw [hm, List.take_length] at e1
          rw [hm]
          conv_lhs => rw [← List.take_append_drop k.length key, ← e1]
        rw [if_neg c3] at h
        by_cases c4 : key.drop (kmatch P k key) = []
        · rw [if_pos c4] at h; obtain rfl := Option.some.inj h; exact absurd rfl hr
        · rw [if_neg c4] at h
          cases hi : insWalk P e now fresh kids (key.drop (kmatch P k key)) (val.drop (kmatch P k key)) with
          | none =>
            rw [hi] at h
            obtain rfl := Option.some.inj h
            have hr : leafLoss kids l k ≠ 0 := hr
            rw [leafLoss] at hr
            by_cases hc : kids = .nil ∧ l = 0
            · obtain ⟨rfl, rfl⟩ := hc
              refine ⟨⟨i, k, v, 0, t, true⟩, by simp [infos], rfl, rfl, k, v, .inr ⟨c2.1, .inl ⟨rfl, rfl, rfl⟩⟩, ⟨_, ekey.symm⟩, ?_⟩
              intro hh
              rw [hm, ← hh] at c4
              simp at c4
            · rw [if_neg hc] at hr; exact absurd rfl hr
          | some r1 =>
            rw [hi] at h
            obtain rfl := Option.some.inj h
            obtain ⟨n, hn, a, b, k', sl, hp, ⟨w, hpre⟩, hne⟩ := ihk h5 (by rw [List.length_drop]; exact Nat.dvd_sub hk km.dvd) hi hr
            refine ⟨n, by rw [infos, List.mem_cons, List.mem_append]; exact .inr (.inl hn), a, b, k ++ k', v ++ sl, pathTo_node c2.1 hp, ⟨w, ?_⟩, ?_⟩
            · rw [List.append_assoc, hpre, ← ekey]
            · intro hh
              rw [ekey] at hh
              rw [ekey] at hne
              have := List.append_cancel_left hh
              apply hne
              rw [← ekey]; exact this
    · rw [if_neg c2] at h
      cases hi : insWalk P e now fresh rest key val with
      | none => rw [hi] at h; cases h
      | some r1 =>
        rw [hi] at h
        obtain rfl := Option.some.inj h
        obtain ⟨n, hn, a, b, k', sl, hp, hpre, hne⟩ := ihr h6 hk hi hr
        exact ⟨n, by rw [infos, List.mem_cons, List.mem_append]; exact .inr (.inr hn), a, b, k', sl, .inl hp, hpre, hne⟩

/-- Histories in which no insertion continues a sequence that ends at an unlocked leaf. -/
inductive ReachX (P : Nat) : List Op → St → Prop where
  | init : ReachX P [] ⟨.empty, []⟩
  | step {ops s op s'} : ReachX P ops s → Step P s op s' →
      (∀ now e key val, op = .insert now e key val → ¬ ExtendsLeaf s.cache.tree e key) → ReachX P (op :: ops) s'

theorem ReachX.reach {P : Nat} {ops : List Op} {s : St} (h : ReachX P ops s) : Reach P ops s := by
  induction h with
  | init => exact .init
  | step _ hs _ ih => exact .step ih hs

/-- C37, sizes: under the condition of `ReachX` the evictable size is the number of unlocked tokens and evictable plus
protected size is the total size. -/
theorem C37_sizes_exact_partial {P : Nat} (hP : 0 < P) {ops : List Op} {s : St} (h : ReachX P ops s) :
    s.cache.evictable = unlockedSize s.cache.tree ∧ s.cache.evictable + s.cache.prot = totalSize s.cache.tree := by
  have main : s.cache.evictable = unlockedSize s.cache.tree := by
    induction h with
    | init => rfl
    | @step ops s op s' hr hs hx ih =>
      have inv := inv_reach hP hr.reach
      cases hs with
      | matchPrefix now e key =>
        have g := grow_match hP (e := e) (now := now) (fresh := s.cache.fresh) inv.wf (align_dvd P key)
        show s.cache.evictable = unlockedSize (matchWalk P e now s.cache.fresh s.cache.tree (align P key)).tree
        rw [g.unlocked, ih]; ring
      | insert now e key val hl hd =>
        by_cases hk : key = []
        · simp only [insert, if_pos hk]; exact ih
        · simp only [insert, if_neg hk]
          have g := insRoot_grow hP (e := e) (now := now) (fresh := s.cache.fresh) inv.wf hd hl
          have hz : (insRoot P e now s.cache.fresh s.cache.tree key val).lost = 0 := by
            by_contra hh
            refine hx now e key val rfl ?_
            rw [insRoot] at hh
            cases hi : insWalk P e now s.cache.fresh s.cache.tree key val with
            | none => rw [hi] at hh; exact absurd rfl hh
            | some r => rw [hi] at hh; exact insWalk_extends hP inv.wf hd hi hh
          rw [g.unlocked, hz, ih]; ring
      | lock x hx => show s.cache.evictable - _ = unlockedSize (addLock x 1 s.cache.tree); rw [(sizes_inc inv.lock).1, ih]
      | unlock x hxh =>
        show s.cache.evictable + _ = unlockedSize (addLock x (-1) s.cache.tree)
        rw [(sizes_dec (lockOk_perm (List.perm_cons_erase hxh) inv.lock)).1, ih]
      | evict target freed c' he =>
        have := (evict_ok inv he).size
        show c'.evictable = unlockedSize c'.tree
        linarith
  refine ⟨main, ?_⟩
  have inv := inv_reach hP h.reach
  rw [total_split inv.wf, inv.prot, main]; ring

/-! ### Witnesses -/

def w1 : St := { cache := (insert 1 0 Cache.empty none [1] [10]).2, held := [] }
def w2 : St := { w1 with cache := (insert 1 1 w1.cache none [1, 2] [10, 11]).2 }
def w3 : St := { cache := incLock w2.cache 2, held := 2 :: w2.held }
def w4 : St := { w3 with cache := (insert 1 2 w3.cache none [9] [12]).2 }

def wOps : List Op := [.insert 2 none [9] [12], .lock 2, .insert 1 none [1, 2] [10, 11], .insert 0 none [1] [10]]

theorem w4_reach : Reach 1 wOps w4 :=
  .step (s := w3) (.step (s := w2) (.step (s := w1) (.step .init (.insert 0 none [1] [10] rfl (by decide)))
    (.insert 1 none [1, 2] [10, 11] rfl (by decide))) (.lock (s := w2) 2 (by decide +kernel))) (.insert 2 none [9] [12] rfl (by decide))

/-- C37, violated for sizes: after inserting `[1]` and then `[1, 2]`, the evictable size has lost a token (L648): with
`[1, 2]` locked and `[9]` cached it reports 0, though `evict` can free the slot of `[9]`. -/
theorem C37_sizes_violated : ∃ ops s, Reach 1 ops s ∧ s.cache.evictable = 0 ∧ unlockedSize s.cache.tree = 1 ∧
    totalSize s.cache.tree = 3 ∧ s.cache.prot = 2 ∧ ∃ freed c', Evict 1 s.cache freed c' ∧ freed = [12] := by
  refine ⟨wOps, w4, w4_reach, by decide +kernel, by decide +kernel, by decide +kernel, by decide +kernel, [12],
    (evictPop ⟨w4.cache, [(2, 3)], [], 0⟩ 3 []).cache, ?_, rfl⟩
  rw [Evict, if_neg (by decide)]
  refine ⟨evictPop ⟨w4.cache, [(2, 3)], [], 0⟩ 3 [], ?_, by decide +kernel, rfl⟩
  have hh : ((evictableLeaves w4.cache.tree).map fun n => (n.time, n.id)) = [(2, 3)] := by decide +kernel
  rw [hh]
  refine .pop 2 3 (by decide) (by simp) (by simp) (.enough _ (by decide +kernel))

/-- Non-vacuity of C36 and C37 (match, insert, locks): a state with a split node, a lock and two namespaces. -/
example : Reach 1 wOps w4 ∧ (matchPrefix 1 5 w4.cache none [1, 2, 3]).1.1 = [10, 11] ∧ (matchPrefix 1 5 w4.cache (some "a") [1, 2]).1.1 = [] ∧
    (insert 1 5 w4.cache none [1, 4] [20, 21]).1.1 = 1 ∧ (2 : Nat) ∈ w4.held ∧ PathTo 2 w4.cache.tree none [1, 2] [10, 11] :=
  ⟨w4_reach, by decide +kernel, by decide +kernel, by decide +kernel, by decide +kernel,
    .inr ⟨rfl, .inr ⟨[2], [11], rfl, rfl, .inr ⟨rfl, .inl ⟨rfl, rfl, rfl⟩⟩⟩⟩⟩

/-- Non-vacuity of `C37_sizes_exact_partial`: a history with a split and a lock. -/
example : ∃ ops s, ReachX 1 ops s ∧ s.held ≠ [] ∧ totalSize s.cache.tree = 3 := by
  refine ⟨_, _, .step (.step (.step .init (.insert 0 none [1, 2] [10, 11] rfl (by decide)) ?_)
    (.insert 1 none [1, 3] [20, 21] rfl (by decide)) ?_) (.lock 2 (by decide +kernel)) ?_, by decide +kernel, by decide +kernel⟩
  · rintro now e key val hh ⟨n, hn, _⟩
    simp [Cache.empty, infos] at hn
  · rintro now e key val hh ⟨n, hn, hl, h0, k, sl, hp, hpre, hne⟩
    injection hh with a b c d
    subst c
    rcases hp with hp | ⟨_, ⟨_, rfl, _⟩ | ⟨_, _, _, _, hp⟩⟩
    · exact hp.elim
    · exact absurd hpre (by decide)
    · exact hp.elim
  · rintro now e key val hh; cases hh

/-- C36, violated for keys that are not whole pages: with pages of 2 tokens, inserting the same three tokens twice
reports a prefix of four. -/
theorem C36_unaligned_violated : ∃ (c : Cache) (key : Key) (val : Slots), val.length = key.length ∧
    c = (insert 2 0 Cache.empty none key val).2 ∧ (insert 2 1 c none key val).1.1 = 4 ∧ key.length = 3 :=
  ⟨_, [1, 2, 3], [10, 11, 12], rfl, rfl, by decide +kernel, rfl⟩

/-! # C49: sliding-window insertion -/

/-- C49, violated: with a sliding window, after `insert [1,2,3]` and `insert [1,2,4]` the sequence `[1,2,4]`, just inserted,
is matched for two tokens only, and `[1,2,3,4]`, never inserted, is matched completely, the slot of its last
token being the one computed for `[1,2,4]`. -/
theorem C49_swa_violated : ∃ c : Cache, c = (insertSwa 1 1 (insertSwa 1 0 Cache.empty none [1, 2, 3] [10, 11, 12]).2 none [1, 2, 4] [20, 21, 22]).2 ∧
    (matchPrefix 1 2 c none [1, 2, 4]).1.1 = [10, 11] ∧ (matchPrefix 1 2 c none [1, 2, 3, 4]).1.1 = [10, 11, 12, 22] :=
  ⟨_, rfl, by decide +kernel, by decide +kernel⟩

end Verif.PyRadix
