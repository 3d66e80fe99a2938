import Verif.PyRadix.Lemmas
namespace Verif.PyRadix

/-- `f'` comes from `f` by adding nodes with ids from `fr` up to `fr'`, holding the slots `added`, and splitting nodes;
`d` tokens are added to unlocked nodes. -/
structure Grow (f f' : Forest) (fr fr' : Nat) (added : Slots) (d : Int) : Prop where
  le : fr ≤ fr'
  ids : (ids f').Perm (ids f ++ List.range' fr (fr' - fr))
  slots : (slots f').Perm (slots f ++ added)
  locked : lockedSize f' = lockedSize f
  unlocked : unlockedSize f' = unlockedSize f + d
  lock : ∀ held : List Nat, (∀ h ∈ held, h < fr) → LockOk held f → LockOk held f'
  path : ∀ y e k s, PathTo y f e k s → PathTo y f' e k s

theorem Grow.refl (f : Forest) (fr : Nat) : Grow f f fr fr [] 0 :=
  ⟨Nat.le_refl _, by simp, by simp, rfl, by simp, fun _ _ h => h, fun _ _ _ _ h => h⟩

theorem Grow.trans {f g h : Forest} {a b c : Nat} {s1 s2 : Slots} {d1 d2 : Int} (h1 : Grow f g a b s1 d1) (h2 : Grow g h b c s2 d2) :
    Grow f h a c (s1 ++ s2) (d1 + d2) := by
  have l1 := h1.le
  have l2 := h2.le
  refine ⟨by omega, ?_, ?_, h2.locked.trans h1.locked, by rw [h2.unlocked, h1.unlocked]; ring, ?_, ?_⟩
  · refine h2.ids.trans ((h1.ids.append_right _).trans ?_)
    rw [List.append_assoc]
    refine List.Perm.append_left _ ?_
    have : List.range' a (c - a) = List.range' a (b - a) ++ List.range' b (c - b) := by
      have := @List.range'_append_1 a (b - a) (c - b)
      rw [show a + (b - a) = b by omega, show b - a + (c - b) = c - a by omega] at this
      exact this.symm
    rw [this]
  · refine h2.slots.trans ((h1.slots.append_right _).trans ?_)
    rw [List.append_assoc]
  · intro held hh hl
    exact h2.lock held (fun x hx => by have := hh x hx; omega) (h1.lock held hh hl)
  · intro y e k s hp
    exact h2.path _ _ _ _ (h1.path _ _ _ _ hp)

theorem Grow.mem {f f' : Forest} {fr fr' : Nat} {a d} (g : Grow f f' fr fr' a d) {h : Nat} (hh : h < fr) : h ∈ Verif.PyRadix.ids f' ↔ h ∈ Verif.PyRadix.ids f := by
  rw [g.ids.mem_iff, List.mem_append, List.mem_range'_1]
  constructor
  · rintro (h1 | h1)
    · exact h1
    · omega
  · exact .inl

theorem countP_congr' {held : List Nat} {p q : Nat → Bool} (h : ∀ x ∈ held, p x = q x) : held.countP p = held.countP q :=
  List.countP_congr fun x hx => by rw [h x hx]

/-- A change below a node. -/
theorem Grow.kids {kids kids' : Forest} {fr fr' : Nat} {a d} (g : Grow kids kids' fr fr' a d) (i k x v l t t' rest) :
    Grow (.node i k x v l t kids rest) (.node i k x v l t' kids' rest) fr fr' a d := by
  refine ⟨g.le, ?_, ?_, ?_, ?_, ?_, ?_⟩
  · simp only [Verif.PyRadix.ids, List.cons_append]
    refine List.Perm.cons _ ?_
    refine (g.ids.append_right _).trans ?_
    rw [List.append_assoc, List.append_assoc]
    exact List.Perm.append_left _ List.perm_append_comm
  · simp only [Verif.PyRadix.slots, List.append_assoc]
    refine List.Perm.append_left _ ?_
    refine (g.slots.append_right _).trans ?_
    rw [List.append_assoc]
    exact List.Perm.append_left _ List.perm_append_comm
  · simp only [lockedSize, g.locked]
  · simp only [unlockedSize, g.unlocked]; ring
  · rintro held hh ⟨h1, h2, h3⟩
    refine ⟨?_, g.lock held hh h2, h3⟩
    rw [h1]
    congr 1
    refine countP_congr' fun y hy => ?_
    have := g.mem (hh y hy)
    simp [this]
  · intro y e key s hp
    rcases hp with hp | ⟨hx, hp | ⟨key', s', e1, e2, hp⟩⟩
    · exact .inl hp
    · exact .inr ⟨hx, .inl hp⟩
    · exact .inr ⟨hx, .inr ⟨key', s', e1, e2, g.path _ _ _ _ hp⟩⟩

theorem Grow.rest {rest rest' : Forest} {fr fr' : Nat} {a d} (g : Grow rest rest' fr fr' a d) (i k x v l t kids) :
    Grow (.node i k x v l t kids rest) (.node i k x v l t kids rest') fr fr' a d := by
  refine ⟨g.le, ?_, ?_, ?_, ?_, ?_, ?_⟩
  · simp only [Verif.PyRadix.ids, List.cons_append, List.append_assoc]
    exact List.Perm.cons _ (List.Perm.append_left _ g.ids)
  · simp only [Verif.PyRadix.slots, List.append_assoc]
    exact List.Perm.append_left _ (List.Perm.append_left _ g.slots)
  · simp only [lockedSize, g.locked]
  · simp only [unlockedSize, g.unlocked]; ring
  · rintro held hh ⟨h1, h2, h3⟩
    exact ⟨h1, h2, g.lock held hh h3⟩
  · intro y e key s hp
    rcases hp with hp | hp
    · exact .inl (g.path _ _ _ _ hp)
    · exact .inr hp

theorem Grow.split {k : Key} {v : Slots} {n : Nat} (hn : n ≤ k.length) (fr i x l t t' u kids rest) :
    Grow (.node i k x v l t kids rest)
      (.node fr (k.take n) x (v.take n) l t' (.node i (k.drop n) x (v.drop n) l u kids .nil) rest) fr (fr + 1) [] 0 := by
  refine ⟨by omega, ?_, ?_, ?_, ?_, ?_, ?_⟩
  · rw [show fr + 1 - fr = 1 by omega]
    simp only [Verif.PyRadix.ids, List.cons_append, List.append_nil, List.range'_one]
    exact (List.perm_append_singleton fr (i :: (Verif.PyRadix.ids kids ++ Verif.PyRadix.ids rest))).symm
  · have : v.take n ++ v.drop n = v := List.take_append_drop n v
    simp only [Verif.PyRadix.slots, List.append_nil]
    rw [← List.append_assoc, ← List.append_assoc, this, List.append_assoc]
  · simp only [lockedSize, List.length_take, List.length_drop, Nat.min_eq_left hn]
    split
    · simp; omega
    · simp
  · simp only [unlockedSize, List.length_take, List.length_drop, Nat.min_eq_left hn]
    split
    · simp; omega
    · simp
  · rintro held hh ⟨h1, h2, h3⟩
    refine ⟨?_, ⟨h1, h2, True.intro⟩, h3⟩
    rw [h1]
    congr 1
    refine countP_congr' fun y hy => ?_
    have : y ≠ fr := by have := hh y hy; omega
    simp [Verif.PyRadix.ids, this]
  · intro y e key s hp
    have ek : k.take n ++ k.drop n = k := List.take_append_drop n k
    have ev : v.take n ++ v.drop n = v := List.take_append_drop n v
    rcases hp with hp | ⟨hx, ⟨rfl, rfl, rfl⟩ | ⟨key', s', rfl, rfl, hp⟩⟩
    · exact .inl hp
    · exact .inr ⟨hx, .inr ⟨_, _, ek.symm, ev.symm, .inr ⟨hx, .inl ⟨rfl, rfl, rfl⟩⟩⟩⟩
    · refine .inr ⟨hx, .inr ⟨k.drop n ++ key', v.drop n ++ s', ?_, ?_, .inr ⟨hx, .inr ⟨_, _, rfl, rfl, hp⟩⟩⟩⟩
      · rw [← List.append_assoc, ek]
      · rw [← List.append_assoc, ev]

theorem Grow.leaf (fr k e v now) : ∀ f : Forest, Grow f (addLeaf fr k e v now f) fr (fr + 1) v (k.length : Int)
  | .nil => by
    refine ⟨by omega, ?_, ?_, ?_, ?_, ?_, ?_⟩
    · rw [show fr + 1 - fr = 1 by omega]; simp [addLeaf, Verif.PyRadix.ids]
    · simp [addLeaf, Verif.PyRadix.slots]
    · simp [addLeaf, lockedSize]
    · simp [addLeaf, unlockedSize]
    · intro held hh _
      refine ⟨?_, True.intro, True.intro⟩
      have : held.countP (fun h => decide (h ∈ fr :: Verif.PyRadix.ids .nil)) = 0 := by
        rw [List.countP_eq_zero]
        intro y hy
        have := hh y hy
        simp [Verif.PyRadix.ids]; omega
      rw [this]; rfl
    · intro y e key s hp; exact hp.elim
  | .node i k' x v' l t kids rest => (Grow.leaf fr k e v now rest).rest i k' x v' l t kids

theorem Grow.time (f : Forest) (fr : Nat) (i k x v l t t' rest) :
    Grow (.node i k x v l t f rest) (.node i k x v l t' f rest) fr fr [] 0 := (Grow.refl f fr).kids i k x v l t t' rest

theorem grow_match {P : Nat} (hP : 0 < P) {e : Ext} {now fresh : Nat} : ∀ {f : Forest}, WF P f → ∀ {key : Key}, P ∣ key.length →
    Grow f (matchWalk P e now fresh f key).tree fresh (matchWalk P e now fresh f key).fresh [] 0 := by
  intro f
  induction f with
  | nil => intro _ key _; exact Grow.refl _ _
  | node i k x v l t kids rest ihk ihr =>
    intro hw key hk
    obtain ⟨h1, h2, h3, h4, h5, h6⟩ := hw
    rw [matchWalk]
    by_cases c1 : key = []
    · rw [if_pos c1]; exact Grow.refl _ _
    · rw [if_neg c1]
      by_cases c2 : x = e ∧ k.take P = key.take P
      · rw [if_pos c2]
        have km := kmatch_spec hP h2 hk
        by_cases c3 : kmatch P k key < k.length
        · rw [if_pos c3]; exact Grow.split (Nat.le_of_lt c3) _ _ _ _ _ _ _ _ _
        · rw [if_neg c3]
          exact (ihk h5 (by rw [List.length_drop]; exact Nat.dvd_sub hk km.dvd)).kids _ _ _ _ _ _ _ _
      · rw [if_neg c2]; exact (ihr h6 hk).rest _ _ _ _ _ _ _

/-! ### Insertion -/

theorem grow_ins {P : Nat} (hP : 0 < P) {e : Ext} {now fresh : Nat} : ∀ {f : Forest}, WF P f → ∀ {key : Key} {val : Slots}, P ∣ key.length →
    ∀ {r : Ins}, insWalk P e now fresh f key val = some r →
      Grow f r.tree fresh r.fresh (if r.plen = key.length then [] else val.drop r.plen) (r.dEvict + r.lost) := by
  intro f
  induction f with
  | nil => intro _ key val _ r h; simp [insWalk] at h
  | node i k x v l t kids rest ihk ihr =>
    intro hw key val hk r h
    obtain ⟨h1, h2, h3, h4, h5, h6⟩ := hw
    rw [insWalk] at h
    by_cases c2 : x = e ∧ k.take P = key.take P
    · rw [if_pos c2] at h
      have km := kmatch_spec hP h2 hk
      simp only [] at h
      have emp : key.drop (kmatch P k key) = [] ↔ kmatch P k key = key.length := by
        rw [List.drop_eq_nil_iff]; have := km.leb; omega
      by_cases c3 : kmatch P k key < k.length
      · rw [if_pos c3] at h
        by_cases c4 : key.drop (kmatch P k key) = []
        · rw [if_pos c4] at h
          obtain rfl := Option.some.inj h
          simp only [if_pos (emp.1 c4)]
          exact Grow.split (Nat.le_of_lt c3) _ _ _ _ _ _ _ _ _
        · rw [if_neg c4] at h
          obtain rfl := Option.some.inj h
          simp only [if_neg (fun q => c4 (emp.2 q))]
          have g1 := Grow.split (v := v) (Nat.le_of_lt c3) fresh i x l t now now kids rest
          have g2 := ((Grow.leaf (fresh + 1) (key.drop (kmatch P k key)) e (val.drop (kmatch P k key)) now
            (.node i (k.drop (kmatch P k key)) x (v.drop (kmatch P k key)) l now kids .nil))).kids fresh (k.take (kmatch P k key)) x
              (v.take (kmatch P k key)) l now now rest
          have := g1.trans g2
          simpa using this
      · rw [if_neg c3] at h
        by_cases c4 : key.drop (kmatch P k key) = []
        · rw [if_pos c4] at h
          obtain rfl := Option.some.inj h
          simp only [if_pos (emp.1 c4)]
          exact Grow.time _ _ _ _ _ _ _ _ _ _
        · rw [if_neg c4] at h
          cases hi : insWalk P e now fresh kids (key.drop (kmatch P k key)) (val.drop (kmatch P k key)) with
          | none =>
            rw [hi] at h
            obtain rfl := Option.some.inj h
            simp only [if_neg (fun q => c4 (emp.2 q))]
            have g := (Grow.leaf fresh (key.drop (kmatch P k key)) e (val.drop (kmatch P k key)) now kids).kids i k x v l t now rest
            simpa using g
          | some r1 =>
            rw [hi] at h
            obtain rfl := Option.some.inj h
            have g := (ihk h5 (by rw [List.length_drop]; exact Nat.dvd_sub hk km.dvd) hi).kids i k x v l t now rest
            rw [List.drop_drop, List.length_drop] at g
            have hle := km.leb
            have : (r1.plen = key.length - kmatch P k key) ↔ (kmatch P k key + r1.plen = key.length) := by omega
            simpa only [this] using g
    · rw [if_neg c2] at h
      cases hi : insWalk P e now fresh rest key val with
      | none => rw [hi] at h; simp at h
      | some r1 =>
        rw [hi] at h
        obtain rfl := Option.some.inj h
        exact (ihr h6 hk hi).rest i k x v l t kids

theorem noHead_addLeaf {P : Nat} {i k e v now} {e' : Ext} {pg : Key} (hne : ¬ (e = e' ∧ k.take P = pg)) : ∀ {f : Forest},
    NoHead P e' pg f → NoHead P e' pg (addLeaf i k e v now f)
  | .nil, _ => ⟨hne, True.intro⟩
  | .node .., h => ⟨h.1, noHead_addLeaf hne h.2⟩

theorem wf_addLeaf {P : Nat} {i k e v now} (hk : k ≠ []) (hd : P ∣ k.length) (hv : v.length = k.length) : ∀ {f : Forest},
    WF P f → NoHead P e (k.take P) f → WF P (addLeaf i k e v now f)
  | .nil, _, _ => ⟨hk, hd, hv, True.intro, True.intro, True.intro⟩
  | .node .., ⟨h1, h2, h3, h4, h5, h6⟩, hn =>
    ⟨h1, h2, h3, noHead_addLeaf (fun ⟨a, b⟩ => hn.1 ⟨a.symm, b.symm⟩) h4, h5, wf_addLeaf hk hd hv h6 hn.2⟩

theorem cached_addLeaf {P : Nat} {i k e v now} (hd : P ∣ k.length) (hv : v.length = k.length) : ∀ (f : Forest) (e' : Ext) (key : Key) (s : Slots),
    Cached P (addLeaf i k e v now f) e' key s ↔
      Cached P f e' key s ∨ (e' = e ∧ ∃ n, n ≤ k.length ∧ P ∣ n ∧ key = k.take n ∧ s = v.take n) := by
  intro f
  induction f with
  | nil =>
    intro e' key s
    constructor
    · rintro (h | ⟨hx, h | ⟨key', s', rfl, rfl, rfl, rfl⟩⟩)
      · exact .inl h
      · exact .inr ⟨hx.symm, h⟩
      · rw [List.append_nil, List.append_nil]
        exact .inr ⟨hx.symm, k.length, Nat.le_refl _, hd, by simp, (List.take_of_length_le (by omega)).symm⟩
    · rintro (h | ⟨hx, h⟩)
      · exact .inl h
      · exact .inr ⟨hx.symm, .inl h⟩
  | node j k' x v' l t kids rest _ ihr =>
    intro e' key s
    simp only [addLeaf, Cached, ihr]
    exact or_right_comm

theorem pathTo_addLeaf {i k e v now} : ∀ (f : Forest), PathTo i (addLeaf i k e v now f) e k v
  | .nil => .inr ⟨rfl, .inl ⟨rfl, rfl, rfl⟩⟩
  | .node _ _ _ _ _ _ _ rest => .inl (pathTo_addLeaf rest)

/-- What an insertion of `key` whose slots end up being `w` adds to what is cached. -/
def Added (P : Nat) (e : Ext) (key : Key) (w : Slots) (e' : Ext) (k' : Key) (s' : Slots) : Prop :=
  e' = e ∧ ∃ n, n ≤ key.length ∧ P ∣ n ∧ k' = key.take n ∧ s' = w.take n

theorem cached_extend {P : Nat} {i k x v l t t' kids kids' rest} {e : Ext} {key1 : Key} {w1 : Slots} (hv : v.length = k.length)
    (hx : x = e) (hd : P ∣ k.length)
    (h : ∀ e' k' s', Cached P kids' e' k' s' ↔ Cached P kids e' k' s' ∨ Added P e key1 w1 e' k' s') (e' : Ext) (k' : Key) (s' : Slots) :
    Cached P (.node i k x v l t' kids' rest) e' k' s' ↔
      Cached P (.node i k x v l t kids rest) e' k' s' ∨ Added P e (k ++ key1) (v ++ w1) e' k' s' := by
  constructor
  · rintro (h1 | ⟨h1, h2 | ⟨key', s1, rfl, rfl, h2⟩⟩)
    · exact .inl (.inl h1)
    · exact .inl (.inr ⟨h1, .inl h2⟩)
    · rw [h] at h2
      rcases h2 with h2 | ⟨h3, n, hn, hdn, rfl, rfl⟩
      · exact .inl (.inr ⟨h1, .inr ⟨_, _, rfl, rfl, h2⟩⟩)
      · refine .inr ⟨h3, k.length + n, by rw [List.length_append]; omega, Nat.dvd_add hd hdn, ?_, ?_⟩
        · rw [List.take_append, List.take_of_length_le (Nat.le_add_right _ _), Nat.add_sub_cancel_left]
        · have hvt : v.take (k.length + n) = v := List.take_of_length_le (by omega)
          rw [List.take_append, hvt, hv, Nat.add_sub_cancel_left]
  · rintro ((h1 | ⟨h1, h2 | ⟨key', s1, rfl, rfl, h2⟩⟩) | ⟨h1, n, hn, hdn, rfl, rfl⟩)
    · exact .inl h1
    · exact .inr ⟨h1, .inl h2⟩
    · exact .inr ⟨h1, .inr ⟨_, _, rfl, rfl, (h _ _ _).2 (.inl h2)⟩⟩
    · subst h1
      rw [List.length_append] at hn
      by_cases hle : n ≤ k.length
      · refine .inr ⟨hx, .inl ⟨n, hle, hdn, ?_, ?_⟩⟩
        · rw [List.take_append_of_le_length hle]
        · rw [List.take_append_of_le_length (by omega)]
      · refine .inr ⟨hx, .inr ⟨key1.take (n - k.length), w1.take (n - k.length), ?_, ?_, ?_⟩⟩
        · rw [List.take_append, List.take_of_length_le (by omega)]
        · rw [List.take_append, List.take_of_length_le (by omega), hv]
        · exact (h _ _ _).2 (.inr ⟨rfl, n - k.length, by omega, Nat.dvd_sub hdn hd, rfl, rfl⟩)

theorem added_here {P : Nat} {f : Forest} (hw : WF P f) {e : Ext} {key : Key} {s : Slots} (h : Cached P f e key s) (e' k' s') :
    Cached P f e' k' s' ↔ Cached P f e' k' s' ∨ Added P e key s e' k' s' := by
  constructor
  · exact .inl
  · rintro (h1 | ⟨rfl, n, hn, hd, rfl, rfl⟩)
    · exact h1
    · exact cached_take hw n h hn hd

/-- What the insertion loop does, when it finds a child for the first page. -/
structure InsOk (P : Nat) (e : Ext) (f : Forest) (key : Key) (val : Slots) (r : Ins) (s0 : Slots) : Prop where
  wf : WF P r.tree
  len : s0.length = r.plen
  le : r.plen ≤ key.length
  old : Cached P f e (key.take r.plen) s0
  max : ∀ n s2, n ≤ key.length → Cached P f e (key.take n) s2 → n ≤ r.plen
  new : ∀ e' k' s', Cached P r.tree e' k' s' ↔ Cached P f e' k' s' ∨ Added P e key (s0 ++ val.drop r.plen) e' k' s'
  last : PathTo r.last r.tree e key (s0 ++ val.drop r.plen)

theorem ins_none {P : Nat} {e : Ext} {now fresh : Nat} : ∀ {f : Forest} {key : Key} {val : Slots},
    insWalk P e now fresh f key val = none → NoHead P e (key.take P) f := by
  intro f
  induction f with
  | nil => intro key val _; exact True.intro
  | node i k x v l t kids rest ihk ihr =>
    intro key val h
    rw [insWalk] at h
    by_cases c2 : x = e ∧ k.take P = key.take P
    · rw [if_pos c2] at h
      simp only [] at h
      by_cases c3 : kmatch P k key < k.length
      · rw [if_pos c3] at h
        by_cases c4 : key.drop (kmatch P k key) = []
        · rw [if_pos c4] at h; cases h
        · rw [if_neg c4] at h; cases h
      · rw [if_neg c3] at h
        by_cases c4 : key.drop (kmatch P k key) = []
        · rw [if_pos c4] at h; cases h
        · rw [if_neg c4] at h
          cases hi : insWalk P e now fresh kids (key.drop (kmatch P k key)) (val.drop (kmatch P k key)) with
          | none => rw [hi] at h; cases h
          | some r1 => rw [hi] at h; cases h
    · rw [if_neg c2] at h
      cases hi : insWalk P e now fresh rest key val with
      | none => exact ⟨c2, ihr hi⟩
      | some r1 => rw [hi] at h; cases h

theorem pathTo_node {i k x v l t kids rest y} {e : Ext} {key' : Key} {s' : Slots} (hx : x = e) (h : PathTo y kids e key' s') :
    PathTo y (.node i k x v l t kids rest) e (k ++ key') (v ++ s') := .inr ⟨hx, .inr ⟨_, _, rfl, rfl, h⟩⟩

theorem ins_some {P : Nat} (hP : 0 < P) {e : Ext} {now fresh : Nat} : ∀ {f : Forest}, WF P f → ∀ {key : Key} {val : Slots}, key ≠ [] →
    P ∣ key.length → val.length = key.length → ∀ {r : Ins}, insWalk P e now fresh f key val = some r →
      ∃ s0, InsOk P e f key val r s0 ∧ ∀ e' pg, NoHead P e' pg f → NoHead P e' pg r.tree := by
  intro f
  induction f with
  | nil => intro _ key val _ _ _ r h; simp [insWalk] at h
  | node i k x v l t kids rest ihk ihr =>
    intro hw key val hne hk hlen r h
    have hw' := hw
    obtain ⟨h1, h2, h3, h4, h5, h6⟩ := hw
    have hpg : ∀ n s2, n ≤ key.length → Cached P (.node i k x v l t kids rest) e (key.take n) s2 → n = 0 ∨
        (key.take n ≠ [] ∧ (key.take n).take P = key.take P) := by
      intro n s2 hn h
      by_cases h0 : n = 0
      · exact .inl h0
      · have hl := (cached_len hw' h).1
        rw [List.length_take, Nat.min_eq_left hn] at hl
        refine .inr ⟨?_, take_page hl h0⟩
        intro hh
        have := congrArg List.length hh
        rw [List.length_take, Nat.min_eq_left hn] at this
        exact h0 (by simpa using this)
    rw [insWalk] at h
    by_cases c2 : x = e ∧ k.take P = key.take P
    · rw [if_pos c2] at h
      have km := kmatch_spec hP h2 hk
      simp only [] at h
      -- the longest cached prefix, from the match walk
      obtain ⟨m1, m2, m3⟩ := match_longest hP (e := e) (now := now) (fresh := fresh) hw' hk rfl
      rw [matchWalk, if_neg hne, if_pos c2] at m1 m2 m3
      have mw := wf_match hP (e := e) (now := now) (fresh := fresh) hw' hk
      rw [matchWalk, if_neg hne, if_pos c2] at mw
      obtain ⟨hx, ht⟩ := c2
      have hp := km.pos h1 hne ht
      generalize hm : kmatch P k key = m at *
      have lk : (k.take m).length = m := by rw [List.length_take]; have := km.lea; omega
      have lv : (v.take m).length = m := by rw [List.length_take]; have := km.lea; omega
      have ekey : key = k.take m ++ key.drop m := by rw [km.eq, List.take_append_drop]
      by_cases c3 : m < k.length
      · rw [if_pos c3] at h m1 m2 m3 mw
        simp only [List.flatten_cons, List.flatten_nil, List.append_nil, lv] at m1 m2 m3
        have sp := cached_split (i' := fresh) (l' := l) (t' := now) (u' := now) hw' km.dvd c3
        by_cases c4 : key.drop m = []
        · rw [if_pos c4] at h
          obtain rfl := Option.some.inj h
          have hml : m = key.length := by rw [List.drop_eq_nil_iff] at c4; have := km.leb; omega
          have hvd : val.drop m = [] := List.drop_eq_nil_iff.2 (by omega)
          have hkt : key.take m = key := List.take_of_length_le (by omega)
          have ekm : k.take m = key := by rw [km.eq, hkt]
          refine ⟨v.take m, ⟨mw, lv, m1, m2, m3, ?_, ?_⟩, ?_⟩
          · intro e' k' s'
            show Cached P (.node fresh _ _ _ _ _ _ _) e' k' s' ↔ _
            rw [hvd, List.append_nil, sp]
            rw [hkt] at m2
            exact added_here hw' m2 e' k' s'
          · rw [hvd, List.append_nil]
            exact .inr ⟨hx, .inl ⟨rfl, ekm.symm, rfl⟩⟩
          · rintro e' pg ⟨n1, n2⟩
            exact ⟨by rw [List.take_take, Nat.min_eq_left hp]; exact n1, n2⟩
        · rw [if_neg c4] at h
          obtain rfl := Option.some.inj h
          have hml : m < key.length := by
            by_contra hh
            exact c4 (List.drop_eq_nil_iff.2 (by omega))
          have hd1 : P ∣ (key.drop m).length := by rw [List.length_drop]; exact Nat.dvd_sub hk km.dvd
          have hv1 : (val.drop m).length = (key.drop m).length := by rw [List.length_drop, List.length_drop]; omega
          have lower := mw.2.2.2.2.1
          refine ⟨v.take m, ⟨?_, lv, m1, m2, m3, ?_, ?_⟩, ?_⟩
          · refine ⟨mw.1, mw.2.1, mw.2.2.1, mw.2.2.2.1, wf_addLeaf c4 hd1 hv1 lower ?_, h6⟩
            exact ⟨fun hh => km.max c3 hml hh.2, True.intro⟩
          · intro e' k' s'
            have := cached_extend (i := fresh) (l := l) (t := now) (t' := now) (rest := rest) (lv.trans lk.symm) hx (by rw [lk]; exact km.dvd)
              (cached_addLeaf (i := fresh + 1) (e := e) (now := now) hd1 hv1 (.node i (k.drop m) x (v.drop m) l now kids .nil)) e' k' s'
            rw [sp, ← ekey] at this
            exact this
          · have := pathTo_node (i := fresh) (l := l) (t := now) (rest := rest) (k := k.take m) (v := v.take m) hx
              (pathTo_addLeaf (i := fresh + 1) (k := key.drop m) (e := e) (v := val.drop m) (now := now) (.node i (k.drop m) x (v.drop m) l now kids .nil))
            rw [← ekey] at this
            exact this
          · rintro e' pg ⟨n1, n2⟩
            exact ⟨by rw [List.take_take, Nat.min_eq_left hp]; exact n1, n2⟩
      · have hmk : m = k.length := by have := km.lea; omega
        have ekt : k.take m = k := List.take_of_length_le (by omega)
        have evt : v.take m = v := List.take_of_length_le (by omega)
        rw [ekt] at ekey
        rw [if_neg c3] at h
        by_cases c4 : key.drop m = []
        · rw [if_pos c4] at h
          obtain rfl := Option.some.inj h
          rw [c4, List.append_nil] at ekey
          subst ekey
          have hvd : val.drop m = [] := List.drop_eq_nil_iff.2 (by omega)
          have hc : Cached P (.node i key x v l t kids rest) e key v := .inr ⟨hx, .inl ⟨key.length, Nat.le_refl _, h2, by simp, by rw [← hmk]; exact evt.symm⟩⟩
          refine ⟨v, ⟨⟨h1, h2, h3, h4, h5, h6⟩, by rw [h3, hmk], by show m ≤ _; omega, by simp only [ekt]; exact hc, fun n _ hn _ => by show n ≤ m; omega, ?_, ?_⟩, fun _ _ hh => hh⟩
          · intro e' k' s'
            rw [hvd, List.append_nil]
            exact (cached_congr (fun _ _ _ => Iff.rfl) (fun _ _ _ => Iff.rfl) e' k' s').trans (added_here hw' hc e' k' s')
          · rw [hvd, List.append_nil]
            exact .inr ⟨hx, .inl ⟨rfl, rfl, rfl⟩⟩
        · rw [if_neg c4] at h
          have hd1 : P ∣ (key.drop m).length := by rw [List.length_drop]; exact Nat.dvd_sub hk km.dvd
          have hv1 : (val.drop m).length = (key.drop m).length := by rw [List.length_drop, List.length_drop]; omega
          have hml : m < key.length := by
            by_contra hh
            exact c4 (List.drop_eq_nil_iff.2 (by omega))
          cases hi : insWalk P e now fresh kids (key.drop m) (val.drop m) with
          | none =>
            rw [hi] at h
            obtain rfl := Option.some.inj h
            have hnh := ins_none hi
            have hkt : key.take m = k := by rw [← km.eq, ekt]
            refine ⟨v, ⟨⟨h1, h2, h3, h4, wf_addLeaf c4 hd1 hv1 h5 hnh, h6⟩, by rw [h3, hmk], by show m ≤ _; omega, ?_, ?_, ?_, ?_⟩, fun _ _ hh => hh⟩
            · simp only [hkt]
              exact .inr ⟨hx, .inl ⟨k.length, Nat.le_refl _, h2, by simp, by rw [← hmk]; exact evt.symm⟩⟩
            · intro n s2 hn hc
              rcases hpg n s2 hn hc with rfl | ⟨hne', hpage⟩
              · omega
              · rw [cached_here hw' hne' hx (ht.trans hpage.symm)] at hc
                rcases hc with ⟨q, hq, _, e1, _⟩ | ⟨key', s', e1, _, h7⟩
                · have := congrArg List.length e1
                  rw [List.length_take, List.length_take, Nat.min_eq_left hn, Nat.min_eq_left hq] at this
                  show n ≤ m
                  omega
                · have el := congrArg List.length e1
                  rw [List.length_take, List.length_append, Nat.min_eq_left hn] at el
                  have ek : key' = (key.drop m).take key'.length := by
                    have e2 := e1
                    rw [ekey, List.take_append, List.take_of_length_le (by omega)] at e2
                    have e3 := List.append_cancel_left e2
                    rw [show n - k.length = key'.length by omega] at e3
                    exact e3.symm
                  by_cases h0 : key' = []
                  · subst h0; simp at el; show n ≤ m; omega
                  · have hdk := (cached_len h5 h7).1
                    refine absurd h7 (cached_noHead h5 h0 ?_)
                    rw [ek, take_page hdk (by intro h9; exact h0 (List.length_eq_zero_iff.1 h9))]
                    exact hnh
            · intro e' k' s'
              have := cached_extend (i := i) (l := l) (t := t) (t' := now) (rest := rest) h3 hx h2
                (cached_addLeaf (i := fresh) (e := e) (now := now) hd1 hv1 kids) e' k' s'
              rw [← ekey] at this
              exact this
            · have := pathTo_node (i := i) (l := l) (t := now) (rest := rest) (k := k) (v := v) hx
                (pathTo_addLeaf (i := fresh) (k := key.drop m) (e := e) (v := val.drop m) (now := now) kids)
              rw [← ekey] at this
              exact this
          | some r1 =>
            rw [hi] at h
            obtain rfl := Option.some.inj h
            obtain ⟨s1, ok, onh⟩ := ihk h5 c4 hd1 hv1 hi
            have hrl := ok.le
            rw [List.length_drop] at hrl
            refine ⟨v ++ s1, ⟨⟨h1, h2, h3, h4, ok.wf, h6⟩, by rw [List.length_append, h3, ok.len, hmk], by show m + r1.plen ≤ _; omega, ?_, ?_, ?_, ?_⟩, fun _ _ hh => hh⟩
            · refine .inr ⟨hx, .inr ⟨(key.drop m).take r1.plen, s1, ?_, rfl, ok.old⟩⟩
              show key.take (m + r1.plen) = _
              rw [List.take_add]
              rw [← km.eq, ekt]
            · intro n s2 hn hc
              show n ≤ m + r1.plen
              rcases hpg n s2 hn hc with rfl | ⟨hne', hpage⟩
              · omega
              · rw [cached_here hw' hne' hx (ht.trans hpage.symm)] at hc
                rcases hc with ⟨q, hq, _, e1, _⟩ | ⟨key', s', e1, _, h7⟩
                · have := congrArg List.length e1
                  rw [List.length_take, List.length_take, Nat.min_eq_left hn, Nat.min_eq_left hq] at this
                  omega
                · have el := congrArg List.length e1
                  rw [List.length_take, List.length_append, Nat.min_eq_left hn] at el
                  have ek : key' = (key.drop m).take key'.length := by
                    have e2 := e1
                    rw [ekey, List.take_append, List.take_of_length_le (by omega)] at e2
                    have e3 := List.append_cancel_left e2
                    rw [show n - k.length = key'.length by omega] at e3
                    exact e3.symm
                  rw [ek] at h7
                  have := ok.max key'.length s' (by rw [List.length_drop]; omega) h7
                  omega
            · intro e' k' s'
              have := cached_extend (i := i) (l := l) (t := t) (t' := now) (rest := rest) h3 hx h2 ok.new e' k' s'
              rw [← ekey, List.drop_drop, ← List.append_assoc] at this
              exact this
            · have := pathTo_node (i := i) (l := l) (t := now) (rest := rest) (k := k) (v := v) hx ok.last
              rw [← ekey, List.drop_drop, ← List.append_assoc] at this
              exact this
    · rw [if_neg c2] at h
      cases hi : insWalk P e now fresh rest key val with
      | none => rw [hi] at h; cases h
      | some r1 =>
        rw [hi] at h
        obtain rfl := Option.some.inj h
        obtain ⟨s1, ok, onh⟩ := ihr h6 hne hk hlen hi
        refine ⟨s1, ⟨⟨h1, h2, h3, onh _ _ h4, h5, ok.wf⟩, ok.len, ok.le, .inl ok.old, ?_, ?_, .inl ok.last⟩, fun e' pg hh => ⟨hh.1, onh _ _ hh.2⟩⟩
        · intro n s2 hn hc
          rcases hpg n s2 hn hc with rfl | ⟨hne', hpage⟩
          · omega
          · rw [cached_skip hw' hne' (by rw [hpage]; exact c2)] at hc
            exact ok.max n s2 hn hc
        · intro e' k' s'
          simp only [Cached, ok.new]
          exact or_right_comm

theorem insRoot_ok {P : Nat} (hP : 0 < P) {e : Ext} {now fresh : Nat} {f : Forest} (hw : WF P f) {key : Key} {val : Slots} (hne : key ≠ [])
    (hk : P ∣ key.length) (hl : val.length = key.length) : ∃ s0, InsOk P e f key val (insRoot P e now fresh f key val) s0 := by
  rw [insRoot]
  cases hi : insWalk P e now fresh f key val with
  | some r =>
    obtain ⟨s0, ok, _⟩ := ins_some hP hw hne hk hl hi
    exact ⟨s0, ok⟩
  | none =>
    have hnh := ins_none hi
    refine ⟨[], wf_addLeaf hne hk hl hw hnh, rfl, Nat.zero_le _, by simpa using cached_nil_nil P f e, ?_, ?_, ?_⟩
    · intro n s2 hn hc
      by_cases h0 : n = 0
      · show n ≤ 0; omega
      · have hd := (cached_len hw hc).1
        rw [List.length_take, Nat.min_eq_left hn] at hd
        refine absurd hc (cached_noHead hw ?_ ?_)
        · intro hh
          have := congrArg List.length hh
          rw [List.length_take, Nat.min_eq_left hn] at this
          exact h0 (by simpa using this)
        · rw [take_page hd h0]; exact hnh
    · intro e' k' s'
      simpa [Added] using cached_addLeaf (i := fresh) (e := e) (now := now) hk hl f e' k' s'
    · simpa using pathTo_addLeaf (i := fresh) (k := key) (e := e) (v := val) (now := now) f

theorem insRoot_grow {P : Nat} (hP : 0 < P) {e : Ext} {now fresh : Nat} {f : Forest} (hw : WF P f) {key : Key} {val : Slots}
    (hk : P ∣ key.length) (hl : val.length = key.length) :
    Grow f (insRoot P e now fresh f key val).tree fresh (insRoot P e now fresh f key val).fresh (val.drop (insRoot P e now fresh f key val).plen)
      ((insRoot P e now fresh f key val).dEvict + (insRoot P e now fresh f key val).lost) := by
  rw [insRoot]
  cases hi : insWalk P e now fresh f key val with
  | some r =>
    have g := grow_ins hP hw hk hi
    by_cases hc : r.plen = key.length
    · rw [if_pos hc] at g
      have : val.drop r.plen = [] := List.drop_eq_nil_iff.2 (by omega)
      simpa only [this] using g
    · rw [if_neg hc] at g; exact g
  | none => simpa using Grow.leaf fresh key e val now f

end Verif.PyRadix
