import Verif.Runner.Model
namespace Verif.Runner
open Verif.PyRadix Verif.PyPool

theorem inv_perm {c : Cache} {h h' : List Nat} (hi : PyRadix.Inv 1 ⟨c, h⟩) (hp : h.Perm h') : PyRadix.Inv 1 ⟨c, h'⟩ :=
  ⟨hi.wf, hi.nodup, hi.lt, fun x hx => hi.held x (hp.mem_iff.2 hx), lockOk_perm hp hi.lock, hi.prot, hi.evictable⟩

theorem align_one (key : Key) : align 1 key = key := by rw [align, Nat.div_one, Nat.mul_one, List.take_length]

/-- What an insertion does. -/
structure InsSpec (c : Cache) (held : List Nat) (key : Key) (val : Slots) (n : Nat) (c' : Cache) (old : Slots) : Prop where
  inv : PyRadix.Inv 1 ⟨c', held⟩
  le : n ≤ key.length
  max : ∀ m s2, m ≤ key.length → Cached 1 c.tree none (key.take m) s2 → m ≤ n
  slots : (slots c'.tree).Perm (slots c.tree ++ val.drop n)
  path : ∀ y e k s, PathTo y c.tree e k s → PathTo y c'.tree e k s
  hold : Cached 1 c.tree none (key.take n) old
  len : old.length = n
  new : ∀ e' k' s', Cached 1 c'.tree e' k' s' ↔ Cached 1 c.tree e' k' s' ∨
    (e' = none ∧ ∃ m, m ≤ key.length ∧ k' = key.take m ∧ s' = (old ++ val.drop n).take m)

theorem insert_spec {c : Cache} {held : List Nat} (h : PyRadix.Inv 1 ⟨c, held⟩) (now : Nat) (key : Key) (val : Slots) (hl : val.length = key.length) :
    ∃ old, InsSpec c held key val (PyRadix.insert 1 now c none key val).1.1 (PyRadix.insert 1 now c none key val).2 old := by
  have hinv := inv_insert (s := ⟨c, held⟩) Nat.one_pos h (now := now) (e := none) hl (Nat.one_dvd _)
  by_cases hk : key = []
  · subst hk
    have hv : val = [] := List.length_eq_zero_iff.1 hl
    subst hv
    refine ⟨[], hinv, ?_, ?_, ?_, ?_, ?_, rfl, ?_⟩
    · simp [PyRadix.insert]
    · intro m s2 hm _; exact hm.trans (Nat.zero_le _)
    · simp [PyRadix.insert]
    · intro y e k s hp; simpa [PyRadix.insert] using hp
    · simpa using cached_nil_nil 1 c.tree none
    · intro e' k' s'
      simp only [PyRadix.insert, if_pos]
      constructor
      · exact .inl
      · rintro (h | ⟨rfl, m, _, rfl, rfl⟩)
        · exact h
        · simpa using cached_nil_nil 1 c.tree none
  · have hw := h.wf
    obtain ⟨old, ok⟩ := insRoot_ok Nat.one_pos (e := none) (now := now) (fresh := c.fresh) hw hk (Nat.one_dvd _) hl
    have g := insRoot_grow Nat.one_pos (e := none) (now := now) (fresh := c.fresh) hw (Nat.one_dvd _) hl
    refine ⟨old, ?_⟩
    simp only [PyRadix.insert, if_neg hk] at hinv ⊢
    refine ⟨hinv, ok.le, ok.max, g.slots, g.path, ok.old, ok.len, ?_⟩
    intro e' k' s'
    rw [ok.new e' k' s', Added]
    simp only [true_and, one_dvd]

/-- What a match does. -/
structure MatchSpec (c : Cache) (held : List Nat) (key : Key) (sl : Slots) (last : Option Nat) (c' : Cache) : Prop where
  inv : PyRadix.Inv 1 ⟨c', held⟩
  le : sl.length ≤ key.length
  cached : Cached 1 c.tree none (key.take sl.length) sl
  max : ∀ n s2, n ≤ key.length → Cached 1 c.tree none (key.take n) s2 → n ≤ sl.length
  same : ∀ e' k' s', Cached 1 c'.tree e' k' s' ↔ Cached 1 c.tree e' k' s'
  slots : (slots c'.tree).Perm (slots c.tree)
  path : ∀ y e k s, PathTo y c.tree e k s → PathTo y c'.tree e k s
  hlast : ∀ y, last = some y → PathTo y c'.tree none (key.take sl.length) sl
  root : last = none → sl = []

theorem match_spec {c : Cache} {held : List Nat} (h : PyRadix.Inv 1 ⟨c, held⟩) (now : Nat) (key : Key) :
    MatchSpec c held key (matchPrefix 1 now c none key).1.1 (matchPrefix 1 now c none key).1.2 (matchPrefix 1 now c none key).2 := by
  have hw := h.wf
  have hP := Nat.one_pos
  have hd : 1 ∣ key.length := Nat.one_dvd _
  obtain ⟨m1, m2, m3⟩ := match_longest hP (e := none) (now := now) (fresh := c.fresh) hw hd rfl
  obtain ⟨l1, l2⟩ := match_last hP (e := none) (now := now) (fresh := c.fresh) hw hd
  have g := grow_match hP (e := none) (now := now) (fresh := c.fresh) hw hd
  have hs := g.slots
  rw [List.append_nil] at hs
  have hinv := inv_match (s := ⟨c, held⟩) hP h now none key
  simp only [matchPrefix, align_one] at hinv ⊢
  exact ⟨hinv, m1, m2, m3, cached_match hP hw hd, hs, g.path, l1, fun hn => by rw [l2 hn]; rfl⟩

/-- Locks change neither what is cached nor the slots nor the paths. -/
structure Same (c c' : Cache) : Prop where
  cached : ∀ e k s, Cached 1 c'.tree e k s ↔ Cached 1 c.tree e k s
  slots : PyRadix.slots c'.tree = PyRadix.slots c.tree
  path : ∀ y e k s, PathTo y c'.tree e k s ↔ PathTo y c.tree e k s

theorem same_lock (c : Cache) (o : Option Nat) : Same c (lockOpt c o) := by
  cases o with
  | none => exact ⟨fun _ _ _ => Iff.rfl, rfl, fun _ _ _ _ => Iff.rfl⟩
  | some y => exact ⟨fun _ _ _ => cached_addLock, slots_addLock, fun _ _ _ _ => pathTo_addLock⟩

theorem same_unlock (c : Cache) (o : Option Nat) : Same c (unlockOpt c o) := by
  cases o with
  | none => exact ⟨fun _ _ _ => Iff.rfl, rfl, fun _ _ _ _ => Iff.rfl⟩
  | some y => exact ⟨fun _ _ _ => cached_addLock, slots_addLock, fun _ _ _ _ => pathTo_addLock⟩

theorem inv_lockOpt {c : Cache} {held : List Nat} (h : PyRadix.Inv 1 ⟨c, held⟩) (o : Option Nat) (hm : ∀ y, o = some y → y ∈ ids c.tree) :
    PyRadix.Inv 1 ⟨lockOpt c o, o.toList ++ held⟩ := by
  cases o with
  | none => exact h
  | some y => exact inv_lock h (hm y rfl)

theorem inv_unlockOpt {c : Cache} {held : List Nat} (o : Option Nat) (h : PyRadix.Inv 1 ⟨c, o.toList ++ held⟩) :
    PyRadix.Inv 1 ⟨unlockOpt c o, held⟩ := by
  cases o with
  | none => exact h
  | some y =>
    have := inv_unlock h (x := y) (by simp)
    simp only [Option.toList_some, List.cons_append, List.nil_append, List.erase_cons_head] at this
    exact this

/-! ### The pool -/

theorem pool_alloc {p p' : Pool} (hp : p.page = 1) {n : Nat} {r : Option (List Nat)} (h : p.alloc n = (r, p')) :
    p'.page = 1 ∧ p'.group = p.group ∧
    (r.getD [] : Multiset Nat) + ((p'.free : Multiset Nat) + p'.release) = (p.free : Multiset Nat) + p.release ∧
    ∀ out, r = some out → out.length = n := by
  rw [Pool.alloc, if_pos hp] at h
  obtain ⟨_, t2, _, t4, t5, t6⟩ := take_spec p n
  rw [h] at t2 t4 t5 t6
  refine ⟨t2.trans hp, t4, ?_, fun out ho => (t5 out ho).1⟩
  cases r with
  | none =>
    have := (t6 rfl).2
    simpa using (Multiset.coe_eq_coe.2 this).symm
  | some out =>
    have := (t5 out rfl).2
    simpa [add_assoc] using (Multiset.coe_eq_coe.2 this).symm

theorem pool_free {p : Pool} (hp : p.page = 1) (hg : p.group = none) (idx : List Nat) : (p.release1 idx).page = 1 ∧ (p.release1 idx).group = none ∧
    ((p.release1 idx).free : Multiset Nat) + (p.release1 idx).release = (p.free : Multiset Nat) + p.release + idx := by
  obtain ⟨h1, _, h3⟩ := release1_perm hp idx
  have hgr : (p.release1 idx).group = none := by
    rw [Pool.release1]
    split
    · exact hg
    · rw [hg]
      simp only [Pool.put]
      split <;> exact hg
  refine ⟨h1, hgr, ?_⟩
  have h4 := Multiset.coe_eq_coe.2 h3
  simpa [pending, hg, hgr, ← Multiset.coe_add, add_assoc] using h4

end Verif.Runner
