import Verif.Prelude

/-!
`LRUList` (`pymllm/mem_cache/mamba_radix_cache.py` L113-219), pointer by pointer.

Nodes are told apart by their `id`; the two sentinels are cells of their own.  One value of `LRU` holds the pointers that one
list uses (`prev`/`next` or `mamba_prev`/`mamba_next` by the `mamba` flag, L121-129).
-/
namespace Verif.Mamba

/-- The sentinels (L132-133) and the tree nodes. -/
inductive Cell where
  | head
  | tail
  | node (i : Nat)
  deriving DecidableEq

/-- L132-136: the pointers and the key set of `_cache`. -/
structure LRU where
  prv : Cell → Option Cell
  nxt : Cell → Option Cell
  cache : Nat → Bool

/-- L120-136. -/
def LRU.empty : LRU where
  prv := fun c => if c = .tail then some .head else none
  nxt := fun c => if c = .head then some .tail else none
  cache := fun _ => false

/-- `_add_after`, L204-209.  A cell without successor (`setattr(None, ..)` raises) is left alone; `Rep` rules it out. -/
def LRU.addAfter (L : LRU) (old new : Cell) : LRU :=
  match L.nxt old with
  | none => L
  | some n =>
    { L with
      prv := Function.update (Function.update L.prv new (some old)) n (some new)
      nxt := Function.update (Function.update L.nxt new (some n)) old (some new) }

/-- `_unlink`, L211-219. -/
def LRU.unlink (L : LRU) (x : Cell) : LRU :=
  let p := L.prv x
  let n := L.nxt x
  let nxt := match p with | some p => Function.update L.nxt p n | none => L.nxt
  let prv := match n with | some n => Function.update L.prv n p | none => L.prv
  { L with prv := Function.update prv x none, nxt := Function.update nxt x none }

/-- `insert_mru`, L146-149. -/
def LRU.insertMru (L : LRU) (i : Nat) : LRU :=
  LRU.addAfter { L with cache := Function.update L.cache i true } .head (.node i)

/-- `remove`, L151-154. -/
def LRU.remove (L : LRU) (i : Nat) : LRU :=
  LRU.unlink { L with cache := Function.update L.cache i false } (.node i)

/-- `touch_node_and_parents_mru`, L163-180: `path` is the node and its ancestors below the root, in this order; `skip` is the
test of L174 (a node without state in the list of states). -/
def LRU.touch (skip : Nat → Bool) : List Nat → Cell → LRU → LRU
  | [], _, L => L
  | i :: path, prev, L =>
    if L.cache i then
      if skip i then LRU.touch skip path prev L
      else LRU.touch skip path (.node i) ((L.unlink (.node i)).addAfter prev (.node i))
    else LRU.touch skip path prev L

/-- The searches from the tail, L184-200: `Find L ok x r` says that the loop started at cell `x` returns `r`. -/
inductive Find (L : LRU) (ok : Nat → Bool) : Cell → Option Nat → Prop where
  | head : Find L ok .head none
  | hit {i} : ok i = true → Find L ok (.node i) (some i)
  | next {i c r} : ok i = false → L.prv (.node i) = some c → Find L ok c r → Find L ok (.node i) r

/-- `get_lru_leaf_unlocked` / `get_lru_unlocked` for the test `ok`. -/
def LRU.Lru (L : LRU) (ok : Nat → Bool) (r : Option Nat) : Prop := ∃ c, L.prv .tail = some c ∧ Find L ok c r

/-! ### What the pointers stand for -/

/-- From cell `a` the pointers run through the nodes of `l` to the tail, both ways. -/
def Linked (L : LRU) : Cell → List Nat → Prop
  | a, [] => L.nxt a = some .tail ∧ L.prv .tail = some a
  | a, i :: l => L.nxt a = some (.node i) ∧ L.prv (.node i) = some a ∧ Linked L (.node i) l

/-- The list object holds the nodes `l`, most recently used first. -/
structure Rep (L : LRU) (l : List Nat) : Prop where
  link : Linked L .head l
  nodup : l.Nodup
  mem : ∀ i, L.cache i = true ↔ i ∈ l

theorem rep_empty : Rep LRU.empty [] := ⟨⟨rfl, rfl⟩, List.nodup_nil, by simp [LRU.empty]⟩

/-- The same without the end. -/
def Seg (L : LRU) : Cell → List Nat → Prop
  | _, [] => True
  | a, i :: l => L.nxt a = some (.node i) ∧ L.prv (.node i) = some a ∧ Seg L (.node i) l

def endC : Cell → List Nat → Cell
  | a, [] => a
  | _, i :: l => endC (.node i) l

theorem linked_append {L : LRU} : ∀ {l1 : List Nat} {a : Cell} {l2 : List Nat}, Linked L a (l1 ++ l2) ↔ Seg L a l1 ∧ Linked L (endC a l1) l2
  | [], a, l2 => by simp [Seg, endC]
  | i :: l1, a, l2 => by
    simp only [List.cons_append, Linked, Seg, endC, linked_append (l1 := l1), and_assoc]

theorem endC_mem : ∀ (l : List Nat) (a : Cell), endC a l = a ∨ ∃ i ∈ l, endC a l = .node i
  | [], _ => .inl rfl
  | i :: l, a => by
    right
    rcases endC_mem l (.node i) with h | ⟨j, hj, h⟩
    · exact ⟨i, List.mem_cons_self, h⟩
    · exact ⟨j, List.mem_cons_of_mem _ hj, h⟩

theorem seg_congr {L L' : LRU} : ∀ {l : List Nat} {a : Cell}, (∀ i ∈ l, L'.prv (.node i) = L.prv (.node i)) →
    (∀ c, (c = a ∨ ∃ i ∈ l, c = .node i) → c ≠ endC a l → L'.nxt c = L.nxt c) → (a ∉ l.map Cell.node) → l.Nodup → Seg L a l → Seg L' a l
  | [], _, _, _, _, _, _ => trivial
  | i :: l, a, h1, h2, h3, h4, ⟨s1, s2, s3⟩ => by
    rw [List.map_cons, List.mem_cons, not_or] at h3
    obtain ⟨h4a, h4b⟩ := List.nodup_cons.1 h4
    refine ⟨?_, by rw [h1 i List.mem_cons_self, s2], seg_congr (fun j hj => h1 j (List.mem_cons_of_mem _ hj)) (fun c hc hne => ?_) ?_ h4b s3⟩
    · rw [h2 a (.inl rfl) ?_, s1]
      intro he
      rcases endC_mem l (.node i) with h | ⟨j, hj, h⟩
      · rw [endC, h] at he; exact h3.1 he
      · rw [endC, h] at he
        exact h3.2 (List.mem_map.2 ⟨j, hj, he.symm⟩)
    · refine h2 c (.inr ?_) hne
      rcases hc with rfl | ⟨j, hj, rfl⟩
      · exact ⟨i, List.mem_cons_self, rfl⟩
      · exact ⟨j, List.mem_cons_of_mem _ hj, rfl⟩
    · intro hm
      obtain ⟨j, hj, he⟩ := List.mem_map.1 hm
      cases he
      exact h4a hj

theorem linked_congr {L L' : LRU} : ∀ {l : List Nat} {a : Cell}, (∀ i ∈ l, L'.prv (.node i) = L.prv (.node i) ∧ L'.nxt (.node i) = L.nxt (.node i)) →
    L'.nxt a = L.nxt a → L'.prv .tail = L.prv .tail → Linked L a l → Linked L' a l
  | [], _, _, h2, h3, ⟨s1, s2⟩ => ⟨by rw [h2, s1], by rw [h3, s2]⟩
  | i :: l, a, h1, h2, h3, ⟨s1, s2, s3⟩ =>
    ⟨by rw [h2, s1], by rw [(h1 i List.mem_cons_self).1, s2],
      linked_congr (fun j hj => h1 j (List.mem_cons_of_mem _ hj)) (h1 i List.mem_cons_self).2 h3 s3⟩

/-- The first cell of the rest. -/
def front : List Nat → Cell
  | [] => .tail
  | i :: _ => .node i

theorem linked_front {L : LRU} {a : Cell} {l : List Nat} (h : Linked L a l) : L.nxt a = some (front l) ∧ L.prv (front l) = some a := by
  cases l with
  | nil => exact h
  | cons i l => exact ⟨h.1, h.2.1⟩

theorem addAfter_nxt {L : LRU} {o n c : Cell} (h : L.nxt o = some c) :
    (L.addAfter o n).prv = Function.update (Function.update L.prv n (some o)) c (some n) ∧
    (L.addAfter o n).nxt = Function.update (Function.update L.nxt n (some c)) o (some n) ∧ (L.addAfter o n).cache = L.cache := by
  unfold LRU.addAfter
  rw [h]
  exact ⟨rfl, rfl, rfl⟩

theorem end_notMem {l1 l2 : List Nat} (hn : (l1 ++ l2).Nodup) : ∀ i ∈ l2, endC .head l1 ≠ .node i := by
  intro i hi he
  rcases endC_mem l1 .head with h | ⟨j, hj, h⟩
  · rw [h] at he; cases he
  · rw [h] at he
    cases he
    exact (List.nodup_append.1 hn).2.2 _ hj _ hi rfl

/-- Inserting a new node behind the nodes `l1`. -/
theorem linked_addAfter {L : LRU} {l1 l2 : List Nat} (h : Linked L .head (l1 ++ l2)) (hn : (l1 ++ l2).Nodup) {x : Nat} (hx : x ∉ l1 ++ l2) :
    Linked (L.addAfter (endC .head l1) (.node x)) .head (l1 ++ x :: l2) := by
  obtain ⟨hs, hl⟩ := linked_append.1 h
  obtain ⟨f1, f2⟩ := linked_front hl
  obtain ⟨e1, e2, -⟩ := addAfter_nxt (n := .node x) f1
  rw [List.mem_append, not_or] at hx
  obtain ⟨n1, n2, n3⟩ := List.nodup_append.1 hn
  have hfx : front l2 ≠ .node x := by
    cases l2 with
    | nil => intro h; cases h
    | cons j l => intro h; cases h; exact hx.2 List.mem_cons_self
  have hox : endC .head l1 ≠ .node x := by
    rcases endC_mem l1 .head with h | ⟨j, hj, h⟩
    · rw [h]; intro h; cases h
    · rw [h]; intro h; cases h; exact hx.1 hj
  have hfr : ∀ i ∈ l1, front l2 ≠ .node i := by
    intro i hi
    cases l2 with
    | nil => intro h; cases h
    | cons j l => intro h; cases h; exact n3 _ hi _ List.mem_cons_self rfl
  refine linked_append.2 ⟨seg_congr (fun i hi => ?_) (fun c hc hne => ?_) (by simp) n1 hs, ?_, ?_, ?_⟩
  · rw [e1, Function.update_of_ne (hfr i hi).symm, Function.update_of_ne]
    intro h; cases h; exact hx.1 hi
  · rw [e2, Function.update_of_ne hne, Function.update_of_ne]
    rcases hc with rfl | ⟨j, hj, rfl⟩
    · intro h; cases h
    · intro h; cases h; exact hx.1 hj
  · rw [e2, Function.update_self]
  · rw [e1, Function.update_of_ne hfx.symm, Function.update_self]
  · have ht : ∀ i ∈ l2, (L.addAfter (endC .head l1) (.node x)).nxt (.node i) = L.nxt (.node i) := fun i hi => by
      rw [e2, Function.update_of_ne (end_notMem hn i hi).symm, Function.update_of_ne]
      intro h; cases h; exact hx.2 hi
    cases l2 with
    | nil =>
      refine ⟨?_, ?_⟩
      · rw [e2, Function.update_of_ne hox.symm, Function.update_self]; rfl
      · rw [e1]; show Function.update _ (front []) _ _ = _; exact Function.update_self ..
    | cons j l =>
      refine ⟨?_, ?_, ?_⟩
      · rw [e2, Function.update_of_ne hox.symm, Function.update_self]; rfl
      · rw [e1]; exact Function.update_self ..
      · refine linked_congr (fun i hi => ⟨?_, ht i (List.mem_cons_of_mem _ hi)⟩) (ht j List.mem_cons_self) ?_ hl.2.2
        · rw [e1, Function.update_of_ne, Function.update_of_ne]
          · intro h; cases h; exact hx.2 (List.mem_cons_of_mem _ hi)
          · intro h; cases h; exact (List.nodup_cons.1 n2).1 hi
        · rw [e1, Function.update_of_ne, Function.update_of_ne]
          · intro h; cases h
          · intro h; cases h

/-- Taking a node out. -/
theorem linked_unlink {L : LRU} {l1 l2 : List Nat} {x : Nat} (h : Linked L .head (l1 ++ x :: l2)) (hn : (l1 ++ x :: l2).Nodup) :
    Linked (L.unlink (.node x)) .head (l1 ++ l2) := by
  obtain ⟨hs, hl⟩ := linked_append.1 h
  obtain ⟨g1, g2, g3⟩ := hl
  obtain ⟨f1, f2⟩ := linked_front g3
  obtain ⟨n1, n2, n3⟩ := List.nodup_append.1 hn
  obtain ⟨n4, n5⟩ := List.nodup_cons.1 n2
  have e1 : (L.unlink (.node x)).prv = Function.update (Function.update L.prv (front l2) (some (endC .head l1))) (.node x) none := by
    unfold LRU.unlink; simp only [g2, f1]
  have e2 : (L.unlink (.node x)).nxt = Function.update (Function.update L.nxt (endC .head l1) (some (front l2))) (.node x) none := by
    unfold LRU.unlink; simp only [g2, f1]
  have hx1 : x ∉ l1 := fun hi => n3 _ hi _ List.mem_cons_self rfl
  have hfx : front l2 ≠ .node x := by
    cases l2 with
    | nil => intro h; cases h
    | cons j l => intro h; cases h; exact n4 List.mem_cons_self
  have hox : endC .head l1 ≠ .node x := by
    rcases endC_mem l1 .head with h | ⟨j, hj, h⟩
    · rw [h]; intro h; cases h
    · rw [h]; intro h; cases h; exact hx1 hj
  have hfr : ∀ i ∈ l1, front l2 ≠ .node i := by
    intro i hi
    cases l2 with
    | nil => intro h; cases h
    | cons j l => intro h; cases h; exact n3 _ hi _ (List.mem_cons_of_mem _ List.mem_cons_self) rfl
  refine linked_append.2 ⟨seg_congr (fun i hi => ?_) (fun c hc hne => ?_) (by simp) n1 hs, ?_⟩
  · rw [e1, Function.update_of_ne, Function.update_of_ne (hfr i hi).symm]
    intro h; cases h; exact hx1 hi
  · rw [e2, Function.update_of_ne, Function.update_of_ne hne]
    rcases hc with rfl | ⟨j, hj, rfl⟩
    · intro h; cases h
    · intro h; cases h; exact hx1 hj
  · have ht : ∀ i ∈ l2, (L.unlink (.node x)).nxt (.node i) = L.nxt (.node i) := fun i hi => by
      rw [e2, Function.update_of_ne, Function.update_of_ne (end_notMem hn i (List.mem_cons_of_mem _ hi)).symm]
      intro h; cases h; exact n4 hi
    cases l2 with
    | nil =>
      refine ⟨?_, ?_⟩
      · rw [e2, Function.update_of_ne hox, Function.update_self]; rfl
      · rw [e1, Function.update_of_ne (by intro h; cases h)]; exact Function.update_self ..
    | cons j l =>
      refine ⟨?_, ?_, ?_⟩
      · rw [e2, Function.update_of_ne hox, Function.update_self]; rfl
      · rw [e1]; exact (Function.update_of_ne hfx _ _).trans (Function.update_self ..)
      · refine linked_congr (fun i hi => ⟨?_, ht i (List.mem_cons_of_mem _ hi)⟩) (ht j List.mem_cons_self) ?_ g3.2.2
        · rw [e1, Function.update_of_ne, Function.update_of_ne]
          · intro h; cases h; exact (List.nodup_cons.1 n5).1 hi
          · intro h; cases h; exact n4 (List.mem_cons_of_mem _ hi)
        · rw [e1, Function.update_of_ne, Function.update_of_ne]
          · intro h; cases h
          · intro h; cases h

theorem linked_cache {L : LRU} (f : Nat → Bool) {a : Cell} {l : List Nat} : Linked { L with cache := f } a l ↔ Linked L a l := by
  induction l generalizing a with
  | nil => rfl
  | cons i l ih => simp only [Linked]; exact and_congr Iff.rfl (and_congr Iff.rfl ih)

theorem rep_insert {L : LRU} {l : List Nat} (h : Rep L l) {x : Nat} (hx : x ∉ l) : Rep (L.insertMru x) (x :: l) := by
  have hl := (linked_cache (Function.update L.cache x true)).2 h.link
  refine ⟨linked_addAfter (l1 := []) hl (by simpa using h.nodup) (by simpa using hx), List.nodup_cons.2 ⟨hx, h.nodup⟩, fun i => ?_⟩
  have : (L.insertMru x).cache = Function.update L.cache x true := (addAfter_nxt (n := .node x) (linked_front hl).1).2.2
  rw [this, List.mem_cons, Function.update_apply]
  split
  · rename_i h; simp [h]
  · rename_i hne; rw [h.mem]; simp [hne]

theorem rep_remove {L : LRU} {l : List Nat} (h : Rep L l) {x : Nat} (hx : x ∈ l) : Rep (L.remove x) (l.erase x) := by
  obtain ⟨l1, l2, rfl, hx1⟩ : ∃ l1 l2, l = l1 ++ x :: l2 ∧ x ∉ l1 := by
    obtain ⟨l1, l2, rfl⟩ := List.append_of_mem hx
    exact ⟨l1, l2, rfl, fun hm => (List.nodup_append.1 h.nodup).2.2 _ hm _ List.mem_cons_self rfl⟩
  have hl := (linked_cache (Function.update L.cache x false)).2 h.link
  rw [List.erase_append_right _ hx1, List.erase_cons_head]
  have hn := h.nodup
  have hn' : (l1 ++ l2).Nodup := hn.sublist (List.Sublist.append_left (List.sublist_cons_self x l2) l1)
  refine ⟨linked_unlink hl hn, hn', fun i => ?_⟩
  show Function.update L.cache x false i = true ↔ _
  rw [Function.update_apply]
  split
  · rename_i he
    subst he
    have : i ∉ l1 ++ l2 := fun hm => by
      rcases List.mem_append.1 hm with hm | hm
      · exact hx1 hm
      · exact (List.nodup_cons.1 (List.nodup_append.1 hn).2.1).1 hm
    simp [this]
  · rename_i hne
    rw [h.mem, List.mem_append, List.mem_append, List.mem_cons]
    simp [hne]

theorem endC_append {l : List Nat} {a : Cell} {i : Nat} : endC a (l ++ [i]) = .node i := by
  induction l generalizing a with
  | nil => rfl
  | cons j l ih => exact ih

/-- The effect of touching a path: its nodes that count come first, in the order of the path, the others keep their order. -/
theorem rep_touch {skip : Nat → Bool} : ∀ {path done rest : List Nat} {L : LRU}, Rep L (done ++ rest) → path.Nodup → (∀ i ∈ path, i ∉ done) →
    Rep (LRU.touch skip path (endC .head done) L)
      (done ++ (path.filter (fun i => decide (i ∈ rest) && !skip i) ++ rest.filter (fun i => !(decide (i ∈ path) && !skip i))))
  | [], done, rest, L, h, _, _ => by simpa [LRU.touch] using h
  | x :: path, done, rest, L, h, hp, hd => by
    obtain ⟨hp1, hp2⟩ := List.nodup_cons.1 hp
    have hxd : x ∉ done := hd x List.mem_cons_self
    have hmem : L.cache x = true ↔ x ∈ rest := by rw [h.mem, List.mem_append]; simp [hxd]
    have hd' : ∀ i ∈ path, i ∉ done := fun i hi => hd i (List.mem_cons_of_mem _ hi)
    -- a node that does not count
    have skipped : (x ∈ rest → skip x = true) → Rep (LRU.touch skip path (endC .head done) L)
        (done ++ ((x :: path).filter (fun i => decide (i ∈ rest) && !skip i) ++ rest.filter (fun i => !(decide (i ∈ x :: path) && !skip i)))) := by
      intro hs
      have ih := rep_touch (skip := skip) h hp2 hd'
      have e1 : (x :: path).filter (fun i => decide (i ∈ rest) && !skip i) = path.filter (fun i => decide (i ∈ rest) && !skip i) := by
        rw [List.filter_cons_of_neg]
        by_cases hx : x ∈ rest
        · simp [hs hx]
        · simp [hx]
      have e2 : rest.filter (fun i => !(decide (i ∈ x :: path) && !skip i)) = rest.filter (fun i => !(decide (i ∈ path) && !skip i)) := by
        refine List.filter_congr fun i hi => ?_
        by_cases he : i = x
        · subst he; simp [hs hi]
        · simp [he]
      rw [e1, e2]
      exact ih
    unfold LRU.touch
    by_cases hc : L.cache x = true
    · rw [if_pos hc]
      by_cases hs : skip x = true
      · rw [if_pos hs]; exact skipped fun _ => hs
      · rw [if_neg hs]
        have hx := hmem.1 hc
        obtain ⟨r1, r2, rfl⟩ := List.append_of_mem hx
        have hn := h.nodup
        have hn2 : (done ++ r1 ++ x :: r2).Nodup := by simpa [List.append_assoc] using hn
        have l1 : Linked (L.unlink (.node x)) .head (done ++ r1 ++ r2) :=
          linked_unlink (l1 := done ++ r1) (by simpa [List.append_assoc] using h.link) hn2
        have hn3 : (done ++ (r1 ++ r2)).Nodup := by
          have := hn2.sublist (List.Sublist.append_left (List.sublist_cons_self x r2) (done ++ r1))
          simpa [List.append_assoc] using this
        have hxr : x ∉ r1 ++ r2 := by
          have := (List.nodup_append.1 hn).2.1
          rw [List.nodup_middle] at this
          exact (List.nodup_cons.1 this).1
        have hxn : x ∉ done ++ (r1 ++ r2) := by rw [List.mem_append, not_or]; exact ⟨hxd, hxr⟩
        have l2 := linked_addAfter (l1 := done) (l2 := r1 ++ r2) (by simpa [List.append_assoc] using l1) hn3 hxn
        have hR : Rep ((L.unlink (.node x)).addAfter (endC .head done) (.node x)) ((done ++ [x]) ++ (r1 ++ r2)) := by
          refine ⟨by simpa [List.append_assoc] using l2, ?_, fun i => ?_⟩
          · have : ((done ++ [x]) ++ (r1 ++ r2)).Perm (x :: (done ++ (r1 ++ r2))) := by
              rw [List.append_assoc]; exact List.perm_middle
            rw [this.nodup_iff]
            exact List.nodup_cons.2 ⟨hxn, hn3⟩
          · have l1' : Linked (L.unlink (.node x)) .head (done ++ (r1 ++ r2)) := by simpa [List.append_assoc] using l1
            have e : ((L.unlink (.node x)).addAfter (endC .head done) (.node x)).cache = L.cache :=
              (addAfter_nxt (n := .node x) (linked_front (linked_append.1 l1').2).1).2.2
            rw [e, h.mem]
            simp only [List.mem_append, List.mem_cons, List.not_mem_nil]
            tauto
        have ih := rep_touch (skip := skip) hR hp2 (fun i hi hm => by
          rcases List.mem_append.1 hm with hm | hm
          · exact hd' i hi hm
          · rw [List.mem_singleton] at hm; subst hm; exact hp1 hi)
        rw [endC_append] at ih
        have e1 : (x :: path).filter (fun i => decide (i ∈ r1 ++ x :: r2) && !skip i) =
            x :: path.filter (fun i => decide (i ∈ r1 ++ r2) && !skip i) := by
          rw [List.filter_cons_of_pos (by simp [hs])]
          congr 1
          refine List.filter_congr fun i hi => ?_
          have : i ≠ x := fun he => hp1 (he ▸ hi)
          simp [this]
        have e2 : (r1 ++ x :: r2).filter (fun i => !(decide (i ∈ x :: path) && !skip i)) =
            (r1 ++ r2).filter (fun i => !(decide (i ∈ path) && !skip i)) := by
          rw [List.filter_append, List.filter_cons_of_neg (by simp [hs]), List.filter_append]
          congr 1
          · refine List.filter_congr fun i hi => ?_
            have : i ≠ x := fun he => hxr (he ▸ List.mem_append_left _ hi)
            simp [this]
          · refine List.filter_congr fun i hi => ?_
            have : i ≠ x := fun he => hxr (he ▸ List.mem_append_right _ hi)
            simp [this]
        rw [e1, e2]
        simpa [List.append_assoc] using ih
    · rw [if_neg hc]
      exact skipped fun hx => absurd (hmem.2 hx) hc

/-- The searches return the least recently used node that passes the test. -/
theorem find_iff {L : LRU} {ok : Nat → Bool} : ∀ {l : List Nat} {r : Option Nat}, Seg L .head l →
    (Find L ok (endC .head l) r ↔ r = l.reverse.find? ok) := by
  intro l
  induction l using List.reverseRecOn with
  | nil =>
    intro r _
    constructor
    · intro h; cases h; rfl
    · rintro rfl; exact .head
  | append_singleton l x ih =>
    intro r hs
    rw [endC_append, List.reverse_append, List.reverse_singleton, List.singleton_append, List.find?_cons]
    have hsplit : ∀ {l : List Nat} {a : Cell}, Seg L a (l ++ [x]) → Seg L a l ∧ L.prv (.node x) = some (endC a l) := by
      intro l
      induction l with
      | nil => intro a h; exact ⟨trivial, h.2.1⟩
      | cons j l ihl => intro a h; obtain ⟨a1, a2⟩ := ihl h.2.2; exact ⟨⟨h.1, h.2.1, a1⟩, a2⟩
    obtain ⟨h1, h2⟩ := hsplit hs
    constructor
    · intro h
      cases h with
      | hit hk => rw [hk]
      | next hk hp hf =>
        rw [hk]
        rw [h2] at hp
        cases hp
        exact (ih h1).1 hf
    · intro h
      cases hk : ok x with
      | true => rw [hk] at h; subst h; exact .hit hk
      | false => rw [hk] at h; exact .next hk h2 ((ih h1).2 h)

theorem rep_lru {L : LRU} {l : List Nat} (h : Rep L l) {ok : Nat → Bool} {r : Option Nat} : L.Lru ok r ↔ r = l.reverse.find? ok := by
  have hl := h.link
  rw [← List.append_nil l, linked_append] at hl
  obtain ⟨hs, -, ht⟩ := hl
  unfold LRU.Lru
  rw [ht]
  constructor
  · rintro ⟨c, hc, hf⟩; cases hc; exact (find_iff hs).1 hf
  · intro hr; exact ⟨_, rfl, (find_iff hs).2 hr⟩

end Verif.Mamba
