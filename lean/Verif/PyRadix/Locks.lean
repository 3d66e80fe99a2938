import Verif.PyRadix.Change
namespace Verif.PyRadix

/-! ### Locks -/

theorem addLock_notMem {x : Nat} {d : Int} : ∀ {f : Forest}, x ∉ ids f → addLock x d f = f
  | .nil, _ => rfl
  | .node i k e v l t kids rest, h => by
    simp only [ids, List.mem_cons, List.mem_append, not_or] at h
    rw [addLock, if_neg (by tauto), addLock_notMem h.2.2]

theorem pathLen_notMem {x : Nat} {l0 : Int} : ∀ {f : Forest}, x ∉ ids f → pathLen x l0 f = 0
  | .nil, _ => rfl
  | .node i k e v l t kids rest, h => by
    simp only [ids, List.mem_cons, List.mem_append, not_or] at h
    rw [pathLen, if_neg (by tauto), pathLen_notMem h.2.2]

theorem ids_addLock {x : Nat} {d : Int} : ∀ {f : Forest}, ids (addLock x d f) = ids f
  | .nil => rfl
  | .node i k e v l t kids rest => by
    rw [addLock]
    split
    · simp only [ids, ids_addLock (f := kids)]
    · simp only [ids, ids_addLock (f := rest)]

theorem slots_addLock {x : Nat} {d : Int} : ∀ {f : Forest}, slots (addLock x d f) = slots f
  | .nil => rfl
  | .node i k e v l t kids rest => by
    rw [addLock]
    split
    · simp only [slots, slots_addLock (f := kids)]
    · simp only [slots, slots_addLock (f := rest)]

theorem pathTo_addLock {x : Nat} {d : Int} {y : Nat} : ∀ {f : Forest} {e key s}, PathTo y (addLock x d f) e key s ↔ PathTo y f e key s
  | .nil, _, _, _ => Iff.rfl
  | .node i k e v l t kids rest, _, _, _ => by
    rw [addLock]
    split
    · simp only [PathTo, pathTo_addLock (f := kids)]
    · simp only [PathTo, pathTo_addLock (f := rest)]

theorem cached_addLock {P : Nat} {x : Nat} {d : Int} : ∀ {f : Forest} {e key s}, Cached P (addLock x d f) e key s ↔ Cached P f e key s
  | .nil, _, _, _ => Iff.rfl
  | .node i k e v l t kids rest, _, _, _ => by
    rw [addLock]
    split
    · simp only [Cached, cached_addLock (f := kids)]
    · simp only [Cached, cached_addLock (f := rest)]

theorem noHead_addLock {P : Nat} {x : Nat} {d : Int} {e pg} : ∀ {f : Forest}, NoHead P e pg (addLock x d f) ↔ NoHead P e pg f
  | .nil => Iff.rfl
  | .node i k e v l t kids rest => by
    rw [addLock]
    split
    · simp only [NoHead]
    · simp only [NoHead, noHead_addLock (f := rest)]

theorem wf_addLock {P : Nat} {x : Nat} {d : Int} : ∀ {f : Forest}, WF P (addLock x d f) ↔ WF P f
  | .nil => Iff.rfl
  | .node i k e v l t kids rest => by
    rw [addLock]
    split
    · simp only [WF, wf_addLock (f := kids)]
    · simp only [WF, wf_addLock (f := rest), noHead_addLock]

theorem lockOk_perm {h h' : List Nat} (hp : h.Perm h') : ∀ {f : Forest}, LockOk h f → LockOk h' f
  | .nil, _ => True.intro
  | .node i k e v l t kids rest, ⟨h1, h2, h3⟩ => ⟨by rw [h1, hp.countP_eq], lockOk_perm hp h2, lockOk_perm hp h3⟩

theorem lockOk_cons_notMem {x : Nat} {h : List Nat} : ∀ {f : Forest}, x ∉ ids f → (LockOk (x :: h) f ↔ LockOk h f)
  | .nil, _ => Iff.rfl
  | .node i k e v l t kids rest, hx => by
    have h1 : x ∉ ids kids := fun q => hx (List.mem_cons_of_mem _ (List.mem_append_left _ q))
    have h2 : x ∉ ids rest := fun q => hx (List.mem_cons_of_mem _ (List.mem_append_right _ q))
    have h3 : x ≠ i := fun q => hx (q ▸ List.mem_cons_self)
    have hc : (x :: h).countP (fun y => decide (y ∈ i :: ids kids)) = h.countP (fun y => decide (y ∈ i :: ids kids)) := by
      rw [List.countP_cons_of_neg]
      simp [h1, h3]
    simp only [LockOk, lockOk_cons_notMem h1, lockOk_cons_notMem h2, hc]

theorem nodup_parts {i : Nat} {a b : List Nat} (h : (i :: (a ++ b)).Nodup) :
    i ∉ a ∧ i ∉ b ∧ a.Nodup ∧ b.Nodup ∧ ∀ x, x ∈ a → x ∉ b := by
  rw [List.nodup_cons, List.mem_append, not_or, List.nodup_append] at h
  obtain ⟨⟨h1, h2⟩, h3, h4, h5⟩ := h
  exact ⟨h1, h2, h3, h4, fun x hx hy => h5 x hx x hy rfl⟩

theorem lockOk_inc {x : Nat} {h : List Nat} : ∀ {f : Forest}, (ids f).Nodup → LockOk h f → LockOk (x :: h) (addLock x 1 f)
  | .nil, _, _ => True.intro
  | .node i k e v l t kids rest, hn, ⟨h1, h2, h3⟩ => by
    obtain ⟨n1, n2, n3, n4, n5⟩ := nodup_parts hn
    by_cases c : x = i ∨ x ∈ ids kids
    · rw [addLock, if_pos c]
      have hr : x ∉ ids rest := by
        rcases c with rfl | c
        · exact n2
        · exact n5 x c
      refine ⟨?_, lockOk_inc n3 h2, (lockOk_cons_notMem hr).2 h3⟩
      rw [ids_addLock, List.countP_cons_of_pos (by simpa using c), h1]
      push_cast; rfl
    · rw [addLock, if_neg c]
      rw [not_or] at c
      refine ⟨?_, (lockOk_cons_notMem c.2).2 h2, lockOk_inc n4 h3⟩
      rw [List.countP_cons_of_neg (by simpa using c), h1]

theorem lockOk_dec {x : Nat} {h : List Nat} : ∀ {f : Forest}, (ids f).Nodup → LockOk (x :: h) f → LockOk h (addLock x (-1) f)
  | .nil, _, _ => True.intro
  | .node i k e v l t kids rest, hn, ⟨h1, h2, h3⟩ => by
    obtain ⟨n1, n2, n3, n4, n5⟩ := nodup_parts hn
    by_cases c : x = i ∨ x ∈ ids kids
    · rw [addLock, if_pos c]
      have hr : x ∉ ids rest := by
        rcases c with rfl | c
        · exact n2
        · exact n5 x c
      refine ⟨?_, lockOk_dec n3 h2, (lockOk_cons_notMem hr).1 h3⟩
      rw [List.countP_cons_of_pos (by simpa using c)] at h1
      rw [ids_addLock, h1]
      push_cast; ring
    · rw [addLock, if_neg c]
      rw [not_or] at c
      refine ⟨?_, (lockOk_cons_notMem c.2).1 h2, lockOk_dec n4 h3⟩
      rw [List.countP_cons_of_neg (by simpa using c)] at h1
      exact h1

theorem sizes_inc {x : Nat} {h : List Nat} : ∀ {f : Forest}, LockOk h f →
    unlockedSize (addLock x 1 f) = unlockedSize f - pathLen x 0 f ∧ lockedSize (addLock x 1 f) = lockedSize f + pathLen x 0 f
  | .nil, _ => ⟨by simp [addLock, unlockedSize, pathLen], by simp [addLock, lockedSize, pathLen]⟩
  | .node i k e v l t kids rest, ⟨h1, h2, h3⟩ => by
    obtain ⟨a1, a2⟩ := sizes_inc (x := x) h2
    obtain ⟨b1, b2⟩ := sizes_inc (x := x) h3
    have hl : 0 ≤ l := by rw [h1]; exact Int.natCast_nonneg _
    by_cases c : x = i ∨ x ∈ ids kids
    · rw [addLock, if_pos c, pathLen, if_pos c]
      simp only [unlockedSize, lockedSize, a1, a2]
      rw [if_neg (show ¬ (l + 1 = 0) by omega), if_pos (show l + 1 ≠ 0 by omega)]
      by_cases hz : l = 0
      · subst hz
        simp
        constructor <;> ring
      · simp only [if_neg hz, if_pos hz]
        constructor <;> ring
    · rw [addLock, if_neg c, pathLen, if_neg c]
      simp only [unlockedSize, lockedSize, b1, b2]
      constructor <;> ring

theorem sizes_dec {x : Nat} {h : List Nat} : ∀ {f : Forest}, LockOk (x :: h) f →
    unlockedSize (addLock x (-1) f) = unlockedSize f + pathLen x 1 f ∧ lockedSize (addLock x (-1) f) = lockedSize f - pathLen x 1 f
  | .nil, _ => ⟨by simp [addLock, unlockedSize, pathLen], by simp [addLock, lockedSize, pathLen]⟩
  | .node i k e v l t kids rest, ⟨h1, h2, h3⟩ => by
    obtain ⟨a1, a2⟩ := sizes_dec (x := x) h2
    obtain ⟨b1, b2⟩ := sizes_dec (x := x) h3
    by_cases c : x = i ∨ x ∈ ids kids
    · rw [addLock, if_pos c, pathLen, if_pos c]
      simp only [unlockedSize, lockedSize, a1, a2]
      have hl : 1 ≤ l := by
        rw [h1, List.countP_cons_of_pos (by simpa using c)]
        push_cast
        omega
      by_cases hz : l = 1
      · subst hz
        simp
        constructor <;> ring
      · rw [if_neg (show ¬ (l + -1 = 0) by omega), if_pos (show l + -1 ≠ 0 by omega), if_neg hz, if_neg (show ¬ l = 0 by omega),
          if_pos (show l ≠ 0 by omega)]
        constructor <;> ring
    · rw [addLock, if_neg c, pathLen, if_neg c]
      simp only [unlockedSize, lockedSize, b1, b2]
      constructor <;> ring

/-! ### Nodes -/

theorem infos_ids : ∀ f : Forest, (infos f).map (·.id) = ids f
  | .nil => rfl
  | .node i k e v l t kids rest => by simp [infos, ids, infos_ids kids, infos_ids rest]

theorem mem_ids_iff {f : Forest} {x : Nat} : x ∈ ids f ↔ ∃ n ∈ infos f, n.id = x := by
  rw [← infos_ids, List.mem_map]

theorem mem_ids_of {f : Forest} {n : Info} (h : n ∈ infos f) : n.id ∈ ids f := mem_ids_iff.2 ⟨n, h, rfl⟩

theorem info_some {f : Forest} {x : Nat} {n : Info} (h : info f x = some n) : n ∈ infos f ∧ n.id = x := by
  have h1 := List.mem_of_find?_eq_some h
  have h2 := List.find?_some h
  exact ⟨h1, by simpa using h2⟩

theorem info_unique {f : Forest} (hn : (ids f).Nodup) {n m : Info} (h1 : n ∈ infos f) (h2 : m ∈ infos f) (h : n.id = m.id) : n = m := by
  rw [← infos_ids] at hn
  exact List.inj_on_of_nodup_map hn h1 h2 h

theorem info_of_mem {f : Forest} (hn : (ids f).Nodup) {n : Info} (h : n ∈ infos f) : info f n.id = some n := by
  cases hi : info f n.id with
  | none =>
    rw [info, List.find?_eq_none] at hi
    simpa using hi n h
  | some m =>
    obtain ⟨h1, h2⟩ := info_some hi
    rw [info_unique hn h1 h h2]

/-! ### Removing a leaf -/

theorem remove_notMem {x : Nat} : ∀ {f : Forest}, x ∉ ids f → remove x f = f
  | .nil, _ => rfl
  | .node i k e v l t kids rest, h => by
    simp only [ids, List.mem_cons, List.mem_append, not_or] at h
    rw [remove, if_neg h.1, if_neg h.2.1, remove_notMem h.2.2]

theorem noHead_remove {P : Nat} {x : Nat} {e pg} : ∀ {f : Forest}, NoHead P e pg f → NoHead P e pg (remove x f)
  | .nil, h => h
  | .node i k e v l t kids rest, ⟨h1, h2⟩ => by
    rw [remove]
    split
    · exact h2
    · split
      · exact ⟨h1, h2⟩
      · exact ⟨h1, noHead_remove h2⟩

theorem wf_remove {P : Nat} {x : Nat} : ∀ {f : Forest}, WF P f → WF P (remove x f)
  | .nil, h => h
  | .node i k e v l t kids rest, ⟨h1, h2, h3, h4, h5, h6⟩ => by
    rw [remove]
    split
    · exact h6
    · split
      · exact ⟨h1, h2, h3, h4, wf_remove h5, h6⟩
      · exact ⟨h1, h2, h3, noHead_remove h4, h5, wf_remove h6⟩

theorem cached_remove {P : Nat} {x : Nat} : ∀ {f : Forest} {e key s}, Cached P (remove x f) e key s → Cached P f e key s
  | .nil, _, _, _, h => h
  | .node i k e v l t kids rest, _, _, _, h => by
    rw [remove] at h
    split at h
    · exact .inl h
    · split at h
      · rcases h with h | ⟨hx, h | ⟨key', s', e1, e2, h⟩⟩
        · exact .inl h
        · exact .inr ⟨hx, .inl h⟩
        · exact .inr ⟨hx, .inr ⟨key', s', e1, e2, cached_remove h⟩⟩
      · rcases h with h | h
        · exact .inl (cached_remove h)
        · exact .inr h

/-- What removing the leaf `n` does. -/
structure Cut (f : Forest) (n : Info) (f' : Forest) : Prop where
  ids : (ids f).Perm (n.id :: ids f')
  slots : (slots f).Perm (n.val ++ slots f')
  unlocked : unlockedSize f = (if n.lock = 0 then (n.key.length : Int) else 0) + unlockedSize f'
  locked : lockedSize f = (if n.lock ≠ 0 then (n.key.length : Int) else 0) + lockedSize f'
  lock : ∀ held : List Nat, n.id ∉ held → LockOk held f → LockOk held f'
  path : ∀ y e key s, y ≠ n.id → PathTo y f e key s → PathTo y f' e key s
  infos : ∀ m ∈ infos f', ∃ m' ∈ infos f, m'.id = m.id ∧ m'.lock = m.lock ∧ m'.time = m.time ∧
    (m'.leaf = m.leaf ∨ (m.leaf = true ∧ ∀ p, parent n.id p f = some m.id))

theorem remove_nil {x : Nat} : ∀ {f : Forest}, remove x f = .nil → x ∈ ids f → ∀ p, parent x p f = p
  | .nil, _, h => by simp [ids] at h
  | .node i k e v l t kids rest, h, hx => by
    intro p
    rw [remove] at h
    split at h
    · rename_i c; rw [parent, if_pos c]
    · split at h <;> cases h

theorem cut_leaf : ∀ {f : Forest}, (ids f).Nodup → ∀ {n : Info}, n ∈ infos f → n.leaf = true → Cut f n (remove n.id f) := by
  intro f
  induction f with
  | nil => intro _ n h; simp [infos] at h
  | node i k e v l t kids rest ihk ihr =>
    intro hn n h hl
    obtain ⟨n1, n2, n3, n4, n5⟩ := nodup_parts hn
    rw [infos, List.mem_cons, List.mem_append] at h
    rcases h with rfl | h | h
    · -- the node itself
      have hk : kids = .nil := by simpa using hl
      subst hk
      rw [remove, if_pos rfl]
      refine ⟨?_, ?_, ?_, ?_, ?_, ?_, ?_⟩
      · simp [ids]
      · simp [slots]
      · simp [unlockedSize]
      · simp [lockedSize]
      · rintro held _ ⟨_, _, h3⟩; exact h3
      · rintro y e' key s hy (hp | ⟨_, ⟨rfl, _⟩ | ⟨_, _, _, _, hp⟩⟩)
        · exact hp
        · exact absurd rfl hy
        · exact hp.elim
      · intro m hm
        exact ⟨m, by rw [infos, List.mem_cons, List.mem_append]; exact .inr (.inr hm), rfl, rfl, rfl, .inl rfl⟩
    · -- below the node
      have hx := mem_ids_of h
      have hne : n.id ≠ i := fun q => n1 (q ▸ hx)
      have c := ihk n3 h hl
      rw [remove, if_neg hne, if_pos hx]
      refine ⟨?_, ?_, ?_, ?_, ?_, ?_, ?_⟩
      · simp only [ids]
        exact ((c.ids.append_right _).cons _).trans (List.Perm.swap _ _ _)
      · simp only [slots]
        refine ((c.slots.append_right _).append_left _).trans ?_
        rw [← List.append_assoc, ← List.append_assoc, ← List.append_assoc, ← List.append_assoc]
        exact (List.perm_append_comm.append_right _).append_right _
      · simp only [unlockedSize, c.unlocked]; ring
      · simp only [lockedSize, c.locked]; ring
      · rintro held hh ⟨h1, h2, h3⟩
        refine ⟨?_, c.lock held hh h2, h3⟩
        rw [h1]
        congr 1
        refine countP_congr' fun y hy => ?_
        have hyn : y ≠ n.id := fun q => hh (q ▸ hy)
        have : y ∈ ids kids ↔ y ∈ ids (remove n.id kids) := by
          rw [c.ids.mem_iff, List.mem_cons]; tauto
        simp [this]
      · rintro y e' key s hy (hp | ⟨hx', hp | ⟨key', s', e1, e2, hp⟩⟩)
        · exact .inl hp
        · exact .inr ⟨hx', .inl hp⟩
        · exact .inr ⟨hx', .inr ⟨key', s', e1, e2, c.path _ _ _ _ hy hp⟩⟩
      · intro m hm
        rw [infos, List.mem_cons, List.mem_append] at hm
        rcases hm with rfl | hm | hm
        · refine ⟨⟨i, k, v, l, t, decide (kids = .nil)⟩, by rw [infos]; exact List.mem_cons_self, rfl, rfl, rfl, ?_⟩
          have hkn : kids ≠ .nil := by rintro rfl; simp [ids] at hx
          by_cases hr : remove n.id kids = .nil
          · refine .inr ⟨by simp [hr], fun p => ?_⟩
            rw [parent, if_neg hne, if_pos hx]
            exact remove_nil hr hx (some i)
          · exact .inl (by simp [hr, hkn])
        · obtain ⟨m', hm', a1, a2, a3, a4⟩ := c.infos m hm
          refine ⟨m', by rw [infos, List.mem_cons, List.mem_append]; exact .inr (.inl hm'), a1, a2, a3, ?_⟩
          rcases a4 with a4 | ⟨a4, a5⟩
          · exact .inl a4
          · refine .inr ⟨a4, fun p => ?_⟩
            rw [parent, if_neg hne, if_pos hx]
            exact a5 _
        · exact ⟨m, by rw [infos, List.mem_cons, List.mem_append]; exact .inr (.inr hm), rfl, rfl, rfl, .inl rfl⟩
    · have hx := mem_ids_of h
      have hne : n.id ≠ i := fun q => n2 (q ▸ hx)
      have hxk : n.id ∉ ids kids := fun q => n5 _ q hx
      have c := ihr n4 h hl
      rw [remove, if_neg hne, if_neg hxk]
      refine ⟨?_, ?_, ?_, ?_, ?_, ?_, ?_⟩
      · simp only [ids]
        refine ((c.ids.append_left _).cons _).trans ?_
        refine (List.perm_middle.cons _).trans (List.Perm.swap _ _ _)
      · simp only [slots]
        refine ((c.slots.append_left _).append_left _).trans ?_
        rw [← List.append_assoc, ← List.append_assoc]
        refine (List.perm_append_comm.append_right _).trans ?_
        rw [List.append_assoc, List.append_assoc]
      · simp only [unlockedSize, c.unlocked]; ring
      · simp only [lockedSize, c.locked]; ring
      · rintro held hh ⟨h1, h2, h3⟩
        exact ⟨h1, h2, c.lock held hh h3⟩
      · rintro y e' key s hy (hp | hp)
        · exact .inl (c.path _ _ _ _ hy hp)
        · exact .inr hp
      · intro m hm
        rw [infos, List.mem_cons, List.mem_append] at hm
        rcases hm with rfl | hm | hm
        · exact ⟨_, by rw [infos]; exact List.mem_cons_self, rfl, rfl, rfl, .inl rfl⟩
        · exact ⟨m, by rw [infos, List.mem_cons, List.mem_append]; exact .inr (.inl hm), rfl, rfl, rfl, .inl rfl⟩
        · obtain ⟨m', hm', a1, a2, a3, a4⟩ := c.infos m hm
          refine ⟨m', by rw [infos, List.mem_cons, List.mem_append]; exact .inr (.inr hm'), a1, a2, a3, ?_⟩
          rcases a4 with a4 | ⟨a4, a5⟩
          · exact .inl a4
          · refine .inr ⟨a4, fun p => ?_⟩
            rw [parent, if_neg hne, if_neg hxk]
            exact a5 _

/-! ### Locked and unlocked nodes -/

theorem lock_info {h : List Nat} : ∀ {f : Forest}, LockOk h f → ∀ {n : Info}, n ∈ infos f → n.lock = 0 → n.id ∉ h := by
  intro f
  induction f with
  | nil => intro _ n hn; simp [infos] at hn
  | node i k e v l t kids rest ihk ihr =>
    rintro ⟨h1, h2, h3⟩ n hn h0
    rw [infos, List.mem_cons, List.mem_append] at hn
    rcases hn with rfl | hn | hn
    · intro hx
      have h0 : l = 0 := h0
      rw [h0] at h1
      have h1 : h.countP (fun y => decide (y ∈ i :: ids kids)) = 0 := by exact_mod_cast h1.symm
      rw [List.countP_eq_zero] at h1
      simpa using h1 i hx
    · exact ihk h2 hn h0
    · exact ihr h3 hn h0

theorem lock_nonneg {h : List Nat} : ∀ {f : Forest}, LockOk h f → ∀ {n : Info}, n ∈ infos f → 0 ≤ n.lock := by
  intro f
  induction f with
  | nil => intro _ n hn; simp [infos] at hn
  | node i k e v l t kids rest ihk ihr =>
    rintro ⟨h1, h2, h3⟩ n hn
    rw [infos, List.mem_cons, List.mem_append] at hn
    rcases hn with rfl | hn | hn
    · show 0 ≤ l
      rw [h1]; exact Int.natCast_nonneg _
    · exact ihk h2 hn
    · exact ihr h3 hn

/-- An unlocked node has an unlocked leaf at or below it. -/
theorem unlocked_leaf {h : List Nat} : ∀ {f : Forest}, LockOk h f → (∃ n ∈ infos f, n.lock = 0) →
    ∃ n ∈ infos f, n.lock = 0 ∧ n.leaf = true := by
  intro f
  induction f with
  | nil => rintro _ ⟨n, hn, _⟩; simp [infos] at hn
  | node i k e v l t kids rest ihk ihr =>
    rintro ⟨h1, h2, h3⟩ ⟨n, hn, h0⟩
    rw [infos, List.mem_cons, List.mem_append] at hn
    have kidsCase : (∃ n ∈ infos kids, n.lock = 0) → ∃ n ∈ infos (.node i k e v l t kids rest), n.lock = 0 ∧ n.leaf = true := by
      intro hh
      obtain ⟨m, hm, a, b⟩ := ihk h2 hh
      exact ⟨m, by rw [infos, List.mem_cons, List.mem_append]; exact .inr (.inl hm), a, b⟩
    rcases hn with rfl | hn | hn
    · cases hk : kids with
      | nil => exact ⟨⟨i, k, v, l, t, true⟩, by simp [infos], h0, rfl⟩
      | node i2 k2 e2 v2 l2 t2 kids2 rest2 =>
        rw [← hk]
        refine kidsCase ⟨⟨i2, k2, v2, l2, t2, decide (kids2 = .nil)⟩, by rw [hk, infos]; exact List.mem_cons_self, ?_⟩
        rw [hk] at h2
        show l2 = 0
        rw [h2.1]
        have h0 : l = 0 := h0
        rw [h0] at h1
        have h1 : h.countP (fun y => decide (y ∈ i :: ids kids)) = 0 := by exact_mod_cast h1.symm
        rw [List.countP_eq_zero] at h1
        have : h.countP (fun y => decide (y ∈ i2 :: ids kids2)) = 0 := by
          rw [List.countP_eq_zero]
          intro y hy hc
          refine h1 y hy ?_
          have hc : y ∈ i2 :: ids kids2 := by simpa using hc
          have : y ∈ i :: ids kids := by
            rw [hk, ids]
            refine List.mem_cons_of_mem _ ?_
            rw [← List.cons_append]
            exact List.mem_append_left _ hc
          simpa using this
        rw [this]; rfl
    · exact kidsCase ⟨n, hn, h0⟩
    · obtain ⟨m, hm, a, b⟩ := ihr h3 ⟨n, hn, h0⟩
      exact ⟨m, by rw [infos, List.mem_cons, List.mem_append]; exact .inr (.inr hm), a, b⟩

theorem pathTo_mem {y : Nat} : ∀ {f : Forest} {e key s}, PathTo y f e key s → y ∈ ids f
  | .nil, _, _, _, h => h.elim
  | .node i k e v l t kids rest, _, _, _, h => by
    rcases h with h | ⟨_, ⟨rfl, _⟩ | ⟨_, _, _, _, h⟩⟩
    · exact List.mem_cons_of_mem _ (List.mem_append_right _ (pathTo_mem h))
    · exact List.mem_cons_self
    · exact List.mem_cons_of_mem _ (List.mem_append_left _ (pathTo_mem h))

theorem pathTo_cached {P : Nat} {y : Nat} : ∀ {f : Forest}, WF P f → ∀ {e key s}, PathTo y f e key s → Cached P f e key s
  | .nil, _, _, _, _, h => h.elim
  | .node i k e v l t kids rest, ⟨h1, h2, h3, h4, h5, h6⟩, _, _, _, h => by
    rcases h with h | ⟨hx, ⟨_, rfl, rfl⟩ | ⟨key', s', e1, e2, h⟩⟩
    · exact .inl (pathTo_cached h6 h)
    · exact .inr ⟨hx, .inl ⟨_, Nat.le_refl _, h2, by simp, by rw [List.take_of_length_le (by omega)]⟩⟩
    · exact .inr ⟨hx, .inr ⟨key', s', e1, e2, pathTo_cached h5 h⟩⟩

end Verif.PyRadix
