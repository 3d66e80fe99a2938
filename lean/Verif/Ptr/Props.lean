import Verif.Ptr.Model
/- C35: objects are deleted exactly when the last owner goes. -/
namespace Verif.Ptr

/-- Slot `s` owns `o`. -/
def Owns (st : State) (s o : Nat) : Prop := st.slot s = .ptr o

/-- `o` is owned, or new. -/
def isSteal : Micro → Bool
  | .ctorSteal .. => true
  | _ => false

/-- The invariant: the counter is the number of owners; owned objects are alive; objects that are not alive have no
owner; an alive object without owner has never been owned (`ever` says which objects have been). -/
structure Inv (st : State) (ever : Nat → Prop) : Prop where
  owners : ∃ F : Nat → Finset Nat, (∀ s o, s ∈ F o ↔ Owns st s o) ∧ ∀ o, st.count o = (F o).card
  alive : ∀ s o, Owns st s o → st.life o = .alive
  fresh : ∀ o, st.life o = .unborn → st.count o = 0
  last : ∀ o, ever o → st.count o = 0 → st.life o = .dying ∨ st.life o = .deleted
  gone : ∀ o, st.life o = .dying ∨ st.life o = .deleted → ever o
  own : ∀ s o, Owns st s o → ever o
  good : st.bad = false

theorem inv_init : Inv .init fun _ => False where
  owners := ⟨fun _ => ∅, by simp [Owns, State.init], by simp [State.init]⟩
  alive := by simp [Owns, State.init]
  fresh := by simp [State.init]
  last := by simp
  gone := by simp [State.init]
  own := by simp [Owns, State.init]
  good := rfl

/-- What has been owned after a step. -/
def everStep (st : State) (ever : Nat → Prop) (m : Micro) : Nat → Prop := fun o => ever o ∨ ∃ s, Owns (exec st m) s o

theorem count_pos {st : State} {ever : Nat → Prop} (h : Inv st ever) {s o : Nat} (hs : Owns st s o) : 0 < st.count o := by
  obtain ⟨F, h1, h2⟩ := h.owners
  rw [h2]
  have := Finset.card_pos.2 ⟨s, (h1 s o).2 hs⟩
  exact_mod_cast this

theorem count_nonneg {st : State} {ever : Nat → Prop} (h : Inv st ever) (o : Nat) : 0 ≤ st.count o := by
  obtain ⟨F, _, h2⟩ := h.owners
  rw [h2]; exact Int.natCast_nonneg _

theorem owns_set {st : State} {s : Nat} {c : Cell} {s' o : Nat} :
    Owns (setSlot st s c) s' o ↔ if s' = s then c = .ptr o else Owns st s' o := by
  unfold Owns setSlot
  by_cases h : s' = s
  · subst h; simp
  · simp [h]

/-- Writing a non-owning cell into a slot that owns nothing. -/
theorem inv_idle {st : State} {ever : Nat → Prop} (h : Inv st ever) {s : Nat} {c : Cell} (h1 : ∀ o, st.slot s ≠ .ptr o)
    (h2 : ∀ o, c ≠ .ptr o) : Inv (setSlot st s c) ever := by
  have key : ∀ s' o, Owns (setSlot st s c) s' o ↔ Owns st s' o := by
    intro s' o
    rw [owns_set]
    by_cases e : s' = s
    · subst e; simp [h2 o, Owns, h1 o]
    · simp [e]
  refine ⟨?_, fun s' o hs => h.alive s' o ((key s' o).1 hs), h.fresh, h.last, h.gone,
    fun s' o hs => h.own s' o ((key s' o).1 hs), h.good⟩
  obtain ⟨F, f1, f2⟩ := h.owners
  exact ⟨F, fun s' o => by rw [f1, key], f2⟩

theorem inv_addRef {st : State} {ever : Nat → Prop} (h : Inv st ever) {s o : Nat} (h1 : st.slot s = .dead)
    (h2 : st.life o = .alive) : Inv (setSlot (addRef st o) s (.ptr o)) fun o' => ever o' ∨ o' = o := by
  have key : ∀ s' o', Owns (setSlot (addRef st o) s (.ptr o)) s' o' ↔ (s' = s ∧ o' = o) ∨ Owns st s' o' := by
    intro s' o'
    rw [owns_set]
    by_cases e : s' = s
    · subst e
      simp only [if_true, true_and]
      constructor
      · intro hc; cases hc; exact .inl rfl
      · rintro (rfl | hc)
        · rfl
        · unfold Owns at hc; rw [h1] at hc; cases hc
    · simp [e]; rfl
  have hc : ∀ o', (setSlot (addRef st o) s (.ptr o)).count o' = if o' = o then st.count o + 1 else st.count o' := by
    intro o'
    by_cases e : o' = o
    · subst e; simp [setSlot, addRef]
    · simp [setSlot, addRef, e]
  refine ⟨?_, ?_, ?_, ?_, ?_, ?_, ?_⟩
  · obtain ⟨F, f1, f2⟩ := h.owners
    refine ⟨fun o' => if o' = o then insert s (F o) else F o', ?_, ?_⟩
    · intro s' o'
      rw [key]
      by_cases e : o' = o
      · subst e; simp [f1]
      · simp [e, f1]
    · intro o'
      rw [hc]
      by_cases e : o' = o
      · subst e
        simp only [if_true]
        rw [Finset.card_insert_of_notMem, f2]
        · push_cast; ring
        · rw [f1]; unfold Owns; rw [h1]; simp
      · simp [e, f2]
  · intro s' o' hs
    rcases (key s' o').1 hs with ⟨_, rfl⟩ | hs
    · exact h2
    · exact h.alive s' o' hs
  · intro o' ho
    rw [hc]
    have ho' : st.life o' = .unborn := ho
    by_cases e : o' = o
    · subst e; rw [h2] at ho'; cases ho'
    · rw [if_neg e]; exact h.fresh o' ho'
  · intro o' ho hz
    rw [hc] at hz
    have := count_nonneg h o
    by_cases e : o' = o
    · rw [if_pos e] at hz; omega
    · rw [if_neg e] at hz
      exact h.last o' (ho.resolve_right e) hz
  · intro o' ho; exact .inl (h.gone o' ho)
  · intro s' o' hs
    rcases (key s' o').1 hs with ⟨_, rfl⟩ | hs
    · exact .inr rfl
    · exact .inl (h.own s' o' hs)
  · show (st.bad || st.touch o) = false
    rw [h.good, State.touch, h2]; rfl

theorem inv_decRef {st : State} {ever : Nat → Prop} (h : Inv st ever) {s o : Nat} (h1 : Owns st s o) :
    Inv (setSlot (decRef st o) s .dead) ever := by
  have h2 := h.alive s o h1
  have hpos := count_pos h h1
  have key : ∀ s' o', Owns (setSlot (decRef st o) s .dead) s' o' ↔ s' ≠ s ∧ Owns st s' o' := by
    intro s' o'
    rw [owns_set]
    by_cases e : s' = s
    · subst e; simp
    · simp [e]; rfl
  have hc : ∀ o', (setSlot (decRef st o) s .dead).count o' = if o' = o then st.count o - 1 else st.count o' := by
    intro o'
    by_cases e : o' = o
    · subst e; simp [setSlot, decRef]
    · simp [setSlot, decRef, e]
  have hl : ∀ o', (setSlot (decRef st o) s .dead).life o' = if o' = o ∧ st.count o = 1 then .dying else st.life o' := by
    intro o'
    show (if st.count o = 1 then Function.update st.life o .dying else st.life) o' = _
    by_cases e1 : st.count o = 1
    · by_cases e : o' = o
      · subst e; simp [e1]
      · simp [e1, e]
    · simp [e1]
  obtain ⟨F, f1, f2⟩ := h.owners
  refine ⟨?_, ?_, ?_, ?_, ?_, ?_, ?_⟩
  · refine ⟨fun o' => (F o').erase s, ?_, ?_⟩
    · intro s' o'; rw [key, Finset.mem_erase, f1]
    · intro o'
      rw [hc]
      show _ = (((F o').erase s).card : Int)
      by_cases e : o' = o
      · subst e
        rw [if_pos rfl, Finset.card_erase_of_mem ((f1 s o').2 h1), f2]
        have : 0 < (F o').card := Finset.card_pos.2 ⟨s, (f1 s o').2 h1⟩
        omega
      · rw [if_neg e, Finset.erase_eq_of_notMem, f2]
        rw [f1]; unfold Owns; unfold Owns at h1; rw [h1]; intro hh; cases hh; exact e rfl
  · intro s' o' hs
    obtain ⟨hne, hs2⟩ := (key s' o').1 hs
    rw [hl, if_neg, h.alive s' o' hs2]
    rintro ⟨rfl, h1c⟩
    have : ((F o').card : Int) = 1 := by rw [← f2]; exact h1c
    have h3 : (F o').card = 1 := by exact_mod_cast this
    obtain ⟨a, ha⟩ := Finset.card_eq_one.1 h3
    have m1 : s ∈ F o' := (f1 s o').2 h1
    have m2 : s' ∈ F o' := (f1 s' o').2 hs2
    rw [ha, Finset.mem_singleton] at m1 m2
    exact hne (m2.trans m1.symm)
  · intro o' ho
    rw [hl] at ho
    split_ifs at ho with hif
    rw [hc]
    by_cases e : o' = o
    · subst e; rw [h2] at ho; cases ho
    · rw [if_neg e]; exact h.fresh o' ho
  · intro o' ho hz
    rw [hc] at hz
    rw [hl]
    by_cases e : o' = o
    · rw [if_pos e] at hz
      rw [if_pos ⟨e, by omega⟩]; exact .inl rfl
    · rw [if_neg e] at hz
      rw [if_neg fun hh => e hh.1]
      exact h.last o' ho hz
  · intro o' ho
    rw [hl] at ho
    split_ifs at ho with hif
    · obtain ⟨rfl, _⟩ := hif; exact h.own s o' h1
    · exact h.gone o' ho
  · intro s' o' hs; exact h.own s' o' ((key s' o').1 hs).2
  · show (st.bad || st.touch o || (st.count o == 1 && st.life o == .dying)) = false
    rw [h.good, State.touch, h2]
    simp

theorem inv_swap {st : State} {ever : Nat → Prop} (h : Inv st ever) (s t : Nat) :
    Inv (setSlot (setSlot st s (st.slot t)) t (st.slot s)) ever := by
  -- the owners of an object are renamed
  have key : ∀ s' o, Owns (setSlot (setSlot st s (st.slot t)) t (st.slot s)) s' o ↔ Owns st (Equiv.swap s t s') o := by
    intro s' o
    rw [owns_set, owns_set]
    by_cases e : s' = t
    · subst e; simp [Owns]
    · by_cases e2 : s' = s
      · subst e2; simp [e, Owns]
      · rw [if_neg e, if_neg e2, Equiv.swap_apply_of_ne_of_ne e2 e]
  obtain ⟨F, f1, f2⟩ := h.owners
  refine ⟨⟨fun o => (F o).map (Equiv.swap s t).toEmbedding, ?_, fun o => ?_⟩, fun s' o hs => h.alive _ o ((key s' o).1 hs),
    h.fresh, h.last, h.gone, fun s' o hs => h.own _ o ((key s' o).1 hs), h.good⟩
  · intro s' o
    rw [key, ← f1, Finset.mem_map]
    constructor
    · rintro ⟨a, ha, rfl⟩; simpa using ha
    · intro hm; exact ⟨_, hm, by simp⟩
  · rw [Finset.card_map]; exact f2 o

theorem inv_move {st : State} {ever : Nat → Prop} (h : Inv st ever) {s t : Nat} (h1 : st.slot s = .dead) (h2 : st.slot t ≠ .dead) :
    Inv (setSlot (setSlot st s (st.slot t)) t .null) ever := by
  have hne : s ≠ t := by rintro rfl; exact h2 h1
  have h3 := inv_swap h s t
  have h4 : (setSlot (setSlot st s (st.slot t)) t (st.slot s)).slot t = .dead := by simp [setSlot, h1]
  have h5 := inv_idle h3 (s := t) (c := .null) (by rw [h4]; simp) (by simp)
  have : setSlot (setSlot (setSlot st s (st.slot t)) t (st.slot s)) t .null =
      setSlot (setSlot st s (st.slot t)) t .null := by simp [setSlot]
  rwa [this] at h5

/-- Every allowed step except the stealing one keeps the invariant. -/
theorem inv_step {st : State} {ever : Nat → Prop} (h : Inv st ever) {m : Micro} (ha : Allowed st m)
    (hm : isSteal m = false) : ∃ ever', (∀ o, ever' o ↔ ever o ∨ ∃ s, Owns (exec st m) s o) ∧ Inv (exec st m) ever' := by
  -- a set of objects that contains no more than those owned before or after is as good as `everStep`
  have wrap : ∀ e' : Nat → Prop, Inv (exec st m) e' → (∀ o, e' o → ever o ∨ ∃ s, Owns (exec st m) s o) →
      (∀ o, ever o → e' o) → ∃ ever', (∀ o, ever' o ↔ ever o ∨ ∃ s, Owns (exec st m) s o) ∧ Inv (exec st m) ever' := by
    intro e' h1 h2 h3
    refine ⟨e', fun o => ⟨h2 o, ?_⟩, h1⟩
    rintro (ho | ⟨s, hs⟩)
    · exact h3 o ho
    · exact h1.own s o hs
  cases m with
  | new o =>
    have ha : st.life o = .unborn := ha
    refine wrap ever ?_ (fun _ h => .inl h) (fun _ h => h)
    have h0 := h.fresh o ha
    have hc : Function.update st.count o 0 = st.count := by rw [← h0, Function.update_eq_self]
    have hno : ∀ s, ¬ Owns st s o := by
      intro s hs; rw [h.alive s o hs] at ha; cases ha
    refine ⟨by rw [show (exec st (.new o)).count = st.count from hc]; exact h.owners, ?_, ?_, ?_, ?_, h.own, h.good⟩
    · intro s o' hs
      have hs : Owns st s o' := hs
      show Function.update st.life o .alive o' = .alive
      by_cases e : o' = o
      · subst e; exact absurd hs (hno s)
      · rw [Function.update_of_ne e]; exact h.alive s o' hs
    · intro o' ho
      have ho : Function.update st.life o .alive o' = .unborn := ho
      show Function.update st.count o 0 o' = 0
      by_cases e : o' = o
      · subst e; simp
      · rw [Function.update_of_ne e] at ho ⊢; exact h.fresh o' ho
    · intro o' ho hz
      show Function.update st.life o .alive o' = _ ∨ Function.update st.life o .alive o' = _
      have hz2 : Function.update st.count o 0 o' = 0 := hz
      rw [hc] at hz2
      by_cases e : o' = o
      · subst e
        rcases h.last o' ho hz2 with h1 | h1 <;> rw [ha] at h1 <;> cases h1
      · rw [Function.update_of_ne e]; exact h.last o' ho hz2
    · intro o' ho
      have ho : Function.update st.life o .alive o' = .dying ∨ Function.update st.life o .alive o' = .deleted := ho
      by_cases e : o' = o
      · subst e; simp at ho
      · rw [Function.update_of_ne e] at ho; exact h.gone o' ho
  | ctorNull s =>
    have ha : st.slot s = .dead := ha
    exact wrap ever (inv_idle h (by rw [ha]; simp) (by simp)) (fun _ h => .inl h) (fun _ h => h)
  | ctorRaw s o =>
    refine wrap _ (inv_addRef h ha.1 ha.2) ?_ (fun _ h => .inl h)
    rintro o' (h1 | rfl)
    · exact .inl h1
    · exact .inr ⟨s, by simp [exec, owns_set]⟩
  | ctorCopy s t =>
    obtain ⟨h1, h2⟩ := ha
    cases ht : st.slot t with
    | dead => exact absurd ht h2
    | null =>
      have e : exec st (.ctorCopy s t) = setSlot st s .null := by simp [exec, ht]
      refine wrap ever (by rw [e]; exact inv_idle h (by rw [h1]; simp) (by simp)) (fun _ h => .inl h) (fun _ h => h)
    | ptr o =>
      have e : exec st (.ctorCopy s t) = setSlot (addRef st o) s (.ptr o) := by simp [exec, ht]
      refine wrap ever ?_ (fun _ h => .inl h) (fun _ h => h)
      rw [e]
      have h3 := inv_addRef h h1 (h.alive t o ht)
      have : (fun o' => ever o' ∨ o' = o) = ever := by
        funext o'
        refine propext ⟨?_, .inl⟩
        rintro (h4 | rfl)
        · exact h4
        · exact h.own t o' ht
      rwa [this] at h3
  | ctorMove s t =>
    exact wrap ever (inv_move h ha.1 ha.2) (fun _ h => .inl h) (fun _ h => h)
  | ctorSteal s t => cases hm
  | swap s t => exact wrap ever (inv_swap h s t) (fun _ h => .inl h) (fun _ h => h)
  | dtor s =>
    have ha : st.slot s ≠ .dead := ha
    cases hs : st.slot s with
    | dead => exact absurd hs ha
    | null =>
      have e : exec st (.dtor s) = setSlot st s .dead := by simp [exec, hs]
      exact wrap ever (by rw [e]; exact inv_idle h (by rw [hs]; simp) (by simp)) (fun _ h => .inl h) (fun _ h => h)
    | ptr o =>
      have e : exec st (.dtor s) = setSlot (decRef st o) s .dead := by simp [exec, hs]
      exact wrap ever (by rw [e]; exact inv_decRef h hs) (fun _ h => .inl h) (fun _ h => h)
  | finish o =>
    have ha : st.life o = .dying := ha
    have hno : ∀ s, ¬ Owns st s o := by
      intro s hs; rw [h.alive s o hs] at ha; cases ha
    refine wrap ever ?_ (fun _ h => .inl h) (fun _ h => h)
    have hl : ∀ o', (exec st (.finish o)).life o' = if o' = o then .deleted else st.life o' := by
      intro o'
      show Function.update st.life o .deleted o' = _
      by_cases e : o' = o
      · subst e; simp
      · simp [e]
    refine ⟨h.owners, ?_, ?_, ?_, ?_, h.own, ?_⟩
    · intro s o' hs
      have hs : Owns st s o' := hs
      rw [hl, if_neg, h.alive s o' hs]
      rintro rfl; exact hno s hs
    · intro o' ho
      rw [hl] at ho
      split_ifs at ho
      exact h.fresh o' ho
    · intro o' ho hz
      rw [hl]
      split_ifs
      · exact .inr rfl
      · exact h.last o' ho hz
    · intro o' ho
      rw [hl] at ho
      split_ifs at ho with e
      · subst e; exact h.gone o' (.inl ha)
      · exact h.gone o' ho
    · show (st.bad || st.life o != .dying) = false
      rw [h.good, ha]; rfl

/-- The objects owned at some point of a history. -/
def everOwned : State → List Micro → Nat → Prop
  | st, [], o => ∃ s, Owns st s o
  | st, m :: ms, o => (∃ s, Owns st s o) ∨ everOwned (exec st m) ms o

theorem inv_run {st st' : State} {ms : List Micro} (hr : Run st ms st') : ∀ {ever : Nat → Prop}, Inv st ever →
    (∀ m ∈ ms, isSteal m = false) → ∃ ever', (∀ o, ever' o ↔ ever o ∨ everOwned st ms o) ∧ Inv st' ever' := by
  induction hr with
  | nil st =>
    intro ever h _
    exact ⟨ever, fun o => ⟨.inl, fun ho => ho.elim id fun ⟨s, hs⟩ => h.own s o hs⟩, h⟩
  | @cons st m ms st' ha _ ih =>
    intro ever h hms
    obtain ⟨e1, h1, h2⟩ := inv_step h ha (hms m (List.mem_cons_self ..))
    obtain ⟨e2, h3, h4⟩ := ih h2 fun m hm => hms m (List.mem_cons_of_mem _ hm)
    refine ⟨e2, fun o => ?_, h4⟩
    rw [h3, h1]
    constructor
    · rintro ((ho | ⟨s, hs⟩) | ho)
      · exact .inl ho
      · refine .inr (.inr ?_)
        cases ms with
        | nil => exact ⟨s, hs⟩
        | cons => exact .inl ⟨s, hs⟩
      · exact .inr (.inr ho)
    · rintro (ho | ⟨s, hs⟩ | ho)
      · exact .inl (.inl ho)
      · exact .inl (.inl (h.own s o hs))
      · exact .inr ho

/-- After any history without converting moves, of any number of threads: no undefined behaviour has occurred; no
owner points to an object that is deleted or about to be; the counter is the number of owners; and every object that
has had an owner and has none any more is deleted or about to be. (The full property includes converting moves.) -/
theorem C35_deleted_exactly_at_last_release_partial {ms : List Micro} {st : State} (hr : Run .init ms st)
    (hms : ∀ m ∈ ms, isSteal m = false) :
    st.bad = false ∧
    (∀ s o, Owns st s o → st.life o = .alive) ∧
    (∃ owners : Nat → Finset Nat, (∀ s o, s ∈ owners o ↔ Owns st s o) ∧ ∀ o, st.count o = (owners o).card) ∧
    (∀ o, everOwned .init ms o → (∀ s, ¬ Owns st s o) → st.life o = .dying ∨ st.life o = .deleted) ∧
    (∀ o, st.life o = .dying ∨ st.life o = .deleted → everOwned .init ms o) := by
  obtain ⟨e, h1, h2⟩ := inv_run hr inv_init hms
  refine ⟨h2.good, h2.alive, h2.owners, ?_, ?_⟩
  · intro o ho hno
    refine h2.last o ((h1 o).2 (.inr ho)) ?_
    obtain ⟨F, f1, f2⟩ := h2.owners
    rw [f2]
    have : F o = ∅ := Finset.eq_empty_of_forall_notMem fun s hs => hno s ((f1 s o).1 hs)
    rw [this]; rfl
  · intro o ho
    exact ((h1 o).1 (h2.gone o ho)).resolve_left id

/-- The release that removes the last owner is the one that deletes. -/
theorem C35_last_release_deletes_partial {ms : List Micro} {st : State} (hr : Run .init ms st)
    (hms : ∀ m ∈ ms, isSteal m = false) {s o : Nat} (hs : Owns st s o) :
    ((exec st (.dtor s)).life o = .dying ↔ ∀ s', Owns st s' o → s' = s) ∧
    ∀ o', o' ≠ o → (exec st (.dtor s)).life o' = st.life o' := by
  obtain ⟨e, _, h⟩ := inv_run hr inv_init hms
  have he : exec st (.dtor s) = setSlot (decRef st o) s .dead := by
    unfold Owns at hs; simp [exec, hs]
  have hl : ∀ o', (exec st (.dtor s)).life o' = if o' = o ∧ st.count o = 1 then .dying else st.life o' := by
    intro o'
    rw [he]
    show (if st.count o = 1 then Function.update st.life o .dying else st.life) o' = _
    by_cases e1 : st.count o = 1
    · by_cases e : o' = o
      · subst e; simp [e1]
      · simp [e1, e]
    · simp [e1]
  obtain ⟨F, f1, f2⟩ := h.owners
  refine ⟨?_, fun o' hne => by rw [hl, if_neg fun hh => hne hh.1]⟩
  rw [hl]
  constructor
  · intro hd s' hs'
    split_ifs at hd with hif
    · have : ((F o).card : Int) = 1 := by rw [← f2]; exact hif.2
      obtain ⟨a, ha⟩ := Finset.card_eq_one.1 (by exact_mod_cast this)
      have m1 := (f1 s o).2 hs
      have m2 := (f1 s' o).2 hs'
      rw [ha, Finset.mem_singleton] at m1 m2
      exact m2.trans m1.symm
    · rw [h.alive s o hs] at hd; cases hd
  · intro hall
    have : F o = {s} := by
      ext a
      rw [f1, Finset.mem_singleton]
      exact ⟨hall a, fun e => e ▸ hs⟩
    rw [if_pos ⟨rfl, by rw [f2, this]; rfl⟩]

/-- The operations other than the converting moves consist of steps covered by the theorems. -/
theorem C35_api_without_converting_moves (x y : Nat) (a : Api)
    (h : ∀ s t, a ≠ .convMoveCtor s t ∧ a ≠ .convMoveAssign s t) : ∀ m ∈ a.micro x y, isSteal m = false := by
  intro m hm
  cases a with
  | convMoveCtor s t => exact absurd rfl (h s t).1
  | convMoveAssign s t => exact absurd rfl (h s t).2
  | _ =>
    simp only [Api.micro, List.mem_cons, List.not_mem_nil, or_false] at hm
    rcases hm with rfl | rfl | rfl <;> rfl

/-! ### Converting moves -/

/-- Histories can be executed. -/
def execAll (st : State) : List Micro → State
  | [] => st
  | m :: ms => execAll (exec st m) ms

def allAllowed (st : State) : List Micro → Bool
  | [] => true
  | m :: ms => decide (Allowed st m) && allAllowed (exec st m) ms

theorem run_of_all : ∀ (ms : List Micro) (st : State), allAllowed st ms = true → Run st ms (execAll st ms)
  | [], st, _ => .nil st
  | m :: ms, st, h => by
    rw [allAllowed, Bool.and_eq_true] at h
    exact .cons (of_decide_eq_true h.1) (run_of_all ms _ h.2)

/-- `IntrusivePtr<Base> b = std::move(derived)`: the object is deleted while `b` points to it, and destroying `b`
touches a deleted object. -/
theorem C35_converting_move_violated :
    ∃ (ms : List Micro) (st : State),
      ms = (Api.makeIntrusive 0 7).micro 10 11 ++ (Api.convMoveCtor 1 0).micro 10 11 ++ [.finish 7] ∧
      Run .init ms st ∧ Owns st 1 7 ∧ st.life 7 = .deleted ∧ Allowed st (.dtor 1) ∧ (exec st (.dtor 1)).bad = true :=
  ⟨_, execAll .init ((Api.makeIntrusive 0 7).micro 10 11 ++ (Api.convMoveCtor 1 0).micro 10 11 ++ [.finish 7]), rfl,
    run_of_all _ _ (by decide), by unfold Owns; decide, by decide, by decide, by decide⟩

/-- Likewise for `b = std::move(derived)` with a `b` that exists. -/
theorem C35_converting_move_assign_violated :
    ∃ (ms : List Micro) (st : State),
      ms = (Api.makeIntrusive 0 7).micro 10 11 ++ [.ctorNull 1] ++ (Api.convMoveAssign 1 0).micro 10 11 ++ [.finish 7] ∧
      Run .init ms st ∧ Owns st 1 7 ∧ st.life 7 = .deleted ∧ Allowed st (.dtor 1) ∧ (exec st (.dtor 1)).bad = true :=
  ⟨_, execAll .init ((Api.makeIntrusive 0 7).micro 10 11 ++ [.ctorNull 1] ++ (Api.convMoveAssign 1 0).micro 10 11 ++
    [.finish 7]), rfl, run_of_all _ _ (by decide), by unfold Owns; decide, by decide, by decide, by decide⟩

/-- A history of the kind the theorems are about: two owners, a copy assignment onto a third, releases. -/
example : ∃ st, Run .init ([.new 7, .ctorRaw 0 7, .ctorCopy 1 0, .new 8, .ctorRaw 2 8] ++
    (Api.copyAssign 2 0).micro 10 11 ++ [.finish 8, .dtor 0, .dtor 1, .dtor 2, .finish 7]) st ∧
    st.life 7 = .deleted ∧ st.life 8 = .deleted ∧ st.bad = false :=
  ⟨_, run_of_all _ _ (by decide), by decide, by decide, by decide⟩

end Verif.Ptr
