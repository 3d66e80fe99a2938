import Verif.Pool.Lemmas
/- Task slots (C29). Source: mllm/engine/HpcThreadPool.cpp L52-67. Both functions hold the mutex. -/
namespace Verif.Pool

/-- `acquireTaskSlot`, L52-61, on `task_available_`: the first free slot. -/
def acquire : List Bool → Option (Nat × List Bool)
  | [] => none
  | true :: r => some (0, false :: r)
  | false :: r => (acquire r).map fun p => (p.1 + 1, false :: p.2)

/-- `releaseTaskSlot`, L63-67. -/
def release (av : List Bool) (s : Nat) : List Bool := av.set s true

/-- Slots and who holds them. -/
structure Slots where
  av : List Bool
  held : Nat → Option Nat

/-- Thread `c` acquires a slot, or releases the one it holds. -/
inductive SlotOp where
  | acq (c : Nat)
  | rel (c : Nat)

def Slots.step (st : Slots) : SlotOp → Slots
  | .acq c =>
    match st.held c with
    | some _ => st
    | none =>
      match acquire st.av with
      | some (s, av) => ⟨av, Function.update st.held c (some s)⟩
      | none => st
  | .rel c =>
    match st.held c with
    | some s => ⟨release st.av s, Function.update st.held c none⟩
    | none => st

theorem acquire_spec (av : List Bool) : ∀ s av', acquire av = some (s, av') →
    av[s]? = some true ∧ av' = av.set s false ∧ ∀ t < s, av[t]? = some false := by
  induction av with
  | nil => intro s av' h; simp [acquire] at h
  | cons b r ih =>
    intro s av' h
    cases b with
    | true =>
      simp only [acquire, Option.some.injEq, Prod.mk.injEq] at h
      obtain ⟨rfl, rfl⟩ := h
      exact ⟨rfl, rfl, fun t ht => by omega⟩
    | false =>
      simp only [acquire, Option.map_eq_some_iff] at h
      obtain ⟨⟨s', r'⟩, h1, h2⟩ := h
      simp only [Prod.mk.injEq] at h2
      obtain ⟨rfl, rfl⟩ := h2
      obtain ⟨h3, rfl, h4⟩ := ih s' r' h1
      refine ⟨by simpa using h3, by simp, fun t ht => ?_⟩
      cases t with
      | zero => rfl
      | succ t => simpa using h4 t (by omega)

/-- A slot is refused only when all are taken. -/
theorem acquire_none (av : List Bool) : acquire av = none ↔ ∀ b ∈ av, b = false := by
  induction av with
  | nil => simp [acquire]
  | cons b r ih => cases b <;> simp [acquire, ih]

/-- Every history of acquisitions and releases leaves each slot with at most one holder, and free slots with
none: the hypothesis `Exclusive` of `parallel_for_exactly_once_partial` is what the slot interface gives. -/
theorem slots_exclusive (n : Nat) (ops : List SlotOp) :
    let st := ops.foldl Slots.step ⟨List.replicate n true, fun _ => none⟩
    (∀ c c' s, st.held c = some s → st.held c' = some s → c = c') ∧
    (∀ c s, st.held c = some s → s < n ∧ st.av[s]? = some false) ∧
    st.av.length = n ∧ (∀ s < n, (∀ c, st.held c ≠ some s) → st.av[s]? = some true) := by
  suffices H : ∀ (ops : List SlotOp) (st : Slots), ((∀ c c' s, st.held c = some s → st.held c' = some s → c = c') ∧
      (∀ c s, st.held c = some s → s < n ∧ st.av[s]? = some false) ∧ st.av.length = n ∧
      (∀ s < n, (∀ c, st.held c ≠ some s) → st.av[s]? = some true)) →
      ((∀ c c' s, (ops.foldl Slots.step st).held c = some s → (ops.foldl Slots.step st).held c' = some s → c = c') ∧
      (∀ c s, (ops.foldl Slots.step st).held c = some s → s < n ∧ (ops.foldl Slots.step st).av[s]? = some false) ∧
      (ops.foldl Slots.step st).av.length = n ∧
      (∀ s < n, (∀ c, (ops.foldl Slots.step st).held c ≠ some s) → (ops.foldl Slots.step st).av[s]? = some true)) by
    refine H ops _ ⟨by simp, by simp, by simp, ?_⟩
    intro s hs _
    simp [hs]
  intro ops
  induction ops with
  | nil => intro st h; exact h
  | cons o ops ih =>
    intro st h
    refine ih _ ?_
    obtain ⟨h1, h2, h3, h4⟩ := h
    cases o with
    | acq c =>
      cases hc : st.held c with
      | some s =>
        have hstep : st.step (.acq c) = st := by simp [Slots.step, hc]
        rw [hstep]; exact ⟨h1, h2, h3, h4⟩
      | none =>
        cases ha : acquire st.av with
        | none =>
          have hstep : st.step (.acq c) = st := by simp [Slots.step, hc, ha]
          rw [hstep]; exact ⟨h1, h2, h3, h4⟩
        | some p =>
          obtain ⟨s, av'⟩ := p
          have hstep : st.step (.acq c) = ⟨av', Function.update st.held c (some s)⟩ := by
            simp [Slots.step, hc, ha]
          rw [hstep]
          obtain ⟨g1, rfl, _⟩ := acquire_spec _ _ _ ha
          have hs : s < st.av.length := by
            by_contra hcon
            rw [List.getElem?_eq_none (by omega)] at g1
            simp at g1
          have hfree : ∀ c', st.held c' ≠ some s := by
            intro c' hh
            have := (h2 c' s hh).2
            rw [g1] at this
            simp at this
          simp only
          refine ⟨?_, ?_, by simpa using h3, ?_⟩
          · intro a b t hta htb
            by_cases ea : a = c
            · by_cases eb : b = c
              · rw [ea, eb]
              · subst ea
                simp only [Function.update_self, Option.some.injEq] at hta
                subst hta
                exact absurd (by simpa [eb] using htb) (hfree b)
            · by_cases eb : b = c
              · subst eb
                simp only [Function.update_self, Option.some.injEq] at htb
                subst htb
                exact absurd (by simpa [ea] using hta) (hfree a)
              · exact h1 a b t (by simpa [ea] using hta) (by simpa [eb] using htb)
          · intro a t hta
            by_cases ea : a = c
            · subst ea
              simp only [Function.update_self, Option.some.injEq] at hta
              subst hta
              exact ⟨by omega, by simp [hs]⟩
            · have hh := h2 a t (by simpa [ea] using hta)
              refine ⟨hh.1, ?_⟩
              have : s ≠ t := by rintro rfl; exact hfree a (by simpa [ea] using hta)
              rw [List.getElem?_set_ne this]
              exact hh.2
          · intro t ht hall
            have hst : s ≠ t := by
              rintro rfl
              exact hall c (by simp)
            rw [List.getElem?_set_ne hst]
            refine h4 t ht fun a ha => ?_
            by_cases ea : a = c
            · subst ea; rw [hc] at ha; simp at ha
            · exact hall a (by simpa [ea] using ha)
    | rel c =>
      cases hc : st.held c with
      | none =>
        have hstep : st.step (.rel c) = st := by simp [Slots.step, hc]
        rw [hstep]; exact ⟨h1, h2, h3, h4⟩
      | some s =>
        have hstep : st.step (.rel c) = ⟨release st.av s, Function.update st.held c none⟩ := by
          simp [Slots.step, hc]
        rw [hstep]
        have hs := h2 c s hc
        refine ⟨?_, ?_, by simpa [release] using h3, ?_⟩
        · intro a b t hta htb
          have ea : a ≠ c := by rintro rfl; simp at hta
          have eb : b ≠ c := by rintro rfl; simp at htb
          exact h1 a b t (by simpa [ea] using hta) (by simpa [eb] using htb)
        · intro a t hta
          have ea : a ≠ c := by rintro rfl; simp at hta
          have hh := h2 a t (by simpa [ea] using hta)
          refine ⟨hh.1, ?_⟩
          have : s ≠ t := by
            rintro rfl
            exact ea (h1 a c s (by simpa [ea] using hta) hc)
          rw [release, List.getElem?_set_ne this]
          exact hh.2
        · intro t ht hall
          by_cases hst : s = t
          · subst hst
            rw [release, List.getElem?_set_self (by omega)]
          · rw [release, List.getElem?_set_ne hst]
            refine h4 t ht fun a ha => ?_
            by_cases ea : a = c
            · subst ea; rw [hc] at ha; exact hst (Option.some.inj ha)
            · exact hall a (by simpa [ea] using ha)

example : (([.acq 7, .acq 3, .acq 5, .rel 7, .acq 5] : List SlotOp).foldl Slots.step
    ⟨List.replicate 2 true, fun _ => none⟩).held 5 = some 0 := by decide

end Verif.Pool
