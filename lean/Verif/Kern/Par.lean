import Verif.Prelude
import Mathlib.Logic.Function.Basic

/-!
Kernels that fill an output buffer from several threads (`mllm/core/Parallel.hpp`).

A kernel body is a sequence of single-cell updates of the output buffer.  The read-only operands are plain
functions, since every kernel declares them `const … __restrict__`.
-/

namespace Verif.Kern

variable {α : Type}

/-- One update of one output cell: read it, apply `fn`, store it.  A plain store is a constant `fn`. -/
structure Upd (α : Type) where
  addr : Nat
  fn : α → α

/-- A store of `v`. -/
def Upd.put (a : Nat) (v : α) : Upd α := ⟨a, fun _ => v⟩

/-- Run updates in order. -/
def run : List (Upd α) → (Nat → α) → (Nat → α)
  | [], m => m
  | u :: us, m => run us (Function.update m u.addr (u.fn (m u.addr)))

/-- `Parallel.hpp` L52-80 and the other vendors: the bodies of a parallel loop run in any interleaving that keeps
the order inside each body.  Simplification: one update is atomic and memory is sequentially consistent. -/
inductive Interleave : List (List (Upd α)) → List (Upd α) → Prop
  | done {js} : (∀ j ∈ js, j = []) → Interleave js []
  | step {js} (i : Nat) (u : Upd α) (rest s : List (Upd α)) :
      js[i]? = some (u :: rest) → Interleave (js.set i rest) s → Interleave js (u :: s)

/-- A program is a sequence of parallel sections with a barrier after each. -/
inductive Exec : List (List (List (Upd α))) → (Nat → α) → (Nat → α) → Prop
  | nil (m) : Exec [] m m
  | cons {js ss} (s) (m m' : Nat → α) : Interleave js s → Exec ss (run s m) m' → Exec (js :: ss) m m'

theorem run_append (a b : List (Upd α)) (m : Nat → α) : run (a ++ b) m = run b (run a m) := by
  induction a generalizing m with
  | nil => rfl
  | cons u us ih => simp only [List.cons_append, run]; exact ih _

theorem run_other {us : List (Upd α)} {x : Nat} (h : ∀ u ∈ us, u.addr ≠ x) (m : Nat → α) : run us m x = m x := by
  induction us generalizing m with
  | nil => rfl
  | cons u us ih =>
    rw [run, ih (fun v hv => h v (List.mem_cons_of_mem _ hv))]
    exact Function.update_of_ne (h u List.mem_cons_self).symm _ _

/-- Only the updates of a cell matter for that cell. -/
theorem run_filter (us : List (Upd α)) (x : Nat) (m : Nat → α) :
    run us m x = run (us.filter (fun u => u.addr = x)) m x := by
  induction us generalizing m with
  | nil => rfl
  | cons u us ih =>
    by_cases h : u.addr = x
    · rw [List.filter_cons_of_pos (by simpa using h)]
      simp only [run]; exact ih _
    · rw [List.filter_cons_of_neg (by simpa using h)]
      simp only [run]; rw [ih]
      have key : ∀ (l : List (Upd α)) (m m' : Nat → α), m x = m' x → (∀ u ∈ l, u.addr = x) → run l m x = run l m' x := by
        intro l
        induction l with
        | nil => intro m m' h _; exact h
        | cons v l ih2 =>
          intro m m' hm hl
          simp only [run]
          refine ih2 _ _ ?_ (fun w hw => hl w (List.mem_cons_of_mem _ hw))
          have := hl v List.mem_cons_self
          subst this
          simp [hm]
      refine key _ _ _ ?_ ?_
      · exact Function.update_of_ne (Ne.symm h) _ _
      · intro v hv
        simpa using (List.mem_filter.mp hv).2

/-- The value of a cell depends only on its own earlier value. -/
theorem run_local (us : List (Upd α)) (x : Nat) (m m' : Nat → α) (h : m x = m' x) : run us m x = run us m' x := by
  induction us generalizing m m' with
  | nil => exact h
  | cons u us ih =>
    simp only [run]
    apply ih
    by_cases hx : x = u.addr
    · subst hx; simp [h]
    · simp [Function.update_of_ne hx, h]

/-- With distinct addresses each update acts on the initial value of its cell. -/
theorem run_once {us : List (Upd α)} (hn : (us.map Upd.addr).Nodup) {u : Upd α} (hu : u ∈ us) (m : Nat → α) :
    run us m u.addr = u.fn (m u.addr) := by
  induction us generalizing m with
  | nil => cases hu
  | cons v us ih =>
    rw [List.map_cons, List.nodup_cons] at hn
    rcases List.mem_cons.mp hu with rfl | hu
    · rw [run, run_other]
      · simp
      · intro w hw he
        exact hn.1 (List.mem_map.mpr ⟨w, hw, he⟩)
    · rw [run, ih hn.2 hu]
      have : u.addr ≠ v.addr := fun he => hn.1 (List.mem_map.mpr ⟨u, hu, he⟩)
      rw [Function.update_of_ne this]

theorem Interleave.filter_eq {js : List (List (Upd α))} {s : List (Upd α)} (h : Interleave js s) (x i : Nat)
    (hi : i < js.length) (ho : ∀ (k : Nat) (hk : k < js.length), k ≠ i → ∀ u ∈ js[k], u.addr ≠ x) :
    s.filter (fun u => u.addr = x) = js[i].filter (fun u => u.addr = x) := by
  induction h with
  | @done js hd => rw [hd js[i] (List.getElem_mem hi)]
  | @step js k u rest s hk hs ih =>
    obtain ⟨hkl, hke⟩ := List.getElem?_eq_some_iff.mp hk
    have hi' : i < (js.set k rest).length := by simpa using hi
    have hrec := ih hi' (by
      intro a ha hne v hv
      rw [List.getElem_set] at hv
      split at hv
      · rename_i hka
        subst hka
        exact ho k hkl hne v (by rw [hke]; exact List.mem_cons_of_mem _ hv)
      · exact ho a (by simpa using ha) hne v hv)
    by_cases hki : k = i
    · subst hki
      rw [List.getElem_set_self] at hrec
      rw [hke]
      by_cases hu : u.addr = x
      · rw [List.filter_cons_of_pos (by simpa using hu), List.filter_cons_of_pos (by simpa using hu), hrec]
      · rw [List.filter_cons_of_neg (by simpa using hu), List.filter_cons_of_neg (by simpa using hu), hrec]
    · rw [List.getElem_set_ne hki] at hrec
      have hu : u.addr ≠ x := ho k hkl hki u (by rw [hke]; exact List.mem_cons_self)
      rw [List.filter_cons_of_neg (by simpa using hu), hrec]

theorem Interleave.mem {js : List (List (Upd α))} {s : List (Upd α)} (h : Interleave js s) :
    ∀ u ∈ s, ∃ j ∈ js, u ∈ j := by
  induction h with
  | done _ => intro u hu; cases hu
  | @step js k u rest s hk hs ih =>
    obtain ⟨hkl, hke⟩ := List.getElem?_eq_some_iff.mp hk
    intro v hv
    rcases List.mem_cons.mp hv with rfl | hv
    · exact ⟨js[k], List.getElem_mem hkl, by rw [hke]; exact List.mem_cons_self⟩
    · obtain ⟨j, hj, hvj⟩ := ih v hv
      obtain ⟨a, ha, rfl⟩ := List.getElem_of_mem hj
      rw [List.getElem_set] at hvj
      split at hvj
      · exact ⟨js[k], List.getElem_mem hkl, by rw [hke]; exact List.mem_cons_of_mem _ hvj⟩
      · exact ⟨_, List.getElem_mem _, hvj⟩

/-- A cell that only body `i` touches ends up as if body `i` had run alone. -/
theorem Interleave.owner {js : List (List (Upd α))} {s : List (Upd α)} (h : Interleave js s) (x i : Nat)
    (hi : i < js.length) (ho : ∀ (k : Nat) (hk : k < js.length), k ≠ i → ∀ u ∈ js[k], u.addr ≠ x) (m : Nat → α) :
    run s m x = run js[i] m x := by
  rw [run_filter, h.filter_eq x i hi ho, ← run_filter]

/-- A cell no body touches keeps its value. -/
theorem Interleave.other {js : List (List (Upd α))} {s : List (Upd α)} (h : Interleave js s) (x : Nat)
    (ho : ∀ j ∈ js, ∀ u ∈ j, u.addr ≠ x) (m : Nat → α) : run s m x = m x := by
  refine run_other ?_ m
  intro u hu
  obtain ⟨j, hj, huj⟩ := h.mem u hu
  exact ho j hj u huj

/-- Some interleaving always exists: running the bodies one after the other. -/
theorem Interleave.seq (js : List (List (Upd α))) : Interleave js js.flatten := by
  have pad : ∀ (pre js : List (List (Upd α))), (∀ j ∈ pre, j = []) → Interleave (pre ++ js) js.flatten := by
    intro pre js
    induction js generalizing pre with
    | nil => intro h; exact .done (by simpa using h)
    | cons j js ih =>
      intro h
      induction j with
      | nil =>
        have := ih (pre ++ [[]]) (by intro j hj; rcases List.mem_append.mp hj with hj | hj
                                     · exact h j hj
                                     · simpa using hj)
        simpa using this
      | cons u rest ihj =>
        rw [List.flatten_cons, List.cons_append]
        refine .step pre.length u rest _ (by simp) ?_
        simpa using ihj
  simpa using pad [] js (by intro j hj; cases hj)

theorem Exec.exists (ss : List (List (List (Upd α)))) (m : Nat → α) : ∃ m', Exec ss m m' := by
  induction ss generalizing m with
  | nil => exact ⟨m, .nil m⟩
  | cons js ss ih =>
    obtain ⟨m', h⟩ := ih (run js.flatten m)
    exact ⟨m', .cons _ _ _ (Interleave.seq js) h⟩

/-- A cell that only one body of one section touches. -/
theorem Exec.owner {ss : List (List (List (Upd α)))} {m m' : Nat → α} (h : Exec ss m m') (x t i : Nat)
    (ht : t < ss.length) (hi : i < ss[t].length)
    (ho : ∀ (t' : Nat) (ht' : t' < ss.length) (i' : Nat) (hi' : i' < ss[t'].length), (t' ≠ t ∨ i' ≠ i) →
      ∀ u ∈ ss[t'][i'], u.addr ≠ x) : m' x = run ss[t][i] m x := by
  induction h generalizing t with
  | nil m => cases ht
  | @cons js ss s m m' hs he ih =>
    cases t with
    | zero =>
      have hno : m' x = run s m x := by
        clear ih
        have : ∀ (ss : List (List (List (Upd α)))) (m m' : Nat → α), Exec ss m m' →
            (∀ js ∈ ss, ∀ j ∈ js, ∀ u ∈ j, u.addr ≠ x) → m' x = m x := by
          intro ss m m' h
          induction h with
          | nil m => intro _; rfl
          | cons s m m' hs he ih =>
            intro ho
            rw [ih (fun js hjs => ho js (List.mem_cons_of_mem _ hjs))]
            exact hs.other x (ho _ List.mem_cons_self) m
        refine this _ _ _ he ?_
        intro js' hjs j hj u hu
        obtain ⟨a, ha, rfl⟩ := List.getElem_of_mem hjs
        obtain ⟨b, hb, rfl⟩ := List.getElem_of_mem hj
        exact ho (a + 1) (by simpa using ha) b (by simpa using hb) (Or.inl (by omega)) u (by simpa using hu)
      rw [hno]
      exact hs.owner x i hi (fun k hk hne u hu => ho 0 ht k hk (Or.inr hne) u hu) m
    | succ t =>
      have := ih t (by simpa using ht) (by simpa using hi) (by
        intro t' ht' i' hi' hne u hu
        exact ho (t' + 1) (by simpa using ht') i' (by simpa using hi') (by omega) u (by simpa using hu))
      rw [this]
      simp only [List.getElem_cons_succ]
      refine run_local _ _ _ _ ?_
      refine hs.other x ?_ m
      intro j hj u hu
      obtain ⟨b, hb, rfl⟩ := List.getElem_of_mem hj
      exact ho 0 (by simp) b (by simpa using hb) (Or.inl (by omega)) u (by simpa using hu)

theorem Exec.other {ss : List (List (List (Upd α)))} {m m' : Nat → α} (h : Exec ss m m') (x : Nat)
    (ho : ∀ js ∈ ss, ∀ j ∈ js, ∀ u ∈ j, u.addr ≠ x) : m' x = m x := by
  induction h with
  | nil m => rfl
  | cons s m m' hs he ih =>
    rw [ih (fun js hjs => ho js (List.mem_cons_of_mem _ hjs))]
    exact hs.other x (ho _ List.mem_cons_self) m

/-- The form the kernels use: `B` sections of `T` bodies. -/
theorem Exec.grid {B T : Nat} {job : Nat → Nat → List (Upd α)} {m m' : Nat → α}
    (h : Exec ((List.range B).map fun b => (List.range T).map (job b)) m m') (x b t : Nat) (hb : b < B) (ht : t < T)
    (ho : ∀ b' < B, ∀ t' < T, (b' ≠ b ∨ t' ≠ t) → ∀ u ∈ job b' t', u.addr ≠ x) : m' x = run (job b t) m x := by
  have := h.owner x b t (by simpa using hb) (by simpa using ht) (by
    intro t' ht' i' hi' hne u hu
    have ht' : t' < B := by simpa using ht'
    have hi' : i' < T := by simpa using hi'
    refine ho t' ht' i' hi' hne u ?_
    simpa using hu)
  simpa using this

theorem Exec.grid_other {B T : Nat} {job : Nat → Nat → List (Upd α)} {m m' : Nat → α}
    (h : Exec ((List.range B).map fun b => (List.range T).map (job b)) m m') (x : Nat)
    (ho : ∀ b < B, ∀ t < T, ∀ u ∈ job b t, u.addr ≠ x) : m' x = m x := by
  refine h.other x ?_
  intro js hjs j hj u hu
  obtain ⟨b, hb, rfl⟩ := List.mem_map.mp hjs
  obtain ⟨t, ht, rfl⟩ := List.mem_map.mp hj
  exact ho b (List.mem_range.mp hb) t (List.mem_range.mp ht) u hu

end Verif.Kern
