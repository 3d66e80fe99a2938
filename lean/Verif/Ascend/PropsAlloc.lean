import Verif.Ascend.PropsPool
/-!
C141: tensors allocated by any number of threads never overlap.  C142 and the violated parts of C140-C142.
-/
namespace Verif.Ascend

/-! ### Specification -/

/-- The states reached by any number of threads, each working on storages of its own, in any interleaving of
their critical sections; every request is for at most `lim` bytes. -/
inductive SReach (lim base size : Nat) : Sys → Prop
  | init : SReach lim base size (Sys.init (Pool.new (some base) size))
  | step {s i e s'} : SReach lim base size s → Step s i e s' →
      (∀ n, e = .alloc n ∨ e = .workAlloc n → n ≤ lim) → SReach lim base size s'

/-- The memory a storage (or an operator's workspace) may access: address and size. -/
def Phase.range : Phase → Option (Nat × Nat)
  | .mapped _ a n => some (a, n)
  | .live a n => some (a, n)
  | .work _ a n => some (a, n)
  | _ => none

/-! ### Invariant -/

/-- The block id a storage is responsible for. -/
def owns (s : Sys) (i : Nat) : Option Int :=
  match s.ph i with
  | .idle => none
  | .got id _ => some id
  | .mapped id _ _ => some id
  | .live a _ => s.map a
  | .freeing id => some id
  | .work id _ _ => some id

structure SInv (base size : Nat) (s : Sys) : Prop where
  pool : Inv base size s.pool
  got : ∀ i id n, s.ph i = .got id n → ∃ b ∈ s.pool.used, b.id = id ∧ b.req = n
  mapped : ∀ i id a n, s.ph i = .mapped id a n → ∃ b ∈ s.pool.used, b.id = id ∧ b.addr = a ∧ b.req = n
  live : ∀ i a n, s.ph i = .live a n → ∃ b ∈ s.pool.used, s.map a = some b.id ∧ b.addr = a ∧ b.req = n
  freeing : ∀ i id, s.ph i = .freeing id → ∃ b ∈ s.pool.used, b.id = id
  work : ∀ i id a n, s.ph i = .work id a n → ∃ b ∈ s.pool.used, b.id = id ∧ b.addr = a ∧ b.req = n
  uniq : ∀ i j id, owns s i = some id → owns s j = some id → i = j
  owned : ∀ b ∈ s.pool.used, ∃ i, owns s i = some b.id
  keys : ∀ a id, s.map a = some id → ∃ i n, s.ph i = .live a n

theorem used_nodup {base size : Nat} {p : Pool} (h : Inv base size p) : (p.used.map (·.id)).Nodup := by
  have := h.ids
  rw [List.map_append, List.nodup_append'] at this
  exact this.1

theorem used_id_inj {base size : Nat} {p : Pool} (h : Inv base size p) {b c : Block} (hb : b ∈ p.used) (hc : c ∈ p.used)
    (he : b.id = c.id) : b = c := by
  have h1 := find_mem (used_nodup h) hb
  have h2 := find_mem (used_nodup h) hc
  rw [he, h2] at h1
  exact (Option.some.inj h1).symm

theorem used_apart {base size : Nat} {p : Pool} (h : Inv base size p) {b c : Block} (hb : b ∈ p.used) (hc : c ∈ p.used)
    (hne : b ≠ c) : Apart b.addr b.size c.addr c.size := by
  have hpw := h.apart
  rw [List.pairwise_append] at hpw
  exact List.Pairwise.forall_of_forall_of_flip (R := fun a b => a ≠ b → Apart a.addr a.size b.addr b.size)
    (fun x _ h => absurd rfl h)
    (List.Pairwise.imp (S := fun a b : Block => a ≠ b → Apart a.addr a.size b.addr b.size) (fun h _ => h) hpw.1)
    (List.Pairwise.imp (S := fun a b : Block => b ≠ a → Apart b.addr b.size a.addr a.size) (fun h _ => Or.symm h) hpw.1)
    hb hc hne

theorem used_addr_inj {base size : Nat} {p : Pool} (h : Inv base size p) {b c : Block} (hb : b ∈ p.used) (hc : c ∈ p.used)
    (he : b.addr = c.addr) : b = c := by
  by_contra hne
  have h1 := used_apart h hb hc hne
  have h2 := (h.blocks b (List.mem_append_left _ hb)).s32
  have h3 := (h.blocks c (List.mem_append_left _ hc)).s32
  unfold Apart at h1
  omega

theorem ptr_used {base size : Nat} {p : Pool} (h : Inv base size p) {b : Block} (hb : b ∈ p.used) : p.ptr b.id = some b.addr := by
  obtain ⟨k, k1, _⟩ := (h.blocks b (List.mem_append_left _ hb)).idNat
  unfold Pool.ptr
  rw [if_neg (by omega), find_mem (used_nodup h) hb]
  rfl

theorem ptr_some {p : Pool} {id : Int} {a : Nat} (h : p.ptr id = some a) : ∃ b ∈ p.used, b.id = id ∧ b.addr = a := by
  unfold Pool.ptr at h
  split at h
  · cases h
  · cases hf : find p.used id with
    | none => rw [hf] at h; cases h
    | some b =>
      rw [hf] at h
      obtain ⟨h1, h2⟩ := find_some hf
      exact ⟨b, h1, h2, Option.some.inj h⟩

theorem set_ph (s : Sys) (i j : Nat) (x : Phase) : (s.set i x).ph j = if j = i then x else s.ph j := rfl

/-- The pool gets a new used block, owned by `i`. -/
theorem sinv_alloc {base size : Nat} {s : Sys} {p : Pool} {i : Nat} {x : Phase} {b : Block} (h : SInv base size s)
    (hp : Inv base size p) (hi : s.ph i = .idle) (hu : p.used = b :: s.pool.used) (hb : b.id ∉ s.pool.used.map (·.id))
    (hx : x = .got b.id b.req ∨ x = .work b.id b.addr b.req) : SInv base size ({ s with pool := p }.set i x) := by
  have hsub : ∀ c ∈ s.pool.used, c ∈ p.used := fun c hc => by rw [hu]; exact List.mem_cons_of_mem _ hc
  have hown : ∀ j, j ≠ i → owns ({ s with pool := p }.set i x) j = owns s j := by
    intro j hj
    unfold owns
    rw [set_ph, if_neg hj]
    rfl
  have hown' : owns ({ s with pool := p }.set i x) i = some b.id := by
    unfold owns
    rw [set_ph, if_pos rfl]
    rcases hx with rfl | rfl <;> rfl
  have hownmem : ∀ j id, owns s j = some id → id ∈ s.pool.used.map (·.id) := by
    intro j id hj
    unfold owns at hj
    cases hph : s.ph j with
    | idle => rw [hph] at hj; cases hj
    | got id' n =>
      rw [hph] at hj; cases hj
      obtain ⟨c, hc, e, _⟩ := h.got j id n hph
      exact List.mem_map.2 ⟨c, hc, e⟩
    | mapped id' a n =>
      rw [hph] at hj; cases hj
      obtain ⟨c, hc, e, _⟩ := h.mapped j id a n hph
      exact List.mem_map.2 ⟨c, hc, e⟩
    | live a n =>
      rw [hph] at hj
      obtain ⟨c, hc, e, _⟩ := h.live j a n hph
      simp only at hj
      rw [hj] at e
      exact List.mem_map.2 ⟨c, hc, (Option.some.inj e).symm⟩
    | freeing id' =>
      rw [hph] at hj; cases hj
      obtain ⟨c, hc, e⟩ := h.freeing j id hph
      exact List.mem_map.2 ⟨c, hc, e⟩
    | work id' a n =>
      rw [hph] at hj; cases hj
      obtain ⟨c, hc, e, _⟩ := h.work j id a n hph
      exact List.mem_map.2 ⟨c, hc, e⟩
  have hbm : b ∈ p.used := by rw [hu]; exact List.mem_cons_self
  refine ⟨hp, ?_, ?_, ?_, ?_, ?_, ?_, ?_, ?_⟩
  · intro j id n hj
    rw [set_ph] at hj
    split at hj
    · rcases hx with rfl | rfl
      · cases hj; exact ⟨b, hbm, rfl, rfl⟩
      · cases hj
    · obtain ⟨c, hc, e⟩ := h.got j id n hj; exact ⟨c, hsub c hc, e⟩
  · intro j id a n hj
    rw [set_ph] at hj
    split at hj
    · rcases hx with rfl | rfl <;> cases hj
    · obtain ⟨c, hc, e⟩ := h.mapped j id a n hj; exact ⟨c, hsub c hc, e⟩
  · intro j a n hj
    rw [set_ph] at hj
    split at hj
    · rcases hx with rfl | rfl <;> cases hj
    · obtain ⟨c, hc, e⟩ := h.live j a n hj; exact ⟨c, hsub c hc, e⟩
  · intro j id hj
    rw [set_ph] at hj
    split at hj
    · rcases hx with rfl | rfl <;> cases hj
    · obtain ⟨c, hc, e⟩ := h.freeing j id hj; exact ⟨c, hsub c hc, e⟩
  · intro j id a n hj
    rw [set_ph] at hj
    split at hj
    · rcases hx with rfl | rfl
      · cases hj
      · cases hj; exact ⟨b, hbm, rfl, rfl, rfl⟩
    · obtain ⟨c, hc, e⟩ := h.work j id a n hj; exact ⟨c, hsub c hc, e⟩
  · intro j k id hj hk
    by_cases hji : j = i
    · by_cases hki : k = i
      · rw [hji, hki]
      · rw [hji, hown'] at hj
        cases hj
        rw [hown k hki] at hk
        exact absurd (hownmem k _ hk) hb
    · by_cases hki : k = i
      · rw [hki, hown'] at hk
        cases hk
        rw [hown j hji] at hj
        exact absurd (hownmem j _ hj) hb
      · rw [hown j hji] at hj
        rw [hown k hki] at hk
        exact h.uniq j k id hj hk
  · intro c hc
    have hc' : c ∈ p.used := hc
    rw [hu] at hc'
    rcases List.mem_cons.1 hc' with rfl | hc'
    · exact ⟨i, hown'⟩
    · obtain ⟨j, hj⟩ := h.owned c hc'
      refine ⟨j, ?_⟩
      rw [hown j ?_]
      · exact hj
      · rintro rfl
        unfold owns at hj
        rw [hi] at hj
        cases hj
  · intro a id hm
    obtain ⟨j, n, hj⟩ := h.keys a id hm
    refine ⟨j, n, ?_⟩
    rw [set_ph, if_neg]
    · exact hj
    · rintro rfl
      rw [hi] at hj
      cases hj

/-- Only bookkeeping of `i` changes: same blocks, same owner. -/
theorem owns_mem {base size : Nat} {s : Sys} (h : SInv base size s) {j : Nat} {id : Int} (hj : owns s j = some id) :
    ∃ b ∈ s.pool.used, b.id = id := by
  unfold owns at hj
  cases hph : s.ph j with
  | idle => rw [hph] at hj; cases hj
  | got id' n => rw [hph] at hj; cases hj; obtain ⟨c, hc, e, _⟩ := h.got j id n hph; exact ⟨c, hc, e⟩
  | mapped id' a n => rw [hph] at hj; cases hj; obtain ⟨c, hc, e, _⟩ := h.mapped j id a n hph; exact ⟨c, hc, e⟩
  | live a n =>
    rw [hph] at hj
    obtain ⟨c, hc, e, _⟩ := h.live j a n hph
    simp only at hj
    rw [hj] at e
    exact ⟨c, hc, (Option.some.inj e).symm⟩
  | freeing id' => rw [hph] at hj; cases hj; obtain ⟨c, hc, e⟩ := h.freeing j id hph; exact ⟨c, hc, e⟩
  | work id' a n => rw [hph] at hj; cases hj; obtain ⟨c, hc, e, _⟩ := h.work j id a n hph; exact ⟨c, hc, e⟩

/-- The block `id`, owned by `i`, goes back. -/
theorem sinv_free {base size : Nat} {s : Sys} {i : Nat} {id : Int} (h : SInv base size s) (ho : owns s i = some id)
    (hl : ∀ a n, s.ph i ≠ .live a n) : SInv base size ({ s with pool := s.pool.freeBlock id }.set i .idle) := by
  obtain ⟨g1, g2, _⟩ := free_inv h.pool id
  have hown : ∀ j, j ≠ i → owns ({ s with pool := s.pool.freeBlock id }.set i .idle) j = owns s j := by
    intro j hj
    unfold owns
    rw [set_ph, if_neg hj]
    rfl
  have hown' : owns ({ s with pool := s.pool.freeBlock id }.set i .idle) i = none := by
    unfold owns
    rw [set_ph, if_pos rfl]
  have hkeep : ∀ j, j ≠ i → ∀ b ∈ s.pool.used, owns s j = some b.id → b ∈ (s.pool.freeBlock id).used := by
    intro j hj b hb hjb
    rw [g2]
    refine List.mem_filter.2 ⟨hb, ?_⟩
    simp only [ne_eq, decide_eq_true_eq]
    intro he
    rw [he] at hjb
    exact hj (h.uniq j i id hjb ho)
  refine ⟨g1, ?_, ?_, ?_, ?_, ?_, ?_, ?_, ?_⟩
  · intro j id' n hj
    rw [set_ph] at hj
    split at hj
    · cases hj
    · rename_i hji
      obtain ⟨c, hc, e⟩ := h.got j id' n hj
      exact ⟨c, hkeep j hji c hc (by unfold owns; rw [hj]; simp [e.1]), e⟩
  · intro j id' a n hj
    rw [set_ph] at hj
    split at hj
    · cases hj
    · rename_i hji
      obtain ⟨c, hc, e⟩ := h.mapped j id' a n hj
      exact ⟨c, hkeep j hji c hc (by unfold owns; rw [hj]; simp [e.1]), e⟩
  · intro j a n hj
    rw [set_ph] at hj
    split at hj
    · cases hj
    · rename_i hji
      obtain ⟨c, hc, e⟩ := h.live j a n hj
      exact ⟨c, hkeep j hji c hc (by unfold owns; rw [hj]; exact e.1), e⟩
  · intro j id' hj
    rw [set_ph] at hj
    split at hj
    · cases hj
    · rename_i hji
      obtain ⟨c, hc, e⟩ := h.freeing j id' hj
      exact ⟨c, hkeep j hji c hc (by unfold owns; rw [hj]; simp [e]), e⟩
  · intro j id' a n hj
    rw [set_ph] at hj
    split at hj
    · cases hj
    · rename_i hji
      obtain ⟨c, hc, e⟩ := h.work j id' a n hj
      exact ⟨c, hkeep j hji c hc (by unfold owns; rw [hj]; simp [e.1]), e⟩
  · intro j k id' hj hk
    by_cases hji : j = i
    · rw [hji, hown'] at hj; cases hj
    · by_cases hki : k = i
      · rw [hki, hown'] at hk; cases hk
      · rw [hown j hji] at hj
        rw [hown k hki] at hk
        exact h.uniq j k id' hj hk
  · intro c hc
    have hc' : c ∈ (s.pool.freeBlock id).used := hc
    rw [g2] at hc'
    obtain ⟨hc1, hc2⟩ := List.mem_filter.1 hc'
    obtain ⟨j, hj⟩ := h.owned c hc1
    refine ⟨j, ?_⟩
    rw [hown j ?_]
    · exact hj
    · rintro rfl
      rw [hj] at ho
      simp only [ne_eq, decide_eq_true_eq] at hc2
      exact hc2 (Option.some.inj ho)
  · intro a id' hm
    obtain ⟨j, n, hj⟩ := h.keys a id' hm
    refine ⟨j, n, ?_⟩
    rw [set_ph, if_neg]
    · exact hj
    · rintro rfl
      exact hl a n hj

theorem step_sinv {base size lim : Nat} {s s' : Sys} {i : Nat} {e : Act} (hsz : base + size < 2 ^ 63) (hsz' : size < 2 ^ 36)
    (hlim : lim ≤ 2 ^ 32 - 64) (h : SInv base size s) (hst : Step s i e s')
    (hn : ∀ n, e = .alloc n ∨ e = .workAlloc n → n ≤ lim) : SInv base size s' := by
  have hsmall : ∀ n, n ≤ lim → n % 2 ^ 32 = n ∧ n ≤ 2 ^ 32 - 64 := by
    intro n hn
    norm_num at hlim ⊢
    omega
  cases hst with
  | @alloc n ord p id hi ho ha _ =>
    obtain ⟨e1, e2⟩ := hsmall n (hn n (Or.inl rfl))
    rw [e1] at ha
    obtain ⟨g1, b, rfl, rfl, g3, g4, _⟩ := alloc_inv h.pool hsz hsz' ho e2 ha
    exact sinv_alloc h g1 hi g3 g4 (Or.inl rfl)
  | @allocFail n ord p r hi ho ha hneg =>
    obtain ⟨e1, e2⟩ := hsmall n (hn n (Or.inl rfl))
    rw [e1] at ha
    obtain ⟨g1, g2⟩ := alloc_inv h.pool hsz hsz' ho e2 ha
    cases r with
    | none =>
      have hu : p.used = s.pool.used := g2.1
      exact ⟨g1, fun i id n hj => by show ∃ b ∈ p.used, _; rw [hu]; exact h.got i id n hj,
        fun i id a n hj => by show ∃ b ∈ p.used, _; rw [hu]; exact h.mapped i id a n hj,
        fun i a n hj => by show ∃ b ∈ p.used, _; rw [hu]; exact h.live i a n hj,
        fun i id hj => by show ∃ b ∈ p.used, _; rw [hu]; exact h.freeing i id hj,
        fun i id a n hj => by show ∃ b ∈ p.used, _; rw [hu]; exact h.work i id a n hj,
        h.uniq, fun b hb => h.owned b (by rw [← hu]; exact hb), h.keys⟩
    | some id =>
      exfalso
      obtain ⟨b, hb, _, g3, _⟩ := g2
      have hm : b ∈ p.used := by rw [g3]; exact List.mem_cons_self
      obtain ⟨k, k1, _⟩ := (g1.blocks b (List.mem_append_left _ hm)).idNat
      have := hneg id rfl
      rw [← hb, k1] at this
      exact absurd this (by simp)
  | @lookup id n addr hi hp =>
    obtain ⟨b, hb, e1, e2⟩ := h.got i id n hi
    have hpt := ptr_used h.pool hb
    rw [e1, hp] at hpt
    have hae : addr = b.addr := Option.some.inj hpt
    have hown : ∀ j, owns (s.set i (.mapped id addr n)) j = owns s j := by
      intro j
      unfold owns
      rw [set_ph]
      by_cases hj : j = i
      · rw [if_pos hj, hj, hi]
      · rw [if_neg hj]; rfl
    refine ⟨h.pool, ?_, ?_, ?_, ?_, ?_, ?_, ?_, ?_⟩
    · intro j id' n' hj
      rw [set_ph] at hj
      split at hj
      · cases hj
      · exact h.got j id' n' hj
    · intro j id' a n' hj
      rw [set_ph] at hj
      split at hj
      · cases hj; exact ⟨b, hb, e1, hae.symm, e2⟩
      · exact h.mapped j id' a n' hj
    · intro j a n' hj
      rw [set_ph] at hj
      split at hj
      · cases hj
      · exact h.live j a n' hj
    · intro j id' hj
      rw [set_ph] at hj
      split at hj
      · cases hj
      · exact h.freeing j id' hj
    · intro j id' a n' hj
      rw [set_ph] at hj
      split at hj
      · cases hj
      · exact h.work j id' a n' hj
    · intro j k id' hj hk
      rw [hown] at hj hk
      exact h.uniq j k id' hj hk
    · intro c hc
      obtain ⟨j, hj⟩ := h.owned c hc
      exact ⟨j, by rw [hown]; exact hj⟩
    · intro a id' hm
      obtain ⟨j, n', hj⟩ := h.keys a id' hm
      refine ⟨j, n', ?_⟩
      rw [set_ph, if_neg]
      · exact hj
      · rintro rfl
        rw [hi] at hj
        cases hj
  | @record id n addr hi =>
    obtain ⟨b, hb, e1, e2, e3⟩ := h.mapped i id addr n hi
    have hfresh : s.map addr = none := by
      cases hm : s.map addr with
      | none => rfl
      | some id' =>
        exfalso
        obtain ⟨j, n', hj⟩ := h.keys addr id' hm
        obtain ⟨c, hc, f1, f2, _⟩ := h.live j addr n' hj
        have hbc : b = c := used_addr_inj h.pool hb hc (by rw [e2, f2])
        have h1 : owns s i = some id := by unfold owns; rw [hi]
        have h2 : owns s j = some id := by unfold owns; rw [hj]; simp only; rw [f1, ← hbc, e1]
        have := h.uniq i j id h1 h2
        rw [this, hj] at hi
        cases hi
    obtain ⟨m, hm⟩ : ∃ m : Nat → Option Int, m = fun a => if a = addr then some id else s.map a := ⟨_, rfl⟩
    rw [← hm]
    have hmap : ∀ a, a ≠ addr → m a = s.map a := fun a ha => by rw [hm]; exact if_neg ha
    have hmap' : m addr = some id := by rw [hm]; exact if_pos rfl
    have hne : ∀ j a n', s.ph j = .live a n' → a ≠ addr := by
      rintro j a n' hj rfl
      obtain ⟨c, _, f1, _⟩ := h.live j a n' hj
      rw [hfresh] at f1
      cases f1
    have hown : ∀ j, owns ({ s with map := m }.set i (.live addr n)) j = owns s j := by
      intro j
      unfold owns
      rw [set_ph]
      by_cases hj : j = i
      · rw [if_pos hj, hj, hi]
        exact hmap'
      · rw [if_neg hj]
        cases hph : s.ph j with
        | live a n' =>
          have := hmap a (hne j a n' hph)
          simpa [hph, Sys.set] using this
        | _ => simp [hph]
    refine ⟨h.pool, ?_, ?_, ?_, ?_, ?_, ?_, ?_, ?_⟩
    · intro j id' n' hj
      rw [set_ph] at hj
      split at hj
      · cases hj
      · exact h.got j id' n' hj
    · intro j id' a n' hj
      rw [set_ph] at hj
      split at hj
      · cases hj
      · exact h.mapped j id' a n' hj
    · intro j a n' hj
      rw [set_ph] at hj
      split at hj
      · cases hj
        exact ⟨b, hb, by rw [e1]; exact hmap', e2, e3⟩
      · have hj' : s.ph j = .live a n' := hj
        obtain ⟨c, hc, f1, f2⟩ := h.live j a n' hj'
        exact ⟨c, hc, by rw [← f1]; exact hmap a (hne j a n' hj'), f2⟩
    · intro j id' hj
      rw [set_ph] at hj
      split at hj
      · cases hj
      · exact h.freeing j id' hj
    · intro j id' a n' hj
      rw [set_ph] at hj
      split at hj
      · cases hj
      · exact h.work j id' a n' hj
    · intro j k id' hj hk
      rw [hown] at hj hk
      exact h.uniq j k id' hj hk
    · intro c hc
      obtain ⟨j, hj⟩ := h.owned c hc
      exact ⟨j, by rw [hown]; exact hj⟩
    · intro a id' hma
      have hma' : m a = some id' := hma
      by_cases ha : a = addr
      · subst ha
        exact ⟨i, n, by rw [set_ph, if_pos rfl]⟩
      · rw [hmap a ha] at hma'
        obtain ⟨j, n', hj⟩ := h.keys a id' hma'
        refine ⟨j, n', ?_⟩
        rw [set_ph, if_neg]
        · exact hj
        · rintro rfl
          rw [hi] at hj
          cases hj
  | @free addr n id hi hmp =>
    obtain ⟨b, hb, e1, e2, e3⟩ := h.live i addr n hi
    have hid : b.id = id := by rw [hmp] at e1; exact (Option.some.inj e1).symm
    obtain ⟨m, hm⟩ : ∃ m : Nat → Option Int, m = fun a => if a = addr then none else s.map a := ⟨_, rfl⟩
    rw [← hm]
    have hmap : ∀ a, a ≠ addr → m a = s.map a := fun a ha => by rw [hm]; exact if_neg ha
    have hmap' : m addr = none := by rw [hm]; exact if_pos rfl
    have hne : ∀ j a n', j ≠ i → s.ph j = .live a n' → a ≠ addr := by
      rintro j a n' hji hj rfl
      obtain ⟨c, _, f1, _⟩ := h.live j a n' hj
      refine hji (h.uniq j i id ?_ ?_)
      · unfold owns; rw [hj]; exact hmp
      · unfold owns; rw [hi]; exact hmp
    have hown : ∀ j, owns ({ s with map := m }.set i (.freeing id)) j = owns s j := by
      intro j
      unfold owns
      rw [set_ph]
      by_cases hji : j = i
      · rw [if_pos hji, hji, hi]
        exact hmp.symm
      · rw [if_neg hji]
        cases hph : s.ph j with
        | live a n' =>
          have := hmap a (hne j a n' hji hph)
          simpa [hph, Sys.set] using this
        | _ => simp [hph]
    refine ⟨h.pool, ?_, ?_, ?_, ?_, ?_, ?_, ?_, ?_⟩
    · intro j id' n' hj
      rw [set_ph] at hj
      split at hj
      · cases hj
      · exact h.got j id' n' hj
    · intro j id' a n' hj
      rw [set_ph] at hj
      split at hj
      · cases hj
      · exact h.mapped j id' a n' hj
    · intro j a n' hj
      rw [set_ph] at hj
      split at hj
      · cases hj
      · rename_i hji
        have hj' : s.ph j = .live a n' := hj
        obtain ⟨c, hc, f1, f2⟩ := h.live j a n' hj'
        exact ⟨c, hc, by rw [← f1]; exact hmap a (hne j a n' hji hj'), f2⟩
    · intro j id' hj
      rw [set_ph] at hj
      split at hj
      · cases hj; exact ⟨b, hb, hid⟩
      · exact h.freeing j id' hj
    · intro j id' a n' hj
      rw [set_ph] at hj
      split at hj
      · cases hj
      · exact h.work j id' a n' hj
    · intro j k id' hj hk
      rw [hown] at hj hk
      exact h.uniq j k id' hj hk
    · intro c hc
      obtain ⟨j, hj⟩ := h.owned c hc
      exact ⟨j, by rw [hown]; exact hj⟩
    · intro a id' hma
      have hma' : m a = some id' := hma
      by_cases ha : a = addr
      · rw [ha, hmap'] at hma'; cases hma'
      · rw [hmap a ha] at hma'
        obtain ⟨j, n', hj⟩ := h.keys a id' hma'
        refine ⟨j, n', ?_⟩
        rw [set_ph, if_neg]
        · exact hj
        · rintro rfl
          rw [hi] at hj
          cases hj
          exact ha rfl
  | @freeUnknown addr n hi hmp =>
    exfalso
    obtain ⟨b, _, e1, _⟩ := h.live i addr n hi
    rw [hmp] at e1
    cases e1
  | @release id hi =>
    exact sinv_free h (by unfold owns; rw [hi]) (fun a n hl => by rw [hi] at hl; cases hl)
  | @workAlloc n ord p id addr hi ho ha hp =>
    obtain ⟨e1, e2⟩ := hsmall n (hn n (Or.inr rfl))
    rw [e1] at ha
    obtain ⟨g1, b, rfl, rfl, g3, g4, _⟩ := alloc_inv h.pool hsz hsz' ho e2 ha
    have hbm : b ∈ p.used := by rw [g3]; exact List.mem_cons_self
    have := ptr_used g1 hbm
    rw [hp] at this
    rw [Option.some.inj this]
    exact sinv_alloc h g1 hi g3 g4 (Or.inr rfl)
  | @workFree id addr n hi =>
    exact sinv_free h (by unfold owns; rw [hi]) (fun a n hl => by rw [hi] at hl; cases hl)

theorem sreach_sinv {base size lim : Nat} {s : Sys} (hb : base % 32 = 0) (hs : size % 32 = 0)
    (hsz : base + size < 2 ^ 63) (hsz' : size < 2 ^ 36) (hlim : lim ≤ 2 ^ 32 - 64) (hr : SReach lim base size s) :
    SInv base size s := by
  induction hr with
  | init =>
    refine ⟨inv_new hb hs, ?_, ?_, ?_, ?_, ?_, ?_, ?_, ?_⟩
    · intro i id n h; cases h
    · intro i id a n h; cases h
    · intro i a n h; cases h
    · intro i id h; cases h
    · intro i id a n h; cases h
    · intro i j id h; cases h
    · intro b hb; cases hb
    · intro a id h; cases h
  | step _ hst hn ih => exact step_sinv hsz hsz' hlim ih hst hn

/-! ### C141 -/

/-- **C141** (partial: one device, same conditions as C140).  Whatever the threads do and however their critical
sections interleave: the memory of a storage or workspace is 64-byte aligned and inside the pool, and no two
share a byte. -/
theorem C141_disjoint_partial {base size lim : Nat} {s : Sys} (hb : base % 32 = 0) (hs : size % 32 = 0)
    (hsz : base + size < 2 ^ 63) (hsz' : size < 2 ^ 36) (hlim : lim ≤ 2 ^ 32 - 64) (hr : SReach lim base size s)
    {i a n : Nat} (hi : (s.ph i).range = some (a, n)) :
    (a % 64 = 0 ∧ base ≤ a ∧ a + n ≤ base + size) ∧
    ∀ j a' n', j ≠ i → (s.ph j).range = some (a', n') → Apart a n a' n' := by
  have h := sreach_sinv hb hs hsz hsz' hlim hr
  have hblk : ∀ j a n, (s.ph j).range = some (a, n) → ∃ b ∈ s.pool.used, owns s j = some b.id ∧ b.addr = a ∧ b.req = n := by
    intro j a n hj
    cases hph : s.ph j with
    | idle => rw [hph] at hj; cases hj
    | got _ _ => rw [hph] at hj; cases hj
    | freeing _ => rw [hph] at hj; cases hj
    | mapped id a' n' =>
      rw [hph] at hj; cases hj
      obtain ⟨b, hb, e1, e2⟩ := h.mapped j id a n hph
      exact ⟨b, hb, by unfold owns; rw [hph]; simp [e1], e2⟩
    | live a' n' =>
      rw [hph] at hj; cases hj
      obtain ⟨b, hb, e1, e2⟩ := h.live j a n hph
      exact ⟨b, hb, by unfold owns; rw [hph]; exact e1, e2⟩
    | work id a' n' =>
      rw [hph] at hj; cases hj
      obtain ⟨b, hb, e1, e2⟩ := h.work j id a n hph
      exact ⟨b, hb, by unfold owns; rw [hph]; simp [e1], e2⟩
  obtain ⟨b, hbm, ho, rfl, rfl⟩ := hblk i a n hi
  have hok := h.pool.blocks b (List.mem_append_left _ hbm)
  have hreq := h.pool.req b hbm
  refine ⟨⟨hok.al, by rw [← h.pool.hb]; exact hok.lo, ?_⟩, ?_⟩
  · have := block_bound h.pool (List.mem_append_left _ hbm)
    omega
  · intro j a' n' hji hj
    obtain ⟨c, hcm, hc, rfl, rfl⟩ := hblk j a' n' hj
    have hne : b ≠ c := by
      rintro rfl
      exact hji (h.uniq j i _ hc ho)
    have h1 := used_apart h.pool hbm hcm hne
    have h2 := h.pool.req c hcm
    unfold Apart at h1 ⊢
    omega

/-- **C141** (no dead end).  Every storage between two critical sections can go on: the address of a block just
allocated is found, and freeing a live tensor finds its block. -/
theorem C141_progress_partial {base size lim : Nat} {s : Sys} (hb : base % 32 = 0) (hs : size % 32 = 0)
    (hsz : base + size < 2 ^ 63) (hsz' : size < 2 ^ 36) (hlim : lim ≤ 2 ^ 32 - 64) (hr : SReach lim base size s) (i : Nat) :
    (∀ id n, s.ph i = .got id n → ∃ a, s.pool.ptr id = some a) ∧
    (∀ a n, s.ph i = .live a n → ∃ id, s.map a = some id ∧ s.pool.ptr id = some a) := by
  have h := sreach_sinv hb hs hsz hsz' hlim hr
  constructor
  · intro id n hi
    obtain ⟨b, hbm, rfl, _⟩ := h.got i id n hi
    exact ⟨_, ptr_used h.pool hbm⟩
  · intro a n hi
    obtain ⟨b, hbm, e1, rfl, _⟩ := h.live i a n hi
    exact ⟨_, e1, ptr_used h.pool hbm⟩

/-- **C141** (no leak).  When every tensor and workspace has been freed the pool has no block in use and the
allocator no entry. -/
theorem C141_no_leak_partial {base size lim : Nat} {s : Sys} (hb : base % 32 = 0) (hs : size % 32 = 0)
    (hsz : base + size < 2 ^ 63) (hsz' : size < 2 ^ 36) (hlim : lim ≤ 2 ^ 32 - 64) (hr : SReach lim base size s)
    (hidle : ∀ i, s.ph i = .idle) : s.pool.used = [] ∧ ∀ a, s.map a = none := by
  have h := sreach_sinv hb hs hsz hsz' hlim hr
  constructor
  · cases hu : s.pool.used with
    | nil => rfl
    | cons b l =>
      exfalso
      obtain ⟨i, hi⟩ := h.owned b (by rw [hu]; exact List.mem_cons_self)
      unfold owns at hi
      rw [hidle] at hi
      cases hi
  · intro a
    cases hm : s.map a with
    | none => rfl
    | some id =>
      exfalso
      obtain ⟨i, n, hi⟩ := h.keys a id hm
      rw [hidle] at hi
      cases hi

end Verif.Ascend
