import Verif.Prelude
import Verif.ZenFS.Model
/- Arithmetic and state lemmas for ZenFS. -/
namespace Verif.ZenFS

theorem laneOf_eq (g : Geo) (a : Nat) : laneOf g a = a % 2 ^ g.laneBits := by
  simp [laneOf, Nat.and_two_pow_sub_one_eq_mod]

theorem pageOf_eq (g : Geo) (a : Nat) : pageOf g a = a / 2 ^ g.laneBits % 2 ^ g.pageBits := by
  simp [pageOf, Nat.and_two_pow_sub_one_eq_mod, Nat.shiftRight_eq_div_pow]

theorem blobOf_eq (g : Geo) (a : Nat) : blobOf g a = a / g.slots := by
  simp [blobOf, Geo.slots, Nat.shiftRight_eq_div_pow]

theorem slots_pos (g : Geo) : 0 < g.slots := Nat.two_pow_pos _

theorem slotIdx_eq (g : Geo) (a : Nat) : pageOf g a * 2 ^ g.laneBits + laneOf g a = a % g.slots := by
  rw [laneOf_eq, pageOf_eq, Geo.slots, Nat.add_comm g.pageBits, Nat.pow_add, Nat.mod_mul]
  ring

theorem accessOff_eq (g : Geo) (a : Nat) : accessOff g a = (a % g.slots) * g.per := by
  rw [accessOff, slotIdx_eq]

theorem slots_mul_per_le (g : Geo) : g.slots * g.per ≤ g.blobBytes := by
  unfold Geo.per Geo.blobBytes
  rcases Nat.eq_zero_or_pos g.lanes with h | h
  · simp [h]
  · rw [Nat.le_div_iff_mul_le h]
    calc g.slots * (g.bytes * g.ele / g.lanes) * g.lanes
        = g.slots * (g.bytes * g.ele / g.lanes * g.lanes) := by ring
      _ ≤ g.slots * (g.bytes * g.ele) := Nat.mul_le_mul_left _ (Nat.div_mul_le_self _ _)
      _ = g.slots * g.ele * g.bytes := by ring

theorem mkAddr_eq (g : Geo) (f i : Nat) (hi : i < g.slots) (hf : (f + 1) * g.slots ≤ 2 ^ 32) :
    mkAddr g f i = f * g.slots + i := by
  unfold mkAddr addrSpace
  have hlt : f <<< (g.laneBits + g.pageBits) < 2 ^ 32 := by
    rw [Nat.shiftLeft_eq]
    have : g.slots = 2 ^ (g.laneBits + g.pageBits) := by simp [Geo.slots, Nat.add_comm]
    rw [← this]
    have := slots_pos g
    nlinarith
  rw [Nat.mod_eq_of_lt hlt]
  have hs : g.slots = 2 ^ (g.laneBits + g.pageBits) := by simp [Geo.slots, Nat.add_comm]
  rw [Nat.shiftLeft_eq, ← hs, Nat.mul_comm, hs]
  rw [Nat.two_pow_add_eq_or_of_lt (hs ▸ hi)]

theorem bitsAnon_eq (g : Geo) (h : 6 ≤ g.pageBits + g.laneBits) : g.bitsAnon = g.slots := by
  unfold Geo.bitsAnon Geo.slots
  obtain ⟨k, hk⟩ := Nat.exists_eq_add_of_le h
  rw [hk, Nat.pow_add]
  have : (2 ^ 6 * 2 ^ k + 64 - 1) / 64 = 2 ^ k := by
    have : 2 ^ 6 * 2 ^ k + 64 - 1 = 63 + 64 * 2 ^ k := by norm_num; omega
    rw [this, Nat.add_mul_div_left _ _ (by norm_num)]; norm_num
  rw [this]

theorem firstFree_some {b : List Bool} {i : Nat} (h : firstFree b = some i) :
    b[i]? = some true ∧ ∀ j, j < i → b[j]? ≠ some true := by
  unfold firstFree at h
  rw [List.findIdx?_eq_some_iff_getElem] at h
  obtain ⟨hi, h1, h2⟩ := h
  refine ⟨by simpa [hi] using h1, ?_⟩
  intro j hj hc
  have := h2 j hj
  rw [List.getElem?_eq_getElem (by omega)] at hc
  simp at hc this
  simp [hc] at this

theorem firstFree_none {b : List Bool} (h : firstFree b = none) : ∀ i : Nat, b[i]? ≠ some true := by
  unfold firstFree at h
  rw [List.findIdx?_eq_none_iff] at h
  intro i hi
  have := h true (List.mem_of_getElem? hi)
  simp at this

/-! ### reachable states of well-configured file systems -/

/-- Geometry under which blob bitmaps have exactly one bit per slot. -/
def GoodGeo (g : Geo) : Prop := g.disk = false ∧ 6 ≤ g.pageBits + g.laneBits ∧ g.pageBits + g.laneBits ≤ 30

/-- A client call the environment may make: the iteration orders are permutations of the blob ids,
the 32-bit address space is not exhausted, only live addresses of page 0 are freed. -/
def Legal (s : St) : Op → Prop
  | .malloc o o' => o.Perm (List.range s.fs.blobs.length) ∧
      o'.Perm (List.range (s.fs.blobs.length + 1)) ∧ s.live.length + s.fs.geo.slots < 2 ^ 32
  | .free a => a ∈ s.live ∧ pageOf s.fs.geo a = 0

/-- States reachable by legal calls from a fresh file system. -/
inductive Reach (g : Geo) : St → Prop
  | init : Reach g { fs := initFS g, live := [] }
  | step {s : St} (op : Op) : Reach g s → Legal s op → Reach g (step s op).1

structure Inv (g : Geo) (s : St) : Prop where
  geo : s.fs.geo = g
  pos : 0 < s.fs.blobs.length
  len : ∀ b ∈ s.fs.blobs, b.length = g.slots
  fits : s.fs.blobs.length * g.slots < 2 ^ 32
  nodup : s.live.Nodup
  bits : ∀ f i, i < g.slots → (f * g.slots + i ∈ s.live ↔
    ∃ b, s.fs.blobs[f]? = some b ∧ b[i]? = some false)

theorem div_add (g : Geo) (f i : Nat) (hi : i < g.slots) :
    (f * g.slots + i) / g.slots = f ∧ (f * g.slots + i) % g.slots = i := by
  have := slots_pos g
  constructor
  · rw [Nat.mul_comm, Nat.mul_add_div this, Nat.div_eq_of_lt hi]; omega
  · rw [Nat.mul_comm, Nat.mul_add_mod]; exact Nat.mod_eq_of_lt hi

theorem bits' {g : Geo} {s : St} (h : Inv g s) (a : Nat) : a ∈ s.live ↔
    ∃ b, s.fs.blobs[a / g.slots]? = some b ∧ b[a % g.slots]? = some false := by
  have := h.bits (a / g.slots) (a % g.slots) (Nat.mod_lt _ (slots_pos g))
  rwa [Nat.div_add_mod' a g.slots] at this

theorem inv_init (g : Geo) (hg : GoodGeo g) : Inv g { fs := initFS g, live := [] } := by
  obtain ⟨_, h6, h30⟩ := hg
  constructor
  · rfl
  · simp [initFS]
  · intro b hb; simp [initFS] at hb; subst hb; simp [bitsAnon_eq g h6]
  · simp [initFS, Geo.slots]
    calc 2 ^ (g.pageBits + g.laneBits) ≤ 2 ^ 30 := Nat.pow_le_pow_right (by norm_num) h30
      _ < 4294967296 := by norm_num
  · simp
  · intro f i hi
    simp only [List.not_mem_nil, false_iff]
    rintro ⟨b, h1, h2⟩
    simp [initFS] at h1
    rcases f with _ | f
    · simp at h1; subst h1
      rw [List.getElem?_replicate] at h2
      split at h2 <;> simp at h2
    · simp at h1

/-- Taking a free slot keeps the invariant and yields a fresh address. -/
theorem take_slot {g : Geo} {s : St} (h : Inv g s) {f : Nat} {fs' : FS} {a : Nat}
    (hf : findFreeIn s.fs f = some (fs', a)) :
    a ∉ s.live ∧ a < s.fs.blobs.length * g.slots ∧ fs'.blobs.length = s.fs.blobs.length ∧
      Inv g { fs := fs', live := a :: s.live } := by
  unfold findFreeIn at hf
  split at hf
  · simp at hf
  · next b hb =>
    split at hf
    · simp at hf
    · next i hi =>
      simp only [Option.some.injEq, Prod.mk.injEq] at hf
      obtain ⟨rfl, rfl⟩ := hf
      obtain ⟨hbit, _⟩ := firstFree_some hi
      have hfl : f < s.fs.blobs.length := by
        rw [List.getElem?_eq_some_iff] at hb; exact hb.1
      have hbl : b.length = g.slots := h.len b (List.mem_of_getElem? hb)
      have hil : i < g.slots := by
        obtain ⟨hlt, -⟩ := List.getElem?_eq_some_iff.mp hbit; omega
      have hfit : (f + 1) * g.slots ≤ 2 ^ 32 := by
        have h1 : (f + 1) * g.slots ≤ s.fs.blobs.length * g.slots :=
          Nat.mul_le_mul_right g.slots (Nat.succ_le_of_lt hfl)
        have := h.fits; omega
      rw [h.geo, mkAddr_eq g f i hil hfit]
      have hnl : f * g.slots + i ∉ s.live := by
        rw [h.bits f i hil]
        rintro ⟨b', h1, h2⟩
        rw [hb] at h1; cases h1
        rw [hbit] at h2; cases h2
      have hlt : f * g.slots + i < s.fs.blobs.length * g.slots := by
        have := Nat.mul_le_mul_right g.slots (Nat.succ_le_of_lt hfl)
        rw [Nat.succ_mul] at this; omega
      refine ⟨hnl, hlt, by simp, ?_⟩
      constructor
      · first | rfl | exact h.geo
      · simpa using h.pos
      · intro b' hb'
        rcases List.mem_or_eq_of_mem_set hb' with hb' | rfl
        · exact h.len b' hb'
        · simpa using hbl
      · simpa using h.fits
      · exact List.nodup_cons.mpr ⟨hnl, h.nodup⟩
      · intro f' i' hi'
        simp only [List.mem_cons]
        by_cases hff : f' = f
        · subst hff
          rw [List.getElem?_set_self hfl]
          by_cases hii : i' = i
          · subst hii
            simp only [true_or, true_iff]
            exact ⟨_, rfl, by rw [List.getElem?_set_self (by omega)]⟩
          · have hne : f' * g.slots + i' ≠ f' * g.slots + i := by omega
            simp only [hne, false_or]
            rw [h.bits f' i' hi', hb]
            simp only [Option.some.injEq, exists_eq_left']
            rw [List.getElem?_set_ne (fun hc => hii hc.symm)]
        · have hne : f' * g.slots + i' ≠ f * g.slots + i := by
            intro hc
            have h1 := (div_add g f' i' hi').1
            have h2 := (div_add g f i hil).1
            rw [hc, h2] at h1; exact hff h1.symm
          simp only [hne, false_or]
          rw [h.bits f' i' hi', List.getElem?_set_ne (fun hc => hff hc.symm)]

/-- A full scan on an invariant state either takes a slot or finds every slot live. -/
theorem scan_spec {g : Geo} {s : St} (h : Inv g s) (o : List Nat) :
    (∃ a fs', scan s.fs o = (fs', some a) ∧ a ∉ s.live ∧ a < s.fs.blobs.length * g.slots ∧
      fs'.blobs.length = s.fs.blobs.length ∧ Inv g { fs := fs', live := a :: s.live }) ∨
    (scan s.fs o = (s.fs, none) ∧ ∀ f ∈ o, ∀ b, s.fs.blobs[f]? = some b → ∀ i : Nat, b[i]? ≠ some true) := by
  induction o with
  | nil => right; simp [scan]
  | cons f o ih =>
    unfold scan
    cases hf : findFreeIn s.fs f with
    | none =>
      rcases ih with ih | ⟨ih1, ih2⟩
      · exact Or.inl ih
      · right
        refine ⟨ih1, ?_⟩
        intro f' hf' b hb
        rcases List.mem_cons.mp hf' with rfl | hf'
        · unfold findFreeIn at hf
          rw [hb] at hf
          simp only at hf
          split at hf
          · next hn => exact firstFree_none hn
          · simp at hf
        · exact ih2 f' hf' b hb
    | some p =>
      obtain ⟨fs', a⟩ := p
      obtain ⟨h1, h2, h3, h4⟩ := take_slot h hf
      have hne : a ≠ invalid := by
        have := h.fits; unfold invalid; omega
      left
      exact ⟨a, fs', by simp [hne], h1, h2, h3, h4⟩

theorem all_live_of_full {g : Geo} {s : St} (h : Inv g s) (o : List Nat)
    (ho : o.Perm (List.range s.fs.blobs.length))
    (hfull : ∀ f ∈ o, ∀ b, s.fs.blobs[f]? = some b → ∀ i : Nat, b[i]? ≠ some true) :
    s.fs.blobs.length * g.slots ≤ s.live.length := by
  have hsub : List.range (s.fs.blobs.length * g.slots) ⊆ s.live := by
    intro a ha
    rw [List.mem_range] at ha
    rw [bits' h]
    have hd : a / g.slots < s.fs.blobs.length := (Nat.div_lt_iff_lt_mul (slots_pos g)).mpr ha
    refine ⟨s.fs.blobs[a / g.slots], by simp [hd], ?_⟩
    have hl := h.len _ (List.getElem_mem hd)
    have hm : a % g.slots < (s.fs.blobs[a / g.slots]).length := by
      rw [hl]; exact Nat.mod_lt _ (slots_pos g)
    have := hfull (a / g.slots) (by rw [ho.mem_iff]; simpa using hd)
      (s.fs.blobs[a / g.slots]) (by simp [hd]) (a % g.slots)
    rw [List.getElem?_eq_getElem hm] at this ⊢
    simpa using this
  have := (List.nodup_range (n := s.fs.blobs.length * g.slots)).subperm hsub
  simpa using this.length_le

theorem inv_create {g : Geo} {s : St} (hg : GoodGeo g) (h : Inv g s)
    (hfit : (s.fs.blobs.length + 1) * g.slots < 2 ^ 32) :
    Inv g { fs := createBlob s.fs, live := s.live } := by
  obtain ⟨hd, h6, h30⟩ := hg
  constructor
  · exact h.geo
  · simp [createBlob]
  · intro b hb
    simp [createBlob, h.geo, hd] at hb
    rcases hb with hb | rfl
    · exact h.len b hb
    · simp [bitsAnon_eq g h6]
  · simpa [createBlob] using hfit
  · exact h.nodup
  · intro f i hi
    rw [h.bits f i hi]
    simp only [createBlob, h.geo, hd]
    by_cases hf : f < s.fs.blobs.length
    · rw [List.getElem?_append_left hf]
    · rw [List.getElem?_append_right (by omega), List.getElem?_eq_none (by omega)]
      simp only [reduceCtorEq, false_and, exists_false, false_iff]
      rintro ⟨b, h1, h2⟩
      have : f - s.fs.blobs.length = 0 := by
        by_contra hc
        rw [List.getElem?_eq_none (by simp; omega)] at h1; simp at h1
      rw [this] at h1
      simp at h1; subst h1
      rw [List.getElem?_replicate] at h2
      split at h2 <;> simp at h2

/-- `malloc` on an invariant state. -/
theorem malloc_spec {g : Geo} {s : St} (hg : GoodGeo g) (h : Inv g s) (o o' : List Nat)
    (hl : Legal s (.malloc o o')) :
    ∃ a fs', malloc s.fs o o' = (fs', some a) ∧ a ∉ s.live ∧ a < fs'.blobs.length * g.slots ∧
      Inv g { fs := fs', live := a :: s.live } ∧
      (s.live.length < s.fs.blobs.length * g.slots → fs'.blobs.length = s.fs.blobs.length) := by
  obtain ⟨h1, h2, h3⟩ := hl
  rw [h.geo] at h3
  rcases scan_spec h o with ⟨a, fs', e1, e2, e3, e4, e5⟩ | ⟨e1, e2⟩
  · refine ⟨a, fs', by unfold malloc; rw [e1], e2, by rw [e4]; exact e3, e5, fun _ => e4⟩
  · have hfull := all_live_of_full h o h1 e2
    have hfit : (s.fs.blobs.length + 1) * g.slots < 2 ^ 32 := by
      rw [Nat.succ_mul]; omega
    have hc := inv_create hg h hfit
    rcases scan_spec hc o' with ⟨a, fs', c1, c2, c3, c4, c5⟩ | ⟨c1, c2⟩
    · refine ⟨a, fs', ?_, c2, by rw [c4]; exact c3, c5, fun hlt => by omega⟩
      unfold malloc; rw [e1]; exact c1
    · exfalso
      have hmem : s.fs.blobs.length ∈ o' := by rw [h2.mem_iff]; simp
      have hd := hg.1
      refine c2 s.fs.blobs.length hmem (List.replicate g.bitsAnon true) ?_ 0 ?_
      · simp [createBlob, h.geo, hd]
      · have : 0 < g.bitsAnon := by rw [bitsAnon_eq g hg.2.1]; exact slots_pos g
        simp [this]

theorem lane_of_page_zero {g : Geo} {a : Nat} (h : pageOf g a = 0) : laneOf g a = a % g.slots := by
  have := slotIdx_eq g a
  rw [h] at this; omega

theorem free_inv {g : Geo} {s : St} (h : Inv g s) (a : Nat) (hl : Legal s (.free a)) :
    Inv g (step s (.free a)).1 := by
  obtain ⟨ha, hp⟩ := hl
  rw [h.geo] at hp
  have hlane := lane_of_page_zero hp
  obtain ⟨b, hb1, hb2⟩ := (bits' h a).mp ha
  have hfl : a / g.slots < s.fs.blobs.length := by
    rw [List.getElem?_eq_some_iff] at hb1; exact hb1.1
  have hbl := h.len b (List.mem_of_getElem? hb1)
  have hm : a % g.slots < g.slots := Nat.mod_lt _ (slots_pos g)
  have hfs : free s.fs a = { s.fs with blobs := s.fs.blobs.set (a / g.slots) (b.set (a % g.slots) true) } := by
    unfold free
    rw [h.geo, blobOf_eq, hb1]
    simp only [hlane, hbl, hm, if_true, h.geo]
  simp only [step, hfs]
  constructor
  · exact h.geo
  · simpa using h.pos
  · intro b' hb'
    rcases List.mem_or_eq_of_mem_set hb' with hb' | rfl
    · exact h.len b' hb'
    · simpa using hbl
  · simpa using h.fits
  · exact h.nodup.erase a
  · intro f i hi
    rw [h.nodup.mem_erase_iff, h.bits f i hi]
    by_cases hff : f = a / g.slots
    · subst hff
      rw [List.getElem?_set_self hfl, hb1]
      simp only [Option.some.injEq, exists_eq_left']
      by_cases hii : i = a % g.slots
      · subst hii
        rw [List.getElem?_set_self (by omega)]
        simp [Nat.div_add_mod' a g.slots]
      · rw [List.getElem?_set_ne (fun hc => hii hc.symm)]
        constructor
        · exact fun h => h.2
        · intro h3
          refine ⟨?_, h3⟩
          intro hc
          apply hii
          rw [← hc, (div_add g _ i hi).2]
    · rw [List.getElem?_set_ne (fun hc => hff hc.symm)]
      constructor
      · exact fun h => h.2
      · intro h3
        refine ⟨?_, h3⟩
        intro hc
        apply hff
        rw [← hc, (div_add g f i hi).1]

theorem reach_inv {g : Geo} (hg : GoodGeo g) {s : St} (h : Reach g s) : Inv g s := by
  induction h with
  | init => exact inv_init g hg
  | step op _ hl ih =>
    cases op with
    | malloc o o' =>
      obtain ⟨a, fs', e1, e2, e3, e4, _⟩ := malloc_spec hg ih o o' hl
      simp only [step, e1]; exact e4
    | free a => exact free_inv ih a hl

end Verif.ZenFS
