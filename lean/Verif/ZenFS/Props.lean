import Verif.ZenFS.Lemmas
/-
Property theorems about ZenFS (C06–C10) and the allocator's TLB (C38).
-/
namespace Verif.ZenFS

/-! ### Reachability by arbitrary correct clients (no restriction on geometry or pages) -/

/-- What a correct client and environment do: iteration orders are permutations of the blob ids,
only live addresses are freed. -/
def Client (s : St) : Op → Prop
  | .malloc o o' => o.Perm (List.range s.fs.blobs.length) ∧ o'.Perm (List.range (s.fs.blobs.length + 1))
  | .free a => a ∈ s.live

instance (s : St) (op : Op) : Decidable (Client s op) := by
  cases op <;> unfold Client <;> infer_instance

/-- States reachable by a correct client. -/
inductive ClientReach (g : Geo) : St → Prop
  | init : ClientReach g { fs := initFS g, live := [] }
  | step {s : St} (op : Op) : ClientReach g s → Client s op → ClientReach g (step s op).1

/-- run a list of operations, checking that each is a correct client call -/
def runChecked (s : St) : List Op → Option St
  | [] => some s
  | op :: ops => if Client s op then runChecked (step s op).1 ops else none

theorem ClientReach.run {g : Geo} {s s' : St} (ops : List Op) (h : ClientReach g s)
    (hr : runChecked s ops = some s') : ClientReach g s' := by
  induction ops generalizing s with
  | nil => simp [runChecked] at hr; exact hr ▸ h
  | cons op ops ih =>
    simp only [runChecked] at hr
    split at hr
    · next hc => exact ih (h.step op hc) hr
    · simp at hr

/-- malloc calls with the natural iteration order, for witnesses -/
def mallocs (blobs n : Nat) : List Op :=
  List.replicate n (.malloc (List.range blobs) (List.range (blobs + 1)))

/-! ### C06 address arithmetic -/

/-- C06: an address is determined by its blob, page and lane fields. -/
theorem C06_fields (g : Geo) (a : Nat) :
    a = (blobOf g a * 2 ^ g.pageBits + pageOf g a) * 2 ^ g.laneBits + laneOf g a ∧
    pageOf g a < 2 ^ g.pageBits ∧ laneOf g a < 2 ^ g.laneBits := by
  refine ⟨?_, ?_, ?_⟩
  · have h := slotIdx_eq g a
    have h2 := Nat.div_add_mod' a g.slots
    rw [blobOf_eq]
    conv_lhs => rw [← h2, ← h]
    unfold Geo.slots
    rw [Nat.pow_add]; ring
  · rw [pageOf_eq]; exact Nat.mod_lt _ (Nat.two_pow_pos _)
  · rw [laneOf_eq]; exact Nat.mod_lt _ (Nat.two_pow_pos _)

/-- C06: in every state and geometry, two different addresses that `access` resolves denote disjoint
token ranges, each inside its blob. -/
theorem C06_access_disjoint (s : FS) (a b : Nat) (fa oa fb ob : Nat) (hab : a ≠ b)
    (ha : access s a = some (fa, oa)) (hb : access s b = some (fb, ob)) :
    oa + s.geo.per ≤ s.geo.blobBytes ∧
    (fa ≠ fb ∨ oa + s.geo.per ≤ ob ∨ ob + s.geo.per ≤ oa) := by
  unfold access at ha hb
  split at ha <;> simp at ha
  split at hb <;> simp at hb
  obtain ⟨rfl, rfl⟩ := ha
  obtain ⟨rfl, rfl⟩ := hb
  have hs := slots_pos s.geo
  rw [accessOff_eq, accessOff_eq, blobOf_eq, blobOf_eq]
  have hma : a % s.geo.slots < s.geo.slots := Nat.mod_lt _ hs
  constructor
  · refine Nat.le_trans ?_ (slots_mul_per_le s.geo)
    calc a % s.geo.slots * s.geo.per + s.geo.per = (a % s.geo.slots + 1) * s.geo.per := by ring
      _ ≤ s.geo.slots * s.geo.per := Nat.mul_le_mul_right _ hma
  · by_cases hd : a / s.geo.slots = b / s.geo.slots
    · right
      have hne : a % s.geo.slots ≠ b % s.geo.slots := by
        intro hc
        apply hab
        rw [← Nat.div_add_mod a s.geo.slots, ← Nat.div_add_mod b s.geo.slots, hd, hc]
      rcases Nat.lt_or_gt_of_ne hne with h | h
      · left
        calc a % s.geo.slots * s.geo.per + s.geo.per = (a % s.geo.slots + 1) * s.geo.per := by ring
          _ ≤ b % s.geo.slots * s.geo.per := Nat.mul_le_mul_right _ h
      · right
        calc b % s.geo.slots * s.geo.per + s.geo.per = (b % s.geo.slots + 1) * s.geo.per := by ring
          _ ≤ a % s.geo.slots * s.geo.per := Nat.mul_le_mul_right _ h
    · left; exact hd

/-- default geometry of ZenFS.hpp L119-130: 7 page bits, 5 lane bits, 1024 halves -/
def defaultGeo : Geo := ⟨7, 5, 1024, 2, 1, false⟩

example : access (initFS defaultGeo) 33 = some (0, 33 * 2048) ∧
    access (initFS defaultGeo) 34 = some (0, 34 * 2048) := by decide +kernel

/-! ### C07 freshness -/

/-- C07, violated: with 6 page bits and 0 lane bits (64 slots), allocate addresses 0 and 1, free 1;
the next `malloc` returns 0, which is still in use (`free` clears the bit of the lane, not of the
page and lane, ZenFS.cpp L600-611). -/
theorem C07_violated : ∃ (g : Geo) (s : St) (o o' : List Nat) (a : Nat),
    g.disk = false ∧ 6 ≤ g.pageBits + g.laneBits ∧ ClientReach g s ∧ Client s (.malloc o o') ∧
    (step s (.malloc o o')).2 = some a ∧ a ∈ s.live := by
  refine ⟨⟨6, 0, 4, 2, 1, false⟩, _, [0], [0, 1], 0, rfl, by decide,
    ClientReach.run (mallocs 1 2 ++ [.free 1]) .init rfl, ?_, ?_, ?_⟩ <;> decide +kernel

/-- C07, the part that holds: with one bit per slot (anonymous blobs, at least 6 address bits), as
long as only addresses in page 0 are freed (always true if `page_bits = 0`, as in the sliding-window
configuration; vacuous if nothing is freed) and the 32-bit space is not exhausted, every `malloc`
succeeds with an address that is not in use. Missing: frees of addresses in other pages, see
`C07_violated`. -/
theorem C07_fresh_partial (g : Geo) (hg : GoodGeo g) (s : St) (hs : Reach g s) (o o' : List Nat)
    (hl : Legal s (.malloc o o')) :
    ∃ a, (step s (.malloc o o')).2 = some a ∧ a ∉ s.live ∧ a < 2 ^ 32 ∧ a ≠ invalid := by
  have h := reach_inv hg hs
  obtain ⟨a, fs', e1, e2, e3, e4, _⟩ := malloc_spec hg h o o' hl
  refine ⟨a, by simp [step, e1], e2, ?_, ?_⟩
  · have := e4.fits; simp at this; omega
  · have := e4.fits; simp at this; unfold invalid; omega

/-- C07, reuse: under the same conditions no new blob is created while a slot of the existing blobs
is not in use; in particular freed addresses are handed out again. -/
theorem C07_reuse_partial (g : Geo) (hg : GoodGeo g) (s : St) (hs : Reach g s) (o o' : List Nat)
    (hl : Legal s (.malloc o o')) (hfree : s.live.length < s.fs.blobs.length * g.slots) :
    (step s (.malloc o o')).1.fs.blobs.length = s.fs.blobs.length := by
  have h := reach_inv hg hs
  obtain ⟨a, fs', e1, e2, e3, e4, e5⟩ := malloc_spec hg h o o' hl
  simpa [step, e1] using e5 hfree

/-- C07, exactness: under the same conditions a slot is marked free exactly when it is not in use. -/
theorem C07_bitmap_exact_partial (g : Geo) (hg : GoodGeo g) (s : St) (hs : Reach g s) (f i : Nat)
    (hi : i < g.slots) : (f * g.slots + i ∈ s.live ↔
      ∃ b, s.fs.blobs[f]? = some b ∧ b[i]? = some false) ∧ s.live.Nodup :=
  ⟨(reach_inv hg hs).bits f i hi, (reach_inv hg hs).nodup⟩

-- non-vacuity: a sliding-window style geometry with a free in the history
example : GoodGeo ⟨0, 6, 4, 2, 1, false⟩ ∧ Legal
    (step (step ⟨initFS ⟨0, 6, 4, 2, 1, false⟩, []⟩ (.malloc [0] [0, 1])).1 (.free 0)).1
      (.malloc [0] [0, 1]) := by
  refine ⟨⟨rfl, by decide, by decide⟩, by decide, by decide, by decide⟩

/-! ### C08 hints -/

/-- C08, exact characterisation: the range used by the hints is the range of the address iff the page
field is 0 or there is one lane per page (or tokens are empty). -/
theorem C08_hint_exact_iff (g : Geo) (a : Nat) :
    hintOff g a = accessOff g a ↔ pageOf g a = 0 ∨ g.laneBits = 0 ∨ g.per = 0 := by
  unfold hintOff accessOff
  have hp : 0 < 2 ^ g.laneBits := Nat.two_pow_pos _
  constructor
  · intro h
    by_contra hc
    simp only [not_or] at hc
    obtain ⟨h1, h2, h3⟩ := hc
    rw [Nat.add_mul] at h
    have h4 : pageOf g a * g.per = pageOf g a * 2 ^ g.laneBits * g.per := by omega
    have h5 := Nat.eq_of_mul_eq_mul_right (Nat.pos_of_ne_zero h3) h4
    have h6 : 1 = 2 ^ g.laneBits := by
      have : pageOf g a * 1 = pageOf g a * 2 ^ g.laneBits := by omega
      exact Nat.eq_of_mul_eq_mul_left (Nat.pos_of_ne_zero h1) this
    have h7 : 2 ^ 1 ≤ 2 ^ g.laneBits := Nat.pow_le_pow_right (by norm_num) (Nat.pos_of_ne_zero h2)
    omega
  · rintro (h | h | h)
    · simp [h]
    · simp [h, Nat.add_mul]
    · simp [h]

/-- C08, violated: in a state reached by a correct client (64 slots per blob, 2 pages of 32 lanes), a
purge or prefetch hint for the live address 96 (blob 1, page 1, lane 0) acts on exactly the bytes of
*another* live address, 65 (blob 1, page 0, lane 1). -/
theorem C08_violated : ∃ (g : Geo) (s : St) (a b f off len : Nat), g.disk = false ∧
    ClientReach g s ∧ a ∈ s.live ∧ b ∈ s.live ∧ a ≠ b ∧
    hint s.fs a = some (f, off, len) ∧ access s.fs b = some (f, off) ∧ len = s.fs.geo.per ∧ 0 < len ∧
    access s.fs a ≠ some (f, off) := by
  refine ⟨⟨1, 5, 4, 2, 1, false⟩, _, 96, 65, 1, 8, 8, rfl,
    ClientReach.run (mallocs 1 65 ++ mallocs 2 32) .init
      (s' := (runChecked ⟨initFS ⟨1, 5, 4, 2, 1, false⟩, []⟩
      (mallocs 1 65 ++ mallocs 2 32)).get (by decide +kernel)) (by simp), ?_⟩
  decide +kernel

/-- C08, the part that holds: for page 0 (or one lane per page) a hint acts on the byte range of the
address and nothing else. -/
theorem C08_hint_partial (s : FS) (a f off len : Nat) (h : hint s a = some (f, off, len))
    (hp : pageOf s.geo a = 0 ∨ s.geo.laneBits = 0) :
    access s a = some (f, off) ∧ len = s.geo.per ∧
    ∀ b, b ≠ a → ∀ off', access s b = some (f, off') → off' + s.geo.per ≤ off ∨ off + len ≤ off' := by
  unfold hint at h
  split at h <;> simp at h
  next hc =>
  obtain ⟨rfl, rfl, rfl⟩ := h
  have he : hintOff s.geo a = accessOff s.geo a :=
    (C08_hint_exact_iff s.geo a).mpr (hp.elim Or.inl (fun h => Or.inr (Or.inl h)))
  have hacc : access s a = some (blobOf s.geo a, hintOff s.geo a) := by
    unfold access; rw [if_pos hc.1, he]
  refine ⟨hacc, rfl, ?_⟩
  intro b hb off' hacc'
  rcases (C06_access_disjoint s b a _ _ _ _ hb hacc' hacc).2 with h | h | h
  · exact absurd rfl h
  · exact Or.inl h
  · exact Or.inr h

example : hint (createBlob (initFS ⟨1, 5, 4, 2, 1, false⟩)) 65 = some (1, 8, 8) := by decide +kernel

/-! ### C09 addresses belong to their blob -/

/-- C09, the part that holds: with anonymous blobs, at least 6 address bits and frees in page 0 only,
a `malloc`'d address resolves inside an existing blob. -/
theorem C09_resolves_partial (g : Geo) (hg : GoodGeo g) (s : St) (hs : Reach g s) (o o' : List Nat)
    (hl : Legal s (.malloc o o')) (a : Nat) (ha : (step s (.malloc o o')).2 = some a) :
    ∃ f off, access (step s (.malloc o o')).1.fs a = some (f, off) ∧ off + g.per ≤ g.blobBytes := by
  have h := reach_inv hg hs
  obtain ⟨a', fs', e1, e2, e3, e4, _⟩ := malloc_spec hg h o o' hl
  simp [step, e1] at ha
  subst ha
  have hgeo : fs'.geo = g := e4.geo
  have hlt : blobOf fs'.geo a' < fs'.blobs.length := by
    rw [hgeo, blobOf_eq]; exact (Nat.div_lt_iff_lt_mul (slots_pos g)).mpr e3
  refine ⟨blobOf fs'.geo a', accessOff fs'.geo a', by simp [step, e1, access, hlt], ?_⟩
  rw [hgeo, accessOff_eq]
  refine Nat.le_trans ?_ (slots_mul_per_le g)
  calc a' % g.slots * g.per + g.per = (a' % g.slots + 1) * g.per := by ring
    _ ≤ g.slots * g.per := Nat.mul_le_mul_right _ (Nat.mod_lt _ (slots_pos g))

/-- C09, violated for small blobs: with 5 lane bits and no page bits (the configuration
`CpuPrefixCache` derives from a sliding window of 32 tokens, PrefixCache.cpp L217/L238-239) the 33rd
`malloc` returns address 32, which belongs to no blob (`access` gives `nullptr`). -/
theorem C09_violated_small : ∃ (g : Geo) (s : St) (o o' : List Nat) (a : Nat),
    g.disk = false ∧ ClientReach g s ∧ Client s (.malloc o o') ∧
    (step s (.malloc o o')).2 = some a ∧ access (step s (.malloc o o')).1.fs a = none := by
  refine ⟨⟨0, 5, 4, 2, 1, false⟩, _, [0], [0, 1], 32, rfl,
    ClientReach.run (mallocs 1 32) .init (s' := (runChecked ⟨initFS ⟨0, 5, 4, 2, 1, false⟩, []⟩
      (mallocs 1 32)).get (by decide +kernel)) (by simp), ?_, ?_, ?_⟩ <;> decide +kernel

/-- C09/C07, violated for disk blobs: with 64 slots per blob the bitmap of a disk blob has 512 bits;
after 128 allocations the next one returns address 64, which is still in use. -/
theorem C09_violated_disk : ∃ (g : Geo) (s : St) (o o' : List Nat) (a : Nat),
    g.disk = true ∧ 6 ≤ g.pageBits + g.laneBits ∧ ClientReach g s ∧ Client s (.malloc o o') ∧
    (step s (.malloc o o')).2 = some a ∧ a ∈ s.live := by
  refine ⟨⟨0, 6, 4, 2, 1, true⟩, _, [0, 1], [0, 1, 2], 64, rfl, by decide,
    ClientReach.run (mallocs 1 65 ++ mallocs 2 63) .init
      (s' := (runChecked ⟨initFS ⟨0, 6, 4, 2, 1, true⟩, []⟩
      (mallocs 1 65 ++ mallocs 2 63)).get (by decide +kernel)) (by simp), ?_, ?_, ?_⟩ <;> decide +kernel

/-! ### C10 recovery -/

/-- C10, violated: allocate one address, finalize and recover; the next `malloc` returns it again. -/
theorem C10_violated : ∃ (g : Geo) (s : St) (o o' : List Nat) (a : Nat),
    g.disk = false ∧ 6 ≤ g.pageBits + g.laneBits ∧ ClientReach g s ∧
    o.Perm (List.range s.fs.blobs.length) ∧ (malloc (recover s.fs) o o').2 = some a ∧ a ∈ s.live := by
  refine ⟨⟨0, 6, 4, 2, 1, false⟩, _, [0], [0, 1], 0, rfl, by decide,
    ClientReach.run (mallocs 1 1) .init rfl, ?_, ?_, ?_⟩ <;> decide +kernel

/-- C10, how bad it is: after recovery the first `malloc` returns slot 0 of whichever blob the hash
map yields first, no matter which addresses were in use before. -/
theorem C10_recover_forgets (g : Geo) (hg : GoodGeo g) (s : St) (hs : Reach g s) (f : Nat)
    (hf : f < s.fs.blobs.length) (o o' : List Nat) :
    (malloc (recover s.fs) (f :: o) o').2 = some (f * g.slots) := by
  have h := reach_inv hg hs
  have hgeo : (recover s.fs).geo = g := h.geo
  have hbits : 0 < g.bitsAnon := by rw [bitsAnon_eq g hg.2.1]; exact slots_pos g
  have hb : (recover s.fs).blobs[f]? = some (List.replicate g.bitsAnon true) := by
    simp [recover, hf, h.geo]
  have hff : firstFree (List.replicate g.bitsAnon true) = some 0 := by
    unfold firstFree
    obtain ⟨n, hn⟩ : ∃ n, g.bitsAnon = n + 1 := ⟨g.bitsAnon - 1, by omega⟩
    rw [hn, List.replicate_succ]; simp [List.findIdx?_cons]
  have hfit : (f + 1) * g.slots ≤ 2 ^ 32 := by
    have h1 : (f + 1) * g.slots ≤ s.fs.blobs.length * g.slots := Nat.mul_le_mul_right _ hf
    have := h.fits; omega
  have hm : mkAddr g f 0 = f * g.slots := by
    rw [mkAddr_eq g f 0 (slots_pos g) hfit]; rfl
  have hne : f * g.slots ≠ invalid := by
    have h1 : (f + 1) * g.slots ≤ s.fs.blobs.length * g.slots := Nat.mul_le_mul_right _ hf
    rw [Nat.succ_mul] at h1
    have := h.fits; have := slots_pos g; unfold invalid; omega
  unfold malloc scan findFreeIn
  simp only [hb, hff, hgeo, hm, ne_eq, hne, not_false_iff, if_true]

example : Reach ⟨0, 6, 4, 2, 1, false⟩ (step ⟨initFS ⟨0, 6, 4, 2, 1, false⟩, []⟩ (.malloc [0] [0, 1])).1 :=
  .step _ .init ⟨by decide, by decide, by decide⟩

/-- C10, the part that holds: recovery keeps the address translation, every address denotes the same
bytes before and after (only the record of which addresses are in use is lost). -/
theorem C10_access_partial (s : FS) (a : Nat) :
    access (recover s) a = access s a ∧ (recover s).blobs.length = s.blobs.length := by
  simp [access, recover]

example : access (recover (createBlob (initFS ⟨0, 6, 4, 2, 1, false⟩))) 65 = some (1, 8) := by decide

/-! ### C38 the allocator's translation buffer -/

/-- allocator states reachable by legal calls, with the live addresses -/
inductive AReach (g : Geo) : Alloc → List Nat → Prop
  | init : AReach g { fs := initFS g, tlb := [] } []
  | alloc {s live} (o o' : List Nat) (s' : Alloc) (a : Nat) : AReach g s live →
      Legal ⟨s.fs, live⟩ (.malloc o o') → s.alloc o o' = (s', some a) → AReach g s' (a :: live)
  | free {s live} (a : Nat) : AReach g s live → Legal ⟨s.fs, live⟩ (.free a) →
      AReach g (s.free a) (live.erase a)

theorem lookup_filter_ne (l : List (Nat × Option (Nat × Nat))) (a b : Nat) :
    (l.filter (fun x => x.1 ≠ a)).lookup b = if b = a then none else l.lookup b := by
  induction l with
  | nil => simp
  | cons x l ih =>
    obtain ⟨k, v⟩ := x
    rw [List.filter_cons]
    by_cases hk : k = a
    · subst hk
      simp only [ne_eq, not_true_eq_false, decide_false, Bool.false_eq_true, if_false, List.lookup_cons]
      simp only [ne_eq] at ih
      rw [ih]
      by_cases hb : b = k
      · simp [hb]
      · have : (b == k) = false := by simpa using hb
        simp [hb, this]
    · simp only [ne_eq, hk, not_false_eq_true, decide_true, if_true, List.lookup_cons]
      simp only [ne_eq] at ih
      rw [ih]
      by_cases hb : b = k
      · simp [hb, hk]
      · have : (b == k) = false := by simpa using hb
        simp [this]

/-- C38 (partial, same conditions as C07): the physical address returned for a live address is the
storage ZenFS assigns to it, and a freed or never allocated address translates to null. -/
theorem C38_tlb_exact_partial (g : Geo) (hg : GoodGeo g) (s : Alloc) (live : List Nat)
    (h : AReach g s live) (a : Nat) :
    s.physicalAddr a = if a ∈ live then access s.fs a else none := by
  have key : ∀ s live, AReach g s live → Reach g ⟨s.fs, live⟩ ∧
      ∀ a, s.tlb.lookup a = if a ∈ live then some (access s.fs a) else none := by
    intro s live h
    induction h with
    | init => exact ⟨.init, by simp⟩
    | @alloc s live o o' s' a hr hl he ih =>
      obtain ⟨r, t⟩ := ih
      have hinv := reach_inv hg r
      obtain ⟨a', fs', e1, e2, e3, e4, _⟩ := malloc_spec hg hinv o o' hl
      simp only at e1 e2
      unfold Alloc.alloc at he
      rw [e1] at he
      simp only [Prod.mk.injEq, Option.some.injEq] at he
      obtain ⟨rfl, rfl⟩ := he
      have hstep := Reach.step (.malloc o o') r hl
      simp only [step, e1] at hstep
      refine ⟨hstep, ?_⟩
      have hnone : s.tlb.lookup a' = none := by rw [t]; simp [e2]
      have hb : s.fs.blobs.length ≤ fs'.blobs.length := by
        -- the scan never removes blobs
        rcases scan_spec hinv o with ⟨a, f1, c1, _, _, c4, _⟩ | ⟨c1, _⟩
        · unfold malloc at e1; simp only at c1; rw [c1] at e1; simp at e1
          rw [← e1.1, c4]
        · unfold malloc at e1; simp only at c1; rw [c1] at e1; simp only at e1
          have hl' := hl
          obtain ⟨h1, h2, h3⟩ := hl'
          have hfull : s.fs.blobs.length * g.slots ≤ live.length :=
            all_live_of_full hinv o h1 (by
              rcases scan_spec hinv o with ⟨a, f1, d1, _⟩ | ⟨_, d2⟩
              · simp only at d1; rw [c1] at d1; simp at d1
              · exact d2)
          have hgeo : s.fs.geo = g := hinv.geo
          simp only [hgeo] at h3
          have hc := inv_create hg hinv (by simp only; rw [Nat.succ_mul]; omega)
          rcases scan_spec hc o' with ⟨a, f1, d1, _, _, d4, _⟩ | ⟨d1, _⟩
          · simp only at d1 d4; rw [d1] at e1; simp at e1; rw [← e1.1, d4]; simp [createBlob]
          · simp only at d1; rw [d1] at e1; simp at e1
      have hgeo : fs'.geo = s.fs.geo := e4.geo.trans hinv.geo.symm
      intro b
      simp only [hnone, Option.isSome_none, Bool.false_eq_true, if_false, List.lookup_cons]
      by_cases hba : b = a'
      · subst hba; simp
      · have : (b == a') = false := by simpa using hba
        rw [this]
        simp only [List.mem_cons, hba, false_or, t]
        by_cases hbl : b ∈ live
        · simp only [hbl, if_true, Option.some.injEq]
          have : blobOf s.fs.geo b < s.fs.blobs.length := by
            obtain ⟨x, hx, _⟩ := (bits' hinv b).mp hbl
            rw [List.getElem?_eq_some_iff] at hx
            have hg' : s.fs.geo = g := hinv.geo
            rw [hg', blobOf_eq]; exact hx.1
          have h2 : blobOf fs'.geo b < fs'.blobs.length := by rw [hgeo]; omega
          unfold access
          rw [if_pos this, if_pos h2, hgeo]
        · simp [hbl]
    | @free s live a hr hl ih =>
      obtain ⟨r, t⟩ := ih
      have hinv := reach_inv hg r
      have hstep := Reach.step (.free a) r hl
      refine ⟨hstep, ?_⟩
      intro b
      unfold Alloc.free
      simp only
      rw [lookup_filter_ne, t]
      have hnd : live.Nodup := hinv.nodup
      have hme : b ∈ live.erase a ↔ b ≠ a ∧ b ∈ live := hnd.mem_erase_iff
      have hacc : access (free s.fs a) b = access s.fs b := by
        have h1 : (free s.fs a).geo = s.fs.geo := by
          unfold free; split
          · rfl
          · split <;> rfl
        have h2 : (free s.fs a).blobs.length = s.fs.blobs.length := by
          unfold free; split
          · rfl
          · split <;> simp
        unfold access; rw [h1, h2]
      rw [hacc]
      by_cases hba : b = a
      · have : ¬ b ∈ live.erase a := fun h => (hme.mp h).1 hba
        rw [if_neg this]; simp [hba]
      · by_cases hbl : b ∈ live
        · rw [if_pos (hme.mpr ⟨hba, hbl⟩)]; simp [hba, hbl]
        · have : ¬ b ∈ live.erase a := fun h => hbl (hme.mp h).2
          rw [if_neg this]; simp [hbl]
  rw [Alloc.physicalAddr, (key s live h).2 a]
  split <;> simp

example : ∃ s', Alloc.alloc ⟨initFS ⟨0, 6, 4, 2, 1, false⟩, []⟩ [0] [0, 1] = (s', some 0) ∧
    s'.physicalAddr 0 = some (0, 0) ∧ (s'.free 0).physicalAddr 0 = none := ⟨_, rfl, by decide, by decide⟩

end Verif.ZenFS
