import Verif.Ascend.Model
/-!
C140: the Ascend memory pool hands out disjoint, aligned blocks inside the pool.
-/
namespace Verif.Ascend

/-! ### Specification: a client of the pool -/

/-- The states a pool reaches under calls with requests of at most `lim` bytes, together with what the client
holds: the ids it got and did not pass to `freeBlock` since, with the sizes it asked for.  Any id may be passed
to `freeBlock`, held or not; the iteration order of the free map is arbitrary at every call. -/
inductive Reach (lim base size : Nat) : Pool → List (Int × Nat) → Prop
  | new : Reach lim base size (Pool.new (some base) size) []
  | alloc {p live n ord p' id} : Reach lim base size p live → n ≤ lim → ord.Perm p.free →
      p.alloc ord n = (p', some id) → Reach lim base size p' ((id, n) :: live)
  | allocFail {p live n ord p'} : Reach lim base size p live → n ≤ lim → ord.Perm p.free →
      p.alloc ord n = (p', none) → Reach lim base size p' live
  | free {p live} (id : Int) : Reach lim base size p live →
      Reach lim base size (p.freeBlock id) (live.filter (fun e => decide (e.1 ≠ id)))

/-- Two address ranges do not meet. -/
def Apart (a n b m : Nat) : Prop := a + n ≤ b ∨ b + m ≤ a

/-! ### Invariant -/

structure BlockOk (p : Pool) (b : Block) : Prop where
  idNat : ∃ k : Nat, b.id = k ∧ k < p.next
  lo : p.base ≤ b.addr
  hi : b.addr + b.size ≤ p.cur
  al : b.addr % 64 = 0
  s32 : 32 ≤ b.size

structure Inv (base size : Nat) (p : Pool) : Prop where
  hb : p.base = base
  hs : p.poolSize = size
  blocks : ∀ b ∈ p.used ++ p.free, BlockOk p b
  ids : ((p.used ++ p.free).map (·.id)).Nodup
  apart : (p.used ++ p.free).Pairwise (fun a b => Apart a.addr a.size b.addr b.size)
  rem : (p.cur : Int) + p.remain = base + size
  rem0 : 0 ≤ p.remain
  rem32 : p.remain % 32 = 0
  cur32 : p.cur % 32 = 0
  curlo : base + p.next * 32 ≤ p.cur
  req : ∀ b ∈ p.used, b.req + 32 ≤ b.size

theorem alignSize_le {n : Nat} (h : n ≤ 2 ^ 32 - 64) : n + 32 ≤ alignSize n ∧ alignSize n % 32 = 0 ∧ alignSize n < 2 ^ 32 := by
  unfold alignSize
  norm_num at *
  omega

theorem toInt32_nat {n : Nat} (h : n < 2 ^ 31) : toInt32 n = n := by
  unfold toInt32
  norm_num at *
  omega

/-- The best-fit loop returns a smallest fitting block of the list, if there is one. -/
theorem bestLoop_spec (align : Nat) : ∀ (l : List Block) (acc : Option Block × Nat),
    (∀ b ∈ l, b.size < sizeMax) → (acc.1 = none → acc.2 = sizeMax) → (∀ b ∈ acc.1, acc.2 = b.size) →
    (match (bestLoop align l acc).1 with
      | none => acc.1 = none ∧ ∀ b ∈ l, b.size < align
      | some b => ((b ∈ l ∧ align ≤ b.size) ∨ acc.1 = some b) ∧ (∀ x ∈ l, align ≤ x.size → b.size ≤ x.size) ∧ b.size ≤ acc.2)
  | [], acc, _, _, h2 => by
    unfold bestLoop
    cases h : acc.1 with
    | none => exact ⟨rfl, by simp⟩
    | some b => exact ⟨Or.inr rfl, by simp, by rw [h2 b h]⟩
  | b :: rest, acc, hl, h1, h2 => by
    unfold bestLoop
    by_cases hf : align ≤ b.size
    · rw [if_pos hf]
      by_cases hlt : b.size < acc.2
      · rw [if_pos hlt]
        have ih := bestLoop_spec align rest (some b, b.size) (fun x hx => hl x (List.mem_cons_of_mem _ hx))
          (fun h => by cases h) (fun x hx => by cases hx; rfl)
        cases hr : (bestLoop align rest (some b, b.size)).1 with
        | none => rw [hr] at ih; exact absurd ih.1 (by simp)
        | some c =>
          rw [hr] at ih
          simp only at ih ⊢
          refine ⟨?_, ?_, le_trans ih.2.2 hlt.le⟩
          · rcases ih.1 with ⟨g1, g2⟩ | g
            · exact Or.inl ⟨List.mem_cons_of_mem _ g1, g2⟩
            · cases g; exact Or.inl ⟨List.mem_cons_self, hf⟩
          · intro x hx hxa
            rcases List.mem_cons.1 hx with rfl | hx
            · exact ih.2.2
            · exact ih.2.1 x hx hxa
      · rw [if_neg hlt]
        have ih := bestLoop_spec align rest acc (fun x hx => hl x (List.mem_cons_of_mem _ hx)) h1 h2
        cases hr : (bestLoop align rest acc).1 with
        | none =>
          rw [hr] at ih
          simp only at ih
          exfalso
          have := h1 ih.1
          have := hl b List.mem_cons_self
          omega
        | some c =>
          rw [hr] at ih
          simp only at ih ⊢
          refine ⟨?_, ?_, ih.2.2⟩
          · rcases ih.1 with ⟨g1, g2⟩ | g
            · exact Or.inl ⟨List.mem_cons_of_mem _ g1, g2⟩
            · exact Or.inr g
          · intro x hx hxa
            rcases List.mem_cons.1 hx with rfl | hx
            · exact le_trans ih.2.2 (not_lt.1 hlt)
            · exact ih.2.1 x hx hxa
    · rw [if_neg hf]
      have ih := bestLoop_spec align rest acc (fun x hx => hl x (List.mem_cons_of_mem _ hx)) h1 h2
      cases hr : (bestLoop align rest acc).1 with
      | none =>
        rw [hr] at ih
        refine ⟨ih.1, fun x hx => ?_⟩
        rcases List.mem_cons.1 hx with rfl | hx
        · omega
        · exact ih.2 x hx
      | some c =>
        rw [hr] at ih
        simp only at ih ⊢
        refine ⟨?_, ?_, ih.2.2⟩
        · rcases ih.1 with ⟨g1, g2⟩ | g
          · exact Or.inl ⟨List.mem_cons_of_mem _ g1, g2⟩
          · exact Or.inr g
        · intro x hx hxa
          rcases List.mem_cons.1 hx with rfl | hx
          · exact absurd hxa hf
          · exact ih.2.1 x hx hxa

/-- What `allocateBlock` picks. -/
theorem best_spec (align : Nat) {l : List Block} (hl : ∀ b ∈ l, b.size < sizeMax) :
    match (bestLoop align l (none, sizeMax)).1 with
    | none => ∀ b ∈ l, b.size < align
    | some b => b ∈ l ∧ align ≤ b.size ∧ ∀ x ∈ l, align ≤ x.size → b.size ≤ x.size := by
  have := bestLoop_spec align l (none, sizeMax) hl (fun _ => rfl) (fun b hb => by cases hb)
  cases h : (bestLoop align l (none, sizeMax)).1 with
  | none => rw [h] at this; exact this.2
  | some b =>
    rw [h] at this
    simp only at this ⊢
    rcases this.1 with ⟨g1, g2⟩ | g
    · exact ⟨g1, g2, this.2.1⟩
    · cases g

/-! ### List surgery -/

theorem ins_new {l : List Block} {b : Block} (h : b.id ∉ l.map (·.id)) : ins l b = b :: l := by
  unfold ins
  rw [if_neg]
  simp only [List.any_eq_true, decide_eq_true_eq, not_exists, not_and]
  intro x hx he
  exact h (List.mem_map.2 ⟨x, hx, he⟩)

theorem find_some {l : List Block} {id : Int} {b : Block} (h : find l id = some b) : b ∈ l ∧ b.id = id :=
  ⟨List.mem_of_find?_eq_some h, by simpa using List.find?_some h⟩

theorem find_none {l : List Block} {id : Int} (h : find l id = none) : ∀ b ∈ l, b.id ≠ id := by
  intro b hb he
  have := List.find?_eq_none.1 h b hb
  simp [he] at this

theorem find_mem {l : List Block} {b : Block} (hn : (l.map (·.id)).Nodup) (h : b ∈ l) : find l b.id = some b := by
  induction l with
  | nil => cases h
  | cons x l ih =>
    simp only [List.map_cons, List.nodup_cons] at hn
    unfold find
    rw [List.find?_cons]
    by_cases hx : x.id = b.id
    · rcases List.mem_cons.1 h with rfl | h
      · simp
      · exact absurd (List.mem_map.2 ⟨b, h, rfl⟩) (hx ▸ hn.1)
    · rw [decide_eq_false hx]
      rcases List.mem_cons.1 h with rfl | h
      · exact absurd rfl hx
      · exact ih hn.2 h

/-- Erasing the block with this id: the list is a permutation of that block and the rest. -/
theorem del_perm {l : List Block} {b : Block} (hn : (l.map (·.id)).Nodup) (h : b ∈ l) : l.Perm (b :: del l b.id) := by
  induction l with
  | nil => cases h
  | cons x l ih =>
    simp only [List.map_cons, List.nodup_cons] at hn
    rcases List.mem_cons.1 h with rfl | h
    · unfold del
      rw [List.filter_cons_of_neg (by simp), List.filter_eq_self.2]
      intro y hy
      simp only [ne_eq, decide_not, Bool.not_eq_eq_eq_not, Bool.not_true, decide_eq_false_iff_not]
      intro he
      exact hn.1 (List.mem_map.2 ⟨y, hy, he⟩)
    · have hx : x.id ≠ b.id := fun he => hn.1 (List.mem_map.2 ⟨b, h, he.symm⟩)
      unfold del
      rw [List.filter_cons_of_pos (by simpa using hx)]
      exact ((ih hn.2 h).cons x).trans (List.Perm.swap ..)

theorem apart_symm {a b : Block} (h : Apart a.addr a.size b.addr b.size) : Apart b.addr b.size a.addr a.size := h.symm

/-- The invariant only looks at the blocks as a collection. -/
theorem inv_of_perm {base size : Nat} {p q : Pool} (h : Inv base size p) (hp : (q.used ++ q.free).Perm (p.used ++ p.free))
    (h1 : q.base = p.base) (h2 : q.poolSize = p.poolSize) (h3 : q.next = p.next) (h4 : q.cur = p.cur)
    (h5 : q.remain = p.remain) (hreq : ∀ b ∈ q.used, b.req + 32 ≤ b.size) : Inv base size q := by
  refine ⟨h1.trans h.hb, h2.trans h.hs, fun b hb => ?_, ?_, ?_, ?_, ?_, ?_, ?_, ?_, hreq⟩
  · have := h.blocks b (hp.mem_iff.1 hb)
    exact ⟨by rw [h3]; exact this.idNat, by rw [h1]; exact this.lo, by rw [h4]; exact this.hi, this.al, this.s32⟩
  · exact (hp.map _).nodup_iff.2 h.ids
  · exact (hp.pairwise_iff (fun h => h.symm)).2 h.apart
  · rw [h4, h5]; exact h.rem
  · rw [h5]; exact h.rem0
  · rw [h5]; exact h.rem32
  · rw [h4]; exact h.cur32
  · rw [h3, h4]; exact h.curlo

/-- Changing what is written in a block besides id, size and address. -/
def Block.touch (b : Block) (size seq : Nat) : Block := { b with req := size, seq := seq, reuse := b.reuse + 1 }

theorem up64_spec {x : Nat} (h : x % 32 = 0) : x ≤ up64 x ∧ up64 x ≤ x + 32 ∧ up64 x % 64 = 0 := by
  unfold up64
  omega

theorem fresh_arith {cur base size next a u : Nat} {rem : Int} (h1 : (cur : Int) + rem = base + size) (h2 : rem % 32 = 0)
    (h3 : cur % 32 = 0) (h4 : a % 32 = 0) (h5 : (a : Int) < rem) (h6 : base + next * 32 ≤ cur) (h7 : 32 ≤ a)
    (h8 : cur ≤ u) (h9 : u ≤ cur + 32) (h10 : u % 64 = 0) :
    ((u + a : Nat) : Int) + (rem - ((u : Int) - cur) - a) = base + size ∧ 0 ≤ rem - ((u : Int) - cur) - a ∧
      (rem - ((u : Int) - cur) - a) % 32 = 0 ∧ (u + a) % 32 = 0 ∧ base + (next + 1) * 32 ≤ u + a := by
  refine ⟨by push_cast; omega, by omega, by omega, by omega, by omega⟩

attribute [local irreducible] alignSize toInt32 up64 sizeMax

theorem inv_new {base size : Nat} (hb : base % 32 = 0) (hs : size % 32 = 0) : Inv base size (Pool.new (some base) size) := by
  refine ⟨rfl, rfl, ?_, ?_, ?_, ?_, ?_, ?_, hb, ?_, ?_⟩
  · intro b h; cases h
  · exact List.nodup_nil
  · exact List.Pairwise.nil
  · show (base : Int) + (size : Int) = base + size; rfl
  · show (0 : Int) ≤ (size : Int); omega
  · show (size : Int) % 32 = 0; omega
  · show base + 0 * 32 ≤ base; omega
  · intro b h; cases h

theorem block_bound {base size : Nat} {p : Pool} (h : Inv base size p) {b : Block} (hb : b ∈ p.used ++ p.free) :
    b.addr + b.size ≤ base + size := by
  have h1 := (h.blocks b hb).hi
  have h2 := h.rem
  have h3 := h.rem0
  omega

/-- What a successful `allocateBlock` returns and how the pool changes. -/
theorem alloc_inv {base size : Nat} {p p' : Pool} {ord : List Block} {n : Nat} {r : Option Int}
    (h : Inv base size p) (hsz : base + size < 2 ^ 63) (hsz' : size < 2 ^ 36)
    (ho : ord.Perm p.free) (hn : n ≤ 2 ^ 32 - 64) (ha : p.alloc ord n = (p', r)) :
    Inv base size p' ∧
    match r with
    | none => p'.used = p.used ∧ p'.free = p.free ∧ (∀ b ∈ p.free, b.size < alignSize n) ∧ p.remain ≤ alignSize n
    | some id => ∃ b, b.id = id ∧ b.req = n ∧ p'.used = b :: p.used ∧ id ∉ p.used.map (·.id) ∧
        ((∃ c ∈ p.free, b = c.touch n (p.allocs + 1) ∧ p'.free = del p.free id ∧ alignSize n ≤ c.size ∧
            ∀ x ∈ p.free, alignSize n ≤ x.size → c.size ≤ x.size) ∨
          (p'.free = p.free ∧ b.size = alignSize n ∧ p.base + p.next * 32 ≤ b.addr ∧ (∀ x ∈ p.free, x.size < alignSize n) ∧
            p'.next = p.next + 1 ∧ id = p.next)) := by
  obtain ⟨a1, a2, a3⟩ := alignSize_le hn
  have hsmall : ∀ b ∈ ord, b.size < sizeMax := by
    intro b hb
    have := block_bound h (List.mem_append_right _ (ho.mem_iff.1 hb))
    unfold sizeMax
    omega
  have hbest := best_spec (alignSize n) hsmall
  unfold Pool.alloc at ha
  simp only at ha
  cases hx : (bestLoop (alignSize n) ord (none, sizeMax)).1 with
  | some c =>
    rw [hx] at ha hbest
    simp only [Prod.mk.injEq] at ha hbest
    obtain ⟨rfl, rfl⟩ := ha
    obtain ⟨hc, hcs, hmin⟩ := hbest
    have hcf : c ∈ p.free := ho.mem_iff.1 hc
    have hidn := h.ids
    rw [List.map_append, List.nodup_append'] at hidn
    have hnu : c.id ∉ p.used.map (·.id) := fun hm => hidn.2.2 hm (List.mem_map.2 ⟨c, hcf, rfl⟩)
    have hused : ins p.used (c.touch n (p.allocs + 1)) = c.touch n (p.allocs + 1) :: p.used := ins_new hnu
    have hdel := del_perm hidn.2.1 hcf
    refine ⟨?_, ?_⟩
    · -- the blocks are the same up to bookkeeping
      have hperm : (p.used ++ p.free).Perm (c :: (p.used ++ del p.free c.id)) :=
        ((List.Perm.refl p.used).append hdel).trans List.perm_middle
      have hback : ∀ b ∈ c.touch n (p.allocs + 1) :: (p.used ++ del p.free c.id),
          ∃ b0 ∈ p.used ++ p.free, b.id = b0.id ∧ b.addr = b0.addr ∧ b.size = b0.size := by
        intro b hb
        rcases List.mem_cons.1 hb with rfl | hb
        · exact ⟨c, List.mem_append_right _ hcf, rfl, rfl, rfl⟩
        · exact ⟨b, hperm.mem_iff.2 (List.mem_cons_of_mem _ hb), rfl, rfl, rfl⟩
      refine ⟨h.hb, h.hs, ?_, ?_, ?_, h.rem, h.rem0, h.rem32, h.cur32, h.curlo, ?_⟩
      · intro b hb
        have hb' : b ∈ c.touch n (p.allocs + 1) :: (p.used ++ del p.free c.id) := by
          have : b ∈ ins p.used (c.touch n (p.allocs + 1)) ++ del p.free c.id := hb
          rw [hused] at this
          exact this
        obtain ⟨b0, hb0, e1, e2, e3⟩ := hback b hb'
        have := h.blocks b0 hb0
        exact ⟨by rw [e1]; exact this.idNat, by rw [e2]; exact this.lo, by rw [e2, e3]; exact this.hi,
          by rw [e2]; exact this.al, by rw [e3]; exact this.s32⟩
      · show ((ins p.used (c.touch n (p.allocs + 1)) ++ del p.free c.id).map (·.id)).Nodup
        rw [hused]
        have := (hperm.map (fun b : Block => b.id)).nodup_iff.1 h.ids
        exact this
      · show (ins p.used (c.touch n (p.allocs + 1)) ++ del p.free c.id).Pairwise _
        rw [hused]
        have := (hperm.pairwise_iff (R := fun a b : Block => Apart a.addr a.size b.addr b.size) (fun h => Or.symm h)).1 h.apart
        exact List.pairwise_cons.2 (List.pairwise_cons.1 this)
      · intro b hb
        have hb' : b ∈ ins p.used (c.touch n (p.allocs + 1)) := hb
        rw [hused] at hb'
        rcases List.mem_cons.1 hb' with rfl | hb'
        · show n + 32 ≤ c.size; omega
        · exact h.req b hb'
    · refine ⟨c.touch n (p.allocs + 1), rfl, rfl, hused, hnu, Or.inl ⟨c, hcf, rfl, rfl, hcs, ?_⟩⟩
      intro x hxm hxa
      exact hmin x (ho.mem_iff.2 hxm) hxa
  | none =>
    rw [hx] at ha hbest
    simp only at ha hbest
    have hfree : ∀ b ∈ p.free, b.size < alignSize n := fun b hb => hbest b (ho.mem_iff.2 hb)
    have hrm : (p.count n).remain = p.remain := rfl
    have hmod : p.remain % 2 ^ 64 = p.remain := by
      have := h.rem; have := h.rem0
      exact Int.emod_eq_of_lt h.rem0 (by omega)
    by_cases hr : hasRoom (p.count n).remain (alignSize n) = true
    · rw [if_pos hr] at ha
      have hlt : (alignSize n : Int) < p.remain := by
        unfold hasRoom at hr
        rw [hrm, hmod] at hr
        simpa using hr
      clear hmod hx hbest
      have hup := up64_spec h.cur32
      have hnext : p.next < 2 ^ 31 := by
        have h1 := h.curlo
        have h2 := h.rem
        have h3 := h.rem0
        clear hlt a1 a2 a3 hn hup
        omega
      have hid : toInt32 p.next = p.next := toInt32_nat hnext
      have hnew : (toInt32 p.next) ∉ (p.used ++ p.free).map (·.id) := by
        rw [hid]
        intro hm
        obtain ⟨b, hb, he⟩ := List.mem_map.1 hm
        obtain ⟨k, hk, hk'⟩ := (h.blocks b hb).idNat
        have : (k : Int) = (p.next : Int) := by rw [← hk]; exact he
        exact absurd (Int.ofNat.inj this) (Nat.ne_of_lt hk')
      have hnu : (toInt32 p.next) ∉ p.used.map (·.id) := fun hm => hnew (by
        rw [List.map_append]; exact List.mem_append_left _ hm)
      obtain ⟨b, hbdef⟩ : ∃ b : Block, b = ⟨toInt32 p.next, alignSize n, n, up64 p.cur, p.allocs + 1, 0⟩ := ⟨_, rfl⟩
      have hused : ins p.used b = b :: p.used := ins_new (by rw [hbdef]; exact hnu)
      simp only [Prod.mk.injEq] at ha
      obtain ⟨rfl, rfl⟩ := ha
      have hfu : ((p.count n).fresh n).used = b :: p.used := by rw [← hused, hbdef]; rfl
      have hff : ((p.count n).fresh n).free = p.free := rfl
      have hfc : ((p.count n).fresh n).cur = up64 p.cur + alignSize n := rfl
      have hfn : ((p.count n).fresh n).next = p.next + 1 := rfl
      have hfr : ((p.count n).fresh n).remain = p.remain - ((up64 p.cur : Int) - p.cur) - alignSize n := rfl
      have hfb : ((p.count n).fresh n).base = p.base := rfl
      have h32 : 32 ≤ alignSize n := le_trans (Nat.le_add_left 32 n) a1
      have har := fresh_arith h.rem h.rem32 h.cur32 a2 hlt h.curlo h32 hup.1 hup.2.1 hup.2.2
      have hcl := h.curlo
      have hbase := h.hb
      refine ⟨⟨h.hb, h.hs, ?_, ?_, ?_, ?_, ?_, ?_, ?_, ?_, ?_⟩, ?_⟩
      · rw [hfu, hff]
        intro x hx
        rcases List.mem_cons.1 hx with rfl | hx
        · rw [hbdef]
          refine ⟨⟨p.next, hid, by rw [hfn]; exact Nat.lt_succ_self _⟩, ?_, ?_, hup.2.2, ?_⟩
          · show ((p.count n).fresh n).base ≤ up64 p.cur
            rw [hfb, h.hb]
            exact le_trans (le_trans (Nat.le_add_right _ _) hcl) hup.1
          · show up64 p.cur + alignSize n ≤ _
            rw [hfc]
          · exact h32
        · have := h.blocks x hx
          obtain ⟨k, k1, k2⟩ := this.idNat
          exact ⟨⟨k, k1, by rw [hfn]; exact Nat.lt_succ_of_lt k2⟩, this.lo, by
            rw [hfc]; exact le_trans (le_trans this.hi hup.1) (Nat.le_add_right _ _), this.al, this.s32⟩
      · rw [hfu, hff, List.cons_append, List.map_cons, List.nodup_cons]
        exact ⟨by rw [hbdef]; exact hnew, h.ids⟩
      · rw [hfu, hff, List.cons_append, List.pairwise_cons]
        refine ⟨fun x hx => ?_, h.apart⟩
        have := (h.blocks x hx).hi
        right
        rw [hbdef]
        exact le_trans this hup.1
      · rw [hfc, hfr]; exact har.1
      · rw [hfr]; exact har.2.1
      · rw [hfr]; exact har.2.2.1
      · rw [hfc]; exact har.2.2.2.1
      · rw [hfc, hfn]; exact har.2.2.2.2
      · rw [hfu]
        intro x hx
        rcases List.mem_cons.1 hx with rfl | hx
        · rw [hbdef]; exact a1
        · exact h.req x hx
      · refine ⟨b, by rw [hbdef]; rfl, by rw [hbdef], hfu, hnu, Or.inr ⟨hff, by rw [hbdef], ?_, hfree, hfn, hid⟩⟩
        rw [hbdef, h.hb]
        exact le_trans hcl hup.1
    · rw [if_neg hr] at ha
      simp only [Prod.mk.injEq] at ha
      obtain ⟨rfl, rfl⟩ := ha
      refine ⟨⟨h.hb, h.hs, fun b hb => ⟨(h.blocks b hb).idNat, (h.blocks b hb).lo, (h.blocks b hb).hi, (h.blocks b hb).al,
        (h.blocks b hb).s32⟩, h.ids, h.apart, h.rem, h.rem0, h.rem32, h.cur32, h.curlo, h.req⟩, rfl, rfl, hfree, ?_⟩
      unfold hasRoom at hr
      rw [hrm, hmod] at hr
      simpa using hr

/-- How `freeBlock` changes the pool. -/
theorem free_inv {base size : Nat} {p : Pool} (h : Inv base size p) (id : Int) :
    Inv base size (p.freeBlock id) ∧ (p.freeBlock id).used = del p.used id ∧
      ∀ b, b ∈ (p.freeBlock id).free ↔ b ∈ p.free ∨ (b ∈ p.used ∧ b.id = id) := by
  have hidn := h.ids
  rw [List.map_append, List.nodup_append'] at hidn
  have hsame : (∀ b ∈ p.used, b.id ≠ id) → del p.used id = p.used := by
    intro hne
    unfold del
    exact List.filter_eq_self.2 (fun b hb => by simpa using hne b hb)
  unfold Pool.freeBlock
  by_cases hneg : id < 0
  · rw [if_pos hneg]
    have hne : ∀ b ∈ p.used, b.id ≠ id := by
      intro b hb he
      obtain ⟨k, k1, _⟩ := (h.blocks b (List.mem_append_left _ hb)).idNat
      omega
    exact ⟨h, (hsame hne).symm, fun b => ⟨Or.inl, fun hb => hb.elim (fun h => h) (fun ⟨h1, h2⟩ => absurd h2 (hne b h1))⟩⟩
  · rw [if_neg hneg]
    cases hf : find p.used id with
    | none =>
      have hne := find_none hf
      exact ⟨h, (hsame hne).symm, fun b => ⟨Or.inl, fun hb => hb.elim (fun h => h) (fun ⟨h1, h2⟩ => absurd h2 (hne b h1))⟩⟩
    | some b =>
      obtain ⟨hb, rfl⟩ := find_some hf
      have hnf : b.id ∉ p.free.map (·.id) := fun hm => hidn.2.2 (List.mem_map.2 ⟨b, hb, rfl⟩) hm
      have hins := ins_new hnf
      have hdel := del_perm hidn.1 hb
      simp only
      rw [hins]
      refine ⟨inv_of_perm h ?_ rfl rfl rfl rfl rfl ?_, trivial, ?_⟩
      · show (del p.used b.id ++ b :: p.free).Perm (p.used ++ p.free)
        exact List.perm_middle.trans ((hdel.symm.append_right p.free))
      · intro x hx
        exact h.req x (List.mem_of_mem_filter hx)
      · intro x
        simp only [List.mem_cons]
        constructor
        · rintro (rfl | hx)
          · exact Or.inr ⟨hb, rfl⟩
          · exact Or.inl hx
        · rintro (hx | ⟨hx, he⟩)
          · exact Or.inr hx
          · left
            have := find_mem hidn.1 hx
            have h2 := find_mem hidn.1 hb
            rw [he, h2] at this
            exact (Option.some.inj this).symm

theorem reach_inv {base size lim : Nat} {p : Pool} {live : List (Int × Nat)} (hb : base % 32 = 0) (hs : size % 32 = 0)
    (hsz : base + size < 2 ^ 63) (hsz' : size < 2 ^ 36) (hlim : lim ≤ 2 ^ 32 - 64)
    (hr : Reach lim base size p live) : Inv base size p ∧ live = p.used.map (fun b => (b.id, b.req)) := by
  induction hr with
  | new => exact ⟨inv_new hb hs, rfl⟩
  | alloc _ hn ho ha ih =>
    obtain ⟨h1, h2⟩ := alloc_inv ih.1 hsz hsz' ho (le_trans hn hlim) ha
    obtain ⟨b, e1, e2, e3, _⟩ := h2
    exact ⟨h1, by rw [e3, List.map_cons, e1, e2, ih.2]⟩
  | allocFail _ hn ho ha ih =>
    obtain ⟨h1, h2⟩ := alloc_inv ih.1 hsz hsz' ho (le_trans hn hlim) ha
    exact ⟨h1, by rw [h2.1, ih.2]⟩
  | free id _ ih =>
    obtain ⟨h1, h2, _⟩ := free_inv ih.1 id
    refine ⟨h1, ?_⟩
    rw [h2, ih.2]
    unfold del
    rw [List.filter_map]
    rfl

/-! ### C140 -/

/-- **C140** (partial: base and pool size multiples of 32, pool below 64 GiB, requests below 4 GiB - 64).  After
every history of calls: each id the client holds has an address; the block there is 64-byte aligned, lies inside
the pool and is at least 32 bytes larger than asked for. -/
theorem C140_inside_partial {base size lim : Nat} {p : Pool} {live : List (Int × Nat)} (hb : base % 32 = 0)
    (hs : size % 32 = 0) (hsz : base + size < 2 ^ 63) (hsz' : size < 2 ^ 36) (hlim : lim ≤ 2 ^ 32 - 64)
    (hr : Reach lim base size p live) {id : Int} {n : Nat} (h : (id, n) ∈ live) :
    ∃ a, p.ptr id = some a ∧ a % 64 = 0 ∧ base ≤ a ∧ a + n + 32 ≤ base + size := by
  obtain ⟨hi, rfl⟩ := reach_inv hb hs hsz hsz' hlim hr
  obtain ⟨b, hbm, he⟩ := List.mem_map.1 h
  simp only [Prod.mk.injEq] at he
  obtain ⟨rfl, rfl⟩ := he
  have hidn := hi.ids
  rw [List.map_append, List.nodup_append'] at hidn
  have hok := hi.blocks b (List.mem_append_left _ hbm)
  obtain ⟨k, k1, _⟩ := hok.idNat
  refine ⟨b.addr, ?_, hok.al, by rw [← hi.hb]; exact hok.lo, ?_⟩
  · unfold Pool.ptr
    rw [if_neg (by omega), find_mem hidn.1 hbm]
    rfl
  · have h1 := hok.hi
    have h2 := hi.req b hbm
    have h3 := hi.rem
    have h4 := hi.rem0
    omega

/-- **C140** (same conditions).  No two blocks the client holds share a byte, and no two have the same id. -/
theorem C140_disjoint_partial {base size lim : Nat} {p : Pool} {live : List (Int × Nat)} (hb : base % 32 = 0)
    (hs : size % 32 = 0) (hsz : base + size < 2 ^ 63) (hsz' : size < 2 ^ 36) (hlim : lim ≤ 2 ^ 32 - 64)
    (hr : Reach lim base size p live) :
    (live.map (·.1)).Nodup ∧
    ∀ id n id' n' a a', (id, n) ∈ live → (id', n') ∈ live → id ≠ id' → p.ptr id = some a → p.ptr id' = some a' →
      Apart a n a' n' := by
  obtain ⟨hi, rfl⟩ := reach_inv hb hs hsz hsz' hlim hr
  have hidn := hi.ids
  rw [List.map_append, List.nodup_append'] at hidn
  refine ⟨by rw [List.map_map]; exact hidn.1, ?_⟩
  intro id n id' n' a a' h h' hne hp hp'
  obtain ⟨b, hbm, he⟩ := List.mem_map.1 h
  obtain ⟨b', hbm', he'⟩ := List.mem_map.1 h'
  simp only [Prod.mk.injEq] at he he'
  obtain ⟨rfl, rfl⟩ := he
  obtain ⟨rfl, rfl⟩ := he'
  have hpt : ∀ x ∈ p.used, ∀ y, p.ptr x.id = some y → y = x.addr := by
    intro x hx y hy
    unfold Pool.ptr at hy
    rw [find_mem hidn.1 hx] at hy
    split at hy
    · cases hy
    · exact (Option.some.inj hy).symm
  rw [hpt b hbm a hp, hpt b' hbm' a' hp']
  have hpw := hi.apart
  rw [List.pairwise_append] at hpw
  have : Apart b.addr b.size b'.addr b'.size := by
    have hpw1 := hpw.1
    have hne' : b ≠ b' := fun h => hne (by rw [h])
    exact List.Pairwise.forall_of_forall_of_flip (R := fun a b => a ≠ b → Apart a.addr a.size b.addr b.size)
      (fun x _ h => absurd rfl h)
      (List.Pairwise.imp (S := fun a b : Block => a ≠ b → Apart a.addr a.size b.addr b.size) (fun h _ => h) hpw1)
      (List.Pairwise.imp (S := fun a b : Block => b ≠ a → Apart b.addr b.size a.addr a.size) (fun h _ => Or.symm h) hpw1)
      hbm hbm' hne'
  have h1 := hi.req b hbm
  have h2 := hi.req b' hbm'
  unfold Apart at this ⊢
  omega

/-- **C142** (best fit).  A request is answered with a smallest free block that can take it (whatever the order
the free map is walked in), and with fresh memory only when no free block can; it is refused only when moreover
the untouched rest of the pool is at most the rounded size. -/
theorem C142_choice_partial {base size lim : Nat} {p p' : Pool} {live : List (Int × Nat)} {n : Nat} {ord : List Block}
    {r : Option Int} (hb : base % 32 = 0) (hs : size % 32 = 0) (hsz : base + size < 2 ^ 63) (hsz' : size < 2 ^ 36)
    (hlim : lim ≤ 2 ^ 32 - 64) (hr : Reach lim base size p live) (hn : n ≤ lim) (ho : ord.Perm p.free)
    (ha : p.alloc ord n = (p', r)) :
    (∀ id, r = some id → (∃ b ∈ p.free, b.id = id ∧ alignSize n ≤ b.size ∧ p'.ptr id = some b.addr ∧
          ∀ x ∈ p.free, alignSize n ≤ x.size → b.size ≤ x.size) ∨
        (id = p.next ∧ ∀ x ∈ p.free, x.size < alignSize n)) ∧
    (r = none → (∀ x ∈ p.free, x.size < alignSize n) ∧ p.remain ≤ alignSize n) := by
  obtain ⟨hi, _⟩ := reach_inv hb hs hsz hsz' hlim hr
  obtain ⟨hi', h⟩ := alloc_inv hi hsz hsz' ho (le_trans hn hlim) ha
  constructor
  · rintro id rfl
    obtain ⟨b, e1, e2, e3, e4, h | h⟩ := h
    · obtain ⟨c, hc, rfl, _, g1, g2⟩ := h
      refine Or.inl ⟨c, hc, e1, g1, ?_, g2⟩
      have hidn := hi'.ids
      rw [List.map_append, List.nodup_append'] at hidn
      have hm : c.touch n (p.allocs + 1) ∈ p'.used := by rw [e3]; exact List.mem_cons_self
      obtain ⟨k, k1, _⟩ := (hi'.blocks _ (List.mem_append_left _ hm)).idNat
      unfold Pool.ptr
      rw [← e1, if_neg (by omega), find_mem hidn.1 hm]
      rfl
    · exact Or.inr ⟨h.2.2.2.2.2, h.2.2.2.1⟩
  · rintro rfl
    exact ⟨h.2.2.1, h.2.2.2⟩

end Verif.Ascend
