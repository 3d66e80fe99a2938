import Verif.Marlin.Barrier
import Verif.Marlin.StripeSlices

namespace Verif.Marlin

section
variable {α : Type} (A : Arith α) (fp32 : Bool) (G : Grid)

/-- The slice of block `b` in column `c`. -/
def Grid.sl (b c : Nat) : Slice :=
  ((G.blockSlices b).find? (fun s => s.col == c)).getD ⟨c, 0, 0, 0, 0, 0⟩

theorem find_unique {l : List Slice} (hp : l.Pairwise (fun s s' => s.col < s'.col)) {s : Slice}
    (hs : s ∈ l) : l.find? (fun x => x.col == s.col) = some s := by
  induction l with
  | nil => simp at hs
  | cons a l ih =>
    rw [List.pairwise_cons] at hp
    rcases List.mem_cons.1 hs with rfl | hs'
    · simp
    · have := hp.1 s hs'
      rw [List.find?_cons_of_neg (by simp; omega)]
      exact ih hp.2 hs'

theorem Grid.sl_eq (h : G.Ok) {b : Nat} {s : Slice} (hs : s ∈ G.blockSlices b) :
    G.sl b s.col = s := by
  unfold Grid.sl
  rw [find_unique (G.block_shape h b).2 hs]; rfl

/-- Number of blocks of a column. -/
def Grid.cnt (c : Nat) : Nat := G.lastB c - G.firstB c + 1

/-- The running sum of column `c` after the block with index `n`. -/
def runSum (c : Nat) : Nat → α
  | 0 => A.part (G.sl (G.lastB c) c)
  | n + 1 => A.add (A.part (G.sl (G.lastB c - (n + 1)) c)) (A.st (runSum c n))

/-- The column's result. -/
def colSum (c : Nat) : α := runSum A G c (G.cnt c - 1)

/-- Where a block is with respect to one column. -/
inductive Ph (α : Type)
  | before
  | crit (a : Option α)
  | rel (a : Option α)
  | done

def Blk.ph (B : Blk α) (c : Nat) : Ph α :=
  match B.todo with
  | [] => .done
  | s :: rest =>
    if s.col = c then
      match B.pc with
      | .wait => .before
      | .crit => .crit B.acc
      | .rel => .rel B.acc
      | .out => .done
    else if rest.any (fun x => x.col == c) then .before else .done

theorem ph_other {s : Slice} {rest : List Slice} {pc pc' : Pc} {a a' : Option α} {c : Nat}
    (h : s.col ≠ c) : (Blk.mk (s :: rest) pc a).ph c = (Blk.mk (s :: rest) pc' a').ph c := by
  simp [Blk.ph, h]

theorem ph_pop {s : Slice} {rest : List Slice} {pc : Pc} {a a' : Option α} {c : Nat}
    (h : s.col ≠ c) : (Blk.mk (s :: rest) pc a).ph c = (Blk.mk rest .wait a').ph c := by
  cases rest with
  | nil => simp [Blk.ph, h]
  | cons t r =>
    by_cases ht : t.col = c
    · simp [Blk.ph, h, ht]
    · simp [Blk.ph, h, ht]

theorem ph_fresh {rest : List Slice} {a : Option α} {c : Nat} (h : ∀ s ∈ rest, s.col ≠ c) :
    (Blk.mk rest .wait a).ph c = .done := by
  cases rest with
  | nil => rfl
  | cons t r =>
    have h1 : t.col ≠ c := h t (by simp)
    have h2 : r.any (fun x => x.col == c) = false := by
      rw [List.any_eq_false]; intro x hx; simpa using h x (by simp [hx])
    simp [Blk.ph, h1, h2]

theorem ph_start {l : List Slice} {a : Option α} {c : Nat} (h : ∃ s ∈ l, s.col = c) :
    (Blk.mk l .wait a).ph c = .before := by
  obtain ⟨s, hs, hc⟩ := h
  cases l with
  | nil => simp at hs
  | cons t r =>
    by_cases ht : t.col = c
    · simp [Blk.ph, ht]
    · have : s ∈ r := by
        rcases List.mem_cons.1 hs with rfl | h
        · exact absurd hc ht
        · exact h
      have h2 : r.any (fun x => x.col == c) = true := by
        rw [List.any_eq_true]; exact ⟨s, this, by simpa using hc⟩
      simp [Blk.ph, ht, h2]

/-- The slot of a shared column. -/
def Grid.slotOf (c : Nat) : Int := if fp32 then (G.lockOf c : Int) else c

/-- The state of one shared column: the blocks with index below `n` have added their parts, the
one with index `n` may be at it, the others have not come yet. -/
def ColInv (σ : BSt α) (c : Nat) : Prop :=
  ∃ n ≤ G.cnt c,
    σ.lock (G.lockOf c) = (if n = G.cnt c then 0 else (n : Int)) ∧
    (∀ b, G.firstB c ≤ b → b ≤ G.lastB c → G.lastB c - b < n → (σ.blk b).ph c = .done) ∧
    (∀ b, G.firstB c ≤ b → b ≤ G.lastB c → n < G.lastB c - b → (σ.blk b).ph c = .before) ∧
    (n < G.cnt c →
      (((σ.blk (G.lastB c - n)).ph c = .before ∨
        (σ.blk (G.lastB c - n)).ph c = .crit (some (A.part (G.sl (G.lastB c - n) c)))) ∧
        (0 < n → σ.tmp (G.slotOf fp32 c) = some (A.st (runSum A G c (n - 1))))) ∨
      ((σ.blk (G.lastB c - n)).ph c = .rel (some (runSum A G c n)) ∧
        (n + 1 < G.cnt c → σ.tmp (G.slotOf fp32 c) = some (A.st (runSum A G c n)))))

/-- The whole invariant. -/
structure BInv (lock0 : Int → Int) (σ : BSt α) : Prop where
  suffix : ∀ b, ∃ pre, (if b < G.blocks then G.blockSlices b else []) = pre ++ (σ.blk b).todo
  col : ∀ c, c < G.cols → 1 < G.cnt c → ColInv A fp32 G σ c
  pcs : ∀ b s rest pc a, σ.blk b = ⟨s :: rest, pc, a⟩ → (pc = .crit ∨ pc = .rel) → 1 < G.cnt s.col
  empty : ∀ b, (σ.blk b).todo = [] → (σ.blk b).pc = .wait
  out : ∀ b s rest a, σ.blk b = ⟨s :: rest, .out, a⟩ →
    ∃ v, a = some v ∧ (b = G.firstB s.col → v = colSum A G s.col)
  res : ∀ c, c < G.cols → σ.res c = none ∨ σ.res c = some (colSum A G c)
  resDone : ∀ c, c < G.cols → (∀ s ∈ (σ.blk (G.firstB c)).todo, s.col ≠ c) →
    σ.res c = some (colSum A G c)
  others : ∀ l, (∀ c, c < G.cols → 1 < G.cnt c → l ≠ (G.lockOf c : Int)) → σ.lock l = lock0 l

/-- The facts about a slice a block is working on. -/
structure SliceFacts (b : Nat) (s : Slice) : Prop where
  lt : b < G.blocks
  mem : s ∈ G.blockSlices b
  col : s.col < G.cols
  first : G.firstB s.col ≤ b
  last : b ≤ G.lastB s.col
  count : s.count = G.cnt s.col
  idx : s.idx = ((G.lastB s.col - b : Nat) : Int)
  sl : G.sl b s.col = s
  lock : 1 < G.cnt s.col → s.lock = G.lockOf s.col

theorem slice_facts (h : G.Ok) {b : Nat} {s : Slice} (hb : b < G.blocks)
    (hs : s ∈ G.blockSlices b) : SliceFacts G b s := by
  obtain ⟨a2, a3, a4, a5, a6, a7, a8, a9, a10⟩ := (G.block_shape h b).1 s hs
  have hm := G.slice_meets h b s hs
  have hc : s.count = G.cnt s.col := by
    rw [a5, G.count_eq h]; unfold Grid.cnt
    have := G.first_le_last h s.col
    omega
  refine ⟨hb, hs, a2, hm.1, hm.2, hc, ?_, G.sl_eq h hs, fun h1 => G.slice_lock h b s hs (by omega)⟩
  rw [a6, G.idx_eq h b s.col hm]; omega

theorem BInv.facts {A : Arith α} {fp32 : Bool} {G : Grid} {lock0 : Int → Int} (h : G.Ok)
    {σ : BSt α} (hi : BInv A fp32 G lock0 σ) {b : Nat} {s : Slice} {rest : List Slice}
    {pc : Pc} {a : Option α} (hb : σ.blk b = ⟨s :: rest, pc, a⟩) :
    SliceFacts G b s ∧ (∀ x ∈ rest, x.col ≠ s.col) := by
  obtain ⟨pre, hp⟩ := hi.suffix b
  rw [hb] at hp
  by_cases hl : b < G.blocks
  · rw [if_pos hl] at hp
    refine ⟨slice_facts G h hl (by rw [hp]; simp), ?_⟩
    have hpw := (G.block_shape h b).2
    rw [hp, List.pairwise_append] at hpw
    have := List.pairwise_cons.1 hpw.2.1
    intro x hx
    have := this.1 x hx
    omega
  · rw [if_neg hl] at hp
    simp at hp

theorem upd_same {κ β : Type} [DecidableEq κ] (f : κ → β) (k : κ) (v : β) : upd f k v k = v := by
  simp [upd]

theorem upd_ne {κ β : Type} [DecidableEq κ] (f : κ → β) {k x : κ} (v : β) (h : x ≠ k) :
    upd f k v x = f x := by simp [upd, h]

/-- A column is not touched by a step that leaves its phases, its lock and its slot alone. -/
theorem ColInv.frame {A : Arith α} {fp32 : Bool} {G : Grid} {σ τ : BSt α} {c : Nat}
    (hi : ColInv A fp32 G σ c) (hph : ∀ b, (τ.blk b).ph c = (σ.blk b).ph c)
    (hl : τ.lock (G.lockOf c) = σ.lock (G.lockOf c))
    (ht : τ.tmp (G.slotOf fp32 c) = σ.tmp (G.slotOf fp32 c)) : ColInv A fp32 G τ c := by
  unfold ColInv at *
  simp only [hph, hl, ht]
  exact hi

theorem slotOf_inj (h : G.Ok) {c c' : Nat} (h1 : 1 < G.cnt c) (h2 : 1 < G.cnt c')
    (he : G.slotOf fp32 c = G.slotOf fp32 c') : c = c' := by
  unfold Grid.slotOf at he
  have e : ∀ c, 1 < G.cnt c → G.sliceCount c > 1 := by
    intro c hc
    rw [G.count_eq h]; unfold Grid.cnt at hc
    have := G.first_le_last h c
    omega
  split_ifs at he
  · exact G.lockOf_inj h (e c h1) (e c' h2) (by exact_mod_cast he)
  · exact_mod_cast he

theorem lockOf_ne (h : G.Ok) {c c' : Nat} (h1 : 1 < G.cnt c) (h2 : 1 < G.cnt c')
    (hne : c ≠ c') : (G.lockOf c : Int) ≠ G.lockOf c' := by
  intro he
  exact hne (slotOf_inj true G h h1 h2 (by unfold Grid.slotOf; simpa using he))

theorem ph_upd_other {σ : BSt α} {b : Nat} {B : Blk α} {c : Nat} (h : B.ph c = (σ.blk b).ph c)
    (x : Nat) : (upd σ.blk b B x).ph c = (σ.blk x).ph c := by
  by_cases hx : x = b
  · rw [hx, upd_same, h]
  · rw [upd_ne _ _ hx]

/-- A block inside a column, seen from the phase: which index is active. -/
theorem ColInv.active {A : Arith α} {fp32 : Bool} {G : Grid} {σ : BSt α} {c b : Nat}
    (hi : ColInv A fp32 G σ c) (hf : G.firstB c ≤ b) (hl : b ≤ G.lastB c) :
    ∃ n, n ≤ G.cnt c ∧
    (((σ.blk b).ph c ≠ .done → n ≤ G.lastB c - b) ∧
      ((σ.blk b).ph c ≠ .before → G.lastB c - b ≤ n)) ∧
    σ.lock (G.lockOf c) = (if n = G.cnt c then 0 else (n : Int)) ∧
    (∀ b, G.firstB c ≤ b → b ≤ G.lastB c → G.lastB c - b < n → (σ.blk b).ph c = .done) ∧
    (∀ b, G.firstB c ≤ b → b ≤ G.lastB c → n < G.lastB c - b → (σ.blk b).ph c = .before) ∧
    (n < G.cnt c →
      (((σ.blk (G.lastB c - n)).ph c = .before ∨
        (σ.blk (G.lastB c - n)).ph c = .crit (some (A.part (G.sl (G.lastB c - n) c)))) ∧
        (0 < n → σ.tmp (G.slotOf fp32 c) = some (A.st (runSum A G c (n - 1))))) ∨
      ((σ.blk (G.lastB c - n)).ph c = .rel (some (runSum A G c n)) ∧
        (n + 1 < G.cnt c → σ.tmp (G.slotOf fp32 c) = some (A.st (runSum A G c n))))) := by
  obtain ⟨n, hn, h1, h2, h3, h4⟩ := hi
  refine ⟨n, hn, ⟨?_, ?_⟩, h1, h2, h3, h4⟩
  · intro hd; by_contra hc; exact hd (h2 b hf hl (by omega))
  · intro hd; by_contra hc; exact hd (h3 b hf hl (by omega))

end

end Verif.Marlin
