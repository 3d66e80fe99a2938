import Verif.Shard.Merged
import Verif.Shard.Tp
namespace Verif.Shard
open Verif.Tensor
variable {α : Type}

/-- Start of piece `j`. -/
def startOf (sizes : List Nat) (j : Nat) : Nat := (sizes.take j).sum

/-- Specification: the pieces laid end to end along dimension `d`. -/
def catAt (d : Nat) : List (Tn α) → List Nat → Option α
  | [], _ => none
  | t :: ts, ix =>
    if ix.getD d 0 < t.shape.getD d 0 then some (t.get ix)
    else catAt d ts (ix.set d (ix.getD d 0 - t.shape.getD d 0))

/-- Specification: `P` is the concatenation of the pieces along dimension `d`. -/
def IsConcat (d : Nat) (ts : List (Tn α)) (P : Tn α) : Prop :=
  P.shape.getD d 0 = (ts.map (fun t => t.shape.getD d 0)).sum ∧
  ∀ ix, InB P.shape ix → catAt d ts ix = some (P.get ix)

theorem inB_length : ∀ {sh ix : List Nat}, InB sh ix → ix.length = sh.length
  | [], [], _ => rfl
  | [], _ :: _, h => by cases h
  | _ :: _, [], h => by cases h
  | _ :: sh, _ :: ix, h => by simp [inB_length h.2]

theorem inB_getD : ∀ {sh ix : List Nat} {d : Nat}, InB sh ix → d < sh.length → ix.getD d 0 < sh.getD d 0
  | [], _, d, _, h => by simp at h
  | _ :: _, [], _, h, _ => by cases h
  | s :: sh, i :: ix, 0, h, _ => by simpa using h.1
  | s :: sh, i :: ix, d + 1, h, hd => by
    have := inB_getD h.2 (by simpa using hd)
    simpa using this

theorem set_set_getD {ix : List Nat} {d a : Nat} (h : d < ix.length) : (ix.set d a).getD d 0 = a := by
  simp [List.getD, h]

theorem catAt_piece (d : Nat) : ∀ (ts : List (Tn α)) (ix : List Nat) (j : Nat) (t : Tn α),
    d < ix.length → ts[j]? = some t →
    startOf (ts.map (fun t => t.shape.getD d 0)) j ≤ ix.getD d 0 →
    ix.getD d 0 < startOf (ts.map (fun t => t.shape.getD d 0)) j + t.shape.getD d 0 →
    catAt d ts ix = some (t.get (ix.set d (ix.getD d 0 - startOf (ts.map (fun t => t.shape.getD d 0)) j)))
  | [], _, _, _, _, h, _, _ => by simp at h
  | u :: us, ix, 0, t, hd, h, h1, h2 => by
    simp only [List.getElem?_cons_zero, Option.some.injEq] at h
    subst h
    simp only [startOf, List.take_zero, List.sum_nil, Nat.zero_add, Nat.sub_zero] at h2 ⊢
    unfold catAt
    rw [if_pos h2]
    congr 2
    rw [List.getD_eq_getElem _ _ hd, List.set_getElem_self]
  | u :: us, ix, j + 1, t, hd, h, h1, h2 => by
    simp only [List.getElem?_cons_succ] at h
    have hs : startOf ((u :: us).map (fun t => t.shape.getD d 0)) (j + 1)
        = u.shape.getD d 0 + startOf (us.map (fun t => t.shape.getD d 0)) j := by
      simp [startOf]
    rw [hs] at h1 h2 ⊢
    unfold catAt
    rw [if_neg (by omega)]
    have hl : d < (ix.set d (ix.getD d 0 - u.shape.getD d 0)).length := by simpa using hd
    have hg := set_set_getD (a := ix.getD d 0 - u.shape.getD d 0) hd
    rw [catAt_piece d us _ j t hl h (by rw [hg]; omega) (by rw [hg]; omega), hg, List.set_set]
    congr 3
    omega

theorem startOf_succ (sizes : List Nat) (j : Nat) (hj : j < sizes.length) :
    startOf sizes (j + 1) = startOf sizes j + sizes.getD j 0 := by
  unfold startOf
  rw [List.take_add_one, List.sum_append, List.getElem?_eq_getElem hj, List.getD_eq_getElem _ _ hj]
  simp

theorem startOf_mono (sizes : List Nat) {i j : Nat} (h : i ≤ j) : startOf sizes i ≤ startOf sizes j := by
  unfold startOf
  have : sizes.take j = sizes.take i ++ (sizes.drop i).take (j - i) := by
    conv_lhs => rw [show j = i + (j - i) by omega, List.take_add]
  rw [this, List.sum_append]; omega

theorem startOf_le (sizes : List Nat) (j : Nat) : startOf sizes j ≤ sizes.sum := by
  unfold startOf
  conv_rhs => rw [← List.take_append_drop j sizes, List.sum_append]
  omega

/-- Every position along the output dimension belongs to a piece. -/
theorem piece_of (sizes : List Nat) {x : Nat} (h : x < sizes.sum) :
    ∃ j, j < sizes.length ∧ startOf sizes j ≤ x ∧ x < startOf sizes j + sizes.getD j 0 := by
  induction sizes generalizing x with
  | nil => simp at h
  | cons s ss ih =>
    by_cases hx : x < s
    · exact ⟨0, by simp, by simp [startOf], by simpa [startOf] using hx⟩
    · obtain ⟨j, h1, h2, h3⟩ := ih (x := x - s) (by simp at h; omega)
      refine ⟨j + 1, by simpa using h1, ?_, ?_⟩
      · simp only [startOf, List.take_succ_cons, List.sum_cons] at h2 ⊢; omega
      · simp only [startOf, List.take_succ_cons, List.sum_cons, List.getD_cons_succ] at h3 ⊢; omega

/-- One shard whose offset is right lands there. -/
theorem load_piece [NatCast α] {m : Merged} {param t : Tn α} {d off : Nat} {id : ShardId}
    (hd : d < param.shape.length) (hs : t.shape = param.shape.set d (t.shape.getD d 0))
    (ho : m.offset (param.shape.getD d 0) (t.shape.getD d 0) id = some (off : Int))
    (hfit : off + t.shape.getD d 0 ≤ param.shape.getD d 0) :
    ∃ q, m.load param (some d) t (some id) = some q ∧ q.shape = param.shape ∧
      ∀ ix, q.get ix = if off ≤ ix.getD d 0 ∧ ix.getD d 0 < off + t.shape.getD d 0
        then t.get (ix.set d (ix.getD d 0 - off)) else param.get ix := by
  have hl : t.shape.length = param.shape.length := by
    have := congrArg List.length hs
    simpa using this
  unfold Merged.load
  simp only
  rw [if_neg (by omega), ho]
  simp only
  rw [narrow_ok hd hfit]
  simp only
  rw [if_pos hs.symm]
  refine ⟨_, rfl, rfl, fun ix => ?_⟩
  unfold Tn.write
  simp only [show ¬ ((off : Int) < 0) by omega, if_false, Int.toNat_natCast]

/-- Loading shards in any order, any number of times: the regions named so far hold their pieces. -/
theorem loadAll_spec [NatCast α] {m : Merged} {d : Nat} {sh sizes : List Nat} {ts : List (Tn α)} {ids : List ShardId}
    (hd : d < sh.length) (hsz : sizes = ts.map (fun t => t.shape.getD d 0)) (hsum : sizes.sum = sh.getD d 0)
    (hts : ∀ t ∈ ts, t.shape = sh.set d (t.shape.getD d 0))
    (hoff : ∀ j t id, ts[j]? = some t → ids[j]? = some id →
      m.offset (sh.getD d 0) (t.shape.getD d 0) id = some (startOf sizes j : Int)) :
    ∀ (loads : List (ShardId × Tn α)) (param : Tn α), param.shape = sh →
      (∀ e ∈ loads, ∃ j : Nat, ids[j]? = some e.1 ∧ ts[j]? = some e.2) →
      ∃ q, m.loadAll param (some d) loads = some q ∧ q.shape = sh ∧
        ∀ j t, ts[j]? = some t → ((∃ e ∈ loads, ids[j]? = some e.1 ∧ ts[j]? = some e.2) ∨
            ∀ ix, InB sh ix → startOf sizes j ≤ ix.getD d 0 → ix.getD d 0 < startOf sizes j + t.shape.getD d 0 →
              param.get ix = t.get (ix.set d (ix.getD d 0 - startOf sizes j))) →
          ∀ ix, InB sh ix → startOf sizes j ≤ ix.getD d 0 → ix.getD d 0 < startOf sizes j + t.shape.getD d 0 →
            q.get ix = t.get (ix.set d (ix.getD d 0 - startOf sizes j))
  | [], param, hp, _ => by
    refine ⟨param, rfl, hp, fun j t ht hor ix hix h1 h2 => ?_⟩
    rcases hor with ⟨e, he, _⟩ | h
    · cases he
    · exact h ix hix h1 h2
  | (id, t0) :: rest, param, hp, hall => by
    obtain ⟨j0, hj1, hj2⟩ := hall (id, t0) List.mem_cons_self
    have hsz0 : sizes.getD j0 0 = t0.shape.getD d 0 := by
      rw [hsz]; simp only at hj2; simp [List.getD, List.getElem?_map, hj2]
    have hj0l : j0 < sizes.length := by
      rw [hsz]; simpa using (List.getElem?_eq_some_iff.1 hj2).1
    have hfit : startOf sizes j0 + t0.shape.getD d 0 ≤ param.shape.getD d 0 := by
      rw [hp, ← hsum, ← hsz0, ← startOf_succ _ _ hj0l]; exact startOf_le _ _
    obtain ⟨q1, g1, g2, g3⟩ := load_piece (m := m) (param := param) (t := t0) (d := d)
      (off := startOf sizes j0) (id := id) (by rw [hp]; exact hd)
      (by rw [hp]; exact hts t0 (List.mem_of_getElem? hj2)) (by rw [hp]; exact hoff j0 t0 id hj2 hj1) hfit
    obtain ⟨q, h1, h2, h3⟩ := loadAll_spec hd hsz hsum hts hoff rest q1 (by rw [g2, hp])
      (fun e he => hall e (List.mem_cons_of_mem _ he))
    refine ⟨q, ?_, h2, fun j t ht hor => h3 j t ht ?_⟩
    · unfold Merged.loadAll; rw [g1]; exact h1
    · by_cases hlater : ∃ e ∈ rest, ids[j]? = some e.1 ∧ ts[j]? = some e.2
      · exact Or.inl hlater
      · right
        intro ix hix a b
        rw [g3 ix]
        by_cases hjj : j = j0
        · subst hjj
          rw [hj2] at ht
          cases ht
          rw [if_pos ⟨a, b⟩]
        · have hszj : sizes.getD j 0 = t.shape.getD d 0 := by
            rw [hsz]; simp [List.getD, List.getElem?_map, ht]
          have hjl : j < sizes.length := by
            rw [hsz]; simpa using (List.getElem?_eq_some_iff.1 ht).1
          have hdis : ¬ (startOf sizes j0 ≤ ix.getD d 0 ∧ ix.getD d 0 < startOf sizes j0 + t0.shape.getD d 0) := by
            rintro ⟨c1, c2⟩
            rcases Nat.lt_or_ge j j0 with hlt | hge
            · have e1 := startOf_mono sizes (show j + 1 ≤ j0 from hlt)
              rw [startOf_succ _ _ hjl, hszj] at e1
              omega
            · have e1 := startOf_mono sizes (show j0 + 1 ≤ j by omega)
              rw [startOf_succ _ _ hj0l, hsz0] at e1
              omega
          rw [if_neg hdis]
          rcases hor with ⟨e, he, e1, e2⟩ | h
          · rcases List.mem_cons.1 he with rfl | he
            · -- the same tensor was named with index j too: then the regions agree anyway
              exfalso
              simp only at e1 e2
              have o1 := hoff j t0 id e2 e1
              have o2 := hoff j0 t0 id hj2 hj1
              rw [o1] at o2
              simp only [Option.some.injEq, Int.natCast_inj] at o2
              rw [ht] at e2
              cases e2
              exact hdis ⟨by omega, by omega⟩
            · exact absurd ⟨e, he, e1, e2⟩ hlater
          · exact h ix hix a b

/-- All shards loaded: the parameter is the concatenation. -/
theorem loadAll_concat [NatCast α] {m : Merged} {d : Nat} {sh : List Nat} {ts : List (Tn α)} {ids : List ShardId}
    (hd : d < sh.length) (hsum : (ts.map (fun t => t.shape.getD d 0)).sum = sh.getD d 0)
    (hts : ∀ t ∈ ts, t.shape = sh.set d (t.shape.getD d 0))
    (hlen : ids.length = ts.length)
    (hoff : ∀ j t id, ts[j]? = some t → ids[j]? = some id →
      m.offset (sh.getD d 0) (t.shape.getD d 0) id
        = some (startOf (ts.map (fun t => t.shape.getD d 0)) j : Int))
    {loads : List (ShardId × Tn α)} {param : Tn α} (hp : param.shape = sh)
    (hfrom : ∀ e ∈ loads, e ∈ ids.zip ts) (hall : ∀ e ∈ ids.zip ts, e ∈ loads) :
    ∃ q, m.loadAll param (some d) loads = some q ∧ q.shape = sh ∧ IsConcat d ts q := by
  obtain ⟨q, h1, h2, h3⟩ := loadAll_spec (m := m) hd rfl hsum hts hoff loads param hp (by
    intro e he
    obtain ⟨j, hj⟩ := List.mem_iff_getElem?.1 (hfrom e he)
    rw [List.getElem?_zip_eq_some] at hj
    exact ⟨j, hj.1, hj.2⟩)
  refine ⟨q, h1, h2, ?_, fun ix hix => ?_⟩
  · rw [h2, hsum]
  · rw [h2] at hix
    have hx := inB_getD hix hd
    obtain ⟨j, hj, a, b⟩ := piece_of (ts.map (fun t => t.shape.getD d 0)) (x := ix.getD d 0) (by rw [hsum]; exact hx)
    have hjt : j < ts.length := by simpa using hj
    have ht : ts[j]? = some ts[j] := List.getElem?_eq_getElem hjt
    have hsz : (ts.map (fun t => t.shape.getD d 0)).getD j 0 = ts[j].shape.getD d 0 := by
      simp [List.getD, hjt]
    rw [hsz] at b
    rw [catAt_piece d ts ix j _ (by rw [inB_length hix]; exact hd) ht a b]
    congr 1
    refine (h3 j _ ht (Or.inl ?_) ix hix a b).symm
    have hji : j < ids.length := by omega
    refine ⟨(ids[j], ts[j]), hall _ ?_, by simp [hji], ht⟩
    exact List.mem_iff_getElem?.2 ⟨j, by rw [List.getElem?_zip_eq_some]; simp [hji, hjt]⟩

end Verif.Shard
