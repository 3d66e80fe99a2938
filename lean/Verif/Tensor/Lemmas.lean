import Verif.Tensor.Model
/-
Helper lemmas for the tensor properties.
-/
namespace Verif.Tensor
variable {α : Type}

/-! ### View -/

theorem viewContig_some : ∀ {sh : List Nat} {st : List Int} {c : Nat}, viewContig sh st = some c →
    st = rowStrides sh ∧ c = numel sh
  | [], [], c, h => by simp [viewContig] at h; simp [rowStrides, numel, h]
  | d :: ds, s :: ss, c, h => by
    simp only [viewContig] at h
    cases hc : viewContig ds ss with
    | none => simp [hc] at h
    | some cur =>
      obtain ⟨h1, h2⟩ := viewContig_some hc
      rw [hc] at h
      simp only [Option.bind_eq_bind, Option.bind_some] at h
      split_ifs at h with h3 h4 <;> simp only [Option.some.injEq] at h
      · refine ⟨by simp [rowStrides, ← h1, ← h2, not_not.mp h3], by
          rw [← h, h2, numel, Nat.mul_comm]⟩
      · refine ⟨by simp [rowStrides, ← h1, ← h2, not_not.mp h3], by
          rw [← h, h2, numel, not_not.mp h4, Nat.one_mul]⟩
  | [], _ :: _, _, h => by simp [viewContig] at h
  | _ :: _, [], _, h => by simp [viewContig] at h

theorem viewContig_row : ∀ sh : List Nat, viewContig sh (rowStrides sh) = some (numel sh)
  | [] => rfl
  | d :: ds => by
    simp only [viewContig, rowStrides, viewContig_row ds, Option.bind_eq_bind, Option.bind_some,
      ne_eq, not_true_eq_false, if_false, numel]
    split_ifs with h
    · simp [h]
    · rw [Nat.mul_comm]

theorem viewStrides_eq : ∀ sh : List Nat, viewStrides sh = (rowStrides sh, numel sh)
  | [] => rfl
  | d :: ds => by simp [viewStrides, viewStrides_eq ds, rowStrides, numel, Nat.mul_comm]

/-- The requested dimensions as the caller writes them. -/
def asInts (l : List Nat) : List Int := l.map fun (x : Nat) => (x : Int)

theorem numel_append : ∀ a b : List Nat, numel (a ++ b) = numel a * numel b
  | [], b => by simp [numel]
  | d :: ds, b => by simp [numel, numel_append ds b, Nat.mul_assoc]

theorem viewProduct_asInts : ∀ l : List Nat, viewProduct (asInts l) = some (numel l, 0)
  | [] => rfl
  | d :: ds => by
    have h : viewProduct (asInts (d :: ds)) = viewProduct ((d : Int) :: asInts ds) := rfl
    rw [h]
    simp only [viewProduct, viewProduct_asInts ds, Option.bind_eq_bind, Option.bind_some]
    rw [if_neg (by omega), if_neg (by omega)]
    simp [numel]

theorem viewProduct_infer : ∀ a b : List Nat,
    viewProduct (asInts a ++ -1 :: asInts b) = some (numel (a ++ b), 1)
  | [], b => by
    have h : viewProduct (asInts [] ++ -1 :: asInts b) = viewProduct (-1 :: asInts b) := rfl
    rw [h]
    simp [viewProduct, viewProduct_asInts b]
  | d :: ds, b => by
    have h : viewProduct (asInts (d :: ds) ++ -1 :: asInts b) =
      viewProduct ((d : Int) :: (asInts ds ++ -1 :: asInts b)) := rfl
    rw [h]
    simp only [viewProduct, viewProduct_infer ds b, Option.bind_eq_bind, Option.bind_some]
    rw [if_neg (by omega), if_neg (by omega)]
    simp [numel]

theorem viewActual_asInts (q : Nat) (l : List Nat) : viewActual q (asInts l) = l := by
  simp only [viewActual, asInts, List.map_map]
  conv_rhs => rw [← List.map_id l]
  apply List.map_congr_left
  intro x _
  simp only [Function.comp, id]
  rw [if_neg (by omega)]; simp

theorem viewActual_infer (q : Nat) (a b : List Nat) :
    viewActual q (asInts a ++ -1 :: asInts b) = a ++ q :: b := by
  have h1 := viewActual_asInts q a
  have h2 := viewActual_asInts q b
  simp only [viewActual, List.map_append, List.map_cons, if_true] at *
  rw [h1, h2]

/-- The part of `view` after the target shape is known. -/
def viewTo (t : Tens α) (actual : List Nat) : Option (Tens α) :=
  if numel actual ≠ numel t.shape then none
  else if actual = t.shape then some ⟨t.off, t.shape, t.stride, t.mem⟩
  else do
    let _ ← viewContig t.shape t.stride
    pure ⟨t.off, actual, (viewStrides actual).1, t.mem⟩

theorem viewTo_some {t r : Tens α} {actual} (h : viewTo t actual = some r) :
    r.off = t.off ∧ r.mem = t.mem ∧ r.shape = actual ∧ numel actual = numel t.shape ∧
    ((actual = t.shape ∧ r.stride = t.stride) ∨ (t.Contig ∧ r.Contig)) := by
  unfold viewTo at h
  split_ifs at h with h1 h2
  · simp only [Option.some.injEq] at h
    subst h
    exact ⟨rfl, rfl, h2.symm, not_not.mp h1, .inl ⟨h2, rfl⟩⟩
  · cases hc : viewContig t.shape t.stride with
    | none => simp [hc] at h
    | some c =>
      simp only [hc, Option.bind_eq_bind, Option.bind_some, Option.pure_def, Option.some.injEq] at h
      subst h
      refine ⟨rfl, rfl, rfl, not_not.mp h1, .inr ⟨(viewContig_some hc).1, ?_⟩⟩
      simp [Tens.Contig, viewStrides_eq]

theorem viewTo_ok {t : Tens α} {actual} (hc : t.Contig) (hn : numel actual = numel t.shape) :
    ∃ r, viewTo t actual = some r := by
  unfold viewTo
  rw [if_neg (by simpa using hn)]
  split_ifs with h
  · exact ⟨_, rfl⟩
  · rw [hc, viewContig_row]; exact ⟨_, rfl⟩

theorem viewActual_get (q : Nat) (sh : List Int) (k : Nat) (hk : k < sh.length)
    (h : sh.getD k 0 ≠ -1) : (viewActual q sh).getD k 0 = (sh.getD k 0).toNat := by
  simp only [viewActual]
  rw [List.getD_eq_getElem _ _ (by simpa using hk), List.getElem_map]
  rw [List.getD_eq_getElem _ _ hk] at *
  rw [if_neg h]

theorem viewProduct_nonneg : ∀ {sh : List Int} {pc}, viewProduct sh = some pc → ∀ d ∈ sh, -1 ≤ d
  | [], _, _ => by simp
  | d :: ds, pc, h => by
    simp only [viewProduct] at h
    cases hp : viewProduct ds with
    | none => simp [hp] at h
    | some q =>
      rw [hp] at h
      simp only [Option.bind_eq_bind, Option.bind_some] at h
      intro x hx
      rcases List.mem_cons.mp hx with rfl | hx
      · split_ifs at h <;> omega
      · exact viewProduct_nonneg hp x hx

theorem view_some {t r : Tens α} {sh} (h : view t sh = some r) :
    ∃ q, viewTo t (viewActual q sh) = some r ∧ ∀ d ∈ sh, -1 ≤ d := by
  unfold view at h
  cases hp : viewProduct sh with
  | none => simp [hp] at h
  | some pc =>
    obtain ⟨p, c⟩ := pc
    simp only [hp, Option.bind_eq_bind, Option.bind_some] at h
    split_ifs at h with h1 h2 h3
    all_goals first | (simp at h; done) | skip
    · exact ⟨_, h, viewProduct_nonneg hp⟩
    · exact ⟨_, h, viewProduct_nonneg hp⟩

end Verif.Tensor
