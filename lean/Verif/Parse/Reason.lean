import Verif.Parse.Lemmas
namespace Verif.Parse

/-- Where the reasoning begins: `a` is content, `b` is what follows. In forced mode there may be a start tag at the beginning of the
text or no start tag at all. -/
def Begin (c : RCfg) (a b T : Text) : Prop :=
  if c.force then a = [] ∧ (T = c.start ++ b ∨ (¬ c.start <:+: T ∧ ¬ T <+: c.start ∧ b = T)) else First c.start a b T

/-- The phases of the parser after the text `T`. -/
inductive Ph (c : RCfg) (T : Text) : RSt → Text → Text → Prop where
  | seek {buf C : Text} {k : Bool} : c.force = false → C ++ buf = T → Guard c.start C buf → ¬ c.start <:+: buf →
      (buf ≠ [] ↔ partialTag T c.start = true) → buf.length < c.start.length → Ph c T ⟨buf, false, k, false⟩ [] C
  | inside {buf R a b : Text} : Begin c a b T → R ++ buf = b → Guard c.stop R buf → ¬ c.stop <:+: buf →
      (buf ≠ [] ↔ partialTag b c.stop = true) → buf.length < c.stop.length → Ph c T ⟨buf, true, true, false⟩ R a
  | done {a b r k : Text} {x : Bool} : Begin c a b T → First c.stop r k b → Ph c T ⟨[], false, x, true⟩ r (a ++ k)
  | hold : c.force = true → ¬ c.start <:+: T → (T = [] ∨ partialTag T c.start = true) → Ph c T ⟨T, true, false, false⟩ [] []

theorem partial_nil (pat : Text) : partialTag [] pat = false := by
  rw [Bool.eq_false_iff]
  intro h
  obtain ⟨i, h1, h2, h3⟩ := partial_iff.1 h
  have := h3.length_le
  rw [List.length_take, List.length_nil] at this
  omega

theorem ph_init {c : RCfg} (h1 : c.start ≠ []) : Ph c [] (.init c) [] [] := by
  have hi : ¬ c.start <:+: [] := by rw [List.infix_nil]; exact h1
  cases hf : c.force with
  | true =>
    rw [RSt.init, hf]
    exact .hold hf hi (Or.inl rfl)
  | false =>
    rw [RSt.init, hf]
    refine .seek hf rfl (guard_init _ _) hi ?_ (List.length_pos_of_ne_nil h1)
    rw [partial_nil]; simp

/-- Looking for the end tag. -/
theorem ph_close {c : RCfg} (h2 : c.stop ≠ []) {T a b R buf : Text} (hb : Begin c a b T) (he : R ++ buf = b) (hg : Guard c.stop R buf) :
    Ph c T (RSt.close c ⟨buf, true, true, false⟩).1 (R ++ (RSt.close c ⟨buf, true, true, false⟩).2.1) (a ++ (RSt.close c ⟨buf, true, true, false⟩).2.2) := by
  unfold RSt.close
  simp only [if_true]
  cases hf : find c.stop buf with
  | some i =>
    simp only
    refine .done hb ?_
    have := hg.first (find_some hf)
    rw [he] at this
    exact this
  | none =>
    simp only [List.append_nil]
    have hn := find_none hf
    refine .inside hb (by rw [List.append_assoc, passOn_append, he]) (hg.passOn h2 hn) (passOn_sub hn) ?_ (passOn_short h2)
    rw [passOn_held hg, he]

/-- The condition on forced mode: a start tag only at the beginning. -/
def Good (c : RCfg) (T : Text) : Prop := c.force = true → ¬ c.start <:+: T ∨ c.start <+: T

theorem begin_extend {c : RCfg} {a b T d : Text} (h : Begin c a b T) (hg : Good c (T ++ d)) : Begin c a (b ++ d) (T ++ d) := by
  unfold Begin at h ⊢
  cases hf : c.force with
  | false => rw [hf] at h; exact First.extend h d
  | true =>
    rw [hf] at h
    simp only [if_true] at h ⊢
    refine ⟨h.1, ?_⟩
    rcases h.2 with h3 | ⟨h3, h4, h5⟩
    · left; rw [h3]; simp
    · right
      have hnp : ¬ c.start <+: T ++ d := by
        intro hp
        rcases Nat.le_total c.start.length T.length with hl | hl
        · exact h3 (List.IsPrefix.isInfix (List.prefix_of_prefix_length_le hp (List.prefix_append _ _) hl))
        · exact h4 (List.prefix_of_prefix_length_le (List.prefix_append T d) hp hl)
      refine ⟨?_, fun hp => h4 ((List.prefix_append T d).trans hp), by rw [h5]⟩
      rcases hg hf with hh | hh
      · exact hh
      · exact absurd hh hnp

/-- One chunk, for the full reasoning (`stream = true`). -/
theorem ph_chunk {c : RCfg} (h1 : c.start ≠ []) (h2 : c.stop ≠ []) (hs : c.stream = true) {T : Text} {s : RSt} {R C : Text} (h : Ph c T s R C) {d : Text}
    (hg : Good c (T ++ d)) : Ph c (T ++ d) (s.chunk c d).1 (R ++ (s.chunk c d).2.1) (C ++ (s.chunk c d).2.2) := by
  unfold RSt.chunk
  by_cases hd : d = []
  · subst hd
    simpa using h
  rw [if_neg hd]
  cases h with
  | @done a b r k x hb hf =>
    simp only [if_true, List.append_nil]
    rw [List.append_assoc]
    exact .done (begin_extend hb hg) (hf.extend d)
  | @inside buf _ _ b hb he hgd hn hh hl =>
    have e1 : RSt.strip c ⟨buf ++ d, true, true, false⟩ = (⟨buf ++ d, true, true, false⟩, false) := by simp [RSt.strip]
    have e2 : RSt.seek c ⟨buf ++ d, true, true, false⟩ = (⟨buf ++ d, true, true, false⟩, [], false) := by simp [RSt.seek]
    simp only [e1, e2, hs, if_true, Bool.false_eq_true, if_false, List.nil_append]
    refine ph_close h2 (begin_extend hb hg) ?_ (hgd.extend d)
    rw [← he]; simp
  | @seek buf _ k hfo he hgd hn hh hl =>
    have e1 : RSt.strip c ⟨buf ++ d, false, k, false⟩ = (⟨buf ++ d, false, k, false⟩, false) := by simp [RSt.strip]
    simp only [e1, hs, if_true, Bool.false_eq_true, if_false]
    unfold RSt.seek
    simp only [Bool.false_eq_true, if_false]
    have hgd' := hgd.extend d
    have he' : C ++ (buf ++ d) = T ++ d := by rw [← he]; simp
    cases hf : find c.start (buf ++ d) with
    | none =>
      simp only [if_true, List.append_nil]
      have hn' := find_none hf
      refine .seek hfo ?_ (hgd'.passOn h1 hn') (passOn_sub hn') ?_ (passOn_short h1)
      · rw [List.append_assoc, passOn_append, he']
      · rw [passOn_held hgd', he']
    | some i =>
      simp only [Bool.false_eq_true, if_false, List.nil_append]
      have hfirst := hgd'.first (find_some hf)
      rw [he'] at hfirst
      rw [← List.append_assoc]
      have hb : Begin c (C ++ (buf ++ d).take i) ((buf ++ d).drop (i + c.start.length)) (T ++ d) := by
        unfold Begin; rw [hfo]; exact hfirst
      exact ph_close (R := []) h2 hb rfl (guard_init _ _)
  | hold hfo hn hp =>
    unfold RSt.strip
    simp only [Bool.false_eq_true, not_false_eq_true, and_self, if_true, if_false]
    have e2 : ∀ b, RSt.seek c ⟨b, true, true, false⟩ = (⟨b, true, true, false⟩, [], false) := by intro b; simp [RSt.seek]
    cases hf : find c.start (T ++ d) with
    | none =>
      have hn' := find_none hf
      simp only
      by_cases hpt : partialTag (T ++ d) c.start = true
      · simp only [hpt, if_true, List.append_nil]
        exact .hold hfo hn' (Or.inr hpt)
      · simp only [hpt, Bool.false_eq_true, if_false, e2, hs, if_true, List.nil_append]
        refine ph_close (R := []) (a := []) h2 (b := T ++ d) ?_ rfl (guard_init _ _)
        unfold Begin; rw [hfo]
        refine ⟨rfl, Or.inr ⟨hn', ?_, rfl⟩⟩
        intro hpre
        apply hpt
        rw [partial_iff]
        refine ⟨(T ++ d).length, ?_, ?_, ?_⟩
        · have := List.length_pos_of_ne_nil hd
          simp only [List.length_append]; omega
        · rcases Nat.lt_or_ge (T ++ d).length c.start.length with hl | hl
          · exact hl
          · exact absurd (by rw [hpre.eq_of_length_le hl]) hn'
        · rw [← List.prefix_iff_eq_take.1 hpre]
    | some i =>
      simp only [e2, hs, if_true, Bool.false_eq_true, if_false, List.nil_append]
      have hfirst := find_some hf
      rcases hg hfo with hh | ⟨t, ht⟩
      · exact absurd hfirst.infix hh
      have h0 : First c.start [] t (T ++ d) := ⟨by rw [← ht]; simp, fun _ _ _ => Nat.zero_le _⟩
      obtain ⟨_, e4⟩ := h0.unique hfirst
      refine ph_close (R := []) (a := []) h2 ?_ rfl (guard_init _ _)
      unfold Begin; rw [hfo]
      exact ⟨rfl, Or.inl (by rw [← e4, ← ht]; rfl)⟩

theorem run_snoc (c : RCfg) (ds : List Text) (d : Text) : RSt.run c (ds ++ [d]) =
    (((RSt.run c ds).1.chunk c d).1, (RSt.run c ds).2.1 ++ ((RSt.run c ds).1.chunk c d).2.1, (RSt.run c ds).2.2 ++ ((RSt.run c ds).1.chunk c d).2.2) := by
  rw [RSt.run, List.foldl_append]; rfl

theorem ph_run {c : RCfg} (h1 : c.start ≠ []) (h2 : c.stop ≠ []) (hs : c.stream = true) (ds : List Text) (hg : Good c ds.flatten) :
    Ph c ds.flatten (RSt.run c ds).1 (RSt.run c ds).2.1 (RSt.run c ds).2.2 := by
  induction ds using List.reverseRecOn with
  | nil => exact ph_init h1
  | append_singleton ds d ih =>
    have hfl : (ds ++ [d]).flatten = ds.flatten ++ d := by simp
    rw [hfl] at hg ⊢
    have hg' : Good c ds.flatten := by
      intro hf
      by_cases hi : c.start <:+: ds.flatten
      · right
        rcases hg hf with hh | hh
        · exact absurd (hi.trans (List.prefix_append _ _).isInfix) hh
        · exact List.prefix_of_prefix_length_le hh (List.prefix_append _ _) hi.length_le
      · exact Or.inl hi
    rw [run_snoc]
    exact ph_chunk h1 h2 hs (ih hg') hg

/-- `stream_reasoning = False` changes nothing but that the reasoning is dropped. -/
theorem chunk_stream (c : RCfg) (s : RSt) (d : Text) : (s.chunk c d).1 = (s.chunk { c with stream := true } d).1 ∧
    (s.chunk c d).2.2 = (s.chunk { c with stream := true } d).2.2 ∧ (c.stream = false → (s.chunk c d).2.1 = []) := by
  have e1 : ∀ s, RSt.strip { c with stream := true } s = RSt.strip c s := fun _ => rfl
  have e2 : ∀ s, RSt.seek { c with stream := true } s = RSt.seek c s := fun _ => rfl
  have e3 : ∀ s, RSt.close { c with stream := true } s = RSt.close c s := fun _ => rfl
  unfold RSt.chunk
  simp only [e1, e2, e3]
  split
  · exact ⟨rfl, rfl, fun _ => rfl⟩
  split
  · exact ⟨rfl, rfl, fun _ => rfl⟩
  split
  · exact ⟨rfl, rfl, fun _ => rfl⟩
  split
  · exact ⟨rfl, rfl, fun _ => rfl⟩
  · exact ⟨rfl, rfl, fun h => by simp [h]⟩

theorem run_stream (c : RCfg) (ds : List Text) : (RSt.run c ds).1 = (RSt.run { c with stream := true } ds).1 ∧
    (RSt.run c ds).2.2 = (RSt.run { c with stream := true } ds).2.2 ∧ (c.stream = false → (RSt.run c ds).2.1 = []) := by
  induction ds using List.reverseRecOn with
  | nil => exact ⟨rfl, rfl, fun _ => rfl⟩
  | append_singleton ds d ih =>
    obtain ⟨i1, i2, i3⟩ := ih
    obtain ⟨c1, c2, c3⟩ := chunk_stream c (RSt.run c ds).1 d
    rw [run_snoc, run_snoc]
    simp only [← i1, ← i2, c1, c2]
    refine ⟨trivial, trivial, fun h => ?_⟩
    rw [i3 h, c3 h]; rfl

end Verif.Parse
