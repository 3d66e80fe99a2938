import Verif.Parse.Tool
namespace Verif.Parse

/-- What the parser can read from the partial body `p` fits to a call with name `n` and arguments `a`. -/
def Faith (c : TCfg) (p : Text) (n : Option Text) (a : Text) : Prop :=
  (∀ m, c.nameOf (strip c.ws p) = some m → n = some m) ∧ ∀ x, c.argsOf (strip c.ws p) = some x → x <+: a

/-- Specification: the items `g` are the call number `j` with name `n` and arguments `a`: the name comes first, once; the arguments
of the items add up to `a`. -/
def Delivered (j : Nat) (n : Option Text) (a : Text) (g : List Item) : Prop :=
  (∀ x ∈ g, x.index = j) ∧ (g.map Item.args).flatten = a ∧ ∃ x t, g = x :: t ∧ x.name = n ∧ ∀ y ∈ t, y.name = none

/-- The group of items of a complete call. -/
def GroupOK (c : TCfg) (P : Nat → Text → Prop) (j : Nat) (r : Text) (g : List Item) : Prop :=
  (∀ x ∈ g, x.index = j) ∧ ∀ n a, c.parse (strip c.ws r) = some (n, a) → (∀ p, P j p → Faith c p n a) → Delivered j n a g

/-- The items of a call that has begun. -/
def CurOK (c : TCfg) (P : Nat → Text → Prop) (s : TSt) (cur : List Item) : Prop :=
  (∀ x ∈ cur, x.index = s.idx) ∧ (s.nameSent = false → cur = [] ∧ s.prevArgs = 0) ∧
  (s.nameSent = true → ∀ n a, (∀ p, P s.idx p → Faith c p n a) → ∃ m t, n = some m ∧ cur = ⟨some m, [], s.idx⟩ :: t ∧ (∀ x ∈ t, x.name = none) ∧
    (t.map Item.args).flatten <+: a ∧ (t.map Item.args).flatten.length = s.prevArgs)

theorem finalize_ok {c : TCfg} {P : Nat → Text → Prop} {s : TSt} {cur : List Item} (h : CurOK c P s cur) :
    GroupOK c P s.idx s.callBuf (cur ++ s.finalize c) := by
  obtain ⟨h1, h2, h3⟩ := h
  have hi : ∀ x ∈ cur ++ s.finalize c, x.index = s.idx := by
    intro x hx
    rcases List.mem_append.1 hx with hx | hx
    · exact h1 x hx
    · unfold TSt.finalize at hx
      split at hx
      · cases hx
      · split at hx
        · rw [List.mem_singleton] at hx; rw [hx]
        · split at hx
          · cases hx
          · rw [List.mem_singleton] at hx; rw [hx]
  refine ⟨hi, fun n a hp hF => ⟨hi, ?_⟩⟩
  unfold TSt.finalize
  rw [hp]
  simp only
  cases hn : s.nameSent with
  | false =>
    obtain ⟨rfl, _⟩ := h2 hn
    simp
  | true =>
    obtain ⟨m, t, rfl, rfl, ht, ha, hl⟩ := h3 hn n a hF
    obtain ⟨z, hz⟩ := ha
    have hd : a.drop s.prevArgs = z := by rw [← hz, ← hl, List.drop_left]
    rw [hd]
    simp only [not_true_eq_false, if_false]
    by_cases hzn : z = []
    · rw [if_pos hzn]
      refine ⟨?_, _, t, by simp; rfl, rfl, ht⟩
      rw [← hz, hzn]; simp
    · rw [if_neg hzn]
      refine ⟨?_, _, t ++ [⟨none, z, s.idx⟩], by simp; rfl, rfl, ?_⟩
      · rw [← hz]; simp
      · intro y hy
        rcases List.mem_append.1 hy with hy | hy
        · exact ht y hy
        · rw [List.mem_singleton] at hy; rw [hy]

theorem stream_ok {c : TCfg} {P : Nat → Text → Prop} {s : TSt} {cur : List Item} (h : CurOK c P s cur) (hP : P s.idx s.callBuf) :
    CurOK c P (s.stream c).1 (cur ++ (s.stream c).2) ∧ (s.stream c).1.buf = s.buf ∧ (s.stream c).1.inCall = s.inCall ∧ (s.stream c).1.idx = s.idx ∧
      (s.stream c).1.callBuf = s.callBuf := by
  obtain ⟨h1, h2, h3⟩ := h
  have hid : CurOK c P s (cur ++ []) := by rw [List.append_nil]; exact ⟨h1, h2, h3⟩
  unfold TSt.stream
  simp only
  by_cases hb : strip c.ws s.callBuf = []
  · rw [if_pos hb]; exact ⟨hid, rfl, rfl, rfl, rfl⟩
  rw [if_neg hb]
  cases hn : s.nameSent with
  | false =>
    simp only [Bool.false_eq_true, not_false_eq_true, if_true]
    cases hm : c.nameOf (strip c.ws s.callBuf) with
    | none => exact ⟨hid, rfl, rfl, rfl, rfl⟩
    | some m =>
      obtain ⟨rfl, hp⟩ := h2 hn
      refine ⟨⟨?_, ?_, ?_⟩, rfl, rfl, rfl, rfl⟩
      · intro x hx
        simp only [List.nil_append, List.mem_singleton] at hx
        rw [hx]
      · intro h; cases h
      · intro _ n a hF
        exact ⟨m, [], (hF _ hP).1 m hm, rfl, by simp, by simp, by simp [hp]⟩
  | true =>
    simp only [not_true_eq_false, if_false]
    cases ha : c.argsOf (strip c.ws s.callBuf) with
    | none => exact ⟨hid, rfl, rfl, rfl, rfl⟩
    | some x =>
      simp only
      by_cases hl : s.prevArgs < x.length
      · rw [if_pos hl]
        refine ⟨⟨?_, ?_, ?_⟩, rfl, rfl, rfl, rfl⟩
        · intro y hy
          rcases List.mem_append.1 hy with hy | hy
          · exact h1 y hy
          · rw [List.mem_singleton] at hy; rw [hy]
        · intro h
          cases h
        · intro _ n a hF
          obtain ⟨m, t, rfl, rfl, ht, hA, hAl⟩ := h3 hn n a hF
          have hx := (hF _ hP).2 x ha
          have hAx : (t.map Item.args).flatten <+: x := List.prefix_of_prefix_length_le hA hx (by omega)
          obtain ⟨z, hz⟩ := hAx
          have hd : x.drop s.prevArgs = z := by rw [← hz, ← hAl, List.drop_left]
          refine ⟨m, t ++ [⟨none, z, s.idx⟩], rfl, by rw [hd]; rfl, ?_, ?_, ?_⟩
          · intro y hy
            rcases List.mem_append.1 hy with hy | hy
            · exact ht y hy
            · rw [List.mem_singleton] at hy; rw [hy]
          · simp only [List.map_append, List.flatten_append, List.map_cons, List.map_nil, List.flatten_cons, List.flatten_nil, List.append_nil]
            rw [hz]; exact hx
          · simp only [List.map_append, List.flatten_append, List.map_cons, List.map_nil, List.flatten_cons, List.flatten_nil, List.append_nil]
            rw [hz]
      · rw [if_neg hl]; exact ⟨hid, rfl, rfl, rfl, rfl⟩

/-- Groups of items, one for every complete call. -/
def GroupsOK (c : TCfg) (P : Nat → Text → Prop) (bs : List Text) (gs : List (List Item)) : Prop :=
  gs.length = bs.length ∧ ∀ j r g, bs[j]? = some r → gs[j]? = some g → GroupOK c P j r g

theorem GroupsOK.snoc {c : TCfg} {P : Nat → Text → Prop} {bs : List Text} {gs : List (List Item)} (h : GroupsOK c P bs gs) {r : Text} {g : List Item}
    (hg : GroupOK c P bs.length r g) : GroupsOK c P (bs ++ [r]) (gs ++ [g]) := by
  refine ⟨by simp [h.1], ?_⟩
  intro j r' g' hr hg'
  rcases Nat.lt_trichotomy j bs.length with hl | hl | hl
  · rw [List.getElem?_append_left hl] at hr
    rw [List.getElem?_append_left (by rw [h.1]; exact hl)] at hg'
    exact h.2 j r' g' hr hg'
  · subst hl
    rw [List.getElem?_append_right (le_refl _), Nat.sub_self] at hr
    rw [← h.1, List.getElem?_append_right (le_refl _), Nat.sub_self] at hg'
    simp only [List.getElem?_cons_zero, Option.some.injEq] at hr hg'
    rw [← hr, ← hg']; exact hg
  · rw [List.getElem?_eq_none (by simp; omega)] at hr
    cases hr

/-- In the middle of the loop. -/
inductive LInv (c : TCfg) (P : Nat → Text → Prop) (T : Text) (s : TSt) : Text → List Item → Prop where
  | out {C0 : Text} {bs : List Text} {rest e : Text} {gs : List (List Item)} : Pre c.bot c.stop T C0 bs rest → (c.stop = [] → bs = []) → s.inCall = false →
      e ++ s.buf = rest → Guard c.bot e s.buf → s.idx = bs.length → GroupsOK c P bs gs → LInv c P T s (C0 ++ e) gs.flatten
  | call {C0 : Text} {bs : List Text} {rest a b : Text} {gs : List (List Item)} {cur : List Item} : Pre c.bot c.stop T C0 bs rest → (c.stop = [] → bs = []) →
      s.inCall = true → First c.bot a b rest → s.callBuf ++ s.buf = b → (c.stop ≠ [] → ∀ x y, b = x ++ c.stop ++ y → s.callBuf.length ≤ x.length) →
      s.idx = bs.length → GroupsOK c P bs gs → CurOK c P s cur → LInv c P T s (C0 ++ a) (gs.flatten ++ cur)

/-- At the end of a chunk. -/
inductive SInv (c : TCfg) (P : Nat → Text → Prop) (T : Text) (s : TSt) : Text → List Item → Prop where
  | out {C0 : Text} {bs : List Text} {rest e : Text} {gs : List (List Item)} : Pre c.bot c.stop T C0 bs rest → (c.stop = [] → bs = []) → s.inCall = false →
      e ++ s.buf = rest → Guard c.bot e s.buf → ¬ c.bot <:+: s.buf → s.buf.length < c.bot.length → (s.buf ≠ [] → partialTag rest c.bot = true) →
      s.idx = bs.length → GroupsOK c P bs gs → SInv c P T s (C0 ++ e) gs.flatten
  | call {C0 : Text} {bs : List Text} {rest a b : Text} {gs : List (List Item)} {cur : List Item} : Pre c.bot c.stop T C0 bs rest → (c.stop = [] → bs = []) →
      s.inCall = true → First c.bot a b rest → s.callBuf = b → s.buf = [] → (c.stop = [] ∨ ¬ c.stop <:+: b) →
      s.idx = bs.length → GroupsOK c P bs gs → CurOK c P s cur → SInv c P T s (C0 ++ a) (gs.flatten ++ cur)

theorem turn_ok {c : TCfg} (hb : c.bot ≠ []) {P : Nat → Text → Prop} {T : Text} {s : TSt} {C : Text} {its : List Item} (h : LInv c P T s C its)
    (hP : ∀ C bs o, Parts c.bot c.stop T C bs (some o) → P bs.length o) :
    if (s.turn c).2.2.2 then LInv c P T (s.turn c).1 (C ++ (s.turn c).2.1) (its ++ (s.turn c).2.2.1) ∧ (s.turn c).1.buf.length < s.buf.length
    else SInv c P T (s.turn c).1 (C ++ (s.turn c).2.1) (its ++ (s.turn c).2.2.1) := by
  cases h with
  | @out C0 bs rest e gs h1 h2 h3 h4 h5 h6 h7 =>
    have h3' : ¬ s.inCall = true := by rw [h3]; decide
    unfold TSt.turn
    simp only [if_neg h3']
    cases hf : find c.bot s.buf with
    | none =>
      simp only [Bool.false_eq_true, if_false, List.append_nil]
      have hn := find_none hf
      rw [List.append_assoc]
      refine .out h1 h2 h3 ?_ (h5.passOn hb hn) (passOn_sub hn) (passOn_short hb) ?_ h6 h7
      · simp only
        rw [List.append_assoc, passOn_append, h4]
      · intro hne
        rw [← h4]
        exact (passOn_held h5).1 hne
    | some i =>
      simp only [if_true, List.append_nil]
      have hfi := find_some hf
      have hfirst := h5.first hfi
      rw [h4] at hfirst
      rw [List.append_assoc]
      refine ⟨?_, ?_⟩
      · have hcur : CurOK c P { s with buf := s.buf.drop (i + c.bot.length), inCall := true, callBuf := [], prevArgs := 0, nameSent := false } [] :=
          ⟨by simp, fun _ => ⟨rfl, rfl⟩, fun h => by cases h⟩
        have := LInv.call (s := { s with buf := s.buf.drop (i + c.bot.length), inCall := true, callBuf := [], prevArgs := 0, nameSent := false })
          h1 h2 rfl hfirst rfl (fun _ _ _ _ => Nat.zero_le _) h6 h7 hcur
        simpa using this
      · have l := first_length hfi
        have := List.length_pos_of_ne_nil hb
        omega
  | @call C0 bs rest a b gs cur h1 h2 h3 h4 h5 h6 h7 h8 h9 =>
    unfold TSt.turn
    rw [if_pos h3]
    by_cases hs : c.stop = []
    · rw [if_pos hs]
      simp only [Bool.false_eq_true, if_false, List.append_nil]
      have hcur : CurOK c P { s with callBuf := s.callBuf ++ s.buf, buf := [] } cur := h9
      have hpp : P s.idx b := by
        rw [h7]
        exact hP (C0 ++ a) bs b ⟨C0, rest, h1, h2, Or.inr ⟨a, b, h4, Or.inl hs, rfl, rfl⟩⟩
      have ho := stream_ok (s := { s with callBuf := s.callBuf ++ s.buf, buf := [] }) hcur (by rw [h5]; exact hpp)
      rw [List.append_assoc]
      exact .call h1 h2 (ho.2.2.1.trans h3) h4 (by rw [ho.2.2.2.2]; exact h5) ho.2.1 (Or.inl hs) (by rw [ho.2.2.2.1]; exact h7) h8 ho.1
    rw [if_neg hs]
    cases hf : find c.stop s.buf with
    | none =>
      simp only [Bool.false_eq_true, if_false, List.append_nil]
      have hn := find_none hf
      have hnb : ¬ c.stop <:+: b := by
        rintro ⟨x, y, hxy⟩
        have hl := h6 hs x y hxy.symm
        obtain ⟨t, rfl⟩ : s.callBuf <+: x := by
          refine List.prefix_of_prefix_length_le (l₃ := b) ⟨s.buf, h5⟩ ⟨c.stop ++ y, ?_⟩ hl
          rw [← hxy]; simp
        refine hn ⟨t, y, ?_⟩
        have : s.callBuf ++ (t ++ c.stop ++ y) = s.callBuf ++ s.buf := by rw [h5, ← hxy]; simp
        exact List.append_cancel_left this
      have hcur : CurOK c P { s with callBuf := s.callBuf ++ s.buf, buf := [] } cur := h9
      have hpp : P s.idx b := by
        rw [h7]
        exact hP (C0 ++ a) bs b ⟨C0, rest, h1, h2, Or.inr ⟨a, b, h4, Or.inr hnb, rfl, rfl⟩⟩
      have ho := stream_ok (s := { s with callBuf := s.callBuf ++ s.buf, buf := [] }) hcur (by rw [h5]; exact hpp)
      rw [List.append_assoc]
      exact .call h1 h2 (ho.2.2.1.trans h3) h4 (by rw [ho.2.2.2.2]; exact h5) ho.2.1 (Or.inr hnb) (by rw [ho.2.2.2.1]; exact h7) h8 ho.1
    | some i =>
      simp only [if_true, List.append_nil]
      have hfi := find_some hf
      have hfirst : First c.stop (s.callBuf ++ s.buf.take i) (s.buf.drop (i + c.stop.length)) b := by
        refine ⟨?_, ?_⟩
        · have := hfi.1
          rw [← h5]
          conv => lhs; rw [this]
          simp
        · intro x y hxy
          have hl := h6 hs x y hxy
          obtain ⟨t, rfl⟩ : s.callBuf <+: x := by
            refine List.prefix_of_prefix_length_le (l₃ := b) ⟨s.buf, h5⟩ ⟨c.stop ++ y, ?_⟩ hl
            rw [hxy]; simp
          have : s.buf = t ++ c.stop ++ y := by
            have : s.callBuf ++ s.buf = s.callBuf ++ (t ++ c.stop ++ y) := by rw [h5, hxy]; simp
            exact List.append_cancel_left this
          have := hfi.2 t y this
          simp only [List.length_append]
          omega
      refine ⟨?_, ?_⟩
      · have hcur : CurOK c P { s with callBuf := s.callBuf ++ s.buf.take i, buf := s.buf.drop (i + c.stop.length) } cur := h9
        have hg := finalize_ok hcur
        have hg' : GroupOK c P bs.length (s.callBuf ++ s.buf.take i) (cur ++ TSt.finalize c { s with callBuf := s.callBuf ++ s.buf.take i, buf := s.buf.drop (i + c.stop.length) }) := by
          rw [← h7]; exact hg
        have := LInv.out (c := c) (P := P) (s := { s with callBuf := s.callBuf ++ s.buf.take i, buf := s.buf.drop (i + c.stop.length), inCall := false, idx := s.idx + 1 })
          (Pre.call h1 h4 hfirst) (fun h => absurd h hs) rfl (e := []) rfl (guard_init _ _) (by simp [h7]) (h8.snoc hg')
        simpa using this
      · have l := first_length hfi
        have := List.length_pos_of_ne_nil hs
        omega

theorem loop_ok {c : TCfg} (hb : c.bot ≠ []) {P : Nat → Text → Prop} {T : Text} (hP : ∀ C bs o, Parts c.bot c.stop T C bs (some o) → P bs.length o) :
    ∀ (n : Nat) {s : TSt} {C : Text} {its : List Item}, s.buf.length < n → LInv c P T s C its →
    SInv c P T (TSt.loop c n s).1 (C ++ (TSt.loop c n s).2.1) (its ++ (TSt.loop c n s).2.2) := by
  intro n
  induction n with
  | zero => intro s C its hn; omega
  | succ n ih =>
    intro s C its hn h
    have ht := turn_ok hb h hP
    rw [TSt.loop]
    simp only
    by_cases hc : (s.turn c).2.2.2 = true
    · rw [if_pos hc] at ht ⊢
      have := ih (by omega) ht.1
      simpa [List.append_assoc] using this
    · rw [if_neg hc] at ht ⊢
      exact ht

/-- The loop ends by itself: a larger bound makes no difference. -/
theorem loop_more (c : TCfg) (hb : c.bot ≠ []) : ∀ (n m : Nat) (s : TSt), s.buf.length < n → n ≤ m → TSt.loop c m s = TSt.loop c n s := by
  intro n
  induction n with
  | zero => intro m s h; omega
  | succ n ih =>
    intro m s h hm
    obtain ⟨m, rfl⟩ : ∃ k, m = k + 1 := ⟨m - 1, by omega⟩
    rw [TSt.loop, TSt.loop]
    simp only
    by_cases hc : (s.turn c).2.2.2 = true
    · rw [if_pos hc, if_pos hc]
      have hlt : (s.turn c).1.buf.length < s.buf.length := by
        unfold TSt.turn at hc ⊢
        by_cases hin : s.inCall = true
        · simp only [if_pos hin] at hc ⊢
          by_cases hs : c.stop = []
          · rw [if_pos hs] at hc; cases hc
          · rw [if_neg hs] at hc ⊢
            cases hf : find c.stop s.buf with
            | none => rw [hf] at hc; cases hc
            | some i =>
              have l := first_length (find_some hf)
              have := List.length_pos_of_ne_nil hs
              simp only
              omega
        · simp only [if_neg hin] at hc ⊢
          cases hf : find c.bot s.buf with
          | none => rw [hf] at hc; cases hc
          | some i =>
            have l := first_length (find_some hf)
            have := List.length_pos_of_ne_nil hb
            simp only
            omega
      rw [ih m _ (by omega) (by omega)]
    · rw [if_neg hc, if_neg hc]

theorem sinv_chunk {c : TCfg} (hb : c.bot ≠ []) {P : Nat → Text → Prop} {T d : Text} {s : TSt} {C : Text} {its : List Item} (h : SInv c P T s C its)
    (hP : ∀ C bs o, Parts c.bot c.stop (T ++ d) C bs (some o) → P bs.length o)
    (hcut : ∀ C bs o, Parts c.bot c.stop T C bs (some o) → c.stop ≠ [] → ∀ x y, o ++ d = x ++ c.stop ++ y → o.length ≤ x.length) :
    SInv c P (T ++ d) (s.chunk c d).1 (C ++ (s.chunk c d).2.1) (its ++ (s.chunk c d).2.2) := by
  unfold TSt.chunk
  by_cases hd : d = []
  · subst hd
    simpa using h
  rw [if_neg hd]
  refine loop_ok hb hP _ (by simp) ?_
  cases h with
  | out h1 h2 h3 h4 h5 h6 h7 h8 h9 h10 =>
    exact .out (h1.extend d) h2 h3 (by rw [← h4]; simp) (h5.extend d) h9 h10
  | @call C0 bs rest a b gs cur h1 h2 h3 h4 h5 h6 h7 h8 h9 h10 =>
    refine .call (h1.extend d) h2 h3 (h4.extend d) ?_ ?_ h8 h9 h10
    · simp only [h6, List.nil_append, h5]
    · intro hs x y hxy
      simp only [h5]
      exact hcut (C0 ++ a) bs b ⟨C0, rest, h1, h2, Or.inr ⟨a, b, h4, h7, rfl, rfl⟩⟩ hs x y hxy

theorem trun_snoc (c : TCfg) (ds : List Text) (d : Text) : TSt.run c (ds ++ [d]) =
    (((TSt.run c ds).1.chunk c d).1, (TSt.run c ds).2.1 ++ ((TSt.run c ds).1.chunk c d).2.1, (TSt.run c ds).2.2 ++ ((TSt.run c ds).1.chunk c d).2.2) := by
  rw [TSt.run, List.foldl_append]; rfl

/-- Condition: no end tag of a call is cut by a chunk boundary. -/
def Uncut (c : TCfg) (ds : List Text) : Prop := ∀ ds1 d ds2, ds = ds1 ++ d :: ds2 → ∀ C bs o, Parts c.bot c.stop ds1.flatten C bs (some o) →
  c.stop ≠ [] → ∀ x y, o ++ d = x ++ c.stop ++ y → o.length ≤ x.length

/-- `p` is the part of call number `j` that has arrived with some chunk. -/
def Seen (c : TCfg) (ds : List Text) (j : Nat) (p : Text) : Prop := ∃ ds1 ds2 C bs, ds = ds1 ++ ds2 ∧ bs.length = j ∧ Parts c.bot c.stop ds1.flatten C bs (some p)

theorem sinv_run {c : TCfg} (hb : c.bot ≠ []) {P : Nat → Text → Prop} (ds : List Text) (hcut : Uncut c ds) (hP : ∀ j p, Seen c ds j p → P j p) :
    SInv c P ds.flatten (TSt.run c ds).1 (TSt.run c ds).2.1 (TSt.run c ds).2.2 := by
  induction ds using List.reverseRecOn with
  | nil =>
    have h0 : GroupsOK c P [] [] := ⟨rfl, by intro j r g h; simp at h⟩
    have := SInv.out (c := c) (P := P) (T := []) (s := TSt.init) (C0 := []) (bs := []) (rest := []) (e := []) (gs := []) .start (fun _ => rfl) rfl rfl (guard_init _ _)
      (by show ¬ c.bot <:+: []; rw [List.infix_nil]; exact hb) (List.length_pos_of_ne_nil hb) (fun h => absurd rfl h) rfl h0
    exact this
  | append_singleton ds d ih =>
    have hfl : (ds ++ [d]).flatten = ds.flatten ++ d := by simp
    rw [hfl, trun_snoc]
    refine sinv_chunk hb (ih ?_ ?_) ?_ ?_
    · intro ds1 e ds2 he
      exact hcut ds1 e (ds2 ++ [d]) (by rw [he]; simp)
    · rintro j p ⟨ds1, ds2, C, bs, he, hj, hp⟩
      exact hP j p ⟨ds1, ds2 ++ [d], C, bs, by rw [he]; simp, hj, hp⟩
    · intro C bs o hp
      exact hP _ _ ⟨ds ++ [d], [], C, bs, by simp, rfl, by rw [hfl]; exact hp⟩
    · exact hcut ds d [] rfl

theorem filter_groups : ∀ (gs : List (List Item)) (k : Nat), (∀ j g, gs[j]? = some g → ∀ x ∈ g, x.index = k + j) →
    ∀ j, gs.flatten.filter (fun x => x.index = k + j) = (gs[j]?).getD [] := by
  intro gs
  induction gs with
  | nil => intro k _ j; simp
  | cons g gs ih =>
    intro k h j
    have hg := h 0 g rfl
    have hgs : ∀ j' g', gs[j']? = some g' → ∀ x ∈ g', x.index = (k + 1) + j' := by
      intro j' g' hh x hx
      have := h (j' + 1) g' (by simpa using hh) x hx
      omega
    rw [List.flatten_cons, List.filter_append]
    cases j with
    | zero =>
      have e1 : g.filter (fun x => decide (x.index = k + 0)) = g := List.filter_eq_self.2 (fun x hx => by simp [hg x hx])
      have e2 : gs.flatten.filter (fun x => decide (x.index = k + 0)) = [] := by
        rw [List.filter_eq_nil_iff]
        intro x hx
        obtain ⟨g', hg', hx'⟩ := List.mem_flatten.1 hx
        obtain ⟨j', hj'⟩ := List.getElem?_of_mem hg'
        have := hgs j' g' hj' x hx'
        simp only [decide_eq_true_eq]
        omega
      rw [e1, e2]; simp
    | succ j =>
      have e1 : g.filter (fun x => decide (x.index = k + (j + 1))) = [] := by
        rw [List.filter_eq_nil_iff]
        intro x hx
        have := hg x hx
        simp only [decide_eq_true_eq]
        omega
      have := ih (k + 1) hgs j
      rw [show k + 1 + j = k + (j + 1) by omega] at this
      rw [e1, this]
      simp

end Verif.Parse
