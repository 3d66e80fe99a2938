import Verif.Marlin.BarrierLemmas

namespace Verif.Marlin

section
variable {α : Type} {A : Arith α} {fp32 : Bool} {G : Grid} {lock0 : Int → Int}

theorem slot_eq {b : Nat} {s : Slice} (hf : SliceFacts G b s) (h1 : 1 < G.cnt s.col) :
    s.slot fp32 = G.slotOf fp32 s.col := by
  unfold Slice.slot Grid.slotOf
  rw [hf.lock h1]

/-- The parts of the invariant that only talk about one block's own record. -/
theorem blk_parts {σ : BSt α} (hi : BInv A fp32 G lock0 σ) {b : Nat} {s : Slice}
    {rest : List Slice} {pc pc' : Pc} {a a' : Option α} (hb : σ.blk b = ⟨s :: rest, pc, a⟩)
    (hpc : (pc' = .crit ∨ pc' = .rel) → 1 < G.cnt s.col)
    (hout : pc' = .out → ∃ v, a' = some v ∧ (b = G.firstB s.col → v = colSum A G s.col)) :
    let B := upd σ.blk b ⟨s :: rest, pc', a'⟩
    (∀ b, ∃ pre, (if b < G.blocks then G.blockSlices b else []) = pre ++ (B b).todo) ∧
    (∀ b s rest pc a, B b = ⟨s :: rest, pc, a⟩ → (pc = .crit ∨ pc = .rel) → 1 < G.cnt s.col) ∧
    (∀ b, (B b).todo = [] → (B b).pc = .wait) ∧
    (∀ b s rest a, B b = ⟨s :: rest, .out, a⟩ →
      ∃ v, a = some v ∧ (b = G.firstB s.col → v = colSum A G s.col)) ∧
    (∀ c, c < G.cols → (∀ s ∈ (B (G.firstB c)).todo, s.col ≠ c) →
      σ.res c = some (colSum A G c)) := by
  intro B
  refine ⟨?_, ?_, ?_, ?_, ?_⟩
  · intro x
    obtain ⟨pre, hp⟩ := hi.suffix x
    refine ⟨pre, ?_⟩
    by_cases hx : x = b
    · subst hx; rw [hb] at hp; rw [hp]; simp [B, upd_same]
    · rw [hp]; simp [B, upd_ne _ _ hx]
  · intro x s1 r1 p1 a1 h1 h2
    by_cases hx : x = b
    · subst hx
      simp only [B, upd_same, Blk.mk.injEq, List.cons.injEq] at h1
      obtain ⟨⟨rfl, rfl⟩, rfl, rfl⟩ := h1
      exact hpc h2
    · simp only [B, upd_ne _ _ hx] at h1
      exact hi.pcs x s1 r1 p1 a1 h1 h2
  · intro x
    by_cases hx : x = b
    · subst hx; simp [B, upd_same]
    · simp only [B, upd_ne _ _ hx]; exact hi.empty x
  · intro x s1 r1 a1 h1
    by_cases hx : x = b
    · subst hx
      simp only [B, upd_same, Blk.mk.injEq, List.cons.injEq] at h1
      obtain ⟨⟨rfl, rfl⟩, rfl, rfl⟩ := h1
      exact hout rfl
    · simp only [B, upd_ne _ _ hx] at h1
      exact hi.out x s1 r1 a1 h1
  · intro c hc hn
    apply hi.resDone c hc
    by_cases hx : G.firstB c = b
    · rw [hx] at hn ⊢
      rw [hb]
      simpa [B, upd_same] using hn
    · simpa [B, upd_ne _ _ hx] using hn

theorem step_acquire (h : G.Ok) {σ : BSt α} (hi : BInv A fp32 G lock0 σ) (b : Nat) (s : Slice)
    (rest : List Slice) (a : Option α) (hb : σ.blk b = ⟨s :: rest, .wait, a⟩) (hc : s.count > 1)
    (hl : σ.lock s.lock = s.idx) :
    BInv A fp32 G lock0 { σ with blk := upd σ.blk b ⟨s :: rest, .crit, some (A.part s)⟩ } := by
  obtain ⟨hf, hrest⟩ := hi.facts h hb
  have h1 : 1 < G.cnt s.col := by have := hf.count; omega
  obtain ⟨p1, p2, p3, p4, p5⟩ := blk_parts (pc' := .crit) (a' := some (A.part s)) hi hb
    (fun _ => h1) (fun hp => by cases hp)
  refine ⟨p1, ?_, p2, p3, p4, hi.res, p5, hi.others⟩
  intro c hcc hsh
  by_cases hq : c = s.col
  · subst hq
    obtain ⟨n, hn, ⟨ha, _⟩, hlk, hd, hbf, hcur⟩ := (hi.col _ hcc hsh).active hf.first hf.last
    have hph : (σ.blk b).ph s.col = .before := by rw [hb]; simp [Blk.ph]
    have hnb := ha (by rw [hph]; simp)
    rw [hf.lock h1, hlk, hf.idx] at hl
    have hncnt : n < G.cnt s.col := by unfold Grid.cnt at *; have := hf.first; omega
    rw [if_neg (by omega)] at hl
    have hnn : n = G.lastB s.col - b := by exact_mod_cast hl
    have hbn : G.lastB s.col - n = b := by have := hf.last; omega
    refine ⟨n, hn, hlk, ?_, ?_, fun hlt => Or.inl ?_⟩
    · intro x x1 x2 x3
      have : x ≠ b := by rintro rfl; omega
      show (upd σ.blk b _ x).ph _ = _
      rw [upd_ne _ _ this]; exact hd x x1 x2 x3
    · intro x x1 x2 x3
      have : x ≠ b := by rintro rfl; omega
      show (upd σ.blk b _ x).ph _ = _
      rw [upd_ne _ _ this]; exact hbf x x1 x2 x3
    · have hb2 := hcur hlt
      rw [hbn] at hb2 ⊢
      rw [hph] at hb2
      rcases hb2 with ⟨_, ht⟩ | ⟨ht, _⟩
      · refine ⟨Or.inr ?_, ht⟩
        show (upd σ.blk b _ b).ph _ = _
        rw [upd_same, hf.sl]; simp [Blk.ph]
      · cases ht
  · refine (hi.col c hcc hsh).frame (ph_upd_other ?_) rfl rfl
    rw [hb]; exact ph_other (fun e => hq e.symm)

theorem step_reduce (h : G.Ok) {σ : BSt α} (hi : BInv A fp32 G lock0 σ) (b : Nat) (s : Slice)
    (rest : List Slice) (v : α) (hb : σ.blk b = ⟨s :: rest, .crit, some v⟩) (w : α)
    (hw : if s.idx = 0 then w = v else ∃ u, σ.tmp (s.slot fp32) = some u ∧ w = A.add v u) :
    BInv A fp32 G lock0 { σ with
        blk := upd σ.blk b ⟨s :: rest, .rel, some w⟩,
        tmp := if s.idx = s.count - 1 then σ.tmp
          else upd σ.tmp (s.slot fp32) (some (A.st w)) } := by
  obtain ⟨hf, hrest⟩ := hi.facts h hb
  have h1 : 1 < G.cnt s.col := hi.pcs b s rest _ _ hb (Or.inl rfl)
  obtain ⟨p1, p2, p3, p4, p5⟩ := blk_parts (pc' := .rel) (a' := some w) hi hb
    (fun _ => h1) (fun hp => by cases hp)
  refine ⟨p1, ?_, p2, p3, p4, hi.res, p5, hi.others⟩
  intro c hcc hsh
  by_cases hq : c = s.col
  · subst hq
    obtain ⟨n, hn, ⟨ha, ha2⟩, hlk, hd, hbf, hcur⟩ := (hi.col _ hcc hsh).active hf.first hf.last
    have hph : (σ.blk b).ph s.col = .crit (some v) := by rw [hb]; simp [Blk.ph]
    have hnb := ha (by rw [hph]; simp)
    have hnb2 := ha2 (by rw [hph]; simp)
    have hncnt : n < G.cnt s.col := by unfold Grid.cnt at *; have := hf.first; omega
    have hbn : G.lastB s.col - n = b := by have := hf.last; omega
    have hb2 := hcur hncnt
    rw [hbn, hph] at hb2
    have hw' : w = runSum A G s.col n := by
      rcases hb2 with ⟨hx, ht⟩ | ⟨hx, _⟩
      · rcases hx with hx | hx
        · cases hx
        · simp only [Ph.crit.injEq, Option.some.injEq] at hx
          rcases Nat.eq_zero_or_pos n with hz | hz
          · rw [if_pos (by rw [hf.idx]; omega)] at hw
            rw [hw, hx, hz]
            show _ = A.part _
            rw [show G.lastB s.col = b by omega]
          · rw [if_neg (by rw [hf.idx]; omega)] at hw
            obtain ⟨u, hu, hwu⟩ := hw
            rw [slot_eq hf h1, ht hz] at hu
            obtain ⟨m, rfl⟩ : ∃ m, n = m + 1 := ⟨n - 1, by omega⟩
            rw [hwu, hx, ← Option.some.inj hu]
            show _ = A.add (A.part (G.sl (G.lastB s.col - (m + 1)) s.col)) _
            rw [hbn]; rfl
      · cases hx
    refine ⟨n, hn, hlk, ?_, ?_, fun hlt => Or.inr ?_⟩
    · intro x x1 x2 x3
      have : x ≠ b := by rintro rfl; omega
      show (upd σ.blk b _ x).ph _ = _
      rw [upd_ne _ _ this]; exact hd x x1 x2 x3
    · intro x x1 x2 x3
      have : x ≠ b := by rintro rfl; omega
      show (upd σ.blk b _ x).ph _ = _
      rw [upd_ne _ _ this]; exact hbf x x1 x2 x3
    · refine ⟨?_, fun hlast => ?_⟩
      · rw [hbn]
        show (upd σ.blk b _ b).ph _ = _
        rw [upd_same, hw']; simp [Blk.ph]
      · show (if s.idx = s.count - 1 then σ.tmp else upd σ.tmp _ _) _ = _
        rw [if_neg (by rw [hf.idx, hf.count]; omega), slot_eq hf h1, upd_same, hw']
  · refine (hi.col c hcc hsh).frame (ph_upd_other ?_) rfl ?_
    · rw [hb]; exact ph_other (fun e => hq e.symm)
    · show (if s.idx = s.count - 1 then σ.tmp else upd σ.tmp _ _) _ = _
      split_ifs
      · rfl
      · rw [slot_eq hf h1, upd_ne]
        intro he
        exact hq (slotOf_inj fp32 G h hsh h1 he)

theorem step_release (h : G.Ok) {σ : BSt α} (hi : BInv A fp32 G lock0 σ) (b : Nat) (s : Slice)
    (rest : List Slice) (v : α) (hb : σ.blk b = ⟨s :: rest, .rel, some v⟩) :
    BInv A fp32 G lock0 { σ with
        blk := upd σ.blk b ⟨s :: rest, .out, some v⟩,
        lock := upd σ.lock s.lock
          (if s.idx = s.count - 1 then 0 else σ.lock s.lock + 1) } := by
  obtain ⟨hf, hrest⟩ := hi.facts h hb
  have h1 : 1 < G.cnt s.col := hi.pcs b s rest _ _ hb (Or.inr rfl)
  have hcc := hf.col
  obtain ⟨n, hn, ⟨ha, ha2⟩, hlk, hd, hbf, hcur⟩ := (hi.col _ hcc h1).active hf.first hf.last
  have hph : (σ.blk b).ph s.col = .rel (some v) := by rw [hb]; simp [Blk.ph]
  have hnb := ha (by rw [hph]; simp)
  have hnb2 := ha2 (by rw [hph]; simp)
  have hncnt : n < G.cnt s.col := by unfold Grid.cnt at *; have := hf.first; omega
  have hbn : G.lastB s.col - n = b := by have := hf.last; omega
  have hb2 := hcur hncnt
  rw [hbn, hph] at hb2
  have hv : v = runSum A G s.col n ∧
      (n + 1 < G.cnt s.col → σ.tmp (G.slotOf fp32 s.col) = some (A.st (runSum A G s.col n))) := by
    rcases hb2 with ⟨hx, ht⟩ | ⟨hx, ht⟩
    · rcases hx with hx | hx <;> cases hx
    · simp only [Ph.rel.injEq, Option.some.injEq] at hx
      exact ⟨hx, ht⟩
  obtain ⟨p1, p2, p3, p4, p5⟩ := blk_parts (pc' := .out) (a' := some v) hi hb
    (fun hp => by rcases hp with hp | hp <;> cases hp)
    (fun _ => ⟨v, rfl, fun hfb => by
      rw [hv.1]; unfold colSum
      congr 1
      unfold Grid.cnt; omega⟩)
  refine ⟨p1, ?_, p2, p3, p4, hi.res, p5, ?_⟩
  · intro c hcc' hsh
    by_cases hq : c = s.col
    · subst hq
      refine ⟨n + 1, by omega, ?_, ?_, ?_, ?_⟩
      · show upd σ.lock s.lock _ _ = _
        rw [hf.lock h1, upd_same, hlk, hf.idx, hf.count]
        rw [if_neg (show ¬ n = G.cnt s.col by omega)]
        split_ifs <;> omega
      · intro x x1 x2 x3
        show (upd σ.blk b _ x).ph _ = _
        by_cases hx : x = b
        · rw [hx, upd_same]; simp [Blk.ph]
        · rw [upd_ne _ _ hx]
          exact hd x x1 x2 (by have := hf.last; omega)
      · intro x x1 x2 x3
        have : x ≠ b := by rintro rfl; omega
        show (upd σ.blk b _ x).ph _ = _
        rw [upd_ne _ _ this]; exact hbf x x1 x2 (by omega)
      · intro hlt
        left
        have hne : G.lastB s.col - (n + 1) ≠ b := by
          unfold Grid.cnt at hlt; have := G.first_le_last h s.col; omega
        refine ⟨Or.inl ?_, fun _ => hv.2 hlt⟩
        show (upd σ.blk b _ _).ph _ = _
        rw [upd_ne _ _ hne]
        unfold Grid.cnt at hlt
        have := G.first_le_last h s.col
        exact hbf _ (by omega) (by omega) (by omega)
    · refine (hi.col c hcc' hsh).frame (ph_upd_other ?_) ?_ rfl
      · rw [hb]; exact ph_other (fun e => hq e.symm)
      · show upd σ.lock s.lock _ _ = _
        rw [hf.lock h1, upd_ne]
        exact lockOf_ne G h hsh h1 hq
  · intro l hl
    show upd σ.lock s.lock _ _ = _
    rw [hf.lock h1, upd_ne _ _ (hl _ hcc h1)]
    exact hi.others l hl

theorem step_alone (h : G.Ok) {σ : BSt α} (hi : BInv A fp32 G lock0 σ) (b : Nat) (s : Slice)
    (rest : List Slice) (a : Option α) (hb : σ.blk b = ⟨s :: rest, .wait, a⟩)
    (hc : ¬ s.count > 1) :
    BInv A fp32 G lock0 { σ with blk := upd σ.blk b ⟨s :: rest, .out, some (A.part s)⟩ } := by
  obtain ⟨hf, hrest⟩ := hi.facts h hb
  have h1 : G.cnt s.col = 1 := by have := hf.count; unfold Grid.cnt at *; omega
  obtain ⟨p1, p2, p3, p4, p5⟩ := blk_parts (pc' := .out) (a' := some (A.part s)) hi hb
    (fun hp => by rcases hp with hp | hp <;> cases hp)
    (fun _ => ⟨_, rfl, fun hfb => by
      unfold colSum
      rw [h1]
      show _ = A.part _
      have : G.lastB s.col = b := by
        have := hf.last; unfold Grid.cnt at h1; omega
      rw [this, hf.sl]⟩)
  refine ⟨p1, ?_, p2, p3, p4, hi.res, p5, hi.others⟩
  intro c hcc hsh
  refine (hi.col c hcc hsh).frame (ph_upd_other ?_) rfl rfl
  rw [hb]; exact ph_other (fun e => by rw [e] at h1; omega)

theorem step_finish (h : G.Ok) {σ : BSt α} (hi : BInv A fp32 G lock0 σ) (b : Nat) (s : Slice)
    (rest : List Slice) (v : α) (hb : σ.blk b = ⟨s :: rest, .out, some v⟩) :
    BInv A fp32 G lock0 { σ with
        blk := upd σ.blk b ⟨rest, .wait, none⟩,
        res := if s.idx = s.count - 1 then upd σ.res s.col (some v) else σ.res } := by
  obtain ⟨hf, hrest⟩ := hi.facts h hb
  obtain ⟨v', hv', hvs⟩ := hi.out b s rest _ hb
  have hvv : v = v' := Option.some.inj hv'
  have hlast : s.idx = s.count - 1 ↔ b = G.firstB s.col := by
    rw [hf.idx, hf.count]; unfold Grid.cnt
    have := hf.first; have := hf.last; omega
  have hpcs : ∀ x, x ≠ b → upd σ.blk b ⟨rest, .wait, none⟩ x = σ.blk x := fun x hx => upd_ne _ _ hx
  refine ⟨?_, ?_, ?_, ?_, ?_, ?_, ?_, hi.others⟩
  · intro x
    obtain ⟨pre, hp⟩ := hi.suffix x
    by_cases hx : x = b
    · subst hx
      rw [hb] at hp
      refine ⟨pre ++ [s], ?_⟩
      rw [hp]
      show _ = _ ++ (upd σ.blk x _ x).todo
      rw [upd_same]; simp
    · refine ⟨pre, ?_⟩
      rw [hp]
      show _ = _ ++ (upd σ.blk b _ x).todo
      rw [upd_ne _ _ hx]
  · intro c hcc hsh
    refine (hi.col c hcc hsh).frame (ph_upd_other ?_) rfl rfl
    rw [hb]
    by_cases hq : c = s.col
    · subst hq
      rw [ph_fresh hrest]
      simp [Blk.ph]
    · exact (ph_pop (fun e => hq e.symm)).symm
  · intro x s1 r1 pc1 a1 hx1 hx2
    change upd σ.blk b _ x = _ at hx1
    by_cases hx : x = b
    · rw [hx, upd_same] at hx1
      simp only [Blk.mk.injEq] at hx1
      rw [← hx1.2.1] at hx2
      rcases hx2 with h | h <;> cases h
    · rw [upd_ne _ _ hx] at hx1
      exact hi.pcs x s1 r1 pc1 a1 hx1 hx2
  · intro x
    show (upd σ.blk b _ x).todo = [] → (upd σ.blk b _ x).pc = _
    by_cases hx : x = b
    · rw [hx, upd_same]; intro _; rfl
    · rw [upd_ne _ _ hx]; exact hi.empty x
  · intro x s1 r1 a1 hx1
    change upd σ.blk b _ x = _ at hx1
    by_cases hx : x = b
    · rw [hx, upd_same] at hx1
      simp at hx1
    · rw [upd_ne _ _ hx] at hx1
      exact hi.out x s1 r1 a1 hx1
  · intro c hcc
    show (if _ then upd σ.res s.col (some v) else σ.res) c = none ∨
      (if _ then upd σ.res s.col (some v) else σ.res) c = _
    split_ifs with hif
    · by_cases hq : c = s.col
      · right
        rw [hq, upd_same, hvv, hvs (hlast.1 hif)]
      · rw [upd_ne _ _ hq]; exact hi.res c hcc
    · exact hi.res c hcc
  · intro c hcc hn
    change ∀ s1 ∈ (upd σ.blk b _ _).todo, _ at hn
    show (if _ then upd σ.res s.col (some v) else σ.res) c = _
    by_cases hq : c = s.col
    · subst hq
      by_cases hfb : b = G.firstB s.col
      · rw [if_pos (hlast.2 hfb), upd_same, hvv, hvs hfb]
      · rw [if_neg (fun hh => hfb (hlast.1 hh))]
        apply hi.resDone _ hcc
        rw [upd_ne _ _ (fun e => hfb e.symm)] at hn
        exact hn
    · have hres : (if s.idx = s.count - 1 then upd σ.res s.col (some v) else σ.res) c = σ.res c := by
        split_ifs
        · rw [upd_ne _ _ hq]
        · rfl
      rw [hres]
      apply hi.resDone _ hcc
      by_cases hfb : G.firstB c = b
      · rw [hfb, upd_same] at hn
        rw [hfb, hb]
        intro s1 hs1
        rcases List.mem_cons.1 hs1 with rfl | hs1
        · exact fun e => hq e.symm
        · exact hn s1 hs1
      · rw [upd_ne _ _ hfb] at hn
        exact hn

theorem step_inv (h : G.Ok) {σ τ : BSt α} (hi : BInv A fp32 G lock0 σ) (hs : BStep A fp32 σ τ) :
    BInv A fp32 G lock0 τ := by
  cases hs with
  | acquire b s rest a hb hc hl => exact step_acquire h hi b s rest a hb hc hl
  | reduce b s rest v hb w hw => exact step_reduce h hi b s rest v hb w hw
  | release b s rest v hb => exact step_release h hi b s rest v hb
  | alone b s rest a hb hc => exact step_alone h hi b s rest a hb hc
  | finish b s rest v hb => exact step_finish h hi b s rest v hb

theorem start_inv (h : G.Ok) {lock0 : Int → Int} (hz : ∀ l, lock0 l = 0) (tmp : Int → Option α) :
    BInv A fp32 G lock0 (BSt.start α G lock0 tmp) := by
  have hblk : ∀ b, ((BSt.start α G lock0 tmp).blk b) =
      ⟨if b < G.blocks then G.blockSlices b else [], .wait, none⟩ := by
    intro b
    unfold BSt.start
    dsimp only
    split_ifs <;> rfl
  refine ⟨fun b => ⟨[], by rw [hblk]; simp⟩, ?_, ?_, ?_, ?_, ?_, ?_, fun _ _ => rfl⟩
  · intro c hcc hsh
    have hall : ∀ b, G.firstB c ≤ b → b ≤ G.lastB c →
        ((BSt.start α G lock0 tmp).blk b).ph c = .before := by
      intro b b1 b2
      rw [hblk, if_pos (lt_of_le_of_lt b2 (G.last_lt h hcc))]
      exact ph_start (G.has_slice h b c hcc ⟨b1, b2⟩)
    refine ⟨0, by omega, ?_, fun _ _ _ hx => by omega, fun b b1 b2 _ => hall b b1 b2,
      fun _ => Or.inl ⟨Or.inl (hall _ ?_ ?_), fun hx => by omega⟩⟩
    · show lock0 _ = _
      rw [hz, if_neg (by omega)]; rfl
    · have := G.first_le_last h c; omega
    · omega
  · intro b s rest pc a hb hp
    rw [hblk] at hb
    simp only [Blk.mk.injEq] at hb
    rw [← hb.2.1] at hp
    rcases hp with h | h <;> cases h
  · intro b _; rw [hblk]
  · intro b s rest a hb
    rw [hblk] at hb
    simp at hb
  · intro c _; left; rfl
  · intro c hcc hn
    exfalso
    have hl := G.first_le_last h c
    obtain ⟨s, hs, hsc⟩ := G.has_slice h (G.firstB c) c hcc ⟨le_refl _, hl⟩
    rw [hblk, if_pos (lt_of_le_of_lt hl (G.last_lt h hcc))] at hn
    exact hn s hs hsc

theorem reach_inv (h : G.Ok) {lock0 : Int → Int} (hz : ∀ l, lock0 l = 0) {tmp : Int → Option α}
    {σ : BSt α} (hr : BReach A fp32 (BSt.start α G lock0 tmp) σ) : BInv A fp32 G lock0 σ := by
  induction hr with
  | init => exact start_inv h hz tmp
  | step _ hs ih => exact step_inv h ih hs

end

end Verif.Marlin
